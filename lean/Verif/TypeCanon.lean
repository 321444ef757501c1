import Verif.TypeProps
/-!
# Properties: the canonical component key (C28, second half)
-/

namespace Verif.TypeModel
open Verif.TypeSpec

theorem plain_nesting : ∀ (s : Str) (k : Nat), (∀ c ∈ s, PlainChar c) → nesting k s = some k ∧ squares k s = some k
  | [], k, _ => ⟨rfl, rfl⟩
  | c :: s, k, h => by
    have hc := (h c (by simp)).2
    simp only [List.mem_cons, List.not_mem_nil, or_false, not_or] at hc
    have ih := plain_nesting s k (fun x hx => h x (List.mem_cons_of_mem _ hx))
    rw [nesting, squares, if_neg (by simp [hc]), if_neg (by simp [hc]), if_neg (by simp [hc]), if_neg hc.1, if_neg hc.2.1]
    exact ih

theorem plain_tight {s : Str} (h : Plain s) : Tight s := by
  obtain ⟨h0, h⟩ := h
  cases s with
  | nil => exact absurd rfl h0
  | cons c s =>
    refine ⟨c, (c :: s).getLast h0, rfl, List.getLast?_eq_some_getLast h0, (h c (by simp)).1, (h _ (List.getLast_mem h0)).1⟩

theorem plain_atom {b : Str} (h : Plain b) : Atom b := by
  have hn : ∀ {c : Char}, c ∈ ['[', ']', '(', ')', ',', '<', '>', '*'] → c ∉ b := fun hc hm => (h.2 _ hm).2 hc
  have hsp : ' ' ∉ b := fun hm => by have := (h.2 _ hm).1; revert this; decide
  refine ⟨plain_tight h, plain_nesting b 0 h.2, hn (by decide), hn (by decide), ?_, ?_, ⟨?_, ?_, ?_⟩, ?_⟩
  · intro hi; exact hn (c := '>') (by decide) (hi.subset (by decide))
  · intro he
    cases b with
    | nil => simp at he
    | cons c b => simp only [List.head?_cons, Option.some.injEq] at he; exact hn (c := '*') (by decide) (by rw [he]; simp)
  · intro hi; exact hsp (hi.subset (by decide))
  · intro hi; exact hsp (hi.subset (by decide))
  · intro hi; exact hsp (hi.subset (by decide))
  · intro hd r he; rw [he] at hsp; simp at hsp

theorem plain_written {pkg name : Str} (hp : pkg = [] ∨ Plain pkg) (hn : Plain name) : Plain (written pkg name) := by
  unfold written
  split
  · exact hn
  · next h =>
    have hp := hp.resolve_left h
    refine ⟨by simp, fun c hc => ?_⟩
    rcases List.mem_append.mp hc with hc | hc
    · exact hp.2 c hc
    · rcases List.mem_cons.mp hc with e | hc
      · rw [e]; exact ⟨by decide, by decide⟩
      · exact hn.2 c hc

theorem iface_atom {name : Str} (h : name ∈ emptyIface) : Atom name := by
  simp only [emptyIface, List.mem_cons, List.not_mem_nil, or_false] at h
  have hfree : ∀ {s : Str} {h : Str} {r : Str}, s = h ++ ' ' :: r → ' ' ∈ s := by rintro s h r rfl; simp
  rcases h with rfl | rfl
  · refine ⟨⟨'i', '}', rfl, rfl, by decide, by decide⟩, by unfold OneItem; decide, by decide, by decide, by decide, by decide,
      ⟨by decide, by decide, by decide⟩, ?_⟩
    intro hd r he
    exact absurd (hfree he) (by decide)
  · refine ⟨⟨'i', '}', rfl, rfl, by decide, by decide⟩, by unfold OneItem; decide, by decide, by decide, by decide, by decide,
      ⟨by decide, by decide, by decide⟩, ?_⟩
    intro hd r he hw
    have hsp : ' ' ∉ hd := by
      obtain ⟨c, r, rfl, h1, h2⟩ := hw
      intro hm
      rcases List.mem_cons.mp hm with e | hm
      · subst e; revert h1; decide
      · have := h2 _ hm; revert this; decide
    have h1 := cutAt_some.mpr ⟨he, hsp⟩
    have h2 : cutAt ' ' ['i', 'n', 't', 'e', 'r', 'f', 'a', 'c', 'e', ' ', '{', '}'] =
        some (['i', 'n', 't', 'e', 'r', 'f', 'a', 'c', 'e'], ['{', '}']) := by decide
    rw [h2] at h1
    simp only [Option.some.injEq, Prod.mk.injEq] at h1
    rw [← h1.1]; decide

theorem written_map {pkg name : Str} (h : written pkg name = ['m', 'a', 'p']) : name = ['m', 'a', 'p'] := by
  unfold written at h
  split at h
  · exact h
  · exfalso
    have : '.' ∈ (['m', 'a', 'p'] : Str) := by rw [← h]; simp
    revert this; decide

mutual
theorem tame_wf : ∀ t, Tame t → WF t
  | .ptr e, h => by rw [Tame] at h; rw [WF]; exact tame_wf e h
  | .slice e, h => by rw [Tame] at h; rw [WF]; exact tame_wf e h
  | .arr n e, h => by
    rw [Tame] at h; rw [WF]
    exact ⟨⟨h.1.1, (plain_nesting n 1 h.1.2).1, (plain_nesting n 0 h.1.2).2⟩, tame_wf e h.2⟩
  | .map k e, h => by rw [Tame] at h; rw [WF]; exact ⟨tame_wf k h.1, tame_wf e h.2⟩
  | .chan d e, h => by rw [Tame] at h; rw [WF]; exact tame_wf e h
  | .named pkg name args con, h => by
    rw [Tame] at h
    obtain ⟨h1, h2, h3, h4, h5, h6⟩ := h
    rw [WF]
    refine ⟨h1, ?_, h4, fun ha e => h5 ha (written_map e), tameArgs_wf args h6⟩
    rcases h3 with h3 | ⟨rfl, _, h3⟩
    · exact plain_atom (plain_written h2 h3)
    · unfold written; rw [if_pos rfl]; exact iface_atom h3
theorem tameArgs_wf : ∀ l, TameArgs l → WFArgs l
  | [], _ => by rw [WFArgs]; trivial
  | t :: ts, h => by
    rw [TameArgs] at h; rw [WFArgs]
    exact ⟨h.1.imp id (tame_wf t), tameArgs_wf ts h.2⟩
end

/-! ### Bare types -/

theorem bareName_any (name : Str) : bareName (bareName name) = bareName name := by
  unfold bareName
  split
  · rw [if_neg (by decide)]
  · rfl

theorem decl_not_iface {name : Str} (hw : Word name) : name ∉ emptyIface := by
  intro h
  obtain ⟨c, r, rfl, h1, h2⟩ := hw
  have : '{' ∈ r := by
    simp only [emptyIface, List.mem_cons, List.cons.injEq, List.not_mem_nil, or_false] at h
    rcases h with ⟨_, h⟩ | ⟨_, h⟩ <;> rw [h] <;> decide
  have := h2 _ this
  revert this; decide

theorem decl_bare {t : Ty} (h : Decl t) : bare t = t := by
  obtain ⟨name, con, rfl, hw, _⟩ := h
  rw [bare, bareAll]
  unfold bareName
  rw [if_neg (decl_not_iface hw)]

theorem plain_any : Plain ['a', 'n', 'y'] := ⟨by simp, by
  intro c hc
  simp only [List.mem_cons, List.not_mem_nil, or_false] at hc
  rcases hc with rfl | rfl | rfl <;> exact ⟨by decide, by decide⟩⟩

theorem bareAll_ne {l : List Ty} (h : l ≠ []) : bareAll l ≠ [] := by
  cases l with
  | nil => exact absurd rfl h
  | cons t ts => rw [bareAll]; simp

mutual
theorem tame_bare : ∀ t, Tame t → Tame (bare t)
  | .ptr e, h => by rw [Tame] at h; rw [bare, Tame]; exact tame_bare e h
  | .slice e, h => by rw [Tame] at h; rw [bare, Tame]; exact tame_bare e h
  | .arr n e, h => by rw [Tame] at h; rw [bare, Tame]; exact ⟨h.1, tame_bare e h.2⟩
  | .map k e, h => by rw [Tame] at h; rw [bare, Tame]; exact ⟨tame_bare k h.1, tame_bare e h.2⟩
  | .chan d e, h => by rw [Tame] at h; rw [bare, Tame]; exact tame_bare e h
  | .named pkg name args con, h => by
    rw [Tame] at h
    obtain ⟨h1, _, h3, h4, h5, h6⟩ := h
    rw [bare, Tame]
    refine ⟨h1, .inl rfl, ?_, ?_, ?_, tameArgs_bare args h6⟩
    · left
      unfold bareName
      split
      · exact plain_any
      · next hn => exact h3.resolve_right (fun hh => hn hh.2.2)
    · unfold bareName
      split
      · decide
      · exact h4
    · intro ha
      unfold bareName
      split
      · decide
      · exact h5 (fun e => ha (by rw [e, bareAll]))
theorem tameArgs_bare : ∀ l, TameArgs l → TameArgs (bareAll l)
  | [], _ => by rw [bareAll, TameArgs]; trivial
  | t :: ts, h => by
    rw [TameArgs] at h
    rw [bareAll, TameArgs]
    refine ⟨?_, tameArgs_bare ts h.2⟩
    rcases h.1 with hd | ht
    · left; rw [decl_bare hd]; exact hd
    · exact .inr (tame_bare t ht)
end

theorem shownBase_bare (pkg name con : Str) : shownBase .simple pkg name con = shownBase .dotted [] (bareName name) con := by
  unfold shownBase shownName bareName
  simp

mutual
theorem render_bare : ∀ t, render .simple t = render .dotted (bare t)
  | .ptr e => by rw [bare, render, render, render_bare e]
  | .slice e => by rw [bare, render, render, render_bare e]
  | .arr n e => by rw [bare, render, render, render_bare e]
  | .map k e => by rw [bare, render, render, render_bare k, render_bare e]
  | .chan .send e => by rw [bare, render, render, render_bare e]
  | .chan .recv e => by rw [bare, render, render, render_bare e]
  | .chan .both e => by rw [bare, render, render, render_bare e]
  | .named pkg name args con => by
    rw [bare, render, render, shownBase_bare]
    by_cases h : args = []
    · rw [if_pos h, if_pos (by rw [h, bareAll])]
    · rw [if_neg h, if_neg (bareAll_ne h)]
      rw [show argMode .simple = .simple from rfl, show argMode .dotted = .dotted from rfl, renderAll_bare args]
theorem renderAll_bare : ∀ l, renderAll .simple l = renderAll .dotted (bareAll l)
  | [] => by rw [bareAll, renderAll, renderAll]
  | t :: ts => by rw [bareAll, renderAll, renderAll, render_bare t, renderAll_bare ts]
end

mutual
theorem bare_bare : ∀ t, bare (bare t) = bare t
  | .ptr e => by rw [bare, bare, bare_bare e]
  | .slice e => by rw [bare, bare, bare_bare e]
  | .arr n e => by rw [bare, bare, bare_bare e]
  | .map k e => by rw [bare, bare, bare_bare k, bare_bare e]
  | .chan d e => by rw [bare, bare, bare_bare e]
  | .named pkg name args con => by rw [bare, bare, bareName_any, bareAll_bareAll args]
theorem bareAll_bareAll : ∀ l, bareAll (bareAll l) = bareAll l
  | [] => by rw [bareAll, bareAll]
  | t :: ts => by rw [bareAll, bareAll, bare_bare t, bareAll_bareAll ts]
end

/-! ### The internal form -/

theorem internal_light {pkg name : Str} (hp : Plain pkg) (hn : Plain name) : Light (pkg ++ (sep ++ name)) := by
  have hch : ∀ c ∈ pkg ++ (sep ++ name), c ≠ '[' ∧ c ≠ ' ' := by
    intro c hc
    have hpl : ∀ {c : Char}, PlainChar c → c ≠ '[' ∧ c ≠ ' ' := by
      intro c h
      refine ⟨?_, ?_⟩ <;> rintro rfl
      · exact h.2 (by decide)
      · have := h.1; revert this; decide
    rcases List.mem_append.mp hc with hc | hc
    · exact hpl (hp.2 c hc)
    · rcases List.mem_append.mp hc with hc | hc
      · simp only [sep, List.mem_cons, List.not_mem_nil, or_false] at hc
        rcases hc with rfl | rfl | rfl <;> decide
      · exact hpl (hn.2 c hc)
  refine ⟨by simp [sep], fun h => (hch _ h).1 rfl, ?_, ⟨?_, ?_, ?_⟩⟩
  · obtain ⟨h0, h1⟩ := hp
    cases pkg with
    | nil => exact absurd rfl h0
    | cons c pkg =>
      simp only [List.cons_append, List.head?_cons, ne_eq, Option.some.injEq]
      rintro rfl
      exact (h1 '*' (by simp)).2 (by decide)
  · intro hi; exact (hch ' ' (hi.subset (by decide))).2 rfl
  · intro hi; exact (hch ' ' (hi.subset (by decide))).2 rfl
  · intro hi; exact (hch ' ' (hi.subset (by decide))).2 rfl

theorem plain_noSep {s : Str} (h : Plain s) : ¬ sep <:+: s := fun hi => (h.2 '>' (hi.subset (by decide))).2 (by decide)

/-- Reading the internal form of an instantiation. -/
theorem parse_internal : ∀ t, Tame t → Instance t → parse (render .internal t) = keyed t
  | .ptr e, h, hi => by
    rw [Tame] at h
    rw [render, parse_eq]
    show Ty.ptr (parse (render .internal e)) = _
    rw [parse_internal e h hi, keyed]
  | .slice e, h, hi => by
    rw [Tame] at h
    rw [render, parse_eq]
    show Ty.slice (parse (render .internal e)) = _
    rw [parse_internal e h hi, keyed]
  | .arr n e, h, hi => by
    rw [Tame] at h
    obtain ⟨hn, he⟩ := h
    have ih := parse_internal e he hi
    have hne : render .internal e ≠ [] := by
      intro h0
      rw [h0] at ih
      have h2 : keyed e = .named [] [] [] [] := ih.symm
      obtain ⟨p, nm, as, hc, hp, _⟩ := hi
      cases e with
      | named p' n' a' c' => rw [keyed] at h2; simp only [core] at hc; cases hc; injection h2 with e1; exact hp e1
      | _ => rw [keyed] at h2; cases h2
    have h3 := (plain_nesting n 0 hn.2).2
    rw [render, parse_eq, keyed]
    unfold parseStep
    have hslice : strip ['[', ']'] ('[' :: (n ++ ']' :: render .internal e)) = none := by
      obtain ⟨h0, h1⟩ := hn
      cases n with
      | nil => exact absurd rfl h0
      | cons c n =>
        have : c ≠ ']' := by rintro rfl; exact (h1 ']' (by simp)).2 (by decide)
        simp [strip, this.symm]
    rw [if_neg (by simp), show strip ['*'] ('[' :: (n ++ ']' :: render .internal e)) = none by simp [strip], hslice,
      show strip kMap ('[' :: (n ++ ']' :: render .internal e)) = none by simp [strip, kMap],
      show strip kSend ('[' :: (n ++ ']' :: render .internal e)) = none by simp [strip, kSend],
      show strip kRecv ('[' :: (n ++ ']' :: render .internal e)) = none by simp [strip, kRecv],
      show strip kChan ('[' :: (n ++ ']' :: render .internal e)) = none by simp [strip, kChan],
      show strip ['['] ('[' :: (n ++ ']' :: render .internal e)) = some (n ++ ']' :: render .internal e) by simp [strip]]
    simp only
    unfold parseArr
    rw [closeBracket_item n _ h3]
    simp only
    rw [if_neg (by simp [hn.1, hne]), ih]
  | .map k e, _, hi => by
    obtain ⟨p, nm, as, hc, _⟩ := hi
    rw [core] at hc
    · cases hc
    all_goals intros; contradiction
  | .chan .send e, h, hi => by
    rw [Tame] at h
    rw [render, parse_eq]
    show Ty.chan .send (parse (render .internal e)) = _
    rw [parse_internal e h hi, keyed]
  | .chan .recv e, h, hi => by
    rw [Tame] at h
    rw [render, parse_eq]
    show Ty.chan .recv (parse (render .internal e)) = _
    rw [parse_internal e h hi, keyed]
  | .chan .both e, h, hi => by
    rw [Tame] at h
    rw [render, parse_eq]
    show Ty.chan .both (parse (render .internal e)) = _
    rw [parse_internal e h hi, keyed]
  | .named pkg name args con, h, hi => by
    rw [Tame] at h
    obtain ⟨p, nm, as, hc, hp, ha⟩ := hi
    rw [core] at hc
    · cases hc
      obtain ⟨_, h2, h3, h4, h5, h6⟩ := h
      have hpk := h2.resolve_left hp
      have hnm := h3.resolve_right (fun hh => hp hh.1)
      have hl := internal_light hpk hnm
      have hb : shownBase .internal pkg name [] = pkg ++ (sep ++ name) := by
        unfold shownBase shownName; rw [if_neg hp]; simp
      have hw := tameArgs_wf _ (tameArgs_bare args h6)
      have hbne := bareAll_ne ha
      rw [render, if_neg ha, hb, parse_eq, show argMode .internal = .simple from rfl, renderAll_bare args,
        show renderAll .dotted (bareAll args) = renderAll (argMode .dotted) (bareAll args) from rfl,
        parseStep_light_args parse hl, parseNamed_args parse hl _ (renderAll_ne hbne)
          (fun a h => ⟨(renderAll_item _ hw a h).1, (renderAll_item _ hw a h).2.1⟩)]
      · have := parse_renderAll _ hw
        rw [this, nameOf_internal parse _ (plain_noSep hpk) (plain_noSep hnm) hbne, keyed]
      · intro e
        have : '>' ∈ (['m', 'a', 'p'] : Str) := by rw [← e]; simp [sep]
        revert this; decide
    all_goals intros; contradiction

/-! ### Canonicalisation -/

theorem core_keyed : ∀ {t : Ty} {pkg name : Str} {args : List Ty} {con : Str}, core t = .named pkg name args con →
    core (keyed t) = .named pkg name (bareAll args) con
  | .ptr e, _, _, _, _, h => by rw [keyed]; exact core_keyed (t := e) h
  | .slice e, _, _, _, _, h => by rw [keyed]; exact core_keyed (t := e) h
  | .arr n e, _, _, _, _, h => by rw [keyed]; exact core_keyed (t := e) h
  | .chan d e, _, _, _, _, h => by rw [keyed]; exact core_keyed (t := e) h
  | .map k e, _, _, _, _, h => by simp [core] at h
  | .named p n a c, _, _, _, _, h => by simp only [core] at h; cases h; rw [keyed]; simp [core]

theorem render_keyed : ∀ {t : Ty} {pkg name : Str} {args : List Ty} {con : Str}, core t = .named pkg name args con →
    render .internal (keyed t) = render .internal t
  | .ptr e, _, _, _, _, h => by rw [keyed, render, render, render_keyed (t := e) h]
  | .slice e, _, _, _, _, h => by rw [keyed, render, render, render_keyed (t := e) h]
  | .arr n e, _, _, _, _, h => by rw [keyed, render, render, render_keyed (t := e) h]
  | .chan .send e, _, _, _, _, h => by rw [keyed, render, render, render_keyed (t := e) h]
  | .chan .recv e, _, _, _, _, h => by rw [keyed, render, render, render_keyed (t := e) h]
  | .chan .both e, _, _, _, _, h => by rw [keyed, render, render, render_keyed (t := e) h]
  | .map k e, _, _, _, _, h => by simp [core] at h
  | .named p n a c, _, _, _, _, h => by
    rw [keyed, render, render]
    by_cases ha : a = []
    · rw [if_pos ha, if_pos (by rw [ha, bareAll])]
    · rw [if_neg ha, if_neg (bareAll_ne ha), show argMode .internal = .simple from rfl, renderAll_bare, bareAll_bareAll, ← renderAll_bare]

/-- The text of an instantiation contains `[` and ends in `]`, in every mode. -/
theorem render_instance (m : Mode) : ∀ {t : Ty} {pkg name : Str} {args : List Ty} {con : Str}, core t = .named pkg name args con → args ≠ [] →
    '[' ∈ render m t ∧ (render m t).getLast? = some ']'
  | .ptr e, _, _, _, _, h, ha => by
    have ih := render_instance m (t := e) h ha
    rw [render]; exact ⟨List.mem_cons_of_mem _ ih.1, by rw [List.getLast?_cons, ih.2]; rfl⟩
  | .slice e, _, _, _, _, h, ha => by
    have ih := render_instance m (t := e) h ha
    rw [render]; exact ⟨by simp, by rw [List.getLast?_cons, List.getLast?_cons, ih.2]; rfl⟩
  | .arr n e, _, _, _, _, h, ha => by
    have ih := render_instance m (t := e) h ha
    rw [render]; exact ⟨by simp, by rw [List.getLast?_cons, List.getLast?_append, List.getLast?_cons, ih.2]; rfl⟩
  | .chan .send e, _, _, _, _, h, ha => by
    have ih := render_instance m (t := e) h ha
    rw [render]; exact ⟨List.mem_append_right _ ih.1, by rw [List.getLast?_append, ih.2]; rfl⟩
  | .chan .recv e, _, _, _, _, h, ha => by
    have ih := render_instance m (t := e) h ha
    rw [render]; exact ⟨List.mem_append_right _ ih.1, by rw [List.getLast?_append, ih.2]; rfl⟩
  | .chan .both e, _, _, _, _, h, ha => by
    have ih := render_instance m (t := e) h ha
    rw [render]; exact ⟨List.mem_append_right _ ih.1, by rw [List.getLast?_append, ih.2]; rfl⟩
  | .map k e, _, _, _, _, h, _ => by simp [core] at h
  | .named p n a c, _, _, _, _, h, ha => by
    simp only [core] at h; cases h
    rw [render, if_neg ha]
    exact ⟨by simp, by rw [List.getLast?_append, List.getLast?_cons, List.getLast?_append]; rfl⟩

theorem core_con : ∀ {t : Ty}, Tame t → ∀ {pkg name : Str} {args : List Ty} {con : Str}, core t = .named pkg name args con →
    con = [] ∧ (pkg = [] ∨ Plain pkg) ∧ TameArgs args
  | .ptr e, h, _, _, _, _, hc => by rw [Tame] at h; exact core_con (t := e) h hc
  | .slice e, h, _, _, _, _, hc => by rw [Tame] at h; exact core_con (t := e) h hc
  | .arr n e, h, _, _, _, _, hc => by rw [Tame] at h; exact core_con (t := e) h.2 hc
  | .chan d e, h, _, _, _, _, hc => by rw [Tame] at h; exact core_con (t := e) h hc
  | .map k e, h, _, _, _, _, hc => by simp [core] at hc
  | .named p n a c, h, _, _, _, _, hc => by
    rw [Tame] at h
    simp only [core] at hc; cases hc
    exact ⟨h.1, h.2.1, h.2.2.2.2.2⟩

theorem parse_tight {t : Ty} {s : Str} (hp : parse s = t) (ht : Tight s) : Parse s = t := by
  unfold Parse; rw [trim_tight ht]; exact hp

theorem tight_internal : ∀ {t : Ty}, Tame t → Instance t → Tight (render .internal t)
  | .ptr e, h, hi => by
    rw [Tame] at h; rw [render]
    exact tight_append (a := ['*']) ⟨'*', rfl, by decide⟩ (last_of (tight_internal (t := e) h hi))
  | .slice e, h, hi => by
    rw [Tame] at h; rw [render]
    exact tight_append (a := ['[', ']']) ⟨'[', rfl, by decide⟩ (last_of (tight_internal (t := e) h hi))
  | .arr n e, h, hi => by
    rw [Tame] at h; rw [render, show '[' :: (n ++ ']' :: render .internal e) = ('[' :: (n ++ [']'])) ++ render .internal e by simp]
    exact tight_append ⟨'[', rfl, by decide⟩ (last_of (tight_internal (t := e) h.2 hi))
  | .chan .send e, h, hi => by
    rw [Tame] at h; rw [render]
    exact tight_append ⟨'c', rfl, by decide⟩ (last_of (tight_internal (t := e) h hi))
  | .chan .recv e, h, hi => by
    rw [Tame] at h; rw [render]
    exact tight_append ⟨'<', rfl, by decide⟩ (last_of (tight_internal (t := e) h hi))
  | .chan .both e, h, hi => by
    rw [Tame] at h; rw [render]
    exact tight_append ⟨'c', rfl, by decide⟩ (last_of (tight_internal (t := e) h hi))
  | .map k e, _, hi => by obtain ⟨p, nm, as, hc, _⟩ := hi; simp [core] at hc
  | .named pkg name args con, h, hi => by
    rw [Tame] at h
    obtain ⟨p, nm, as, hc, hp, ha⟩ := hi
    simp only [core] at hc
    cases hc
    obtain ⟨c, _, hc, _, h1, _⟩ := plain_tight (h.2.1.resolve_left hp)
    have hb : shownBase .internal pkg name [] = pkg ++ (sep ++ name) := by
      unfold shownBase shownName; rw [if_neg hp]; simp
    rw [render, if_neg ha, hb, List.append_assoc]
    refine tight_append ⟨c, hc, h1⟩ ⟨']', ?_, by decide⟩
    rw [List.getLast?_append, List.getLast?_cons, List.getLast?_append]; rfl

/-- **C28 (internal round trip).** The canonical key of an instantiation reads back as that
instantiation with its arguments bare, and is written again the same. -/
theorem C28_internal_roundtrip (t : Ty) (ht : Tame t) (hi : Instance t) :
    Parse (render .internal t) = keyed t ∧ render .internal (Parse (render .internal t)) = render .internal t := by
  have h1 := parse_tight (parse_internal t ht hi) (tight_internal ht hi)
  obtain ⟨p, n, a, hc, _⟩ := hi
  exact ⟨h1, by rw [h1]; exact render_keyed hc⟩

theorem canon_internal {t : Ty} (ht : Tame t) (hi : Instance t) : canonicalize (render .internal t) = render .internal t := by
  have h1 := C28_internal_roundtrip t ht hi
  obtain ⟨p, n, a, hc, hp, ha⟩ := hi
  have h2 := render_instance .internal hc ha
  unfold canonicalize
  rw [if_neg (by simp [h2.1, h2.2]), h1.1, core_keyed hc]
  simp only
  rw [if_neg (bareAll_ne ha), if_neg hp]
  rw [← h1.1]; exact h1.2

theorem core_setCorePkg (p : Str) : ∀ {t : Ty} {pkg name : Str} {args : List Ty} {con : Str}, core t = .named pkg name args con →
    core (setCorePkg p t) = .named p name args con
  | .ptr e, _, _, _, _, h => by rw [setCorePkg]; exact core_setCorePkg p (t := e) h
  | .slice e, _, _, _, _, h => by rw [setCorePkg]; exact core_setCorePkg p (t := e) h
  | .arr n e, _, _, _, _, h => by rw [setCorePkg]; exact core_setCorePkg p (t := e) h
  | .chan d e, _, _, _, _, h => by rw [setCorePkg]; exact core_setCorePkg p (t := e) h
  | .map k e, _, _, _, _, h => by simp [core] at h
  | .named p' n a c, _, _, _, _, h => by simp only [core] at h; cases h; rw [setCorePkg]; simp [core]

theorem tame_setCorePkg {p : Str} (hp : Plain p) : ∀ {t : Ty} {pkg name : Str} {args : List Ty} {con : Str},
    Tame t → core t = .named pkg name args con → args ≠ [] → Tame (setCorePkg p t)
  | .ptr e, _, _, _, _, h, hc, ha => by rw [Tame] at h; rw [setCorePkg, Tame]; exact tame_setCorePkg hp (t := e) h hc ha
  | .slice e, _, _, _, _, h, hc, ha => by rw [Tame] at h; rw [setCorePkg, Tame]; exact tame_setCorePkg hp (t := e) h hc ha
  | .arr n e, _, _, _, _, h, hc, ha => by rw [Tame] at h; rw [setCorePkg, Tame]; exact ⟨h.1, tame_setCorePkg hp (t := e) h.2 hc ha⟩
  | .chan d e, _, _, _, _, h, hc, ha => by rw [Tame] at h; rw [setCorePkg, Tame]; exact tame_setCorePkg hp (t := e) h hc ha
  | .map k e, _, _, _, _, h, hc, _ => by simp [core] at hc
  | .named p' n a c, _, _, _, _, h, hc, ha => by
    simp only [core] at hc; cases hc
    rw [Tame] at h
    rw [setCorePkg, Tame]
    exact ⟨h.1, .inr hp, .inl (h.2.2.1.resolve_right fun hh => ha hh.2.1), h.2.2.2⟩

theorem pkgOf_plain {t : Ty} (h : Decl t ∨ Tame t) (hp : pkgOf (core t) ≠ []) : Plain (pkgOf (core t)) := by
  rcases h with ⟨name, con, rfl, _⟩ | h
  · simp [core, pkgOf] at hp
  · cases hc : core t with
    | named p n a c =>
      rw [hc] at hp
      simp only [pkgOf] at hp ⊢
      exact ((core_con h hc).2.1).resolve_left hp
    | _ => rw [hc] at hp; simp [pkgOf] at hp

theorem borrowed_plain : ∀ {l : List Ty} {p : Str}, TameArgs l → borrowed l = some p → Plain p
  | [], p, _, h => by simp [borrowed] at h
  | a :: l, p, ht, h => by
    rw [TameArgs] at ht
    unfold borrowed at h
    split at h
    · exact borrowed_plain ht.2 h
    · next hne => cases h; exact pkgOf_plain ht.1 hne

/-- **C28 (canonicalisation), partial.** On types built from plain names: the key of an
instantiation is its internal form, whichever of the two encodings it arrives in, and
canonicalising once more changes nothing. Missing: idempotence on arbitrary strings fails —
`C28_not_idempotent` — and so does faithfulness on function-type arguments —
`C28_function_argument`. -/
theorem C28_canonical_partial (t : Ty) (ht : Tame t) :
    canonicalize (canonicalize (render .dotted t)) = canonicalize (render .dotted t) ∧
    (Instance t → canonicalize (render .dotted t) = render .internal t ∧ canonicalize (render .internal t) = render .internal t) := by
  have hwf := tame_wf t ht
  have hP : Parse (render .dotted t) = t := by
    have := C28_roundtrip t hwf [] [] (by simp) (by simp)
    simpa using this
  constructor
  · have hcase : canonicalize (render .dotted t) = render .dotted t ∨ ∃ u, Tame u ∧ Instance u ∧ canonicalize (render .dotted t) = render .internal u := by
      unfold canonicalize
      split
      · exact .inl rfl
      · rw [hP]
        split
        · next pkg name args con hc =>
          have hcon := core_con ht hc
          split
          · exact .inl rfl
          · next ha =>
            split
            · split
              · exact .inl rfl
              · next p hb =>
                have hp := borrowed_plain hcon.2.2 hb
                refine .inr ⟨setCorePkg p t, tame_setCorePkg hp ht hc ha, ⟨p, name, args, ?_, hp.1, ha⟩, rfl⟩
                rw [core_setCorePkg p hc, hcon.1]
            · next hp => exact .inr ⟨t, ht, ⟨pkg, name, args, by rw [hc, hcon.1], hp, ha⟩, rfl⟩
        · exact .inl rfl
    rcases hcase with h | ⟨u, hu, hi, h⟩
    · rw [h, h]
    · rw [h]; exact canon_internal hu hi
  · intro hi
    refine ⟨?_, canon_internal ht hi⟩
    obtain ⟨p, n, a, hc, hp, ha⟩ := hi
    have h2 := render_instance .dotted hc ha
    unfold canonicalize
    rw [if_neg (by simp [h2.1, h2.2]), hP, hc]
    simp only
    rw [if_neg ha, if_neg hp]

theorem borrowed_first : ∀ {l : List Ty} (pre : List Ty) (a : Ty) (post : List Ty), l = pre ++ a :: post →
    (∀ b ∈ pre, pkgOf (core b) = []) → pkgOf (core a) ≠ [] → borrowed l = some (pkgOf (core a))
  | _, [], a, post, rfl, _, ha => by rw [List.nil_append, borrowed, if_neg ha]
  | _, b :: pre, a, post, rfl, hb, ha => by
    rw [List.cons_append, borrowed, if_pos (hb b (by simp))]
    exact borrowed_first pre a post rfl (fun c hc => hb c (List.mem_cons_of_mem _ hc)) ha

theorem borrowed_none : ∀ {l : List Ty}, (∀ b ∈ l, pkgOf (core b) = []) → borrowed l = none
  | [], _ => rfl
  | b :: l, h => by
    rw [borrowed, if_pos (h b (by simp))]
    exact borrowed_none (fun c hc => h c (List.mem_cons_of_mem _ hc))

/-- **C28 (unqualified instantiations).** An instantiation written without its package has the
key of the same instantiation placed in the package of its first qualified argument; with no
qualified argument it is its own key. -/
theorem C28_borrowed_package (t : Ty) (ht : Tame t) (name : Str) (args : List Ty) (hc : core t = .named [] name args [])
    (ha : args ≠ []) :
    (∀ pre a post, args = pre ++ a :: post → (∀ b ∈ pre, pkgOf (core b) = []) → pkgOf (core a) ≠ [] →
      canonicalize (render .dotted t) = canonicalize (render .dotted (setCorePkg (pkgOf (core a)) t))) ∧
    ((∀ b ∈ args, pkgOf (core b) = []) → canonicalize (render .dotted t) = render .dotted t) := by
  have hP : Parse (render .dotted t) = t := by
    have := C28_roundtrip t (tame_wf t ht) [] [] (by simp) (by simp)
    simpa using this
  have h2 := render_instance .dotted hc ha
  have hrw : canonicalize (render .dotted t) = match borrowed args with
      | none => render .dotted t
      | some p => render .internal (setCorePkg p t) := by
    unfold canonicalize
    rw [if_neg (by simp [h2.1, h2.2]), hP, hc]
    simp only
    rw [if_neg ha, if_pos trivial]
    cases borrowed args <;> rfl
  constructor
  · intro pre a post he hb hne
    have hbor := borrowed_first pre a post he hb hne
    have hp := borrowed_plain (core_con ht hc).2.2 hbor
    rw [hrw, hbor]
    simp only
    rw [((C28_canonical_partial _ (tame_setCorePkg hp ht hc ha)).2 ⟨_, name, args, core_setCorePkg _ hc, hne, ha⟩).1]
  · intro hb
    rw [hrw, borrowed_none hb]

/-! ## Concrete cases -/

def ch (s : String) : Str := s.toList

/-- `map[string][]*acme/svc.Page[acme/db.User, chan int]` -/
def exTy : Ty :=
  .map (.named [] ['s'] [] []) (.slice (.ptr (.named ['a', '/', 's'] ['P'] [.named ['a', '/', 'd'] ['U'] [] [], .chan .both (.named [] ['i'] [] [])] [])))

theorem plain_of {s : Str} (h : s ≠ []) (h2 : s.all (fun c => !isSpace c && !(['[', ']', '(', ')', ',', '<', '>', '*'].contains c)) = true) :
    Plain s := by
  refine ⟨h, fun c hc => ?_⟩
  have := List.all_eq_true.mp h2 c hc
  simp only [Bool.and_eq_true, Bool.not_eq_true'] at this
  refine ⟨this.1, fun hm => ?_⟩
  have h3 : (['[', ']', '(', ')', ',', '<', '>', '*'] : List Char).contains c = true := by
    rw [List.contains_iff_mem]; exact hm
  rw [this.2] at h3; simp at h3

theorem exTy_tame : Tame exTy := by
  unfold exTy
  simp only [Tame, TameArgs, true_and, and_true, not_false_eq_true, ne_eq, reduceCtorEq, not_true_eq_false,
    false_implies, true_or, forall_const]
  refine ⟨⟨.inl (plain_of (by decide) (by decide)), by decide⟩, .inr (plain_of (by decide) (by decide)),
    .inl (plain_of (by decide) (by decide)), by decide, by decide,
    .inr ⟨.inr (plain_of (by decide) (by decide)), .inl (plain_of (by decide) (by decide)), by decide⟩,
    .inr ⟨.inl (plain_of (by decide) (by decide)), by decide⟩⟩

example : String.ofList (render .dotted exTy) = "map[s][]*a/s.P[a/d.U, chan i]" := by decide
example : Parse (render .dotted exTy) = exTy := by
  simpa using C28_roundtrip exTy (tame_wf _ exTy_tame) [] [] (by simp) (by simp)

/-- `*a/s.P[a/d.U]`, an instantiation behind a pointer; the type parameter form `P[T any]`. -/
def exInst : Ty := .ptr (.named ['a', '/', 's'] ['P'] [.named ['a', '/', 'd'] ['U'] [] [], .named [] ['T'] [] ['a', 'n', 'y']] [])

theorem exInst_tame : Tame exInst ∧ Instance exInst := by
  refine ⟨?_, ⟨['a', '/', 's'], ['P'], _, rfl, by decide, by simp⟩⟩
  unfold exInst
  simp only [Tame, TameArgs, true_and, and_true, ne_eq, reduceCtorEq, not_false_eq_true, forall_const, not_true_eq_false, false_implies]
  refine ⟨.inr (plain_of (by decide) (by decide)), .inl (plain_of (by decide) (by decide)), by decide, by decide,
    .inr ⟨.inr (plain_of (by decide) (by decide)), .inl (plain_of (by decide) (by decide)), by decide⟩, .inl ?_⟩
  exact ⟨['T'], ['a', 'n', 'y'], rfl, ⟨'T', [], rfl, by decide, by simp⟩, by decide,
    ⟨'a', 'y', rfl, rfl, by decide, by decide⟩, by unfold OneItem; decide⟩

example : String.ofList (canonicalize (render .dotted exInst)) = "*a/s-->P[U, T any]" := by decide

/-- `P[i, a/d.U]` goes to the package of `a/d.U`. -/
example : String.ofList (canonicalize (ch "P[i, a/d.U]")) = "a/d-->P[i, U]" := by decide

/-- **C28, negation.** Canonicalisation is not idempotent on arbitrary text: dropping the
qualifier of an argument can expose a comma that was inside a parenthesis. -/
theorem C28_not_idempotent : ∃ s, canonicalize (canonicalize s) ≠ canonicalize s :=
  ⟨ch "p.G[(a.b ,c]", by decide⟩

/-- **C28, negation.** A function type given as an argument is cut at its last dot: its key
keeps only the tail, so `G[func(a.B, c.D)]` and `G[func(x.D)]` have the same key. -/
theorem C28_function_argument :
    canonicalize (ch "p.G[func(a.B, c.D)]") = ch "p-->G[D)]" ∧
    canonicalize (ch "p.G[func(x.D)]") = ch "p-->G[D)]" := by decide

end Verif.TypeModel
