import Verif.TypeInv
/-!
# Properties: type strings (C28)
-/

namespace Verif.TypeModel
open Verif.TypeSpec

/-! ### What rendering produces -/

theorem isSpace_ascii : isSpace '*' = false ∧ isSpace '[' = false ∧ isSpace ']' = false ∧ isSpace 'm' = false ∧
    isSpace 'c' = false ∧ isSpace '<' = false ∧ isSpace ' ' = true := by decide

theorem identStart_word {c : Char} (h : identStart c = true) : c = '_' ∨ c.isAlpha = true := by
  unfold identStart at h
  simp only [Bool.or_eq_true, beq_iff_eq, Bool.and_eq_true, decide_eq_true_eq] at h
  rcases h with (h | ⟨h1, h2⟩) | ⟨h1, h2⟩
  · exact .inl h
  · right
    simp only [Char.isAlpha, Char.isLower, Char.isUpper, Bool.or_eq_true, Bool.and_eq_true, decide_eq_true_eq]
    exact .inr ⟨h1, h2⟩
  · right
    simp only [Char.isAlpha, Char.isLower, Char.isUpper, Bool.or_eq_true, Bool.and_eq_true, decide_eq_true_eq]
    exact .inl ⟨h1, h2⟩

theorem word_identStart {c : Char} (h : c = '_' ∨ c.isAlpha = true) : identStart c = true := by
  unfold identStart
  simp only [Bool.or_eq_true, beq_iff_eq, Bool.and_eq_true, decide_eq_true_eq]
  rcases h with h | h
  · exact .inl (.inl h)
  · simp only [Char.isAlpha, Char.isLower, Char.isUpper, Bool.or_eq_true, Bool.and_eq_true, decide_eq_true_eq] at h
    rcases h with h | h
    · exact .inr h
    · exact .inl (.inr h)

theorem identRest_word {c : Char} : identRest c = true ↔ (c = '_' ∨ c.isAlphanum = true) := by
  unfold identRest Char.isAlphanum
  simp only [Bool.or_eq_true]
  constructor
  · rintro (h | h)
    · rcases identStart_word h with h | h
      · exact .inl h
      · exact .inr (.inl h)
    · right; right
      simp only [Char.isDigit, Bool.and_eq_true, decide_eq_true_eq] at h ⊢
      exact h
  · rintro (h | h | h)
    · exact .inl (word_identStart (.inl h))
    · exact .inl (word_identStart (.inr h))
    · right
      simp only [Char.isDigit, Bool.and_eq_true, decide_eq_true_eq] at h ⊢
      exact h

theorem isIdent_word {s : Str} : isIdent s = true ↔ Word s := by
  cases s with
  | nil => simp [isIdent, Word]
  | cons c r =>
    simp only [isIdent, Bool.and_eq_true, List.all_eq_true, Word]
    constructor
    · rintro ⟨h1, h2⟩
      exact ⟨c, r, rfl, identStart_word h1, fun x hx => identRest_word.mp (h2 x hx)⟩
    · rintro ⟨c', r', he, h1, h2⟩
      cases he
      exact ⟨word_identStart h1, fun x hx => identRest_word.mpr (h2 x hx)⟩

theorem declArg_none_of {s : Str} (h : ∀ hd r, s = hd ++ ' ' :: r → Word hd → hd ∈ notDecl) : declArg s = none := by
  unfold declArg
  split
  · rfl
  · next head rest hc =>
    obtain ⟨e, _⟩ := cutAt_some.mp hc
    split
    · rfl
    · split
      · rfl
      · next h2 =>
        split
        · rfl
        · next h3 => exact absurd (h head rest e (isIdent_word.mp (by simpa using h3))) h2

/-- Text with one character that no identifier has, before its first space, is not `T any`. -/
theorem declArg_none_mark {a b : Str} {c : Char} (ha : ' ' ∉ a) (hc : c ≠ ' ') (hm : identRest c = false) :
    declArg (a ++ c :: b) = none := by
  refine declArg_none_of ?_
  rintro hd r he hw
  exfalso
  have hin : c ∈ hd := by
    rcases List.append_eq_append_iff.mp he with ⟨x, h1, h2⟩ | ⟨x, h1, h2⟩
    · cases x with
      | nil => simp only [List.nil_append, List.cons.injEq] at h2; exact absurd h2.1.symm (fun e => hc e.symm)
      | cons y x => simp only [List.cons_append, List.cons.injEq] at h2; rw [h1, h2.1]; simp
    · exfalso
      cases x with
      | nil => simp only [List.nil_append, List.cons.injEq] at h2; exact hc h2.1.symm
      | cons y x => simp only [List.cons_append, List.cons.injEq] at h2; rw [h1, ← h2.1] at ha; simp at ha
  obtain ⟨x, y, rfl, h1, h2⟩ := hw
  have : identRest c = true := by
    rcases List.mem_cons.mp hin with e | hin
    · rw [e]; unfold identRest; rw [word_identStart h1]; rfl
    · exact identRest_word.mpr (h2 c hin)
  rw [hm] at this
  simp at this

theorem declArg_decl {name con : Str} (hw : Word name) (hn : name ∉ notDecl) (hc : Tight con) :
    declArg (name ++ ' ' :: con) = some (name, con) := by
  have hsp : ' ' ∉ name := by
    obtain ⟨c, r, rfl, h1, h2⟩ := hw
    intro hm
    rcases List.mem_cons.mp hm with e | hm
    · subst e; revert h1; decide
    · have := h2 _ hm; revert this; decide
  unfold declArg
  rw [cutAt_some.mpr ⟨rfl, hsp⟩]
  simp only
  rw [if_neg, if_neg hn, if_neg, trim_tight hc]
  · rw [isIdent_word.mpr hw]; simp
  · obtain ⟨c, r, rfl, _⟩ := hw; simp

/-! ### Items in an argument list -/

theorem splitGo_join : ∀ (l : List Str) (cur : Str), l ≠ [] → (∀ c ∈ cur, isSpace c = true) →
    (∀ a ∈ l, Tight a ∧ nesting 0 a = some 0) → splitGo 0 cur (joinComma l) = l
  | [], _, h, _, _ => absurd rfl h
  | a :: l, cur, _, hcur, hl => by
    have ha := hl a (by simp)
    have htrim : trim (cur ++ a) = a := by
      have : (cur ++ a).dropWhile isSpace = a.dropWhile isSpace := by
        rw [List.dropWhile_append_of_pos hcur]
      have h2 := trim_tight ha.1
      unfold trim at h2 ⊢
      rw [this]; exact h2
    cases l with
    | nil =>
      simp only [joinComma]
      have := splitGo_nesting a [] cur 0 0 ha.2
      rw [List.append_nil] at this
      rw [show ((0 : Int)) = ((0 : Nat) : Int) from rfl, this]
      unfold splitGo
      rw [htrim, if_neg (tight_ne ha.1)]
    | cons b l =>
      simp only [joinComma]
      have := splitGo_nesting a (',' :: ' ' :: joinComma (b :: l)) cur 0 0 ha.2
      rw [show ((0 : Int)) = ((0 : Nat) : Int) from rfl, this]
      unfold splitGo
      rw [if_neg (by decide), if_neg (by decide), if_pos ⟨rfl, rfl⟩, htrim]
      congr 1
      unfold splitGo
      rw [if_neg (by decide), if_neg (by decide), if_neg (by decide)]
      exact splitGo_join (b :: l) _ (by simp) (by decide) (fun x hx => hl x (List.mem_cons_of_mem _ hx))

theorem join_nesting : ∀ (l : List Str) (k : Nat), (∀ a ∈ l, OneItem a) →
    nesting (k + 1) (joinComma l) = some (k + 1) ∧ squares (k + 1) (joinComma l) = some (k + 1)
  | [], k, _ => ⟨rfl, rfl⟩
  | [a], k, h => by
    have ha := h a (by simp)
    have h1 := nesting_shift a 0 0 (k + 1) ha.1
    have h2 := squares_shift a 0 0 (k + 1) ha.2
    simp only [joinComma, Nat.zero_add] at h1 h2 ⊢
    exact ⟨h1, h2⟩
  | a :: b :: l, k, h => by
    have ha := h a (by simp)
    have h1 := nesting_shift a 0 0 (k + 1) ha.1
    have h2 := squares_shift a 0 0 (k + 1) ha.2
    have ih := join_nesting (b :: l) k (fun x hx => h x (List.mem_cons_of_mem _ hx))
    simp only [joinComma, Nat.zero_add] at h1 h2 ⊢
    rw [nesting_append, squares_append, h1, h2]
    simp only [Option.bind_some]
    constructor
    · rw [nesting, if_neg (by decide), if_neg (by decide), if_neg (by simp), nesting, if_neg (by decide), if_neg (by decide),
        if_neg (by simp)]
      exact ih.1
    · rw [squares, if_neg (by decide), if_neg (by decide), squares, if_neg (by decide), if_neg (by decide)]
      exact ih.2

/-! ### Named types -/

/-- Text that is read as a named type. -/
structure Light (b : Str) : Prop where
  ne : b ≠ []
  noOpen : '[' ∉ b
  noStar : b.head? ≠ some '*'
  noChan : ¬ kChan <+: b ∧ ¬ kSend <+: b ∧ ¬ kRecv <+: b

theorem atom_light {b : Str} (h : Atom b) : Light b := ⟨tight_ne h.tight, h.noOpen, h.noStar, h.noChan⟩

theorem prefix_before {p b x : Str} (h : p <+: b ++ '[' :: x) (hp : '[' ∉ p) : p <+: b := by
  obtain ⟨r, hr⟩ := h
  rcases List.append_eq_append_iff.mp hr with ⟨y, h1, h2⟩ | ⟨y, h1, h2⟩
  · exact ⟨y, h1.symm⟩
  · cases y with
    | nil => rw [List.append_nil] at h1; exact ⟨[], by rw [h1]; simp⟩
    | cons z y =>
      simp only [List.cons_append, List.cons.injEq] at h2
      rw [h1, ← h2.1] at hp
      simp at hp

theorem map_prefix {b x : Str} (h : kMap <+: b ++ '[' :: x) (hb : '[' ∉ b) : b = ['m', 'a', 'p'] := by
  obtain ⟨r, hr⟩ := h
  unfold kMap at hr
  match b, hb, hr with
  | [], _, hr => simp at hr
  | [_], _, hr => simp at hr
  | [_, _], _, hr => simp at hr
  | [a, b, c], _, hr => simp at hr; rw [← hr.1, ← hr.2.1, ← hr.2.2.1]
  | a :: b :: c :: d :: e, hb, hr => simp at hr; rw [← hr.2.2.2.1] at hb; simp at hb

theorem strip_of {p s : Str} (h : ¬ p <+: s) : strip p s = none := strip_none.mpr h

theorem parseStep_light {b : Str} (rec : Str → Ty) (h : Light b) : parseStep rec b = parseNamed rec b := by
  obtain ⟨h1, h2, h3, h4, h5, h6⟩ := h
  have hmem : ∀ {p : Str}, '[' ∈ p → ¬ p <+: b := fun hp hpre => h2 (hpre.subset hp)
  unfold parseStep
  rw [if_neg h1, strip_of, strip_of (hmem (by simp)), strip_of (hmem (by simp [kMap])), strip_of h5, strip_of h6, strip_of h4,
    strip_of (hmem (by simp))]
  rintro ⟨r, hr⟩
  rw [← hr] at h3
  simp at h3

theorem parseStep_light_args {b x : Str} (rec : Str → Ty) (h : Light b) (hm : b ≠ ['m', 'a', 'p']) :
    parseStep rec (b ++ '[' :: x) = parseNamed rec (b ++ '[' :: x) := by
  obtain ⟨h1, h2, h3, h4, h5, h6⟩ := h
  have hhead : ∀ {c : Char} {p : Str}, c :: p <+: b ++ '[' :: x → b.head? = some c := by
    rintro c p ⟨r, hr⟩
    cases b with
    | nil => exact absurd rfl h1
    | cons y b => simp at hr; simp [hr.1]
  unfold parseStep
  rw [if_neg (by simp), strip_of (fun hp => h3 (hhead hp)), strip_of, strip_of (fun hp => hm (map_prefix hp h2)),
    strip_of (fun hp => h5 (prefix_before hp (by decide))), strip_of (fun hp => h6 (prefix_before hp (by decide))),
    strip_of (fun hp => h4 (prefix_before hp (by decide))), strip_of]
  · intro hp
    have := hhead hp
    cases b with
    | nil => exact h1 rfl
    | cons y b => simp at this; rw [this] at h2; simp at h2
  · intro hp
    have := hhead hp
    cases b with
    | nil => exact h1 rfl
    | cons y b => simp at this; rw [this] at h2; simp at h2

theorem parseNamed_light {b : Str} (rec : Str → Ty) (h : Light b) : parseNamed rec b = nameOf rec b [] := by
  unfold parseNamed cutArgs
  rw [cutAt_none.mpr h.noOpen]

theorem parseNamed_args {b : Str} (rec : Str → Ty) (h : Light b) (l : List Str) (hl : l ≠ [])
    (hi : ∀ a ∈ l, Tight a ∧ nesting 0 a = some 0) :
    parseNamed rec (b ++ '[' :: (joinComma l ++ [']'])) = nameOf rec b (l.map (parseArg rec)) := by
  unfold parseNamed cutArgs
  rw [cutAt_some.mpr ⟨rfl, h.noOpen⟩]
  simp only
  have hlast : (b ++ '[' :: (joinComma l ++ [']'])).getLast? = some ']' := by
    rw [show b ++ '[' :: (joinComma l ++ [']']) = (b ++ '[' :: joinComma l) ++ [']'] by simp, List.getLast?_append]; rfl
  rw [if_neg h.ne, if_pos hlast]
  simp only [List.dropLast_concat]
  unfold splitArgs
  rw [splitGo_join l [] hl (by simp) hi]

theorem nameOf_written {pkg name : Str} (rec : Str → Ty) (args : List Ty) (hs : ¬ sep <:+: written pkg name) (hd : '.' ∉ name) :
    nameOf rec (written pkg name) args = .named pkg name args [] := by
  unfold nameOf
  rw [cutSep_none hs]
  simp only
  unfold written
  by_cases h : pkg = []
  · rw [if_pos h, cutLastDot_none hd, h]
  · rw [if_neg h, cutLastDot_append pkg name hd]
    simp only
    rw [if_neg h]

theorem nameOf_internal {pkg name : Str} (rec : Str → Ty) (args : List Ty) (hp : ¬ sep <:+: pkg) (hn : ¬ sep <:+: name)
    (ha : args ≠ []) : nameOf rec (pkg ++ (sep ++ name)) args = .named pkg name args [] := by
  unfold nameOf
  rw [cutSep_append hp]
  simp only
  rw [splitSep_none hn]
  simp only
  rw [if_neg ha]

/-! ### Rendering well-formed types -/

/-- What the text of one argument looks like. -/
def Item (s : Str) : Prop := Tight s ∧ OneItem s

theorem last_of {s : Str} (h : Tight s) : ∃ d, s.getLast? = some d ∧ isSpace d = false := by
  obtain ⟨_, d, _, h2, _, h4⟩ := h; exact ⟨d, h2, h4⟩

theorem item_cons {c : Char} {s : Str} (hc : isSpace c = false)
    (h1 : c ≠ '[' ∧ c ≠ '(' ∧ c ≠ ']' ∧ c ≠ ')' ∧ c ≠ ',') (h : Item s) : Item (c :: s) := by
  refine ⟨tight_append (a := [c]) ⟨c, rfl, hc⟩ (last_of h.1), ?_, ?_⟩
  · rw [nesting, if_neg (by simp [h1]), if_neg (by simp [h1]), if_neg (by simp [h1])]; exact h.2.1
  · rw [squares, if_neg h1.1, if_neg h1.2.2.1]; exact h.2.2

theorem item_prefix {p s : Str} (hh : ∃ c, p.head? = some c ∧ isSpace c = false)
    (hp : nesting 0 p = some 0 ∧ squares 0 p = some 0) (h : Item s) : Item (p ++ s) := by
  refine ⟨tight_append hh (last_of h.1), ?_, ?_⟩
  · rw [nesting_append, hp.1]; exact h.2.1
  · rw [squares_append, hp.2]; exact h.2.2

theorem item_args {b : Str} (l : List Str) (hb : Item b) (hl : ∀ a ∈ l, Item a) : Item (b ++ '[' :: (joinComma l ++ [']'])) := by
  have hj := join_nesting l 0 (fun a ha => (hl a ha).2)
  obtain ⟨⟨c, d, hc, hd, h1, h2⟩, hn, hs⟩ := hb
  refine ⟨?_, ?_, ?_⟩
  · rw [show b ++ '[' :: (joinComma l ++ [']']) = b ++ ('[' :: joinComma l ++ [']']) by simp]
    refine tight_append ⟨c, hc, h1⟩ ⟨']', ?_, by decide⟩
    rw [List.getLast?_append]; rfl
  · rw [nesting_append, hn]
    simp only [Option.bind_some]
    rw [nesting, if_pos (.inl rfl), nesting_append, hj.1]
    rfl
  · rw [squares_append, hs]
    simp only [Option.bind_some]
    rw [squares, if_pos rfl, squares_append, hj.2]
    rfl

theorem item_bracket {n s : Str} {p : Str} (hp : ∃ c, p.head? = some c ∧ isSpace c = false)
    (h0 : nesting 0 p = some 1 ∧ squares 0 p = some 1) (hn : nesting 1 n = some 1 ∧ squares 1 n = some 1) (h : Item s) :
    Item (p ++ (n ++ ']' :: s)) := by
  refine ⟨?_, ?_, ?_⟩
  · rw [show p ++ (n ++ ']' :: s) = (p ++ (n ++ [']'])) ++ s by simp]
    refine tight_append ?_ (last_of h.1)
    obtain ⟨c, hc, h1⟩ := hp
    refine ⟨c, ?_, h1⟩
    cases p with
    | nil => simp at hc
    | cons x p => simpa using hc
  · rw [nesting_append, h0.1]
    simp only [Option.bind_some]
    rw [nesting_append, hn.1]
    simp only [Option.bind_some]
    rw [nesting, if_neg (by decide), if_pos (.inl rfl), if_neg (by decide)]
    exact h.2.1
  · rw [squares_append, h0.2]
    simp only [Option.bind_some]
    rw [squares_append, hn.2]
    simp only [Option.bind_some]
    rw [squares, if_neg (by decide), if_pos rfl, if_neg (by decide)]
    exact h.2.2

theorem shownBase_dotted (pkg name : Str) : shownBase .dotted pkg name [] = written pkg name := by
  unfold shownBase written shownName
  simp

mutual
theorem render_item : ∀ t, WF t → Item (render .dotted t)
  | .ptr e, h => by
    rw [WF] at h
    rw [render]
    exact item_cons (by decide) (by decide) (render_item e h)
  | .slice e, h => by
    rw [WF] at h
    rw [render]
    exact item_prefix (p := ['[', ']']) ⟨'[', rfl, by decide⟩ ⟨by decide, by decide⟩ (render_item e h)
  | .arr n e, h => by
    rw [WF] at h
    rw [render]
    have hs := squares_shift n 0 0 1 h.1.2.2
    exact item_bracket (p := ['[']) ⟨'[', rfl, by decide⟩ ⟨by decide, by decide⟩ ⟨h.1.2.1, hs⟩ (render_item e h.2)
  | .map k e, h => by
    rw [WF] at h
    rw [render]
    have hk := render_item k h.1
    exact item_bracket (p := kMap) ⟨'m', rfl, by decide⟩ ⟨by decide, by decide⟩
      ⟨nesting_shift _ 0 0 1 hk.2.1, squares_shift _ 0 0 1 hk.2.2⟩ (render_item e h.2)
  | .chan d e, h => by
    rw [WF] at h
    have he := render_item e h
    cases d <;> rw [render]
    · exact item_prefix (p := kChan) ⟨'c', rfl, by decide⟩ ⟨by decide, by decide⟩ he
    · exact item_prefix (p := kSend) ⟨'c', rfl, by decide⟩ ⟨by decide, by decide⟩ he
    · exact item_prefix (p := kRecv) ⟨'<', rfl, by decide⟩ ⟨by decide, by decide⟩ he
  | .named pkg name args con, h => by
    rw [WF] at h
    obtain ⟨rfl, ha, _, _, hargs⟩ := h
    rw [render, shownBase_dotted]
    split
    · exact ⟨ha.tight, ha.item⟩
    · exact item_args _ ⟨ha.tight, ha.item⟩ (renderAll_item args hargs)
theorem renderAll_item : ∀ l, WFArgs l → ∀ a ∈ renderAll (argMode .dotted) l, Item a
  | [], _, a, ha => by rw [renderAll] at ha; simp at ha
  | t :: ts, h, a, ha => by
    rw [WFArgs] at h
    rw [renderAll] at ha
    rcases List.mem_cons.mp ha with e | ha
    · rw [e]
      rcases h.1 with ⟨name, con, rfl, hw, hn, ht, hi⟩ | hw
      · show Item (render .dotted _)
        rw [render, if_pos rfl]
        have hb : shownBase .dotted [] name con = name ++ ' ' :: con := by
          unfold shownBase shownName
          rw [if_neg (tight_ne ht)]; simp
        rw [hb]
        obtain ⟨c, r, rfl, h1, h2⟩ := hw
        have hplain : ∀ x ∈ c :: r, identRest x = true := by
          intro x hx
          rcases List.mem_cons.mp hx with e | hx
          · rw [e]; unfold identRest; rw [word_identStart h1]; rfl
          · exact identRest_word.mpr (h2 x hx)
        have hnest : ∀ l : Str, (∀ x ∈ l, identRest x = true) → nesting 0 l = some 0 ∧ squares 0 l = some 0 := by
          intro l
          induction l with
          | nil => intro _; exact ⟨rfl, rfl⟩
          | cons y l ih =>
            intro hl
            have hy := hl y (by simp)
            have hl' := ih (fun x hx => hl x (List.mem_cons_of_mem _ hx))
            have hne : y ≠ '[' ∧ y ≠ '(' ∧ y ≠ ']' ∧ y ≠ ')' ∧ y ≠ ',' := by
              refine ⟨?_, ?_, ?_, ?_, ?_⟩ <;> rintro rfl <;> revert hy <;> decide
            rw [nesting, squares, if_neg (by simp [hne]), if_neg (by simp [hne]), if_neg (by simp [hne]), if_neg hne.1, if_neg hne.2.2.1]
            exact hl'
        have hsp : isSpace c = false := by
          cases hc : isSpace c with
          | false => rfl
          | true =>
            exfalso
            have := hplain c (by simp)
            unfold identRest identStart at this
            unfold isSpace at hc
            simp only [Bool.or_eq_true, beq_iff_eq, Bool.and_eq_true, decide_eq_true_eq] at this hc
            have n1 : ∀ d e : Char, c ≤ d → e ≤ c → d < e → False := by
              intro d e h1 h2 h3
              exact absurd (Char.le_trans h2 h1) (Char.not_le.mpr h3)
            rcases hc with (((((((((((((hc|hc)|hc)|hc)|hc)|hc)|hc)|hc)|hc)|hc)|hc)|hc)|hc)|hc)|hc <;>
              first
              | (subst hc; revert this; decide)
              | (rcases this with ((h|⟨_, h⟩)|⟨_, h⟩)|⟨_, h⟩
                 · subst h; revert hc; decide
                 · exact n1 _ _ h hc.1 (by decide)
                 · exact n1 _ _ h hc.1 (by decide)
                 · exact n1 _ _ h hc.1 (by decide))
        refine ⟨tight_append ⟨c, rfl, hsp⟩ ?_, ?_, ?_⟩
        · obtain ⟨d, hd, hd'⟩ := last_of ht
          refine ⟨d, ?_, hd'⟩
          rw [List.getLast?_cons, hd]; rfl
        · rw [nesting_append, (hnest _ hplain).1]
          simp only [Option.bind_some]
          rw [nesting, if_neg (by decide), if_neg (by decide), if_neg (by decide)]
          exact hi.1
        · rw [squares_append, (hnest _ hplain).2]
          simp only [Option.bind_some]
          rw [squares, if_neg (by decide), if_neg (by decide)]
          exact hi.2
      · exact render_item t hw
    · exact renderAll_item ts h.2 a ha
end

/-! ### Round trip -/

theorem render_notDecl : ∀ t, WF t → declArg (render .dotted t) = none
  | .ptr e, _ => by rw [render]; exact declArg_none_mark (a := []) (by simp) (by decide) (by decide)
  | .slice e, _ => by rw [render]; exact declArg_none_mark (a := []) (by simp) (by decide) (by decide)
  | .arr n e, _ => by rw [render]; exact declArg_none_mark (a := []) (by simp) (by decide) (by decide)
  | .map k e, _ => by
    rw [render]
    exact declArg_none_mark (a := ['m', 'a', 'p']) (c := '[') (by decide) (by decide) (by decide)
  | .chan .send e, _ => by
    rw [render]
    exact declArg_none_mark (a := ['c', 'h', 'a', 'n']) (c := '<') (by decide) (by decide) (by decide)
  | .chan .recv e, _ => by rw [render]; exact declArg_none_mark (a := []) (by simp) (by decide) (by decide)
  | .chan .both e, _ => by
    rw [render]
    unfold declArg
    rw [show kChan ++ render .dotted e = ['c', 'h', 'a', 'n'] ++ ' ' :: render .dotted e from rfl,
      cutAt_some.mpr ⟨rfl, by decide⟩]
    simp only
    rw [if_neg (by simp), if_pos (by decide)]
  | .named pkg name args con, h => by
    rw [WF] at h
    obtain ⟨rfl, ha, _, _, _⟩ := h
    rw [render, shownBase_dotted]
    split
    · exact declArg_none_of ha.noDecl
    · by_cases hs : ' ' ∈ written pkg name
      · refine declArg_none_of fun hd r he hw => ?_
        obtain ⟨x, y, hxy⟩ := List.append_of_mem hs
        have hsp : ' ' ∉ hd := by
          obtain ⟨c, r, rfl, h1, h2⟩ := hw
          intro hm
          rcases List.mem_cons.mp hm with e | hm
          · subst e; revert h1; decide
          · have := h2 _ hm; revert this; decide
        -- the first space is inside the base
        rcases List.append_eq_append_iff.mp he with ⟨z, h1, h2⟩ | ⟨z, h1, h2⟩
        · exact absurd (h1 ▸ List.mem_append_left z hs) hsp
        · cases z with
          | nil =>
            rw [List.append_nil] at h1
            simp only [List.nil_append, List.cons.injEq] at h2
            exact absurd h2.1 (by decide)
          | cons w z =>
            simp only [List.cons_append, List.cons.injEq] at h2
            rw [← h2.1] at h1
            exact ha.noDecl hd z h1 hw
      · exact declArg_none_mark hs (by decide) (by decide)

theorem renderAll_ne {m : Mode} {l : List Ty} (h : l ≠ []) : renderAll m l ≠ [] := by
  cases l with
  | nil => exact absurd rfl h
  | cons t ts => rw [renderAll]; simp

mutual
theorem parse_render : ∀ t, WF t → parse (render .dotted t) = t
  | .ptr e, h => by
    rw [WF] at h
    rw [render, parse_eq]
    show Ty.ptr (parse (render .dotted e)) = _
    rw [parse_render e h]
  | .slice e, h => by
    rw [WF] at h
    rw [render, parse_eq]
    show Ty.slice (parse (render .dotted e)) = _
    rw [parse_render e h]
  | .arr n e, h => by
    rw [WF] at h
    obtain ⟨⟨h1, _, h3⟩, he⟩ := h
    have hne := tight_ne (render_item e he).1
    rw [render, parse_eq]
    unfold parseStep
    have hstar : strip ['*'] ('[' :: (n ++ ']' :: render .dotted e)) = none := by simp [strip]
    have hslice : strip ['[', ']'] ('[' :: (n ++ ']' :: render .dotted e)) = none := by
      cases n with
      | nil => exact absurd rfl h1
      | cons c n =>
        have : c ≠ ']' := by rintro rfl; simp [squares] at h3
        simp [strip, this.symm]
    have hmap : strip kMap ('[' :: (n ++ ']' :: render .dotted e)) = none := by simp [strip, kMap]
    have hsend : strip kSend ('[' :: (n ++ ']' :: render .dotted e)) = none := by simp [strip, kSend]
    have hrecv : strip kRecv ('[' :: (n ++ ']' :: render .dotted e)) = none := by simp [strip, kRecv]
    have hchan : strip kChan ('[' :: (n ++ ']' :: render .dotted e)) = none := by simp [strip, kChan]
    have harr : strip ['['] ('[' :: (n ++ ']' :: render .dotted e)) = some (n ++ ']' :: render .dotted e) := by simp [strip]
    rw [if_neg (by simp), hstar, hslice, hmap, hsend, hrecv, hchan, harr]
    simp only
    unfold parseArr
    rw [closeBracket_item n _ h3]
    simp only
    rw [if_neg (by simp [h1, hne]), parse_render e he]
  | .map k e, h => by
    rw [WF] at h
    have hk := render_item k h.1
    have hne := tight_ne (render_item e h.2).1
    rw [render, parse_eq]
    show parseMap parse _ (render .dotted k ++ ']' :: render .dotted e) = _
    unfold parseMap
    rw [closeBracket_item _ _ hk.2.2]
    simp only
    rw [if_neg hne, parse_render k h.1, parse_render e h.2]
  | .chan .send e, h => by
    rw [WF] at h
    rw [render, parse_eq]
    show Ty.chan .send (parse (render .dotted e)) = _
    rw [parse_render e h]
  | .chan .recv e, h => by
    rw [WF] at h
    rw [render, parse_eq]
    show Ty.chan .recv (parse (render .dotted e)) = _
    rw [parse_render e h]
  | .chan .both e, h => by
    rw [WF] at h
    rw [render, parse_eq]
    show Ty.chan .both (parse (render .dotted e)) = _
    rw [parse_render e h]
  | .named pkg name args con, h => by
    rw [WF] at h
    obtain ⟨rfl, ha, hd, hm, hargs⟩ := h
    rw [render, shownBase_dotted, parse_eq]
    split
    · next e =>
      rw [parseStep_light parse (atom_light ha), parseNamed_light parse (atom_light ha), nameOf_written parse [] ha.noSep hd, e]
    · next e =>
      rw [parseStep_light_args parse (atom_light ha) (hm e), parseNamed_args parse (atom_light ha) _ (renderAll_ne e)
        (fun a h => ⟨(renderAll_item args hargs a h).1, (renderAll_item args hargs a h).2.1⟩),
        parse_renderAll args hargs, nameOf_written parse args ha.noSep hd]
theorem parse_renderAll : ∀ l, WFArgs l → (renderAll (argMode .dotted) l).map (parseArg parse) = l
  | [], _ => by rw [renderAll]; rfl
  | t :: ts, h => by
    rw [WFArgs] at h
    rw [renderAll, List.map_cons, parse_renderAll ts h.2]
    congr 1
    show parseArg parse (render .dotted t) = t
    unfold parseArg
    rcases h.1 with ⟨name, con, rfl, hw, hn, ht, hi⟩ | hw
    · have hb : render .dotted (.named [] name [] con) = name ++ ' ' :: con := by
        rw [render, if_pos rfl]
        unfold shownBase shownName
        rw [if_neg (tight_ne ht)]; simp
      rw [hb, declArg_decl hw hn ht]
    · rw [render_notDecl t hw]
      exact parse_render t hw
end

/-- **C28 (round trip).** Every well-formed type, of any depth and with any nesting of
generics, maps, slices, arrays, channels and pointers, is read back from its text exactly;
surrounding white space does not matter. -/
theorem C28_roundtrip (t : Ty) (h : WF t) (pre post : Str) (hpre : ∀ c ∈ pre, isSpace c = true) (hpost : ∀ c ∈ post, isSpace c = true) :
    Parse (pre ++ render .dotted t ++ post) = t := by
  have ht := (render_item t h).1
  have : trim (pre ++ render .dotted t ++ post) = render .dotted t := by
    have h1 := trim_tight ht
    unfold trim at h1 ⊢
    rw [List.append_assoc, List.dropWhile_append_of_pos hpre]
    obtain ⟨c, d, hc, hd, hc', hd'⟩ := ht
    cases hr : render .dotted t with
    | nil => rw [hr] at hc; simp at hc
    | cons x s =>
      rw [hr] at hc hd h1
      simp only [List.head?_cons, Option.some.injEq] at hc
      subst hc
      rw [List.cons_append, List.dropWhile_cons, if_neg (by simp [hc']), ← List.cons_append, List.reverse_append,
        List.dropWhile_append_of_pos (by intro c hc; exact hpost c (List.mem_reverse.mp hc))]
      rw [List.dropWhile_cons, if_neg (by simp [hc'])] at h1
      exact h1
  unfold Parse
  rw [this]
  exact parse_render t h

/-- **C28 (round trip, on strings).** Reading a well-formed type string and writing it again
gives the same string. -/
theorem C28_string_roundtrip (s : Str) (h : ∃ t, WF t ∧ render .dotted t = s) : render .dotted (Parse s) = s := by
  obtain ⟨t, ht, rfl⟩ := h
  have := C28_roundtrip t ht [] [] (by simp) (by simp)
  simp only [List.nil_append, List.append_nil] at this
  rw [this]

/-- Two well-formed types are never written alike. -/
theorem C28_rendering_injective (t u : Ty) (ht : WF t) (hu : WF u) (h : render .dotted t = render .dotted u) : t = u := by
  rw [← parse_render t ht, ← parse_render u hu, h]

/-- **C28 (totality).** Reading never gets stuck, on any string whatever: with `n` levels of
recursion allowed, for any `n` beyond the length of the string, the result is the same, and it
satisfies the equation by which the code computes it. -/
theorem C28_total (s : Str) : (∀ n, s.length < n → parseF n s = parse s) ∧ parse s = parseStep parse s :=
  ⟨fun n hn => parseF_stable n _ s hn (by omega), parse_eq s⟩

end Verif.TypeModel
