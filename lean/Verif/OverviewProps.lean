import Verif.OverviewModel
/-!
# C102: the overview of a document counts what is in it
-/

namespace Verif.Overview
open Verif.Common

/-! ## Specification -/

/-- The schemas a schema contains. -/
def Schema.parts (s : Schema) : List Schema := s.items ++ s.addl ++ s.no ++ s.props ++ s.all ++ s.one ++ s.any

/-- `sub` is `s` or somewhere inside it. -/
inductive Inside : Schema → Schema → Prop
  | self (s) : Inside s s
  | deeper {s c sub} (hc : c ∈ s.parts) (h : Inside c sub) : Inside s sub

/-- The schema names the component `n`, itself or somewhere inside it. -/
def Names (s : Schema) (n : String) : Prop := ∃ sub, Inside s sub ∧ sub.ref = refPrefix ++ n

/-- The schemas an operation has: of its request body, its responses and its parameters. -/
def Carries (o : Op) (s : Schema) : Prop :=
  (∃ c ct, o.body = some c ∧ (ct, some s) ∈ c) ∨ (∃ st c ct, (st, c) ∈ o.responses ∧ (ct, some s) ∈ c) ∨ ∃ n, (n, some s) ∈ o.params

/-- The document has no component of that name, or one made up for a type that was not found. -/
def Missing (t : Text) (d : Doc) (n : String) : Prop :=
  (∀ c, (n, c) ∉ d.comps) ∨ ∃ c, (n, c) ∈ d.comps ∧ t.placeholder c.desc = true

/-- An operation without responses, or with a schema that names a missing component. -/
def Broken (t : Text) (d : Doc) (o : Op) : Prop :=
  o.responses = [] ∨ ∃ s n, Carries o s ∧ Names s n ∧ Missing t d n

/-- A response for every other status. -/
def Defaulted (o : Op) : Prop := ∃ c, ("default", c) ∈ o.responses

/-- The operations of a document, with their paths. -/
def Doc.all (d : Doc) : List (String × Op) := d.paths.flatMap (fun p => p.2.map (fun o => (p.1, o)))

/-- The requirements in force for an operation, and whether a caller without credentials may call it. -/
def Doc.inForce (d : Doc) (o : Op) : List (List String) := match o.security with
  | some l => l
  | none => d.security
def Anonymous (d : Doc) (o : Op) : Prop := d.inForce o = [] ∨ [] ∈ d.inForce o

/-- Components are a Go map. -/
def Doc.Wf (d : Doc) : Prop := (d.comps.map Prod.fst).Nodup

/-! ## References -/

theorem refName_iff {r n : String} : refName r = some n ↔ r = refPrefix ++ n := by
  rw [refName]
  split
  · next h =>
    obtain ⟨t, ht⟩ := List.isPrefixOf_iff_prefix.1 h
    have hd : r.toList.drop refPrefix.length = t := by
      rw [← ht, ← String.length_toList, List.drop_left]
    rw [hd, Option.some.injEq]
    constructor
    · rintro rfl
      apply String.ext_iff.2
      rw [String.toList_append, show (String.ofList t).toList = t from String.toList_ofList]
      exact ht.symm
    · rintro rfl
      rw [String.toList_append] at ht
      rw [List.append_cancel_left ht, String.ofList_toList]
  · next h =>
    constructor
    · intro h; cases h
    · rintro rfl
      exact absurd (List.isPrefixOf_iff_prefix.2 (by rw [String.toList_append]; exact List.prefix_append ..)) h

mutual
theorem walk_sound : ∀ (s : Schema) (n : String), n ∈ walk s → Names s n
  | .mk r de ty i a no p al o an e, n, h => by
    simp only [walk, List.mem_append] at h
    rcases h with ((((((h | h) | h) | h) | h) | h) | h) | h
    · refine ⟨_, .self _, ?_⟩
      rw [Option.mem_toList] at h
      exact refName_iff.1 h
    · obtain ⟨c, hc, sub, hi, hr⟩ := walks_sound i n h
      exact ⟨sub, .deeper (by simp [Schema.parts, Schema.items, hc]) hi, hr⟩
    · obtain ⟨c, hc, sub, hi, hr⟩ := walks_sound a n h
      exact ⟨sub, .deeper (by simp [Schema.parts, Schema.addl, hc]) hi, hr⟩
    · obtain ⟨c, hc, sub, hi, hr⟩ := walks_sound no n h
      exact ⟨sub, .deeper (by simp [Schema.parts, Schema.no, hc]) hi, hr⟩
    · obtain ⟨c, hc, sub, hi, hr⟩ := walks_sound p n h
      exact ⟨sub, .deeper (by simp [Schema.parts, Schema.props, hc]) hi, hr⟩
    · obtain ⟨c, hc, sub, hi, hr⟩ := walks_sound al n h
      exact ⟨sub, .deeper (by simp [Schema.parts, Schema.all, hc]) hi, hr⟩
    · obtain ⟨c, hc, sub, hi, hr⟩ := walks_sound o n h
      exact ⟨sub, .deeper (by simp [Schema.parts, Schema.one, hc]) hi, hr⟩
    · obtain ⟨c, hc, sub, hi, hr⟩ := walks_sound an n h
      exact ⟨sub, .deeper (by simp [Schema.parts, Schema.any, hc]) hi, hr⟩
theorem walks_sound : ∀ (l : List Schema) (n : String), n ∈ walks l → ∃ c ∈ l, Names c n
  | [], _, h => by simp [walks] at h
  | s :: l, n, h => by
    simp only [walks, List.mem_append] at h
    rcases h with h | h
    · exact ⟨s, List.mem_cons_self .., walk_sound s n h⟩
    · obtain ⟨c, hc, hn⟩ := walks_sound l n h
      exact ⟨c, List.mem_cons_of_mem _ hc, hn⟩
end

theorem walks_mem {n : String} : ∀ {l : List Schema} {c : Schema}, c ∈ l → n ∈ walk c → n ∈ walks l
  | s :: l, c, hc, h => by
    simp only [walks, List.mem_append]
    rcases List.mem_cons.1 hc with rfl | hc
    · exact .inl h
    · exact .inr (walks_mem hc h)

theorem walk_complete {s sub : Schema} {n : String} (h : Inside s sub) (hr : sub.ref = refPrefix ++ n) : n ∈ walk s := by
  induction h with
  | self s =>
    cases s with
    | mk r de ty i a no p al o an e =>
      have : refName r = some n := refName_iff.2 hr
      simp [walk, this]
  | deeper hc h ih =>
    rename_i s c sub
    have ih := ih hr
    cases s with
    | mk r de ty i a no p al o an e =>
      simp only [Schema.parts, Schema.items, Schema.addl, Schema.no, Schema.props, Schema.all, Schema.one, Schema.any, List.mem_append] at hc
      simp only [walk, List.mem_append]
      rcases hc with (((((hc | hc) | hc) | hc) | hc) | hc) | hc
      · exact .inl (.inl (.inl (.inl (.inl (.inl (.inr (walks_mem hc ih)))))))
      · exact .inl (.inl (.inl (.inl (.inl (.inr (walks_mem hc ih))))))
      · exact .inl (.inl (.inl (.inl (.inr (walks_mem hc ih)))))
      · exact .inl (.inl (.inl (.inr (walks_mem hc ih))))
      · exact .inl (.inl (.inr (walks_mem hc ih)))
      · exact .inl (.inr (walks_mem hc ih))
      · exact .inr (walks_mem hc ih)

/-- **C102, references.**  The components listed for a schema are those it names anywhere inside, at any depth. -/
theorem C102_references (s : Schema) (n : String) : n ∈ schemaRefs (some s) ↔ Names s n := by
  rw [schemaRefs, mem_dedup]
  exact ⟨walk_sound s n, fun ⟨_, h, hr⟩ => walk_complete h hr⟩

/-! ## Issues and states -/

theorem lookup_none {l : List (String × Schema)} {n : String} (h : l.lookup n = none) (c : Schema) : (n, c) ∉ l := by
  intro hm
  have := List.lookup_eq_none_iff.1 h (n, c) hm
  simp at this

theorem lookup_mem {l : List (String × Schema)} {n : String} {c : Schema} (h : l.lookup n = some c) : (n, c) ∈ l := by
  obtain ⟨a, b, e, _⟩ := List.lookup_eq_some_iff.1 h
  rw [e]; simp

theorem mem_lookup {l : List (String × Schema)} (hn : (l.map Prod.fst).Nodup) {n : String} {c : Schema} (h : (n, c) ∈ l) : l.lookup n = some c := by
  induction l with
  | nil => cases h
  | cons x l ih =>
    obtain ⟨m, x⟩ := x
    simp only [List.map_cons, List.nodup_cons] at hn
    rcases List.mem_cons.1 h with e | h
    · cases e; simp [List.lookup]
    · have : n ≠ m := fun e => hn.1 (by rw [← e]; exact List.mem_map.2 ⟨_, h, rfl⟩)
      have hb : (n == m) = false := by simpa using this
      simp [List.lookup, hb, ih hn.2 h]

/-- The issues that count as a warning. -/
def Warns (i : Issue) : Prop := i.severity = "warn" ∧ (i.kind = "dangling-ref" ∨ i.kind = "unresolved-type" ∨ i.kind = "no-responses")
/-- The issues that do not. -/
def Informs (i : Issue) : Prop := i.severity = "info" ∧ (i.kind = "wrapper-specialised" ∨ i.kind = "default-status")

theorem refIssues_warn {t : Text} {c : List (String × Schema)} {m p w : String} {s : Option Schema} {i : Issue} (h : i ∈ refIssues t c m p w s) : Warns i := by
  obtain ⟨n, _, hi⟩ := List.mem_flatMap.1 h
  rw [refIssue] at hi
  split at hi
  · rw [List.mem_singleton.1 hi]; exact ⟨rfl, .inl rfl⟩
  · split at hi
    · rw [List.mem_singleton.1 hi]; exact ⟨rfl, .inr (.inl rfl)⟩
    · cases hi

theorem refIssue_ne {t : Text} {d : Doc} (hd : d.Wf) {m p w n : String} : refIssue t d.comps m p w n ≠ [] ↔ Missing t d n := by
  rw [refIssue]
  cases h : d.comps.lookup n with
  | none => exact ⟨fun _ => .inl (lookup_none h), fun _ => by simp⟩
  | some c =>
    have hm := lookup_mem h
    simp only
    split
    · next hp => exact ⟨fun _ => .inr ⟨c, hm, hp⟩, fun _ => by simp⟩
    · next hp =>
      refine ⟨fun h => absurd rfl h, ?_⟩
      rintro (h1 | ⟨c', hc', hp'⟩)
      · exact absurd hm (h1 c)
      · rw [mem_lookup hd hc'] at h
        cases h
        exact absurd hp' hp

theorem refIssues_ne {t : Text} {d : Doc} (hd : d.Wf) {m p w : String} {s : Option Schema} :
    (∃ i, i ∈ refIssues t d.comps m p w s) ↔ ∃ x n, s = some x ∧ Names x n ∧ Missing t d n := by
  constructor
  · rintro ⟨i, h⟩
    obtain ⟨n, hn, hi⟩ := List.mem_flatMap.1 h
    cases s with
    | none => cases hn
    | some x => exact ⟨x, n, rfl, (C102_references x n).1 hn, (refIssue_ne hd).1 (List.ne_nil_of_mem hi)⟩
  · rintro ⟨x, n, rfl, hn, hm⟩
    obtain ⟨i, hi⟩ := List.exists_mem_of_ne_nil _ ((refIssue_ne (m := m) (p := p) (w := w) hd).2 hm)
    exact ⟨i, List.mem_flatMap.2 ⟨n, (C102_references x n).2 hn, hi⟩⟩

theorem opIssues_kinds {t : Text} {c : List (String × Schema)} {p : String} {o : Op} {i : Issue} (h : i ∈ opIssues t c p o) : Warns i ∨ Informs i := by
  simp only [opIssues, List.mem_append] at h
  rcases h with (((h | h) | h) | h) | h
  · split at h
    · rw [List.mem_singleton.1 h]; exact .inl ⟨rfl, .inr (.inr rfl)⟩
    · cases h
  · split at h
    · cases h
    · obtain ⟨m, _, h⟩ := List.mem_flatMap.1 h; exact .inl (refIssues_warn h)
  · obtain ⟨r, _, h⟩ := List.mem_flatMap.1 h
    obtain ⟨m, _, h⟩ := List.mem_flatMap.1 h
    rcases List.mem_append.1 h with h | h
    · exact .inl (refIssues_warn h)
    · split at h
      · rw [List.mem_singleton.1 h]; exact .inr ⟨rfl, .inl rfl⟩
      · cases h
  · split at h
    · rw [List.mem_singleton.1 h]; exact .inr ⟨rfl, .inr rfl⟩
    · cases h
  · obtain ⟨m, _, h⟩ := List.mem_flatMap.1 h; exact .inl (refIssues_warn h)

theorem warns_broken {t : Text} {d : Doc} (hd : d.Wf) {p : String} {o : Op} : (∃ i ∈ opIssues t d.comps p o, Warns i) ↔ Broken t d o := by
  constructor
  · rintro ⟨i, h, hw⟩
    simp only [opIssues, List.mem_append] at h
    rcases h with (((h | h) | h) | h) | h
    · split at h
      · next he => exact .inl he
      · cases h
    · split at h
      · cases h
      · next c hc =>
        obtain ⟨⟨ct, s⟩, hm, h⟩ := List.mem_flatMap.1 h
        obtain ⟨x, n, e, hn, hmiss⟩ := (refIssues_ne hd).1 ⟨i, h⟩
        cases e
        exact .inr ⟨x, n, .inl ⟨c, ct, hc, hm⟩, hn, hmiss⟩
    · obtain ⟨⟨st, c⟩, hr, h⟩ := List.mem_flatMap.1 h
      obtain ⟨⟨ct, s⟩, hm, h⟩ := List.mem_flatMap.1 h
      rcases List.mem_append.1 h with h | h
      · obtain ⟨x, n, e, hn, hmiss⟩ := (refIssues_ne hd).1 ⟨i, h⟩
        cases e
        exact .inr ⟨x, n, .inr (.inl ⟨st, c, ct, hr, hm⟩), hn, hmiss⟩
      · split at h
        · rw [List.mem_singleton.1 h] at hw; exact absurd hw.1 (show ¬ "info" = "warn" by decide)
        · cases h
    · split at h
      · rw [List.mem_singleton.1 h] at hw; exact absurd hw.1 (show ¬ "info" = "warn" by decide)
      · cases h
    · obtain ⟨⟨nm, s⟩, hm, h⟩ := List.mem_flatMap.1 h
      obtain ⟨x, n, e, hn, hmiss⟩ := (refIssues_ne hd).1 ⟨i, h⟩
      cases e
      exact .inr ⟨x, n, .inr (.inr ⟨nm, hm⟩), hn, hmiss⟩
  · simp only [opIssues, List.mem_append]
    rintro (he | ⟨x, n, hc, hn, hmiss⟩)
    · refine ⟨⟨"warn", "no-responses", o.method, p, "", ""⟩, .inl (.inl (.inl (.inl ?_))), rfl, .inr (.inr rfl)⟩
      rw [if_pos he]; exact List.mem_singleton.2 rfl
    · rcases hc with ⟨c, ct, hb, hm⟩ | ⟨st, c, ct, hr, hm⟩ | ⟨nm, hm⟩
      · obtain ⟨i, hi⟩ := (refIssues_ne (m := o.method) (p := p) (w := "request body") hd).2 ⟨x, n, rfl, hn, hmiss⟩
        refine ⟨i, .inl (.inl (.inl (.inr ?_))), refIssues_warn hi⟩
        rw [hb]
        exact List.mem_flatMap.2 ⟨_, hm, hi⟩
      · obtain ⟨i, hi⟩ := (refIssues_ne (m := o.method) (p := p) (w := "response " ++ st) hd).2 ⟨x, n, rfl, hn, hmiss⟩
        exact ⟨i, .inl (.inl (.inr (List.mem_flatMap.2 ⟨_, hr, List.mem_flatMap.2 ⟨_, hm, List.mem_append_left _ hi⟩⟩))), refIssues_warn hi⟩
      · obtain ⟨i, hi⟩ := (refIssues_ne (m := o.method) (p := p) (w := "parameter " ++ nm) hd).2 ⟨x, n, rfl, hn, hmiss⟩
        exact ⟨i, .inr (List.mem_flatMap.2 ⟨_, hm, hi⟩), refIssues_warn hi⟩

theorem hasWarn_iff {t : Text} {d : Doc} (hd : d.Wf) {p : String} {o : Op} : hasWarn (opIssues t d.comps p o) = true ↔ Broken t d o := by
  rw [← warns_broken hd, hasWarn, List.any_eq_true]
  constructor
  · rintro ⟨i, hi, h⟩
    rcases opIssues_kinds hi with hw | hw
    · exact ⟨i, hi, hw⟩
    · rw [hw.1] at h; exact absurd h (by decide)
  · rintro ⟨i, hi, h⟩
    exact ⟨i, hi, by rw [h.1]; decide⟩

theorem default_iff {t : Text} {c : List (String × Schema)} {p : String} {o : Op} : (∃ i ∈ opIssues t c p o, i.kind = "default-status") ↔ Defaulted o := by
  constructor
  · rintro ⟨i, h, hk⟩
    simp only [opIssues, List.mem_append] at h
    have nw : ∀ j, Warns j → j.kind ≠ "default-status" := by
      rintro j ⟨_, h | h | h⟩ <;> rw [h] <;> decide
    rcases h with (((h | h) | h) | h) | h
    · split at h
      · rw [List.mem_singleton.1 h] at hk; exact absurd hk (show ¬ "no-responses" = "default-status" by decide)
      · cases h
    · split at h
      · cases h
      · obtain ⟨m, _, h⟩ := List.mem_flatMap.1 h; exact absurd hk (nw _ (refIssues_warn h))
    · obtain ⟨r, _, h⟩ := List.mem_flatMap.1 h
      obtain ⟨m, _, h⟩ := List.mem_flatMap.1 h
      rcases List.mem_append.1 h with h | h
      · exact absurd hk (nw _ (refIssues_warn h))
      · split at h
        · rw [List.mem_singleton.1 h] at hk; exact absurd hk (show ¬ "wrapper-specialised" = "default-status" by decide)
        · cases h
    · split at h
      · next hm =>
        obtain ⟨⟨_, c⟩, hr, e⟩ := List.mem_map.1 hm
        cases e
        exact ⟨c, hr⟩
      · cases h
    · obtain ⟨m, _, h⟩ := List.mem_flatMap.1 h; exact absurd hk (nw _ (refIssues_warn h))
  · rintro ⟨c, hc⟩
    refine ⟨⟨"info", "default-status", o.method, p, "", ""⟩, ?_, rfl⟩
    simp only [opIssues, List.mem_append]
    refine .inl (.inr ?_)
    rw [if_pos (List.mem_map.2 ⟨_, hc, rfl⟩)]
    exact List.mem_singleton.2 rfl

theorem classify_broken {t : Text} {d : Doc} (hd : d.Wf) {p : String} {o : Op} : classify (opIssues t d.comps p o) = .broken ↔ Broken t d o := by
  rw [← warns_broken hd, classify]
  split
  · next h =>
    refine ⟨fun _ => ?_, fun _ => rfl⟩
    obtain ⟨i, hi, h⟩ := List.any_eq_true.1 h
    rcases opIssues_kinds hi with hw | hw
    · exact ⟨i, hi, hw⟩
    · rcases hw.2 with e | e <;> rw [e] at h <;> exact absurd h (by decide)
  · next h =>
    constructor
    · intro h'; split at h' <;> cases h'
    · rintro ⟨i, hi, hw⟩
      refine absurd (List.any_eq_true.2 ⟨i, hi, ?_⟩) h
      rcases hw.2 with e | e | e <;> rw [e] <;> decide

theorem classify_partly {t : Text} {d : Doc} (hd : d.Wf) {p : String} {o : Op} : classify (opIssues t d.comps p o) = .partly ↔ ¬ Broken t d o ∧ Defaulted o := by
  rw [← classify_broken (p := p) hd, ← default_iff (t := t) (c := d.comps) (p := p), classify]
  split
  · simp
  · split
    · next h =>
      refine ⟨fun _ => ⟨by simp, ?_⟩, fun _ => rfl⟩
      obtain ⟨i, hi, h⟩ := List.any_eq_true.1 h
      simp only [Bool.or_eq_true, decide_eq_true_eq] at h
      rcases h with h | h
      · rcases opIssues_kinds hi with hw | hw
        · rcases hw.2 with e | e | e <;> rw [e] at h <;> exact absurd h (by decide)
        · rcases hw.2 with e | e <;> rw [e] at h <;> exact absurd h (by decide)
      · exact ⟨i, hi, h⟩
    · next h =>
      constructor
      · intro h'; cases h'
      · rintro ⟨_, i, hi, hk⟩
        exact absurd (List.any_eq_true.2 ⟨i, hi, by rw [hk]; decide⟩) h

theorem ops_perm (d : Doc) : (ops d).Perm d.all := (isort_perm _ _).flatMap_right _

/-- A list split by a three-valued function. -/
theorem split3 {α : Type} (f : α → Resolved) : ∀ (l : List α),
    ∃ b p u : List α, (b ++ p ++ u).Perm l ∧ (∀ x ∈ b, f x = .broken) ∧ (∀ x ∈ p, f x = .partly) ∧ (∀ x ∈ u, f x = .full) ∧
      ∀ r : Resolution, l.foldl (fun a o => addState a (f o)) r = ⟨r.full + u.length, r.partly + p.length, r.broken + b.length⟩
  | [] => ⟨[], [], [], .refl _, by simp, by simp, by simp, fun r => rfl⟩
  | x :: l => by
    obtain ⟨b, p, u, hp, h1, h2, h3, h4⟩ := split3 f l
    cases hf : f x with
    | broken =>
      refine ⟨x :: b, p, u, hp.cons x, ?_, h2, h3, fun r => ?_⟩
      · intro y hy; rcases List.mem_cons.1 hy with rfl | hy
        · exact hf
        · exact h1 y hy
      · rw [List.foldl_cons, h4]; simp only [hf, addState, List.length_cons]; congr 1; omega
    | partly =>
      refine ⟨b, x :: p, u, ?_, h1, ?_, h3, fun r => ?_⟩
      · refine List.Perm.trans ?_ (hp.cons x)
        simp only [List.append_assoc, List.cons_append]
        exact List.perm_middle
      · intro y hy; rcases List.mem_cons.1 hy with rfl | hy
        · exact hf
        · exact h2 y hy
      · rw [List.foldl_cons, h4]; simp only [hf, addState, List.length_cons]; congr 1; omega
    | full =>
      refine ⟨b, p, x :: u, ?_, h1, h2, ?_, fun r => ?_⟩
      · exact List.perm_middle.trans (hp.cons x)
      · intro y hy; rcases List.mem_cons.1 hy with rfl | hy
        · exact hf
        · exact h3 y hy
      · rw [List.foldl_cons, h4]; simp only [hf, addState, List.length_cons]; congr 1; omega

/-- **C102, resolution.**  Every operation is counted in one state: broken exactly when it has no response or
names a missing component anywhere in its schemas, partial when it is not broken and has a default response,
otherwise full.  Clean operations are those not broken. -/
theorem C102_resolution (t : Text) (d : Doc) (hd : d.Wf) :
    ∃ b p u : List (String × Op), (b ++ p ++ u).Perm d.all ∧
      (∀ o ∈ b, Broken t d o.2) ∧ (∀ o ∈ p, ¬ Broken t d o.2 ∧ Defaulted o.2) ∧ (∀ o ∈ u, ¬ Broken t d o.2 ∧ ¬ Defaulted o.2) ∧
      resolution t d = ⟨u.length, p.length, b.length⟩ ∧ clean t d = u.length + p.length := by
  obtain ⟨b, p, u, hp, h1, h2, h3, h4⟩ := split3 (fun o => classify (opIssues t d.comps o.1 o.2)) (ops d)
  have hb : ∀ o ∈ b, Broken t d o.2 := fun o ho => (classify_broken hd).1 (h1 o ho)
  have hpa : ∀ o ∈ p, ¬ Broken t d o.2 ∧ Defaulted o.2 := fun o ho => (classify_partly hd).1 (h2 o ho)
  have hu : ∀ o ∈ u, ¬ Broken t d o.2 := fun o ho hbr => by
    have := (classify_broken (p := o.1) hd).2 hbr
    rw [h3 o ho] at this; cases this
  refine ⟨b, p, u, hp.trans (ops_perm d), hb, hpa, fun o ho => ⟨hu o ho, fun hdf => ?_⟩, ?_, ?_⟩
  · have := (classify_partly (t := t) (p := o.1) hd).2 ⟨hu o ho, hdf⟩
    rw [h3 o ho] at this; cases this
  · rw [resolution, h4]; simp
  · rw [clean, ← hp.countP_eq, List.countP_append, List.countP_append]
    have e1 : b.countP (fun o => !hasWarn (opIssues t d.comps o.1 o.2)) = 0 := List.countP_eq_zero.2 fun o ho => by
      rw [(hasWarn_iff hd).2 (hb o ho)]; decide
    have nw : ∀ o : String × Op, ¬ Broken t d o.2 → (!hasWarn (opIssues t d.comps o.1 o.2)) = true := fun o ho => by
      cases hw : hasWarn (opIssues t d.comps o.1 o.2)
      · rfl
      · exact absurd ((hasWarn_iff hd).1 hw) ho
    rw [e1, List.countP_eq_length.2 fun o ho => nw o (hpa o ho).1, List.countP_eq_length.2 fun o ho => nw o (hu o ho)]
    omega

/-- **C102, the score** is the nearest percentage, and 100 for an empty document. -/
theorem C102_score (c n : Nat) (h : c ≤ n) :
    score c n ≤ 100 ∧ (c = n → score c n = 100) ∧ (n ≠ 0 → 2 * n * score c n ≤ 200 * c + n ∧ 200 * c + n < 2 * n * (score c n + 1)) := by
  rw [score]
  split
  · next h0 => exact ⟨Nat.le_refl _, fun _ => rfl, fun h' => absurd h0 h'⟩
  · next h0 =>
    have hp : 0 < 2 * n := by omega
    have hdm := Nat.div_add_mod (200 * c + n) (2 * n)
    have hm := Nat.mod_lt (200 * c + n) hp
    refine ⟨?_, ?_, fun _ => ⟨by omega, by rw [Nat.mul_add]; omega⟩⟩
    · apply Nat.le_of_lt_succ
      apply (Nat.div_lt_iff_lt_mul hp).2
      omega
    · rintro rfl
      have : 200 * c + c = c + (2 * c) * 100 := by omega
      rw [this, Nat.add_mul_div_left _ _ hp, Nat.div_eq_of_lt (by omega)]

/-- **C102 fails for the score**: a document with a broken operation among two hundred is shown as 100 percent. -/
theorem C102_score_hundred : score 199 200 = 100 := by decide

/-! ## Counts -/

theorem countLe_pre (b : Bool) : TotalPre (countLe b) where
  total x y := by
    simp only [countLe]
    by_cases h : x.count = y.count
    · simp only [h, ne_eq, not_true_eq_false, decide_false, Bool.and_false, Bool.false_eq_true, if_false]
      exact strLe_ord.total _ _
    · have h' : ¬ y.count = x.count := fun e => h e.symm
      cases b
      · simpa using strLe_ord.total _ _
      · simp only [ne_eq, h, h', not_false_eq_true, decide_true, Bool.and_self, if_true, decide_eq_true_eq]
        omega
  trans x y z := by
    simp only [countLe]
    cases b
    · simpa using strLe_ord.trans x.name y.name z.name
    · simp only [Bool.true_and, decide_eq_true_eq, ne_eq]
      intro h1 h2
      by_cases e1 : x.count = y.count <;> by_cases e2 : y.count = z.count
      · rw [if_neg (by simp [e1, e2])]
        rw [if_neg (by simp [e1])] at h1
        rw [if_neg (by simp [e2])] at h2
        exact strLe_ord.trans _ _ _ h1 h2
      · rw [if_pos (by rw [e1]; exact e2)]
        rw [if_pos e2] at h2
        simp only [decide_eq_true_eq] at h2 ⊢
        omega
      · rw [if_pos (by rw [← e2]; exact e1)]
        rw [if_pos e1] at h1
        simp only [decide_eq_true_eq] at h1 ⊢
        omega
      · rw [if_pos e1] at h1
        rw [if_pos e2] at h2
        simp only [decide_eq_true_eq] at h1 h2
        rw [if_pos (by omega)]
        simp only [decide_eq_true_eq]
        omega

theorem mem_tally {l : List String} {c : Count} : c ∈ tally l ↔ c.name ∈ l ∧ c.count = l.countP (fun m => decide (m = c.name)) := by
  rw [tally, List.mem_map]
  constructor
  · rintro ⟨n, hn, rfl⟩; exact ⟨(mem_dedup ..).1 hn, rfl⟩
  · rintro ⟨h1, h2⟩
    refine ⟨c.name, (mem_dedup ..).2 h1, ?_⟩
    cases c
    simp only at h2
    rw [h2]

theorem tally_names (l : List String) : (tally l).map Count.name = dedup l := by
  simp [tally, Function.comp_def]

/-- **C102, counts.**  A table has one row per name, with the number of times it was counted; the rows come in
descending order of the numbers and then by name; and the order of counting does not matter. -/
theorem C102_table (l : List String) (b : Bool) :
    (∀ n k, ⟨n, k⟩ ∈ sortedCounts b (tally l) ↔ n ∈ l ∧ k = l.countP (fun m => decide (m = n))) ∧
    ((sortedCounts b (tally l)).map Count.name).Nodup ∧
    (sortedCounts b (tally l)).Pairwise (fun x y => if b = true ∧ x.count ≠ y.count then y.count < x.count else x.name ≤ y.name) ∧
    ∀ l' : List String, l'.Perm l → sortedCounts b (tally l') = sortedCounts b (tally l) := by
  refine ⟨fun n k => by rw [sortedCounts, mem_isort, mem_tally], ?_, ?_, ?_⟩
  · exact ((isort_perm _ _).map _).nodup_iff.2 (by rw [tally_names]; exact dedup_nodup l)
  · refine (isort_pairwise (countLe_pre b) _).imp ?_
    intro x y h
    rw [countLe] at h
    by_cases hc : b = true ∧ x.count ≠ y.count
    · rw [if_pos hc]; rw [if_pos (by simp [hc.1, hc.2])] at h; simpa using h
    · rw [if_neg hc]; rw [if_neg (by simpa using hc)] at h; simpa [strLe] using h
  · intro l' hp
    have hpt : (tally l').Perm (tally l) := by
      have hf : ∀ n, l'.countP (fun m => decide (m = n)) = l.countP (fun m => decide (m = n)) := fun n => hp.countP_eq _
      simp only [tally, hf]
      refine List.Perm.map _ ?_
      refine (List.perm_ext_iff_of_nodup (dedup_nodup _) (dedup_nodup _)).2 fun a => ?_
      simp only [mem_dedup, hp.mem_iff]
    refine isort_eq_of_perm_on (countLe_pre b) ?_ hpt
    intro x hx y hy h1 h2
    have hx := mem_tally.1 hx
    have hy := mem_tally.1 hy
    have key : x.name = y.name := by
      simp only [countLe] at h1 h2
      by_cases hc : b = true ∧ x.count ≠ y.count
      · rw [if_pos (by simp [hc.1, hc.2])] at h1
        have hc' : ¬ y.count = x.count := fun e => hc.2 e.symm
        rw [if_pos (by simp [hc.1, hc'])] at h2
        simp only [decide_eq_true_eq] at h1 h2
        omega
      · rw [if_neg (by simpa using hc)] at h1
        have hc' : ¬ (b = true ∧ y.count ≠ x.count) := fun h => hc ⟨h.1, fun e => h.2 e.symm⟩
        rw [if_neg (by simpa using hc')] at h2
        exact strLe_ord.antisymm _ _ h1 h2
    cases x; cases y
    simp only at key hx hy
    subst key
    rw [hx.2, hy.2]

/-- **C102, methods.**  The row of a verb has the number of operations of that verb. -/
theorem C102_methods (d : Doc) (m : String) (k : Nat) : ⟨m, k⟩ ∈ byMethod d ↔ k ≠ 0 ∧ k = d.all.countP (fun o => decide (o.2.method = m)) := by
  rw [byMethod, (C102_table _ true).1, List.countP_map]
  have : (ops d).countP ((fun n => decide (n = m)) ∘ fun o => o.2.method) = d.all.countP (fun o => decide (o.2.method = m)) := (ops_perm d).countP_eq _
  rw [this]
  constructor
  · rintro ⟨h, rfl⟩
    refine ⟨fun h0 => ?_, rfl⟩
    obtain ⟨o, ho, e⟩ := List.mem_map.1 h
    exact absurd (List.countP_eq_zero.1 h0 o ((ops_perm d).mem_iff.1 ho)) (by simp [e])
  · rintro ⟨h0, rfl⟩
    refine ⟨?_, rfl⟩
    obtain ⟨o, ho, e⟩ := List.countP_pos_iff.1 (Nat.pos_of_ne_zero h0)
    exact List.mem_map.2 ⟨o, (ops_perm d).mem_iff.2 ho, by simpa using e⟩

theorem countP_flatMap {α β : Type} (f : α → List β) (p : β → Bool) : ∀ l : List α, (l.flatMap f).countP p = (l.map (fun a => (f a).countP p)).sum
  | [] => rfl
  | a :: l => by simp [countP_flatMap f p l]

theorem count_nodup {l : List String} (h : l.Nodup) (n : String) : l.countP (fun m => decide (m = n)) = if n ∈ l then 1 else 0 := by
  induction l with
  | nil => rfl
  | cons x l ih =>
    rw [List.nodup_cons] at h
    rw [List.countP_cons, ih h.2]
    by_cases e : x = n
    · subst e; simp [h.1]
    · have : n ≠ x := fun h => e h.symm
      simp [e, this]

/-- **C102, statuses.**  The row of a status has the number of operations that document it. -/
theorem C102_statuses (d : Doc) (hr : ∀ o ∈ d.all, (o.2.responses.map Prod.fst).Nodup) (s : String) (k : Nat) :
    ⟨s, k⟩ ∈ byStatus d ↔ k ≠ 0 ∧ k = d.all.countP (fun o => decide (s ∈ o.2.responses.map Prod.fst)) := by
  rw [byStatus, (C102_table _ false).1, countP_flatMap]
  have e : ((ops d).map (fun o => (o.2.responses.map Prod.fst).countP (fun m => decide (m = s)))).sum = d.all.countP (fun o => decide (s ∈ o.2.responses.map Prod.fst)) := by
    rw [(((ops_perm d).map (fun o => (o.2.responses.map Prod.fst).countP (fun m => decide (m = s))))).sum_nat]
    have : ∀ l : List (String × Op), (∀ o ∈ l, (o.2.responses.map Prod.fst).Nodup) →
        (l.map (fun o => (o.2.responses.map Prod.fst).countP (fun m => decide (m = s)))).sum = l.countP (fun o => decide (s ∈ o.2.responses.map Prod.fst)) := by
      intro l
      induction l with
      | nil => intro _; rfl
      | cons o l ih =>
        intro h
        rw [List.map_cons, List.sum_cons, ih fun o ho => h o (List.mem_cons_of_mem _ ho), List.countP_cons, count_nodup (h o (List.mem_cons_self ..))]
        by_cases hm : s ∈ o.2.responses.map Prod.fst
        · rw [if_pos hm, if_pos (by simpa using hm)]; omega
        · rw [if_neg hm, if_neg (by simpa using hm)]; omega
    exact this _ hr
  rw [e]
  constructor
  · rintro ⟨h, rfl⟩
    refine ⟨fun h0 => ?_, rfl⟩
    obtain ⟨o, ho, hs⟩ := List.mem_flatMap.1 h
    exact absurd (List.countP_eq_zero.1 h0 o ((ops_perm d).mem_iff.1 ho)) (by simpa using hs)
  · rintro ⟨h0, rfl⟩
    refine ⟨?_, rfl⟩
    obtain ⟨o, ho, hs⟩ := List.countP_pos_iff.1 (Nat.pos_of_ne_zero h0)
    exact List.mem_flatMap.2 ⟨o, (ops_perm d).mem_iff.2 ho, by simpa using hs⟩

/-- **C102, issues.**  The issues are those of the operations; warnings come first, then by path and method. -/
theorem C102_issues (t : Text) (d : Doc) :
    (∀ i, i ∈ issues t d ↔ ∃ o ∈ d.all, i ∈ opIssues t d.comps o.1 o.2) ∧
    (issues t d).Pairwise (fun a b => b.severity = "warn" → a.severity = "warn") := by
  constructor
  · intro i
    rw [issues, mem_isort, List.mem_flatMap]
    exact ⟨fun ⟨o, ho, h⟩ => ⟨o, (ops_perm d).mem_iff.1 ho, h⟩, fun ⟨o, ho, h⟩ => ⟨o, (ops_perm d).mem_iff.2 ho, h⟩⟩
  · refine (isort_pairwise (le := issueLe) ?_ _).imp ?_
    · refine ⟨?_, ?_⟩
      rotate_left
      · intro a b
        simp only [issueLe]
        by_cases ha : a.severity = "warn" <;> by_cases hb : b.severity = "warn" <;> simp [ha, hb]
        all_goals
          by_cases hp : a.path = b.path
          · simpa [hp] using strLe_ord.total a.method b.method
          · have hp' : ¬ b.path = a.path := fun e => hp e.symm
            simpa [hp, hp'] using strLe_ord.total a.path b.path
      · intro a b c
        simp only [issueLe]
        intro h1 h2
        by_cases ha : a.severity = "warn" <;> by_cases hb : b.severity = "warn" <;> by_cases hc : c.severity = "warn" <;>
          simp [ha, hb, hc] at h1 h2 ⊢
        all_goals
          by_cases e1 : a.path = b.path <;> by_cases e2 : b.path = c.path
          · simp [e1, e2] at h1 h2 ⊢; exact strLe_ord.trans _ _ _ h1 h2
          · simp [e1, e2] at h1 h2 ⊢; exact h2
          · have e3 : ¬ a.path = c.path := fun e => e1 (e.trans e2.symm)
            rw [if_neg e1] at h1
            rw [if_neg e3, ← e2]; exact h1
          · simp [e1, e2] at h1 h2
            have h12 := strLe_ord.trans _ _ _ h1 h2
            by_cases e3 : a.path = c.path
            · exact absurd (strLe_ord.antisymm _ _ h1 (e3 ▸ h2)) e1
            · simp [e3]; exact h12
    · intro a b h hb
      by_cases ha : a.severity = "warn"
      · exact ha
      · simp [issueLe, ha, hb] at h

theorem mem_refIssues {t : Text} {d : Doc} (hd : d.Wf) {m p w : String} {s : Option Schema} {i : Issue} (h : i ∈ refIssues t d.comps m p w s) :
    i.method = m ∧ i.path = p ∧ ∃ x, s = some x ∧ Names x i.ref ∧ Missing t d i.ref := by
  obtain ⟨n, hn, hi⟩ := List.mem_flatMap.1 h
  have hm := (refIssue_ne hd).1 (List.ne_nil_of_mem hi)
  have key : i.method = m ∧ i.path = p ∧ i.ref = n := by
    rw [refIssue] at hi
    split at hi
    · rw [List.mem_singleton.1 hi]; exact ⟨rfl, rfl, rfl⟩
    · split at hi
      · rw [List.mem_singleton.1 hi]; exact ⟨rfl, rfl, rfl⟩
      · cases hi
  refine ⟨key.1, key.2.1, ?_⟩
  rw [key.2.2]
  cases s with
  | none => cases hn
  | some x => exact ⟨x, rfl, (C102_references x n).1 hn, hm⟩

/-- **C102, what is reported.**  Every warning is about an operation of the document, by its verb and path, and
either it has no response or it has a schema that names the missing component; and each of these is reported. -/
theorem C102_reported (t : Text) (d : Doc) (hd : d.Wf) :
    (∀ i ∈ issues t d, i.severity = "warn" → ∃ o, (i.path, o) ∈ d.all ∧ o.method = i.method ∧
      (i.kind = "no-responses" ∧ o.responses = [] ∨ ∃ s, Carries o s ∧ Names s i.ref ∧ Missing t d i.ref)) ∧
    ∀ p o, (p, o) ∈ d.all →
      (o.responses = [] → ∃ i ∈ issues t d, i.severity = "warn" ∧ i.kind = "no-responses" ∧ i.path = p ∧ i.method = o.method) ∧
      ∀ s n, Carries o s → Names s n → Missing t d n → ∃ i ∈ issues t d, i.severity = "warn" ∧ i.path = p ∧ i.method = o.method ∧ i.ref = n := by
  have hin := (C102_issues t d).1
  constructor
  · intro i hi hw
    obtain ⟨⟨p, o⟩, ho, h⟩ := (hin i).1 hi
    simp only [opIssues, List.mem_append] at h
    rcases h with (((h | h) | h) | h) | h
    · split at h
      · next he => rw [List.mem_singleton.1 h]; exact ⟨o, ho, rfl, .inl ⟨rfl, he⟩⟩
      · cases h
    · split at h
      · cases h
      · next c hc =>
        obtain ⟨⟨ct, s⟩, hm, h⟩ := List.mem_flatMap.1 h
        obtain ⟨e1, e2, x, e, hn, hmiss⟩ := mem_refIssues hd h
        cases e
        exact ⟨o, e2 ▸ ho, e1.symm, .inr ⟨x, .inl ⟨c, ct, hc, hm⟩, hn, hmiss⟩⟩
    · obtain ⟨⟨st, c⟩, hr, h⟩ := List.mem_flatMap.1 h
      obtain ⟨⟨ct, s⟩, hm, h⟩ := List.mem_flatMap.1 h
      rcases List.mem_append.1 h with h | h
      · obtain ⟨e1, e2, x, e, hn, hmiss⟩ := mem_refIssues hd h
        cases e
        exact ⟨o, e2 ▸ ho, e1.symm, .inr ⟨x, .inr (.inl ⟨st, c, ct, hr, hm⟩), hn, hmiss⟩⟩
      · split at h
        · rw [List.mem_singleton.1 h] at hw; exact absurd hw (show ¬ "info" = "warn" by decide)
        · cases h
    · split at h
      · rw [List.mem_singleton.1 h] at hw; exact absurd hw (show ¬ "info" = "warn" by decide)
      · cases h
    · obtain ⟨⟨nm, s⟩, hm, h⟩ := List.mem_flatMap.1 h
      obtain ⟨e1, e2, x, e, hn, hmiss⟩ := mem_refIssues hd h
      cases e
      exact ⟨o, e2 ▸ ho, e1.symm, .inr ⟨x, .inr (.inr ⟨nm, hm⟩), hn, hmiss⟩⟩
  · intro p o ho
    constructor
    · intro he
      refine ⟨⟨"warn", "no-responses", o.method, p, "", ""⟩, (hin _).2 ⟨(p, o), ho, ?_⟩, rfl, rfl, rfl, rfl⟩
      simp only [opIssues, List.mem_append]
      rw [if_pos he]
      exact .inl (.inl (.inl (.inl (List.mem_singleton.2 rfl))))
    · intro x n hc hn hmiss
      have one : ∀ w, ∃ i ∈ refIssues t d.comps o.method p w (some x), i.severity = "warn" ∧ i.path = p ∧ i.method = o.method ∧ i.ref = n := by
        intro w
        obtain ⟨i, hi⟩ := List.exists_mem_of_ne_nil _ ((refIssue_ne (m := o.method) (p := p) (w := w) hd).2 hmiss)
        refine ⟨i, List.mem_flatMap.2 ⟨n, (C102_references x n).2 hn, hi⟩, ?_⟩
        rw [refIssue] at hi
        split at hi
        · rw [List.mem_singleton.1 hi]; exact ⟨rfl, rfl, rfl, rfl⟩
        · split at hi
          · rw [List.mem_singleton.1 hi]; exact ⟨rfl, rfl, rfl, rfl⟩
          · cases hi
      rcases hc with ⟨c, ct, hb, hm⟩ | ⟨st, c, ct, hr, hm⟩ | ⟨nm, hm⟩
      · obtain ⟨i, hi, h⟩ := one "request body"
        refine ⟨i, (hin _).2 ⟨(p, o), ho, ?_⟩, h⟩
        simp only [opIssues, List.mem_append, hb]
        exact .inl (.inl (.inl (.inr (List.mem_flatMap.2 ⟨_, hm, hi⟩))))
      · obtain ⟨i, hi, h⟩ := one ("response " ++ st)
        refine ⟨i, (hin _).2 ⟨(p, o), ho, ?_⟩, h⟩
        simp only [opIssues, List.mem_append]
        exact .inl (.inl (.inr (List.mem_flatMap.2 ⟨_, hr, List.mem_flatMap.2 ⟨_, hm, List.mem_append_left _ hi⟩⟩)))
      · obtain ⟨i, hi, h⟩ := one ("parameter " ++ nm)
        refine ⟨i, (hin _).2 ⟨(p, o), ho, ?_⟩, h⟩
        simp only [opIssues, List.mem_append]
        exact .inr (List.mem_flatMap.2 ⟨_, hm, hi⟩)

/-! ## Security -/

/-- **C102, security.**  Every operation is counted once: protected exactly when no caller without credentials
may call it; public when it says so itself (an empty list) or one of the requirements in force is empty; and
unsecured when nothing is in force.  The uses of the schemes are those of the protected operations. -/
theorem C102_security (d : Doc) :
    ∃ pr pu un : List Op, (pr ++ pu ++ un).Perm (d.all.map Prod.snd) ∧
      (∀ o ∈ pr, ¬ Anonymous d o) ∧ (∀ o ∈ pu, o.security = some [] ∨ [] ∈ d.inForce o) ∧ (∀ o ∈ un, o.security = none ∧ d.security = []) ∧
      (security d).isProtected = pr.length ∧ (security d).isPublic = pu.length ∧ (security d).unsecured = un.length ∧
      ∀ n k, ⟨n, k⟩ ∈ byScheme d ↔ k ≠ 0 ∧ k = pr.countP (fun o => decide (n ∈ (d.inForce o).flatten)) := by
  have eff : ∀ (st : Sec) (e : List (List String)), secStep.secEff st e =
      if e = [] then { st with unsecured := st.unsecured + 1 }
      else if [] ∈ e then { st with isPublic := st.isPublic + 1 }
      else { st with isProtected := st.isProtected + 1, uses := st.uses ++ dedup e.flatten } := by
    intro st e
    rw [secStep.secEff]
    congr 1
    have : (e.any List.isEmpty = true) ↔ [] ∈ e := by
      rw [List.any_eq_true]
      exact ⟨fun ⟨x, hx, h⟩ => by rw [List.isEmpty_iff.1 h] at hx; exact hx, fun h => ⟨[], h, rfl⟩⟩
    simp only [this]
  have key : ∀ (l : List Op) (st : Sec), ∃ pr pu un : List Op, (pr ++ pu ++ un).Perm l ∧
      (∀ o ∈ pr, ¬ Anonymous d o) ∧ (∀ o ∈ pu, o.security = some [] ∨ [] ∈ d.inForce o) ∧ (∀ o ∈ un, o.security = none ∧ d.security = []) ∧
      l.foldl (secStep d.security) st = ⟨st.isProtected + pr.length, st.isPublic + pu.length, st.unsecured + un.length, st.uses ++ pr.flatMap (fun o => dedup (d.inForce o).flatten)⟩ := by
    intro l
    induction l with
    | nil => intro st; exact ⟨[], [], [], .refl _, by simp, by simp, by simp, by simp⟩
    | cons o l ih =>
      intro st
      obtain ⟨pr, pu, un, hp, h1, h2, h3, h4⟩ := ih (secStep d.security st o)
      have addPr : ¬ Anonymous d o → secStep d.security st o = { st with isProtected := st.isProtected + 1, uses := st.uses ++ dedup (d.inForce o).flatten } →
          ∃ pr pu un : List Op, (pr ++ pu ++ un).Perm (o :: l) ∧
      (∀ o ∈ pr, ¬ Anonymous d o) ∧ (∀ o ∈ pu, o.security = some [] ∨ [] ∈ d.inForce o) ∧ (∀ o ∈ un, o.security = none ∧ d.security = []) ∧
      (o :: l).foldl (secStep d.security) st = ⟨st.isProtected + pr.length, st.isPublic + pu.length, st.unsecured + un.length, st.uses ++ pr.flatMap (fun o => dedup (d.inForce o).flatten)⟩ := by
        intro ha he
        refine ⟨o :: pr, pu, un, hp.cons o, ?_, h2, h3, ?_⟩
        · intro x hx; rcases List.mem_cons.1 hx with rfl | hx
          · exact ha
          · exact h1 x hx
        · rw [List.foldl_cons, h4, he]
          simp only [List.length_cons, List.flatMap_cons, List.append_assoc]
          congr 1; omega
      have addPu : (o.security = some [] ∨ [] ∈ d.inForce o) → secStep d.security st o = { st with isPublic := st.isPublic + 1 } →
          ∃ pr pu un : List Op, (pr ++ pu ++ un).Perm (o :: l) ∧
      (∀ o ∈ pr, ¬ Anonymous d o) ∧ (∀ o ∈ pu, o.security = some [] ∨ [] ∈ d.inForce o) ∧ (∀ o ∈ un, o.security = none ∧ d.security = []) ∧
      (o :: l).foldl (secStep d.security) st = ⟨st.isProtected + pr.length, st.isPublic + pu.length, st.unsecured + un.length, st.uses ++ pr.flatMap (fun o => dedup (d.inForce o).flatten)⟩ := by
        intro ha he
        refine ⟨pr, o :: pu, un, ?_, h1, ?_, h3, ?_⟩
        · refine List.Perm.trans ?_ (hp.cons o)
          simp only [List.append_assoc, List.cons_append]
          exact List.perm_middle
        · intro x hx; rcases List.mem_cons.1 hx with rfl | hx
          · exact ha
          · exact h2 x hx
        · rw [List.foldl_cons, h4, he]
          simp only [List.length_cons]
          congr 1; omega
      have byEff : ∀ e, d.inForce o = e → (e = [] → o.security = none ∧ d.security = []) → secStep d.security st o = secStep.secEff st e →
          ∃ pr pu un : List Op, (pr ++ pu ++ un).Perm (o :: l) ∧
      (∀ o ∈ pr, ¬ Anonymous d o) ∧ (∀ o ∈ pu, o.security = some [] ∨ [] ∈ d.inForce o) ∧ (∀ o ∈ un, o.security = none ∧ d.security = []) ∧
      (o :: l).foldl (secStep d.security) st = ⟨st.isProtected + pr.length, st.isPublic + pu.length, st.unsecured + un.length, st.uses ++ pr.flatMap (fun o => dedup (d.inForce o).flatten)⟩ := by
        intro e he h0 hs
        rw [eff] at hs
        split at hs
        · next hnil =>
          refine ⟨pr, pu, o :: un, List.perm_middle.trans (hp.cons o), h1, h2, ?_, ?_⟩
          · intro x hx; rcases List.mem_cons.1 hx with rfl | hx
            · exact h0 hnil
            · exact h3 x hx
          · rw [List.foldl_cons, h4, hs]
            simp only [List.length_cons]
            congr 1; omega
        · next hnil =>
          split at hs
          · next hm => exact addPu (.inr (he ▸ hm)) hs
          · next hm =>
            refine addPr ?_ (he ▸ hs)
            rintro (h | h)
            · exact hnil (he ▸ h)
            · exact hm (he ▸ h)
      match hsec : o.security with
      | some [] => exact addPu (.inl hsec) (by rw [secStep, hsec])
      | some (r :: rs) =>
        exact byEff (r :: rs) (by rw [Doc.inForce, hsec]) (fun h => by cases h) (by rw [secStep, hsec])
      | none =>
        exact byEff d.security (by rw [Doc.inForce, hsec]) (fun h => ⟨hsec, h⟩) (by rw [secStep, hsec])
  obtain ⟨pr, pu, un, hp, h1, h2, h3, h4⟩ := key (d.paths.flatMap Prod.snd) ⟨0, 0, 0, []⟩
  have hall : d.all.map Prod.snd = d.paths.flatMap Prod.snd := by
    simp [Doc.all, List.map_flatMap, Function.comp_def]
  refine ⟨pr, pu, un, by rw [hall]; exact hp, h1, h2, h3, ?_, ?_, ?_, ?_⟩
  · rw [security, h4]; simp
  · rw [security, h4]; simp
  · rw [security, h4]; simp
  · intro n k
    have hu : (security d).uses = pr.flatMap (fun o => dedup (d.inForce o).flatten) := by rw [security, h4]; simp
    rw [byScheme, hu, (C102_table _ true).1]
    have hc : (pr.flatMap (fun o => dedup (d.inForce o).flatten)).countP (fun m => decide (m = n)) = pr.countP (fun o => decide (n ∈ (d.inForce o).flatten)) := by
      clear hp h1 h4 hu
      induction pr with
      | nil => rfl
      | cons o l ih =>
        rw [List.flatMap_cons, List.countP_append, ih, List.countP_cons, count_nodup (dedup_nodup _)]
        by_cases hm : n ∈ (d.inForce o).flatten
        · rw [if_pos ((mem_dedup ..).2 hm), if_pos (by simpa using hm)]; omega
        · rw [if_neg (fun h => hm ((mem_dedup ..).1 h)), if_neg (by simpa using hm)]; omega
    rw [hc]
    constructor
    · rintro ⟨h, rfl⟩
      refine ⟨fun h0 => ?_, rfl⟩
      obtain ⟨o, ho, hs⟩ := List.mem_flatMap.1 h
      exact absurd (List.countP_eq_zero.1 h0 o ho) (by simpa using (mem_dedup ..).1 hs)
    · rintro ⟨h0, rfl⟩
      refine ⟨?_, rfl⟩
      obtain ⟨o, ho, hs⟩ := List.countP_pos_iff.1 (Nat.pos_of_ne_zero h0)
      exact List.mem_flatMap.2 ⟨o, ho, (mem_dedup ..).2 (by simpa using hs)⟩

/-! ## Bodies -/

/-- The schema says nothing about the body: no type at all, a bare object, a missing component, or a list of
such. -/
inductive Opaque (t : Text) (d : Doc) : Schema → Prop
  | missing {s : Schema} {n : String} (hn : n ≠ "") (hr : s.ref = refPrefix ++ n) (h : Missing t d n) : Opaque t d s
  | list {s i : Schema} {l : List Schema} (hr : ∀ n, n ≠ "" → s.ref ≠ refPrefix ++ n) (ht : s.typ = "array") (hi : s.items = i :: l) (h : Opaque t d i) : Opaque t d s
  | anyList {s : Schema} (hr : ∀ n, n ≠ "" → s.ref ≠ refPrefix ++ n) (ht : s.typ = "array") (hi : s.items = []) : Opaque t d s
  | bare {s : Schema} (hr : ∀ n, n ≠ "" → s.ref ≠ refPrefix ++ n) (ht : s.typ = "object" ∧ s.addl = [] ∨ s.typ = "")
      (h : s.one = [] ∧ s.any = [] ∧ s.all = [] ∧ s.props = [] ∧ s.enums = []) : Opaque t d s

theorem refTarget_none {t : Text} {c : List (String × Schema)} {r : String} : refTarget t c r = none ↔ ∀ n, n ≠ "" → r ≠ refPrefix ++ n := by
  rw [refTarget]
  cases h : refName r with
  | none =>
    refine ⟨fun _ n _ e => ?_, fun _ => rfl⟩
    rw [refName_iff.2 e] at h; cases h
  | some m =>
    simp only
    by_cases hm : m = ""
    · subst hm
      rw [if_pos (by rfl)]
      refine ⟨fun _ n hn e => ?_, fun _ => rfl⟩
      rw [refName_iff.2 e] at h
      cases h; exact hn rfl
    · rw [if_neg (by simpa [String.isEmpty_iff] using hm)]
      constructor
      · intro h'; split at h' <;> cases h'
      · intro h'; exact absurd (refName_iff.1 h) (h' m hm)

theorem refTarget_some {t : Text} {d : Doc} (hd : d.Wf) {r n : String} (hn : n ≠ "") (hr : r = refPrefix ++ n) :
    ∃ st, refTarget t d.comps r = some st ∧ (st = .unresolved ↔ Missing t d n) ∧ st ≠ .freeform := by
  rw [refTarget, refName_iff.2 hr]
  simp only
  rw [if_neg (by simpa [String.isEmpty_iff] using hn)]
  cases h : d.comps.lookup n with
  | none => exact ⟨_, rfl, ⟨fun _ => .inl (lookup_none h), fun _ => rfl⟩, by simp⟩
  | some c =>
    refine ⟨_, rfl, ?_, by split <;> simp⟩
    split
    · next hp => exact ⟨fun _ => .inr ⟨c, lookup_mem h, hp⟩, fun _ => rfl⟩
    · next hp =>
      refine ⟨fun h => (by cases h), ?_⟩
      rintro (h1 | ⟨c', hc', hp'⟩)
      · exact absurd (lookup_mem h) (h1 c)
      · rw [mem_lookup hd hc'] at h; cases h; exact absurd hp' hp

theorem isArr {ty : String} : isArrayType ty = true ↔ ty = "array" := by rw [isArrayType, decide_eq_true_eq]
theorem isObj {ty : String} : isObjectType ty = true ↔ ty = "object" := by rw [isObjectType, decide_eq_true_eq]

mutual
theorem bodyOf_iff (t : Text) (d : Doc) (hd : d.Wf) : ∀ s : Schema, bodyOf t d.comps s = .unresolved ↔ Opaque t d s
  | .mk r de ty i a no p al o an e => by
    rw [bodyOf]
    by_cases href : ∃ n, n ≠ "" ∧ r = refPrefix ++ n
    · obtain ⟨n, hn, hr⟩ := href
      obtain ⟨st, h1, h2, _⟩ := refTarget_some (t := t) hd hn hr
      rw [h1]
      simp only
      rw [h2]
      refine ⟨fun h => .missing hn hr h, fun h => ?_⟩
      cases h with
      | missing hn' hr' h =>
        have : refPrefix ++ n = refPrefix ++ _ := hr.symm.trans hr'
        have := Option.some.inj ((refName_iff.2 (rfl : refPrefix ++ n = refPrefix ++ n)).symm.trans (refName_iff.2 this))
        rw [this]; exact h
      | list hr' _ _ _ => exact absurd hr (hr' n hn)
      | anyList hr' _ _ => exact absurd hr (hr' n hn)
      | bare hr' _ _ => exact absurd hr (hr' n hn)
    · have hno : ∀ n, n ≠ "" → r ≠ refPrefix ++ n := fun n hn e => href ⟨n, hn, e⟩
      rw [refTarget_none.2 hno]
      simp only
      by_cases ha : ty = "array"
      · rw [if_pos (isArr.2 ha), bodyItems_iff t d hd i]
        constructor
        · rintro (h | ⟨x, l, h, ho⟩)
          · exact .anyList hno ha h
          · exact .list hno ha h ho
        · intro h
          cases h with
          | missing hn hr _ => exact absurd hr (hno _ hn)
          | list _ _ hi h => exact .inr ⟨_, _, hi, h⟩
          | anyList _ _ hi => exact .inl hi
          | bare _ ht _ =>
            rcases ht with ht | ht
            · exact absurd (ha.symm.trans ht.1) (by decide)
            · exact absurd (ha.symm.trans ht) (by decide)
      · rw [if_neg (fun h => ha (isArr.1 h))]
        by_cases hc : o = [] ∧ an = [] ∧ al = [] ∧ p = [] ∧ e = []
        · rw [if_neg (by simp [hc.1, hc.2.1, hc.2.2.1, hc.2.2.2.1, hc.2.2.2.2])]
          by_cases hob : ty = "object"
          · rw [if_pos (isObj.2 hob)]
            by_cases hadd : a = []
            · rw [if_pos (by simp [hadd])]
              exact ⟨fun _ => .bare hno (.inl ⟨hob, hadd⟩) hc, fun _ => rfl⟩
            · rw [if_neg (by simpa using hadd)]
              refine ⟨fun h => (by cases h), fun h => ?_⟩
              cases h with
              | missing hn hr _ => exact absurd hr (hno _ hn)
              | list _ ht _ _ => exact absurd ht ha
              | anyList _ ht _ => exact absurd ht ha
              | bare _ ht _ =>
                rcases ht with ht | ht
                · exact absurd ht.2 hadd
                · exact absurd (hob.symm.trans ht) (by decide)
          · rw [if_neg (fun h => hob (isObj.1 h))]
            by_cases he : ty = ""
            · rw [if_pos (by simp [he])]
              exact ⟨fun _ => .bare hno (.inr he) hc, fun _ => rfl⟩
            · rw [if_neg (by simpa [String.isEmpty_iff] using he)]
              refine ⟨fun h => (by cases h), fun h => ?_⟩
              cases h with
              | missing hn hr _ => exact absurd hr (hno _ hn)
              | list _ ht _ _ => exact absurd ht ha
              | anyList _ ht _ => exact absurd ht ha
              | bare _ ht _ =>
                rcases ht with ht | ht
                · exact absurd ht.1 hob
                · exact absurd ht he
        · rw [if_pos (Classical.byContradiction fun h => hc (by simpa [and_assoc] using h))]
          refine ⟨fun h => (by cases h), fun h => ?_⟩
          cases h with
          | missing hn hr _ => exact absurd hr (hno _ hn)
          | list _ ht _ _ => exact absurd ht ha
          | anyList _ ht _ => exact absurd ht ha
          | bare _ _ h => exact absurd h hc
theorem bodyItems_iff (t : Text) (d : Doc) (hd : d.Wf) : ∀ l : List Schema, bodyItems t d.comps l = .unresolved ↔ l = [] ∨ ∃ x r, l = x :: r ∧ Opaque t d x
  | [] => by simp [bodyItems]
  | s :: l => by
    rw [bodyItems, bodyOf_iff t d hd s]
    constructor
    · intro h; exact .inr ⟨s, l, rfl, h⟩
    · rintro (h | ⟨x, r, h, ho⟩)
      · cases h
      · cases h; exact ho
end

/-- What a media type documents is nothing a client can use. -/
def Unusable (t : Text) (d : Doc) (m : String × Option Schema) : Prop := ∀ s, m.2 = some s → Opaque t d s

theorem bodyState_iff {t : Text} {d : Doc} (hd : d.Wf) {m : String × Option Schema} : bodyState t d.comps m.2 = .unresolved ↔ Unusable t d m := by
  rw [Unusable]
  cases h : m.2 with
  | none => exact ⟨fun _ s hs => (by cases hs), fun _ => rfl⟩
  | some s =>
    rw [bodyState, bodyOf_iff t d hd]
    exact ⟨fun h x e => (by cases e; exact h), fun h => h s rfl⟩

theorem best_unresolved {t : Text} {c : List (String × Schema)} : ∀ (l : Content) (b : BodyState),
    l.foldl (better t c) b = .unresolved ↔ b = .unresolved ∧ ∀ m ∈ l, bodyState t c m.2 = .unresolved
  | [], b => by simp
  | m :: l, b => by
    rw [List.foldl_cons, best_unresolved l]
    have : better t c b m = .unresolved ↔ b = .unresolved ∧ bodyState t c m.2 = .unresolved := by
      rw [better]
      cases b <;> cases bodyState t c m.2 <;> simp [BodyState.rank]
    rw [this]
    simp only [List.mem_cons, forall_eq_or_imp]
    constructor
    · rintro ⟨⟨h1, h2⟩, h3⟩; exact ⟨h1, h2, h3⟩
    · rintro ⟨h1, h2, h3⟩; exact ⟨⟨h1, h2⟩, h3⟩

/-- **C102, bodies.**  Of the responses documented at a status, those without content are counted as empty,
those all of whose media types say nothing as unresolved, and the others as described. -/
theorem C102_bodies (t : Text) (d : Doc) (hd : d.Wf) (s : String) :
    ∃ e u k : List (String × Content), (e ++ u ++ k).Perm ((d.all.flatMap (fun o => o.2.responses)).filter (fun r => decide (r.1 = s))) ∧
      (∀ r ∈ e, r.2 = []) ∧ (∀ r ∈ u, r.2 ≠ [] ∧ ∀ m ∈ r.2, Unusable t d m) ∧ (∀ r ∈ k, ∃ m ∈ r.2, ¬ Unusable t d m) ∧
      (statusBody t d s).empty = e.length ∧ (statusBody t d s).unresolved = u.length ∧
      (statusBody t d s).withSchema + (statusBody t d s).freeForm = k.length ∧ (statusBody t d s).total = e.length + u.length + k.length := by
  have key : ∀ (l : List (String × Content)) (a : StatusBody), ∃ e u k : List (String × Content), (e ++ u ++ k).Perm l ∧
      (∀ r ∈ e, r.2 = []) ∧ (∀ r ∈ u, r.2 ≠ [] ∧ ∀ m ∈ r.2, Unusable t d m) ∧ (∀ r ∈ k, ∃ m ∈ r.2, ¬ Unusable t d m) ∧
      (l.foldl (fun a r => addBody t d.comps a r.2) a).empty = a.empty + e.length ∧
      (l.foldl (fun a r => addBody t d.comps a r.2) a).unresolved = a.unresolved + u.length ∧
      (l.foldl (fun a r => addBody t d.comps a r.2) a).withSchema + (l.foldl (fun a r => addBody t d.comps a r.2) a).freeForm = a.withSchema + a.freeForm + k.length ∧
      (l.foldl (fun a r => addBody t d.comps a r.2) a).total = a.total + (e.length + u.length + k.length) := by
    intro l
    induction l with
    | nil => intro a; exact ⟨[], [], [], .refl _, by simp, by simp, by simp, by simp⟩
    | cons r l ih =>
      intro a
      obtain ⟨e, u, k, hp, h1, h2, h3, h4, h5, h6, h7⟩ := ih (addBody t d.comps a r.2)
      rw [List.foldl_cons]
      by_cases he : r.2 = []
      · have ha : addBody t d.comps a r.2 = { a with total := a.total + 1, empty := a.empty + 1 } := by rw [addBody, if_pos he]
        rw [ha] at h4 h5 h6 h7 ⊢
        refine ⟨r :: e, u, k, hp.cons r, ?_, h2, h3, ?_, h5, h6, ?_⟩
        · intro x hx; rcases List.mem_cons.1 hx with rfl | hx
          · exact he
          · exact h1 x hx
        · rw [h4]; simp only [List.length_cons]; omega
        · rw [h7]; simp only [List.length_cons]; omega
      · have hb := best_unresolved (t := t) (c := d.comps) r.2 .unresolved
        cases hbest : r.2.foldl (better t d.comps) .unresolved with
        | unresolved =>
          have ha : addBody t d.comps a r.2 = { a with total := a.total + 1, unresolved := a.unresolved + 1 } := by rw [addBody, if_neg he, hbest]
          rw [ha] at h4 h5 h6 h7 ⊢
          have hall := (hb.1 hbest).2
          refine ⟨e, r :: u, k, ?_, h1, ?_, h3, h4, ?_, h6, ?_⟩
          · refine List.Perm.trans ?_ (hp.cons r)
            simp only [List.append_assoc, List.cons_append]
            exact List.perm_middle
          · intro x hx; rcases List.mem_cons.1 hx with rfl | hx
            · exact ⟨he, fun m hm => (bodyState_iff hd).1 (hall m hm)⟩
            · exact h2 x hx
          · rw [h5]; simp only [List.length_cons]; omega
          · rw [h7]; simp only [List.length_cons]; omega
        | _ =>
          have hex : ∃ m ∈ r.2, ¬ Unusable t d m := by
            apply Classical.byContradiction
            intro hno
            have := hb.2 ⟨rfl, fun m hm => (bodyState_iff hd).2 (Classical.byContradiction fun h => hno ⟨m, hm, h⟩)⟩
            rw [hbest] at this; cases this
          have hk : ∀ x ∈ r :: k, ∃ m ∈ x.2, ¬ Unusable t d m := by
            intro x hx; rcases List.mem_cons.1 hx with rfl | hx
            · exact hex
            · exact h3 x hx
          have ha := (rfl : addBody t d.comps a r.2 = addBody t d.comps a r.2)
          conv at ha => rhs; rw [addBody, if_neg he, hbest]
          simp only at ha
          rw [ha] at h4 h5 h6 h7 ⊢
          refine ⟨e, u, r :: k, List.perm_middle.trans (hp.cons r), h1, h2, hk, h4, h5, ?_, ?_⟩
          · rw [h6]; simp only [List.length_cons]; omega
          · rw [h7]; simp only [List.length_cons]; omega
  obtain ⟨e, u, k, hp, h1, h2, h3, h4, h5, h6, h7⟩ := key (((ops d).flatMap (fun o => o.2.responses)).filter (fun r => decide (r.1 = s))) ⟨0, 0, 0, 0, 0⟩
  refine ⟨e, u, k, hp.trans (((ops_perm d).flatMap_right _).filter _), h1, h2, h3, ?_, ?_, ?_, ?_⟩
  · rw [statusBody, h4]; simp
  · rw [statusBody, h5]; simp
  · rw [statusBody, h6]; simp
  · rw [statusBody, h7]; simp

/-! ### Maps apart from described bodies -/

/-- The schema says that the body is an object with any keys, or a list of such. -/
inductive Free : Schema → Prop
  | map {s : Schema} (hr : ∀ n, n ≠ "" → s.ref ≠ refPrefix ++ n) (ht : s.typ = "object") (ha : s.addl ≠ [])
      (h : s.one = [] ∧ s.any = [] ∧ s.all = [] ∧ s.props = [] ∧ s.enums = []) : Free s
  | list {s i : Schema} {l : List Schema} (hr : ∀ n, n ≠ "" → s.ref ≠ refPrefix ++ n) (ht : s.typ = "array") (hi : s.items = i :: l) (h : Free i) : Free s

/-- A media type that documents a map. -/
def IsFree (m : String × Option Schema) : Prop := ∃ s, m.2 = some s ∧ Free s

mutual
theorem bodyOf_free (t : Text) (d : Doc) (hd : d.Wf) : ∀ s : Schema, bodyOf t d.comps s = .freeform ↔ Free s
  | .mk r de ty i a no p al o an e => by
    rw [bodyOf]
    by_cases href : ∃ n, n ≠ "" ∧ r = refPrefix ++ n
    · obtain ⟨n, hn, hr⟩ := href
      obtain ⟨st, h1, _, h3⟩ := refTarget_some (t := t) hd hn hr
      rw [h1]
      simp only
      refine ⟨fun h => absurd h h3, fun h => ?_⟩
      cases h with
      | map hr' _ _ _ => exact absurd hr (hr' n hn)
      | list hr' _ _ _ => exact absurd hr (hr' n hn)
    · have hno : ∀ n, n ≠ "" → r ≠ refPrefix ++ n := fun n hn e => href ⟨n, hn, e⟩
      rw [refTarget_none.2 hno]
      simp only
      by_cases ha : ty = "array"
      · rw [if_pos (isArr.2 ha), bodyItems_free t d hd i]
        constructor
        · rintro ⟨x, l, h, ho⟩; exact .list hno ha h ho
        · intro h
          cases h with
          | map _ ht _ _ => exact absurd (ha.symm.trans ht) (by decide)
          | list _ _ hi h => exact ⟨_, _, hi, h⟩
      · rw [if_neg (fun h => ha (isArr.1 h))]
        have hnot : (o = [] ∧ an = [] ∧ al = [] ∧ p = [] ∧ e = [] → ty = "object" → a ≠ [] → False) → ¬Free (.mk r de ty i a no p al o an e) := by
          intro hx h
          cases h with
          | map _ ht hadd hc => exact hx hc ht hadd
          | list _ ht _ _ => exact absurd ht ha
        by_cases hc : o = [] ∧ an = [] ∧ al = [] ∧ p = [] ∧ e = []
        · rw [if_neg (by simp [hc.1, hc.2.1, hc.2.2.1, hc.2.2.2.1, hc.2.2.2.2])]
          by_cases hob : ty = "object"
          · rw [if_pos (isObj.2 hob)]
            by_cases hadd : a = []
            · rw [if_pos (by simp [hadd])]
              exact ⟨fun h => (by cases h), fun h => absurd h (hnot (fun _ _ h => h hadd))⟩
            · rw [if_neg (by simpa using hadd)]
              exact ⟨fun _ => .map hno hob hadd hc, fun _ => rfl⟩
          · rw [if_neg (fun h => hob (isObj.1 h))]
            refine ⟨fun h => ?_, fun h => absurd h (hnot (fun _ h _ => hob h))⟩
            split at h <;> cases h
        · rw [if_pos (Classical.byContradiction fun h => hc (by simpa [and_assoc] using h))]
          exact ⟨fun h => (by cases h), fun h => absurd h (hnot (fun h _ _ => hc h))⟩
theorem bodyItems_free (t : Text) (d : Doc) (hd : d.Wf) : ∀ l : List Schema, bodyItems t d.comps l = .freeform ↔ ∃ x r, l = x :: r ∧ Free x
  | [] => by simp [bodyItems]
  | s :: l => by
    rw [bodyItems, bodyOf_free t d hd s]
    constructor
    · intro h; exact ⟨s, l, rfl, h⟩
    · rintro ⟨x, r, h, ho⟩; cases h; exact ho
end

theorem bodyState_free {t : Text} {d : Doc} (hd : d.Wf) {m : String × Option Schema} : bodyState t d.comps m.2 = .freeform ↔ IsFree m := by
  rw [IsFree]
  cases h : m.2 with
  | none => exact ⟨fun h => (by cases h), fun ⟨s, hs, _⟩ => (by cases hs)⟩
  | some s =>
    rw [bodyState, bodyOf_free t d hd]
    exact ⟨fun h => ⟨s, rfl, h⟩, fun ⟨x, e, h⟩ => (by cases e; exact h)⟩

theorem best_schema {t : Text} {c : List (String × Schema)} : ∀ (l : Content) (b : BodyState),
    l.foldl (better t c) b = .schema ↔ b = .schema ∨ ∃ m ∈ l, bodyState t c m.2 = .schema
  | [], b => by simp
  | m :: l, b => by
    rw [List.foldl_cons, best_schema l]
    have : better t c b m = .schema ↔ b = .schema ∨ bodyState t c m.2 = .schema := by
      rw [better]
      cases b <;> cases bodyState t c m.2 <;> simp [BodyState.rank]
    rw [this]
    simp only [List.mem_cons, exists_eq_or_imp, or_assoc]

/-- **C102, maps.**  Of the responses documented at a status, those with a media type that is neither unusable nor a map
are counted as described, and those without, but with a map, as free-form. -/
theorem C102_free (t : Text) (d : Doc) (hd : d.Wf) (s : String) :
    ∃ f k o : List (String × Content), (f ++ k ++ o).Perm ((d.all.flatMap (fun o => o.2.responses)).filter (fun r => decide (r.1 = s))) ∧
      (∀ r ∈ f, (∃ m ∈ r.2, IsFree m) ∧ ∀ m ∈ r.2, Unusable t d m ∨ IsFree m) ∧ (∀ r ∈ k, ∃ m ∈ r.2, ¬ Unusable t d m ∧ ¬ IsFree m) ∧
      (∀ r ∈ o, ∀ m ∈ r.2, Unusable t d m) ∧ (statusBody t d s).freeForm = f.length ∧ (statusBody t d s).withSchema = k.length := by
  have key : ∀ (l : List (String × Content)) (a : StatusBody), ∃ f k o : List (String × Content), (f ++ k ++ o).Perm l ∧
      (∀ r ∈ f, (∃ m ∈ r.2, IsFree m) ∧ ∀ m ∈ r.2, Unusable t d m ∨ IsFree m) ∧ (∀ r ∈ k, ∃ m ∈ r.2, ¬ Unusable t d m ∧ ¬ IsFree m) ∧
      (∀ r ∈ o, ∀ m ∈ r.2, Unusable t d m) ∧
      (l.foldl (fun a r => addBody t d.comps a r.2) a).freeForm = a.freeForm + f.length ∧
      (l.foldl (fun a r => addBody t d.comps a r.2) a).withSchema = a.withSchema + k.length := by
    intro l
    induction l with
    | nil => intro a; exact ⟨[], [], [], .refl _, by simp, by simp, by simp, by simp, by simp⟩
    | cons r l ih =>
      intro a
      obtain ⟨f, k, o, hp, h1, h2, h3, h4, h5⟩ := ih (addBody t d.comps a r.2)
      rw [List.foldl_cons]
      have isSchema : ∀ m : String × Option Schema, bodyState t d.comps m.2 = .schema ↔ ¬ Unusable t d m ∧ ¬ IsFree m := by
        intro m
        rw [← bodyState_iff hd, ← bodyState_free hd]
        cases bodyState t d.comps m.2 <;> simp
      have rest : (∀ m ∈ r.2, Unusable t d m) → (addBody t d.comps a r.2).freeForm = a.freeForm → (addBody t d.comps a r.2).withSchema = a.withSchema →
          ∃ f k o : List (String × Content), (f ++ k ++ o).Perm (r :: l) ∧
          (∀ r ∈ f, (∃ m ∈ r.2, IsFree m) ∧ ∀ m ∈ r.2, Unusable t d m ∨ IsFree m) ∧ (∀ r ∈ k, ∃ m ∈ r.2, ¬ Unusable t d m ∧ ¬ IsFree m) ∧
          (∀ r ∈ o, ∀ m ∈ r.2, Unusable t d m) ∧
          (l.foldl (fun a r => addBody t d.comps a r.2) (addBody t d.comps a r.2)).freeForm = a.freeForm + f.length ∧
          (l.foldl (fun a r => addBody t d.comps a r.2) (addBody t d.comps a r.2)).withSchema = a.withSchema + k.length := by
        intro hu e1 e2
        refine ⟨f, k, r :: o, List.perm_middle.trans (hp.cons r), h1, h2, ?_, by rw [h4, e1], by rw [h5, e2]⟩
        intro x hx; rcases List.mem_cons.1 hx with rfl | hx
        · exact hu
        · exact h3 x hx
      by_cases he : r.2 = []
      · have ha : addBody t d.comps a r.2 = { a with total := a.total + 1, empty := a.empty + 1 } := by rw [addBody, if_pos he]
        exact rest (fun m hm => by rw [he] at hm; cases hm) (by rw [ha]) (by rw [ha])
      · have hb := best_unresolved (t := t) (c := d.comps) r.2 .unresolved
        have hs := best_schema (t := t) (c := d.comps) r.2 .unresolved
        cases hbest : r.2.foldl (better t d.comps) .unresolved with
        | unresolved =>
          have ha : addBody t d.comps a r.2 = { a with total := a.total + 1, unresolved := a.unresolved + 1 } := by rw [addBody, if_neg he, hbest]
          exact rest (fun m hm => (bodyState_iff hd).1 ((hb.1 hbest).2 m hm)) (by rw [ha]) (by rw [ha])
        | schema =>
          have ha : addBody t d.comps a r.2 = { a with total := a.total + 1, withSchema := a.withSchema + 1 } := by rw [addBody, if_neg he, hbest]
          rw [ha] at h4 h5 ⊢
          have hm : ∃ m ∈ r.2, ¬ Unusable t d m ∧ ¬ IsFree m := by
            rcases hs.1 hbest with h | ⟨m, hm, h⟩
            · cases h
            · exact ⟨m, hm, (isSchema m).1 h⟩
          refine ⟨f, r :: k, o, ?_, h1, ?_, h3, h4, ?_⟩
          · refine List.Perm.trans ?_ (hp.cons r)
            simp only [List.append_assoc, List.cons_append]
            exact List.perm_middle
          · intro x hx; rcases List.mem_cons.1 hx with rfl | hx
            · exact hm
            · exact h2 x hx
          · rw [h5]; simp only [List.length_cons]; omega
        | freeform =>
          have ha : addBody t d.comps a r.2 = { a with total := a.total + 1, freeForm := a.freeForm + 1 } := by rw [addBody, if_neg he, hbest]
          rw [ha] at h4 h5 ⊢
          have hall : ∀ m ∈ r.2, Unusable t d m ∨ IsFree m := by
            intro m hm
            apply Classical.byContradiction
            intro hno
            have := hs.2 (.inr ⟨m, hm, (isSchema m).2 ⟨fun h => hno (.inl h), fun h => hno (.inr h)⟩⟩)
            rw [hbest] at this; cases this
          have hex : ∃ m ∈ r.2, IsFree m := by
            apply Classical.byContradiction
            intro hno
            have := hb.2 ⟨rfl, fun m hm => (bodyState_iff hd).2 ((hall m hm).resolve_right (fun h => hno ⟨m, hm, h⟩))⟩
            rw [hbest] at this; cases this
          refine ⟨r :: f, k, o, hp.cons r, ?_, h2, h3, ?_, h5⟩
          · intro x hx; rcases List.mem_cons.1 hx with rfl | hx
            · exact ⟨hex, hall⟩
            · exact h1 x hx
          · rw [h4]; simp only [List.length_cons]; omega
  obtain ⟨f, k, o, hp, h1, h2, h3, h4, h5⟩ := key (((ops d).flatMap (fun o => o.2.responses)).filter (fun r => decide (r.1 = s))) ⟨0, 0, 0, 0, 0⟩
  refine ⟨f, k, o, hp.trans (((ops_perm d).flatMap_right _).filter _), h1, h2, h3, ?_, ?_⟩
  · rw [statusBody, h4]; simp
  · rw [statusBody, h5]; simp

/-! ## The order of Go's maps -/

/-- Lists related member by member. -/
inductive Zip {α β : Type} (R : α → β → Prop) : List α → List β → Prop
  | nil : Zip R [] []
  | cons {a b l m} (h : R a b) (t : Zip R l m) : Zip R (a :: l) (b :: m)

/-- The same map in another order, whose values are related. -/
def SameMap {α : Type} (R : α → α → Prop) (a b : List α) : Prop := ∃ l, l.Perm a ∧ Zip R l b

/-- The same operation, with the maps in another order. -/
structure SameOp (a b : Op) : Prop where
  method : a.method = b.method
  tags : a.tags = b.tags
  params : a.params = b.params
  security : a.security = b.security
  noBody : a.body = none ↔ b.body = none
  body : ∀ c c', a.body = some c → b.body = some c' → c.Perm c'
  responses : SameMap (fun r s => r.1 = s.1 ∧ r.2.Perm s.2) a.responses b.responses

/-- The same document, with the maps in another order. -/
structure SameDoc (a b : Doc) : Prop where
  paths : SameMap (fun p q => p.1 = q.1 ∧ Zip SameOp p.2 q.2) a.paths b.paths
  comps : a.comps.Perm b.comps
  security : a.security = b.security

theorem Zip.mapEq {α β γ : Type} {R : α → β → Prop} {f : α → γ} {g : β → γ} (h : ∀ a b, R a b → f a = g b) {l : List α} {m : List β} (z : Zip R l m) : l.map f = m.map g := by
  induction z with
  | nil => rfl
  | cons hr _ ih => rw [List.map_cons, List.map_cons, h _ _ hr, ih]

theorem Zip.flatPerm {α β γ : Type} {R : α → β → Prop} {f : α → List γ} {g : β → List γ} (h : ∀ a b, R a b → (f a).Perm (g b)) {l : List α} {m : List β} (z : Zip R l m) : (l.flatMap f).Perm (m.flatMap g) := by
  induction z with
  | nil => exact .refl _
  | cons hr _ ih => exact (h _ _ hr).append ih

theorem Zip.append {α β : Type} {R : α → β → Prop} {a : List α} {b : List β} {l : List α} {m : List β} (z : Zip R a b) (w : Zip R l m) : Zip R (a ++ l) (b ++ m) := by
  induction z with
  | nil => exact w
  | cons h _ ih => exact .cons h ih

theorem same_all {d e : Doc} (h : SameDoc d e) : SameMap (fun p q => p.1 = q.1 ∧ SameOp p.2 q.2) d.all e.all := by
  obtain ⟨l, hp, z⟩ := h.paths
  refine ⟨l.flatMap (fun p => p.2.map (fun o => (p.1, o))), hp.flatMap_right _, ?_⟩
  rw [Doc.all]
  generalize e.paths = m at z
  clear hp h
  induction z with
  | nil => exact .nil
  | cons hr _ ih =>
    rename_i p q l m _
    refine Zip.append ?_ ih
    obtain ⟨pn, a⟩ := p
    obtain ⟨qn, b⟩ := q
    obtain ⟨he, hz⟩ := hr
    simp only at he hz ⊢
    clear ih
    induction hz with
    | nil => exact .nil
    | cons ho _ ih => exact .cons ⟨he, ho⟩ ih

theorem lookup_perm {a b : List (String × Schema)} (ha : (a.map Prod.fst).Nodup) (h : a.Perm b) (n : String) : a.lookup n = b.lookup n := by
  have hb := (h.map Prod.fst).nodup_iff.1 ha
  cases hl : b.lookup n with
  | none =>
    cases hla : a.lookup n with
    | none => rfl
    | some c => exact absurd (h.mem_iff.1 (lookup_mem hla)) (lookup_none hl c)
  | some c => exact mem_lookup ha (h.mem_iff.2 (lookup_mem hl))

theorem same_issues {t : Text} {d e : Doc} (hd : d.Wf) (h : SameDoc d e) {p : String} {a b : Op} (ho : SameOp a b) :
    (opIssues t d.comps p a).Perm (opIssues t e.comps p b) := by
  have hl := lookup_perm hd h.comps
  have hri : ∀ m p w s, refIssues t d.comps m p w s = refIssues t e.comps m p w s := by
    intro m p w s
    have : ∀ n, refIssue t d.comps m p w n = refIssue t e.comps m p w n := fun n => by simp only [refIssue, hl]
    rw [refIssues, refIssues, funext this]
  obtain ⟨l, hp, z⟩ := ho.responses
  have hkeys : (a.responses.map Prod.fst).Perm (b.responses.map Prod.fst) := by
    rw [← z.mapEq (f := Prod.fst) (g := Prod.fst) (fun _ _ h => h.1)]
    exact (hp.map _).symm
  have hnil : a.responses = [] ↔ b.responses = [] := by
    constructor
    · intro h; rw [h] at hkeys; simpa using hkeys.symm.eq_nil
    · intro h; rw [h] at hkeys; simpa using hkeys.eq_nil
  simp only [opIssues, hri]
  refine List.Perm.append (List.Perm.append (List.Perm.append (List.Perm.append ?_ ?_) ?_) ?_) ?_
  · simp only [hnil, ho.method]; exact .refl _
  · cases hb : a.body with
    | none => rw [ho.noBody.1 hb]
    | some c =>
      cases hb' : b.body with
      | none => rw [ho.noBody.2 hb'] at hb; cases hb
      | some c' => rw [ho.method]; exact (ho.body c c' hb hb').flatMap_right _
  · refine (hp.symm.flatMap_right _).trans ?_
    refine z.flatPerm ?_
    rintro ⟨s, c⟩ ⟨s', c'⟩ ⟨he, hc⟩
    simp only at he hc ⊢
    subst he
    rw [ho.method]
    exact hc.flatMap_right _
  · simp only [hkeys.mem_iff, ho.method]; exact .refl _
  · rw [ho.method, ho.params]

theorem same_flat {d e : Doc} (h : SameDoc d e) {γ : Type} {f g : String × Op → List γ} (hf : ∀ p a b, SameOp a b → (f (p, a)).Perm (g (p, b))) :
    (d.all.flatMap f).Perm (e.all.flatMap g) := by
  obtain ⟨l, hp, z⟩ := same_all h
  refine (hp.symm.flatMap_right _).trans (z.flatPerm ?_)
  rintro ⟨p, a⟩ ⟨q, b⟩ ⟨he, ho⟩
  simp only at he ho
  subst he
  exact hf p a b ho

theorem same_map {d e : Doc} (h : SameDoc d e) {γ : Type} {f g : String × Op → γ} (hf : ∀ p a b, SameOp a b → f (p, a) = g (p, b)) :
    (d.all.map f).Perm (e.all.map g) := by
  obtain ⟨l, hp, z⟩ := same_all h
  rw [← z.mapEq (f := f) (g := g)]
  · exact hp.symm.map _
  · rintro ⟨p, a⟩ ⟨q, b⟩ ⟨he, ho⟩
    simp only at he ho
    subst he
    exact hf p a b ho

theorem classify_perm {a b : List Issue} (h : a.Perm b) : classify a = classify b := by
  have : ∀ p : Issue → Bool, a.any p = b.any p := fun p => by
    rw [Bool.eq_iff_iff, List.any_eq_true, List.any_eq_true]
    exact ⟨fun ⟨x, hx, hp⟩ => ⟨x, h.mem_iff.1 hx, hp⟩, fun ⟨x, hx, hp⟩ => ⟨x, h.mem_iff.2 hx, hp⟩⟩
  simp only [classify, this]

theorem fold_states {α : Type} (f : α → Resolved) : ∀ (l : List α) (r : Resolution), l.foldl (fun a o => addState a (f o)) r =
    ⟨r.full + (l.map f).countP (fun s => decide (s = .full)), r.partly + (l.map f).countP (fun s => decide (s = .partly)), r.broken + (l.map f).countP (fun s => decide (s = .broken))⟩
  | [], r => rfl
  | x :: l, r => by
    rw [List.foldl_cons, fold_states f l]
    cases hf : f x <;> simp [addState, hf, List.countP_cons] <;> omega

/-- **C102, the same every time.**  The tables, the states, the score and the security counts do not depend on
the order in which this run goes through the maps, and the issues are the same ones. -/
theorem C102_deterministic_partial (t : Text) (d e : Doc) (hd : d.Wf) (h : SameDoc d e) :
    byMethod d = byMethod e ∧ byTag d = byTag e ∧ byStatus d = byStatus e ∧ byContent d = byContent e ∧
    resolution t d = resolution t e ∧ clean t d = clean t e ∧ byScheme d = byScheme e ∧ (issues t d).Perm (issues t e) := by
  have viaTable : ∀ (b : Bool) (l l' : List String), l.Perm l' → sortedCounts b (tally l) = sortedCounts b (tally l') := fun b l l' hp => (C102_table l' b).2.2.2 l hp
  have hiss : ((ops d).flatMap (fun o => opIssues t d.comps o.1 o.2)).Perm ((ops e).flatMap (fun o => opIssues t e.comps o.1 o.2)) := by
    refine ((ops_perm d).flatMap_right _).trans (List.Perm.trans ?_ ((ops_perm e).flatMap_right _).symm)
    exact same_flat h fun p a b ho => same_issues hd h ho
  have hst : ((ops d).map (fun o => classify (opIssues t d.comps o.1 o.2))).Perm ((ops e).map (fun o => classify (opIssues t e.comps o.1 o.2))) := by
    refine ((ops_perm d).map _).trans (List.Perm.trans ?_ ((ops_perm e).map _).symm)
    exact same_map h fun p a b ho => classify_perm (same_issues hd h ho)
  have hres : resolution t d = resolution t e := by
    rw [resolution, resolution, fold_states, fold_states, hst.countP_eq, hst.countP_eq, hst.countP_eq]
  have hew : e.Wf := (h.comps.map Prod.fst).nodup_iff.1 hd
  refine ⟨?_, ?_, ?_, ?_, hres, ?_, ?_, ?_⟩
  · refine viaTable _ _ _ (((ops_perm d).map _).trans (List.Perm.trans ?_ ((ops_perm e).map _).symm))
    exact same_map h fun p a b ho => ho.method
  · refine viaTable _ _ _ (((ops_perm d).flatMap_right _).trans (List.Perm.trans ?_ ((ops_perm e).flatMap_right _).symm))
    exact same_flat h fun p a b ho => by simp only [ho.tags]; exact .refl _
  · refine viaTable _ _ _ (((ops_perm d).flatMap_right _).trans (List.Perm.trans ?_ ((ops_perm e).flatMap_right _).symm))
    refine same_flat h fun p a b ho => ?_
    obtain ⟨l, hp, z⟩ := ho.responses
    simp only
    rw [← z.mapEq (f := Prod.fst) (g := Prod.fst) (fun _ _ h => h.1)]
    exact (hp.map _).symm
  · refine viaTable _ _ _ (((ops_perm d).flatMap_right _).trans (List.Perm.trans ?_ ((ops_perm e).flatMap_right _).symm))
    refine same_flat h fun p a b ho => ?_
    simp only [contentTypes]
    refine List.Perm.append ?_ ?_
    · cases hb : a.body with
      | none => rw [ho.noBody.1 hb]
      | some c =>
        cases hb' : b.body with
        | none => rw [ho.noBody.2 hb'] at hb; cases hb
        | some c' => exact (ho.body c c' hb hb').map _
    · obtain ⟨l, hp, z⟩ := ho.responses
      refine (hp.symm.flatMap_right _).trans (z.flatPerm ?_)
      rintro ⟨s, c⟩ ⟨s', c'⟩ ⟨_, hc⟩
      exact hc.map _
  · obtain ⟨b, p, u, _, _, _, _, h5, h6⟩ := C102_resolution t d hd
    obtain ⟨b', p', u', _, _, _, _, h5', h6'⟩ := C102_resolution t e hew
    rw [h5, h5'] at hres
    simp only [Resolution.mk.injEq] at hres
    rw [h6, h6']; omega
  · refine viaTable _ _ _ ?_
    have huses : ∀ x : Doc, ∀ (l : List Op) (st : Sec), (l.foldl (secStep x.security) st).uses = st.uses ++ l.flatMap (fun o => (secStep x.security ⟨0, 0, 0, []⟩ o).uses) := by
      intro x l
      induction l with
      | nil => intro st; simp
      | cons o l ih =>
        intro st
        rw [List.foldl_cons, ih, List.flatMap_cons, ← List.append_assoc]
        congr 1
        simp only [secStep]
        split
        · simp
        · simp only [secStep.secEff]; split
          · simp
          · split <;> simp
        · simp only [secStep.secEff]; split
          · simp
          · split <;> simp
    have hflat : ∀ x : Doc, (security x).uses = x.all.flatMap (fun o => (secStep x.security ⟨0, 0, 0, []⟩ o.2).uses) := by
      intro x
      rw [security, huses]
      simp [Doc.all, List.flatMap_assoc, List.flatMap_map]
    rw [hflat, hflat]
    refine same_flat h fun p a b ho => ?_
    simp only [secStep, ho.security, h.security]
    exact .refl _
  · exact (isort_perm _ _).trans (hiss.trans (isort_perm _ _).symm)

/-! ## A document -/

def refTo (n : String) : Schema := .mk (refPrefix ++ n) "" "" [] [] [] [] [] [] [] []
def listOf (s : Schema) : Schema := .mk "" "" "array" [s] [] [] [] [] [] [] []
def bare : Schema := .mk "" "" "object" [] [] [] [] [] [] [] []

def noText : Text := ⟨fun s => decide (s = "placeholder")⟩

/-- `GET /users` returns a list of users, `POST /users` takes a body of a type that was not found. -/
def getUsers : Op := ⟨"GET", ["users"], none, [("200", [("application/json", some (listOf (refTo "User")))]), ("404", [])], [], none⟩
def postUsers : Op := ⟨"POST", ["users"], some [("application/json", some (refTo "Gone"))], [("201", []), ("default", [])], [], some [["bearer"]]⟩
def users : Doc := ⟨[("/users", [getUsers, postUsers])], [("User", .mk "" "" "object" [] [] [] [bare] [] [] [] [])], []⟩

theorem users_wf : users.Wf := by unfold Doc.Wf; decide
example : Names (listOf (refTo "User")) "User" := ⟨refTo "User", .deeper (by simp [Schema.parts, listOf, Schema.items]) (.self _), rfl⟩
example : Broken noText users postUsers :=
  .inr ⟨refTo "Gone", "Gone", .inl ⟨_, "application/json", rfl, by simp⟩, ⟨_, .self _, rfl⟩, .inl (by simp [users])⟩
example : ¬ Anonymous users postUsers ∧ Anonymous users getUsers := by
  refine ⟨?_, .inl rfl⟩
  rintro (h | h) <;> simp [Doc.inForce, postUsers] at h
example : Opaque noText users bare := .bare (by intro n _ h; have := congrArg String.length h; simp [bare, Schema.ref] at this; have h21 : refPrefix.length = 21 := (by decide); omega) (.inl ⟨rfl, rfl⟩) ⟨rfl, rfl, rfl, rfl, rfl⟩

/-- An operation with two statuses that both name missing components. -/
def twoMissing : Op := ⟨"GET", [], none, [("200", [("application/json", some (refTo "A"))]), ("404", [("application/json", some (refTo "B"))])], [], none⟩
def twoMissing' : Op := ⟨"GET", [], none, [("404", [("application/json", some (refTo "B"))]), ("200", [("application/json", some (refTo "A"))])], [], none⟩

theorem two_same : SameDoc ⟨[("/x", [twoMissing])], [], []⟩ ⟨[("/x", [twoMissing'])], [], []⟩ := by
  refine ⟨⟨_, .refl _, .cons ⟨rfl, .cons ⟨rfl, rfl, rfl, rfl, Iff.rfl, ?_, ?_⟩ .nil⟩ .nil⟩, .refl _, rfl⟩
  · intro c c' h; cases h
  · exact ⟨_, List.Perm.swap .., .cons ⟨rfl, .refl _⟩ (.cons ⟨rfl, .refl _⟩ .nil)⟩

theorem dedup_one (n : String) : dedup [n] = [n] := rfl

theorem walk_refTo (n : String) : walk (refTo n) = [n] := by
  have : refName (refPrefix ++ n) = some n := refName_iff.2 rfl
  simp [walk, walks, refTo, this]

theorem wrapper_refTo (n : String) : isWrapper (some (refTo n)) = false := by simp [isWrapper, refTo, Schema.all]
theorem walk_bare : walk bare = [] := by
  have : refName "" = none := by decide
  simp [walk, walks, bare, this]

/-- **C102 fails for the order of the issues**: the sort goes by severity, path and method only, so the issues of
one operation stay in the order of Go's map of responses, which changes from run to run. -/
theorem C102_issue_order : ∃ d e : Doc, d.Wf ∧ SameDoc d e ∧ issues noText d ≠ issues noText e := by
  refine ⟨_, _, by unfold Doc.Wf; simp, two_same, ?_⟩
  have h1 : issues noText ⟨[("/x", [twoMissing])], [], []⟩ = [⟨"warn", "dangling-ref", "GET", "/x", "A", "response 200"⟩, ⟨"warn", "dangling-ref", "GET", "/x", "B", "response 404"⟩] := by
    have : opIssues noText [] "/x" twoMissing = [⟨"warn", "dangling-ref", "GET", "/x", "A", "response 200"⟩, ⟨"warn", "dangling-ref", "GET", "/x", "B", "response 404"⟩] := by
      simp [opIssues, twoMissing, refIssues, schemaRefs, walk_refTo, dedup_one, refIssue, wrapper_refTo]
    simp [issues, ops, isort, insertBy, this, issueLe, strLe]
  have h2 : issues noText ⟨[("/x", [twoMissing'])], [], []⟩ = [⟨"warn", "dangling-ref", "GET", "/x", "B", "response 404"⟩, ⟨"warn", "dangling-ref", "GET", "/x", "A", "response 200"⟩] := by
    have : opIssues noText [] "/x" twoMissing' = [⟨"warn", "dangling-ref", "GET", "/x", "B", "response 404"⟩, ⟨"warn", "dangling-ref", "GET", "/x", "A", "response 200"⟩] := by
      simp [opIssues, twoMissing', refIssues, schemaRefs, walk_refTo, dedup_one, refIssue, wrapper_refTo]
    simp [issues, ops, isort, insertBy, this, issueLe, strLe]
  rw [h1, h2]
  decide

/-- **C102 fails for bodies that were not resolved**: whatever the schemas of its bodies, a bare object included,
an operation without references, with a response and without a default one counts as fully resolved; the issue
`missing-body` that is counted as partial is never raised. -/
theorem C102_missing_body_unseen (t : Text) (c : List (String × Schema)) (p : String) (o : Op) : ∀ i ∈ opIssues t c p o, i.kind ≠ "missing-body" := by
  intro i hi
  rcases opIssues_kinds hi with hw | hw
  · rcases hw.2 with e | e | e <;> rw [e] <;> decide
  · rcases hw.2 with e | e <;> rw [e] <;> decide

/-- `POST` with a request body whose type collapsed to an object. -/
example : classify (opIssues noText [] "/x" ⟨"POST", [], some [("application/json", some bare)], [("200", [("application/json", some bare)])], [], none⟩) = .full := by
  have hw : isWrapper (some bare) = false := by simp [isWrapper, bare, Schema.all]
  simp [opIssues, refIssues, schemaRefs, walk_bare, show dedup ([] : List String) = [] from rfl, hw, classify]

/-- **C102 fails for the number of functions**: every method is counted twice, because the types of a package are
those of its files. -/
theorem C102_methods_twice (pkgs : List GoPkg) (h : ∀ p ∈ pkgs, p.types.Perm (p.files.flatMap Prod.snd)) :
    functions pkgs = (pkgs.map (fun p => (p.files.map Prod.fst).sum)).sum + 2 * (pkgs.map (fun p => ((p.files.flatMap Prod.snd).map GoType.methods).sum)).sum := by
  have hfile : ∀ l : List (Nat × List GoType), (l.map (fun f => f.1 + (f.2.map GoType.methods).sum)).sum = (l.map Prod.fst).sum + ((l.flatMap Prod.snd).map GoType.methods).sum := by
    intro l
    induction l with
    | nil => rfl
    | cons f l ih => simp only [List.map_cons, List.sum_cons, ih, List.flatMap_cons, List.map_append, List.sum_append_nat]; omega
  induction pkgs with
  | nil => rfl
  | cons p l ih =>
    have ih := ih fun q hq => h q (List.mem_cons_of_mem _ hq)
    have hp : (p.types.map GoType.methods).sum = ((p.files.flatMap Prod.snd).map GoType.methods).sum := ((h p (List.mem_cons_self ..)).map _).sum_nat
    have e : functions (p :: l) = (p.files.map (fun f => f.1 + (f.2.map GoType.methods).sum)).sum + (p.types.map GoType.methods).sum + functions l := by
      simp [functions]
    rw [e, ih, hfile, hp]
    simp only [List.map_cons, List.sum_cons]
    omega

/-- One function and one type with three methods: seven. -/
example : functions [⟨[(1, [⟨false, "app", "Handler", 3, 0⟩])], [⟨false, "app", "Handler", 3, 0⟩]⟩] = 7 := by decide

/-- **C102, interfaces.**  Every interface is counted once, by package and name. -/
theorem C102_interfaces (pkgs : List GoPkg) :
    ((interfaces pkgs).map (fun t => (t.pkg, t.name))).Nodup ∧
    ∀ k, k ∈ (interfaces pkgs).map (fun t => (t.pkg, t.name)) ↔ ∃ p ∈ pkgs, ∃ t, (t ∈ p.types ∨ ∃ f ∈ p.files, t ∈ f.2) ∧ t.isInterface = true ∧ (t.pkg, t.name) = k := by
  refine ⟨dedupBy_nodup _ _, fun k => ?_⟩
  rw [interfaces, mem_map_dedupBy, List.mem_map]
  simp only [List.mem_filter, visited, List.mem_flatMap, List.mem_append]
  constructor
  · rintro ⟨t, ⟨⟨p, hp, h⟩, hi⟩, e⟩
    refine ⟨p, hp, t, ?_, hi, e⟩
    rcases h with ⟨f, hf, ht⟩ | h
    · exact .inr ⟨f, hf, ht⟩
    · exact .inl h
  · rintro ⟨p, hp, t, h, hi, e⟩
    refine ⟨t, ⟨⟨p, hp, ?_⟩, hi⟩, e⟩
    rcases h with h | ⟨f, hf, ht⟩
    · exact .inr h
    · exact .inl ⟨f, hf, ht⟩

def storeA : GoPkg := ⟨[(0, [⟨true, "app/user/store", "Store", 0, 2⟩])], []⟩
def storeB : GoPkg := ⟨[(0, [⟨true, "app/order/store", "Store", 0, 5⟩])], []⟩

/-- **C102 fails for interfaces of like packages**: `user/store.Store` and `order/store.Store` share the row
`store.Store`; the number in it is that of the package visited last, so it changes from run to run. -/
theorem C102_same_label : ambiguous [storeA, storeB] = [⟨"store.Store", 5⟩] ∧ ambiguous [storeB, storeA] = [⟨"store.Store", 2⟩] := by
  constructor <;> decide +kernel

/-- A list of maps. -/
example : Free (.mk "" "" "array" [.mk "" "" "object" [] [.mk "" "" "string" [] [] [] [] [] [] [] []] [] [] [] [] [] []] [] [] [] [] [] [] []) := by
  have h : ∀ n, n ≠ "" → "" ≠ refPrefix ++ n := by
    intro n _ h; have := congrArg String.length h; simp at this; have h21 : refPrefix.length = 21 := (by decide); omega
  exact .list h rfl rfl (.map h rfl (by simp [Schema.addl]) ⟨rfl, rfl, rfl, rfl, rfl⟩)

end Verif.Overview
