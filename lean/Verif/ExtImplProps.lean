/-
C92: the types that implement an interface declared outside the analyzed packages are found.
-/
import Verif.ExtImplModel
import Verif.ImplProps

namespace Verif.ExtImpl
open Verif.Common

/-! ## Specification -/

/-- The type is an interface with methods, not of an analyzed package; `k` is its name as written,
with the path of its package. -/
def IsExternal (g : Types) (analyzed : String → Bool) (t : Nat) (k : String) : Prop :=
  ∃ pkg name n, g t = .named pkg name (some (n + 1)) ∧
    (pkg = none ∧ k = name ∨ ∃ p, pkg = some p ∧ analyzed p = false ∧ k = p ++ "." ++ name)

/-- `b` is written in `a`: a parameter or result of a signature, what a pointer points to, an element,
a key. -/
inductive Part (g : Types) : Nat → Nat → Prop
  | param {a ps rs b} : g a = .sig ps rs → b ∈ ps → Part g a b
  | result {a ps rs b} : g a = .sig ps rs → b ∈ rs → Part g a b
  | elem {a b} : g a = .elem b → Part g a b
  | key {a k v} : g a = .map k v → Part g a k
  | value {a k v} : g a = .map k v → Part g a v

/-- `b` is written in `a`, `n` levels down. -/
inductive Path (g : Types) : Nat → Nat → Nat → Prop
  | here {a} : Path g 0 a a
  | down {n a b c} : Path g n a b → Part g b c → Path g (n + 1) a c

/-- The interface with this name is one: no two referenced interfaces share it. -/
def OneOf (g : Types) (analyzed : String → Bool) (refs : List Nat) (i : Nat) (k : String) : Prop :=
  ∀ r ∈ refs, ∀ n j, Path g n r j → IsExternal g analyzed j k → j = i

/-- The metadata has a record for the type `name` of the analyzed package `pkg`, declared as `t`. -/
def Recorded (analyzed : String → Bool) (m : Meta) (pkg name : String) (r : Rec) : Prop :=
  ∃ ts, (pkg, ts) ∈ m ∧ analyzed pkg = true ∧ (name, r) ∈ ts

/-! ## The walk -/

variable {g : Types} {analyzed : String → Bool}

theorem mem_put {m : List (String × Nat)} {k k' : String} {i j : Nat} :
    (k', j) ∈ put m k i ↔ (k' = k ∧ j = i) ∨ ((k', j) ∈ m ∧ k' ≠ k) := by
  simp [put]

theorem keys_put {m : List (String × Nat)} {k k' : String} {i : Nat} :
    (∃ j, (k', j) ∈ put m k i) ↔ k' = k ∨ ∃ j, (k', j) ∈ m := by
  simp only [mem_put]
  constructor
  · rintro ⟨j, ⟨h, -⟩ | ⟨h, -⟩⟩
    · exact .inl h
    · exact .inr ⟨j, h⟩
  · intro h
    by_cases hk : k' = k
    · exact ⟨i, .inl ⟨hk, rfl⟩⟩
    · rcases h with h | ⟨j, h⟩
      · exact absurd h hk
      · exact ⟨j, .inr ⟨h, hk⟩⟩

/-- What the walk keeps true of what it has collected. -/
structure Inv (g : Types) (analyzed : String → Bool) (refs : List Nat) (s : St) : Prop where
  got : ∀ t ∈ s.seen, ∀ k, IsExternal g analyzed t k → ∃ j, (k, j) ∈ s.external
  real : ∀ k j, (k, j) ∈ s.external → IsExternal g analyzed j k ∧ ∃ r ∈ refs, ∃ n, n ≤ 4 ∧ Path g n r j
  nodup : (s.external.map Prod.fst).Nodup

/-- What one visit adds: everything new is complete, unless it is four levels down. -/
structure Grow (g : Types) (refs : List Nat) (s s' : St) : Prop where
  mono : ∀ x ∈ s.seen, x ∈ s'.seen
  full : ∀ x ∈ s'.seen, x ∉ s.seen → (∃ r ∈ refs, Path g 4 r x) ∨ ∀ y, Part g x y → y ∈ s'.seen

theorem Grow.refl {refs : List Nat} {s : St} : Grow g refs s s := ⟨fun _ h => h, fun _ h h' => absurd h h'⟩

theorem Grow.trans {refs : List Nat} {a b c : St} (h : Grow g refs a b) (h' : Grow g refs b c) : Grow g refs a c := by
  refine ⟨fun x hx => h'.mono x (h.mono x hx), fun x hx hn => ?_⟩
  by_cases hb : x ∈ b.seen
  · rcases h.full x hb hn with h1 | h1
    · exact .inl h1
    · exact .inr fun y hy => h'.mono y (h1 y hy)
  · exact h'.full x hx hb

theorem keyOf_eq {pkg : Option String} {name k : String} :
    keyOf analyzed pkg name = some k ↔ (pkg = none ∧ k = name ∨ ∃ p, pkg = some p ∧ analyzed p = false ∧ k = p ++ "." ++ name) := by
  cases pkg with
  | none =>
    show some name = some k ↔ _
    constructor
    · intro h; injection h with h; exact .inl ⟨rfl, h.symm⟩
    · rintro (⟨_, rfl⟩ | ⟨_, h, _⟩)
      · rfl
      · cases h
  | some p =>
    show (if analyzed p = true then none else some (p ++ "." ++ name)) = some k ↔ _
    constructor
    · intro h
      cases ha : analyzed p with
      | true => rw [ha] at h; cases h
      | false => rw [ha] at h; injection h with h; exact .inr ⟨p, rfl, ha, h.symm⟩
    · rintro (⟨h, _⟩ | ⟨_, h, ha, rfl⟩)
      · cases h
      · injection h with h; subst h; rw [ha]; rfl

theorem nodup_put {m : List (String × Nat)} {k : String} {i : Nat} (h : (m.map Prod.fst).Nodup) : ((put m k i).map Prod.fst).Nodup := by
  simp only [put, List.map_cons, List.nodup_cons, List.mem_map, List.mem_filter]
  refine ⟨?_, ?_⟩
  · rintro ⟨e, ⟨_, h1⟩, h2⟩; simp [h2] at h1
  · exact (List.Sublist.map _ (List.filter_sublist)).nodup h

theorem named_inv {refs : List Nat} {s : St} (hi : Inv g analyzed refs s) {t : Nat} {pkg name methods} (hg : g t = .named pkg name methods)
    (hp : ∃ r ∈ refs, ∃ n, n ≤ 4 ∧ Path g n r t) :
    Inv g analyzed refs (considerNamed analyzed { s with seen := t :: s.seen } t pkg name methods) ∧
    (considerNamed analyzed { s with seen := t :: s.seen } t pkg name methods).seen = t :: s.seen := by
  have none_case : (∀ k, ¬ IsExternal g analyzed t k) → Inv g analyzed refs { s with seen := t :: s.seen } := by
    intro hno
    refine ⟨?_, hi.real, hi.nodup⟩
    intro x hx k hk
    rcases List.mem_cons.1 hx with rfl | hx
    · exact absurd hk (hno k)
    · exact hi.got x hx k hk
  unfold considerNamed
  split
  · refine ⟨none_case ?_, rfl⟩
    rintro k ⟨_, _, _, h, _⟩
    rw [hg] at h; simp at h
  · refine ⟨none_case ?_, rfl⟩
    rintro k ⟨_, _, _, h, _⟩
    rw [hg] at h; simp at h
  · rename_i n
    split
    · rename_i hk
      refine ⟨none_case ?_, rfl⟩
      rintro k ⟨_, _, _, h, h'⟩
      rw [hg] at h
      injection h with h1 h2 h3
      subst h1 h2
      rw [← keyOf_eq (analyzed := analyzed), hk] at h'
      cases h'
    · rename_i k hk
      have he : IsExternal g analyzed t k := ⟨pkg, name, n, hg, keyOf_eq.1 hk⟩
      refine ⟨⟨?_, ?_, nodup_put hi.nodup⟩, rfl⟩
      · intro x hx k' hk'
        rw [keys_put]
        rcases List.mem_cons.1 hx with rfl | hx
        · left
          obtain ⟨_, _, _, h, h'⟩ := hk'
          rw [hg] at h
          injection h with h1 h2 h3
          subst h1 h2
          rw [← keyOf_eq (analyzed := analyzed), hk] at h'
          injection h' with h'; exact h'.symm
        · exact .inr (hi.got x hx k' hk')
      · intro k' j hm
        rcases mem_put.1 hm with ⟨rfl, rfl⟩ | ⟨hm, -⟩
        · exact ⟨he, hp⟩
        · exact hi.real k' j hm

theorem mark_inv {refs : List Nat} {s : St} (hi : Inv g analyzed refs s) {t : Nat} (hno : ∀ pkg name m, g t ≠ .named pkg name m) :
    Inv g analyzed refs { s with seen := t :: s.seen } := by
  refine ⟨?_, hi.real, hi.nodup⟩
  intro x hx k hk
  rcases List.mem_cons.1 hx with rfl | hx
  · obtain ⟨_, _, _, h, _⟩ := hk
    exact absurd h (hno _ _ _)
  · exact hi.got x hx k hk

/-- From the marked state to the end of a visit whose parts were all visited. -/
theorem grow_mark {refs : List Nat} {s s' : St} {t : Nat} (h : Grow g refs { s with seen := t :: s.seen } s')
    (hfull : (∃ r ∈ refs, Path g 4 r t) ∨ ∀ y, Part g t y → y ∈ s'.seen) : Grow g refs s s' ∧ t ∈ s'.seen := by
  refine ⟨⟨fun x hx => h.mono x (List.mem_cons_of_mem _ hx), fun x hx hn => ?_⟩, h.mono t (by simp)⟩
  by_cases hxt : x = t
  · subst hxt; exact hfull
  · exact h.full x hx (by simp [hxt, hn])

theorem consider_spec (refs : List Nat) : ∀ (n d : Nat) (s : St) (t : Nat), d + n = 5 → Inv g analyzed refs s → (∃ r ∈ refs, Path g d r t) →
    Inv g analyzed refs (consider g analyzed n s t) ∧ Grow g refs s (consider g analyzed n s t) ∧
    (n ≠ 0 → t ∈ (consider g analyzed n s t).seen) := by
  intro n
  induction n with
  | zero => intro d s t _ hi _; exact ⟨hi, Grow.refl, fun h => absurd rfl h⟩
  | succ n ih =>
    intro d s t hd hi hp
    obtain ⟨r, hr, hpath⟩ := hp
    unfold consider
    by_cases hs : t ∈ s.seen
    · rw [if_pos hs]; exact ⟨hi, Grow.refl, fun _ => hs⟩
    rw [if_neg hs]
    have fold : ∀ (l : List Nat) (s : St), Inv g analyzed refs s → (∀ y ∈ l, Part g t y) →
        Inv g analyzed refs (l.foldl (consider g analyzed n) s) ∧ Grow g refs s (l.foldl (consider g analyzed n) s) ∧
        (n ≠ 0 → ∀ y ∈ l, y ∈ (l.foldl (consider g analyzed n) s).seen) := by
      intro l
      induction l with
      | nil => intro s hi _; exact ⟨hi, Grow.refl, by simp⟩
      | cons y l ihl =>
        intro s hi hl
        obtain ⟨h1, h2, h3⟩ := ih (d + 1) s y (by omega) hi ⟨r, hr, .down hpath (hl y (by simp))⟩
        obtain ⟨h4, h5, h6⟩ := ihl _ h1 (fun z hz => hl z (by simp [hz]))
        refine ⟨h4, h2.trans h5, fun hn z hz => ?_⟩
        rcases List.mem_cons.1 hz with rfl | hz
        · exact h5.mono _ (h3 hn)
        · exact h6 hn z hz
    have four : n = 0 → ∃ r ∈ refs, Path g 4 r t := by
      intro h; have : d = 4 := by omega
      subst this; exact ⟨r, hr, hpath⟩
    have whole : ∀ (l : List Nat), (∀ y, Part g t y ↔ y ∈ l) → (∀ pkg name m, g t ≠ .named pkg name m) →
        Inv g analyzed refs (l.foldl (consider g analyzed n) { s with seen := t :: s.seen }) ∧
        Grow g refs s (l.foldl (consider g analyzed n) { s with seen := t :: s.seen }) ∧
        (n + 1 ≠ 0 → t ∈ (l.foldl (consider g analyzed n) { s with seen := t :: s.seen }).seen) := by
      intro l hl hno
      obtain ⟨h1, h2, h3⟩ := fold l _ (mark_inv hi hno) (fun y hy => (hl y).2 hy)
      have hfull : (∃ r ∈ refs, Path g 4 r t) ∨ ∀ y, Part g t y → y ∈ (l.foldl (consider g analyzed n) { s with seen := t :: s.seen }).seen := by
        by_cases hn : n = 0
        · exact .inl (four hn)
        · exact .inr fun y hy => h3 hn y ((hl y).1 hy)
      obtain ⟨h4, h5⟩ := grow_mark h2 hfull
      exact ⟨h1, h4, fun _ => h5⟩
    split
    · rename_i pkg name methods hg
      obtain ⟨h1, h2⟩ := named_inv hi hg ⟨r, hr, d, by omega, hpath⟩
      have hnp : ∀ y, ¬ Part g t y := by
        intro y hy
        cases hy <;> simp_all
      refine ⟨h1, ⟨fun x hx => by rw [h2]; exact List.mem_cons_of_mem _ hx, fun x hx hn => ?_⟩, fun _ => by rw [h2]; simp⟩
      rw [h2] at hx
      rcases List.mem_cons.1 hx with rfl | hx
      · exact .inr fun y hy => absurd hy (hnp y)
      · exact absurd hx hn
    · rename_i ps rs hg
      refine whole (ps ++ rs) (fun y => ?_) (by intro _ _ _ h; rw [hg] at h; cases h)
      constructor
      · intro hy
        cases hy with
        | param h h' => rw [hg] at h; injection h with h1 h2; subst h1; simp [h']
        | result h h' => rw [hg] at h; injection h with h1 h2; subst h2; simp [h']
        | elem h => rw [hg] at h; cases h
        | key h => rw [hg] at h; cases h
        | value h => rw [hg] at h; cases h
      · intro hy
        rcases List.mem_append.1 hy with h | h
        · exact .param hg h
        · exact .result hg h
    · rename_i e hg
      have := whole [e] (fun y => ?_) (by intro _ _ _ h; rw [hg] at h; cases h)
      · exact this
      · constructor
        · intro hy
          cases hy with
          | param h h' => rw [hg] at h; cases h
          | result h h' => rw [hg] at h; cases h
          | elem h => rw [hg] at h; injection h with h; simp [h]
          | key h => rw [hg] at h; cases h
          | value h => rw [hg] at h; cases h
        · intro hy; simp at hy; subst hy; exact .elem hg
    · rename_i k v hg
      have := whole [k, v] (fun y => ?_) (by intro _ _ _ h; rw [hg] at h; cases h)
      · exact this
      · constructor
        · intro hy
          cases hy with
          | param h h' => rw [hg] at h; cases h
          | result h h' => rw [hg] at h; cases h
          | elem h => rw [hg] at h; cases h
          | key h => rw [hg] at h; injection h with h1 h2; simp [h1]
          | value h => rw [hg] at h; injection h with h1 h2; simp [h2]
        · intro hy; simp at hy
          rcases hy with rfl | rfl
          · exact .key hg
          · exact .value hg
    · rename_i hg
      have := whole [] (fun y => ?_) (by intro _ _ _ h; rw [hg] at h; cases h)
      · exact this
      · constructor
        · intro hy
          cases hy with
          | param h h' => rw [hg] at h; cases h
          | result h h' => rw [hg] at h; cases h
          | elem h => rw [hg] at h; cases h
          | key h => rw [hg] at h; cases h
          | value h => rw [hg] at h; cases h
        · intro hy; simp at hy

theorem walk_spec (refs : List Nat) : ∀ (l : List Nat) (s : St), (∀ t ∈ l, t ∈ refs) → Inv g analyzed refs s →
    Inv g analyzed refs (l.foldl (consider g analyzed 5) s) ∧ Grow g refs s (l.foldl (consider g analyzed 5) s) ∧
    ∀ t ∈ l, t ∈ (l.foldl (consider g analyzed 5) s).seen := by
  intro l
  induction l with
  | nil => intro s _ hi; exact ⟨hi, Grow.refl, by simp⟩
  | cons t l ih =>
    intro s hl hi
    obtain ⟨h1, h2, h3⟩ := consider_spec refs 5 0 s t rfl hi ⟨t, hl t (by simp), .here⟩
    obtain ⟨h4, h5, h6⟩ := ih _ (fun x hx => hl x (by simp [hx])) h1
    refine ⟨h4, h2.trans h5, fun x hx => ?_⟩
    rcases List.mem_cons.1 hx with rfl | hx
    · exact h5.mono _ (h3 (by decide))
    · exact h6 x hx

theorem inv0 (refs : List Nat) : Inv g analyzed refs {} := ⟨by simp, by simp, by simp⟩

/-! ## The records -/

theorem mem_fold_addOne (impl : Nat → Nat → Bool) (t : Nat) (k : String) : ∀ (l : List (String × Nat)) (acc : List String),
    k ∈ l.foldl (addOne impl t) acc ↔ k ∈ acc ∨ ∃ i, (k, i) ∈ l ∧ impl t i = true := by
  intro l
  induction l with
  | nil => simp
  | cons e l ih =>
    intro acc
    simp only [List.foldl_cons, ih, List.mem_cons]
    have h : k ∈ addOne impl t acc e ↔ k ∈ acc ∨ (k = e.1 ∧ impl t e.2 = true) := by
      unfold addOne
      split
      · rename_i h
        split
        · rename_i h'
          constructor
          · exact .inl
          · rintro (h1 | ⟨rfl, _⟩)
            · exact h1
            · exact h'
        · simp [h]
      · rename_i h; simp [h]
    rw [h]
    clear h
    constructor
    · rintro ((h | ⟨rfl, h⟩) | ⟨i, h, h'⟩)
      · exact .inl h
      · exact .inr ⟨e.2, .inl rfl, h⟩
      · exact .inr ⟨i, .inr h, h'⟩
    · rintro (h | ⟨i, rfl | h, h'⟩)
      · exact .inl (.inl h)
      · exact .inl (.inr ⟨rfl, h'⟩)
      · exact .inr ⟨i, h, h'⟩

theorem mem_update (impl : Nat → Nat → Bool) (ext : List (String × Nat)) (r : Rec) (k : String) :
    k ∈ (update impl ext r).implements ↔ k ∈ r.implements ∨ ∃ t i, r.decl = some t ∧ (k, i) ∈ ext ∧ impl t i = true := by
  unfold update
  cases h : r.decl with
  | none => simp
  | some t =>
    simp only [mem_fold_addOne, sortedIfaces, (isort_perm _ _).mem_iff, Option.some.injEq]
    constructor
    · rintro (h | ⟨i, h, h'⟩)
      · exact .inl h
      · exact .inr ⟨t, i, rfl, h, h'⟩
    · rintro (h | ⟨_, i, rfl, h, h'⟩)
      · exact .inl h
      · exact .inr ⟨i, h, h'⟩

theorem mem_implementersOf (m : Meta) (k x : String) :
    x ∈ implementersOf m k ↔ k ≠ "" ∧ ∃ pkg ts name r, (pkg, ts) ∈ m ∧ (name, r) ∈ ts ∧ k ∈ r.implements ∧ x = pkg ++ "." ++ name := by
  unfold implementersOf
  split
  · rename_i h; simp [h]
  · rename_i h
    simp only [List.mem_flatMap, List.mem_map, List.mem_filter, (isort_perm _ _).mem_iff, List.contains_iff_mem]
    constructor
    · rintro ⟨⟨pkg, ts⟩, h1, ⟨name, r⟩, ⟨h2, h3⟩, rfl⟩
      exact ⟨h, pkg, ts, name, r, h1, h2, h3, rfl⟩
    · rintro ⟨_, pkg, ts, name, r, h1, h2, h3, rfl⟩
      exact ⟨(pkg, ts), h1, (name, r), ⟨h2, h3⟩, rfl⟩

theorem mem_analyze (impl : Nat → Nat → Bool) (refs : List Nat) (m : Meta) (k x : String) :
    x ∈ implementersOf (analyze g analyzed impl refs m) k ↔ k ≠ "" ∧ ∃ pkg ts name r, (pkg, ts) ∈ m ∧ (name, r) ∈ ts ∧
      x = pkg ++ "." ++ name ∧ (k ∈ r.implements ∨ analyzed pkg = true ∧ ∃ t i, r.decl = some t ∧ (k, i) ∈ collect g analyzed refs ∧ impl t i = true) := by
  rw [mem_implementersOf]
  refine and_congr_right fun _ => ?_
  unfold analyze
  constructor
  · rintro ⟨pkg, ts, name, r, h1, h2, h3, rfl⟩
    obtain ⟨⟨pkg', ts'⟩, h4, h5⟩ := List.mem_map.1 h1
    injection h5 with h5 h6
    simp only at h5 h6
    subst h5
    cases ha : analyzed pkg' with
    | false =>
      rw [ha] at h6; simp only [Bool.false_eq_true, if_false] at h6; subst h6
      exact ⟨pkg', ts', name, r, h4, h2, rfl, .inl h3⟩
    | true =>
      rw [ha] at h6; simp only [if_true] at h6; subst h6
      obtain ⟨⟨n', r'⟩, h7, h8⟩ := List.mem_map.1 h2
      injection h8 with h8 h9
      simp only at h8 h9
      subst h8 h9
      refine ⟨pkg', ts', n', r', h4, h7, rfl, ?_⟩
      rcases (mem_update impl _ r' k).1 h3 with h | h
      · exact .inl h
      · exact .inr ⟨ha, h⟩
  · rintro ⟨pkg, ts, name, r, h1, h2, rfl, h3⟩
    refine ⟨pkg, _, name, if analyzed pkg = true then update impl (collect g analyzed refs) r else r,
      List.mem_map.2 ⟨(pkg, ts), h1, rfl⟩, ?_, ?_, rfl⟩
    · cases ha : analyzed pkg with
      | false => simpa [ha] using h2
      | true =>
        simp only [ha, if_true]
        exact List.mem_map.2 ⟨(name, r), h2, rfl⟩
    · cases ha : analyzed pkg with
      | false =>
        simp only [ha, Bool.false_eq_true, if_false]
        rcases h3 with h | ⟨h, _⟩
        · exact h
        · rw [ha] at h; cases h
      | true =>
        simp only [ha, if_true]
        rw [mem_update]
        rcases h3 with h | ⟨_, h⟩
        · exact .inl h
        · exact .inr h

theorem collected (refs : List Nat) {i k} (hk : ∃ j, (k, j) ∈ collect g analyzed refs) (h1 : OneOf g analyzed refs i k) :
    (k, i) ∈ collect g analyzed refs := by
  obtain ⟨j, hj⟩ := hk
  obtain ⟨hi, -, -⟩ := walk_spec refs refs {} (fun _ h => h) (inv0 (g := g) (analyzed := analyzed) refs)
  obtain ⟨h2, r, hr, n, -, hp⟩ := hi.real k j hj
  rw [← h1 r hr n j hp h2]; exact hj

/-! ## The property -/

/-- **C92, an interface the code names (partial: no other interface of that name is referenced).**  When
the analyzed code refers to an interface of another package, every type of the analyzed packages that
implements it is among the implementers found - whatever the order of the references. -/
theorem C92_named_partial (g : Types) (analyzed : String → Bool) (impl : Nat → Nat → Bool) (refs : List Nat) (m : Meta)
    {i k pkg name r t} (hi : i ∈ refs) (he : IsExternal g analyzed i k) (hk : k ≠ "") (hone : OneOf g analyzed refs i k)
    (hr : Recorded analyzed m pkg name r) (ht : r.decl = some t) (himp : impl t i = true) :
    pkg ++ "." ++ name ∈ implementersOf (analyze g analyzed impl refs m) k := by
  obtain ⟨h1, -, h3⟩ := walk_spec refs refs {} (fun _ h => h) (inv0 (g := g) (analyzed := analyzed) refs)
  have := collected refs (h1.got i (h3 i hi) k he) hone
  obtain ⟨ts, hm, ha, hr⟩ := hr
  exact (mem_analyze impl refs m k _).2 ⟨hk, pkg, ts, name, r, hm, hr, rfl, .inr ⟨ha, t, i, ht, this, himp⟩⟩

/-- **C92, an interface in a signature (partial).**  The same for an interface that is only a parameter or
result of a function the code refers to, provided the function's type is not itself written four
levels down in another referenced type. -/
theorem C92_signature_partial (g : Types) (analyzed : String → Bool) (impl : Nat → Nat → Bool) (refs : List Nat) (m : Meta)
    {f i k pkg name r t} (hf : f ∈ refs) (hfour : ∀ q ∈ refs, ¬ Path g 4 q f) (hpart : Part g f i)
    (he : IsExternal g analyzed i k) (hk : k ≠ "") (hone : OneOf g analyzed refs i k)
    (hr : Recorded analyzed m pkg name r) (ht : r.decl = some t) (himp : impl t i = true) :
    pkg ++ "." ++ name ∈ implementersOf (analyze g analyzed impl refs m) k := by
  obtain ⟨h1, h2, h3⟩ := walk_spec refs refs {} (fun _ h => h) (inv0 (g := g) (analyzed := analyzed) refs)
  have hseen : i ∈ (refs.foldl (consider g analyzed 5) {}).seen := by
    rcases h2.full f (h3 f hf) (by simp) with ⟨q, hq, hp⟩ | h
    · exact absurd hp (hfour q hq)
    · exact h i hpart
  have := collected refs (h1.got i hseen k he) hone
  obtain ⟨ts, hm, ha, hr⟩ := hr
  exact (mem_analyze impl refs m k _).2 ⟨hk, pkg, ts, name, r, hm, hr, rfl, .inr ⟨ha, t, i, ht, this, himp⟩⟩

/-- **C92, an interface anywhere in a type (partial).**  The same for an interface anywhere inside a
referenced type, provided no referenced type is written more than four levels deep. -/
theorem C92_inside_partial (g : Types) (analyzed : String → Bool) (impl : Nat → Nat → Bool) (refs : List Nat) (m : Meta)
    (hshallow : ∀ q ∈ refs, ∀ x y, Path g 4 q x → ¬ Part g x y)
    {f n i k pkg name r t} (hf : f ∈ refs) (hpath : Path g n f i)
    (he : IsExternal g analyzed i k) (hk : k ≠ "") (hone : OneOf g analyzed refs i k)
    (hr : Recorded analyzed m pkg name r) (ht : r.decl = some t) (himp : impl t i = true) :
    pkg ++ "." ++ name ∈ implementersOf (analyze g analyzed impl refs m) k := by
  obtain ⟨h1, h2, h3⟩ := walk_spec refs refs {} (fun _ h => h) (inv0 (g := g) (analyzed := analyzed) refs)
  have hseen : i ∈ (refs.foldl (consider g analyzed 5) {}).seen := by
    clear he hone himp
    induction hpath with
    | here => exact h3 _ hf
    | @down n a b c _ hpart ih =>
      rcases h2.full b (ih hf) (by simp) with ⟨q, hq, hp⟩ | h
      · exact absurd hpart (hshallow q hq b c hp)
      · exact h c hpart
  have := collected refs (h1.got i hseen k he) hone
  obtain ⟨ts, hm, ha, hr⟩ := hr
  exact (mem_analyze impl refs m k _).2 ⟨hk, pkg, ts, name, r, hm, hr, rfl, .inr ⟨ha, t, i, ht, this, himp⟩⟩

/-- **C92, nothing is invented.**  Every implementer found for a name was recorded with it before, or
implements an interface with methods of that name that is declared outside the analyzed packages and
written in a type the code refers to. -/
theorem C92_sound (g : Types) (analyzed : String → Bool) (impl : Nat → Nat → Bool) (refs : List Nat) (m : Meta) (k x : String)
    (h : x ∈ implementersOf (analyze g analyzed impl refs m) k) :
    ∃ pkg ts name r, (pkg, ts) ∈ m ∧ (name, r) ∈ ts ∧ x = pkg ++ "." ++ name ∧
      (k ∈ r.implements ∨ ∃ t i f n, r.decl = some t ∧ impl t i = true ∧ IsExternal g analyzed i k ∧ f ∈ refs ∧ Path g n f i) := by
  obtain ⟨-, pkg, ts, name, r, h1, h2, h3, h4⟩ := (mem_analyze impl refs m k x).1 h
  refine ⟨pkg, ts, name, r, h1, h2, h3, ?_⟩
  rcases h4 with h | ⟨-, t, i, ht, hc, himp⟩
  · exact .inl h
  · obtain ⟨hi, -, -⟩ := walk_spec refs refs {} (fun _ h => h) (inv0 (g := g) (analyzed := analyzed) refs)
    obtain ⟨h5, f, hf, n, -, hp⟩ := hi.real k i hc
    exact .inr ⟨t, i, f, n, ht, himp, h5, hf, hp⟩

/-- The same packages with the types of each listed in another order. -/
inductive SameMeta : Meta → Meta → Prop
  | nil : SameMeta [] []
  | cons {k ts ts' a b} : ts.Perm ts' → SameMeta a b → SameMeta ((k, ts) :: a) ((k, ts') :: b)

theorem insert_sameMeta {a b : Meta} (h : SameMeta a b) {k ts ts'} (hp : ts.Perm ts') :
    SameMeta (insertBy (fun a b => strLe a.1 b.1) (k, ts) a) (insertBy (fun a b => strLe a.1 b.1) (k, ts') b) := by
  induction h with
  | nil => exact .cons hp .nil
  | @cons k' us us' a b hu hr ih =>
    simp only [insertBy]
    by_cases hc : strLe k k' = true
    · rw [if_pos hc, if_pos hc]; exact .cons hp (.cons hu hr)
    · rw [if_neg hc, if_neg hc]; exact .cons hu ih

theorem sort_sameMeta {a b : Meta} (h : SameMeta a b) :
    SameMeta (isort (fun a b => strLe a.1 b.1) a) (isort (fun a b => strLe a.1 b.1) b) := by
  induction h with
  | nil => exact .nil
  | cons hp _ ih => simp only [isort]; exact insert_sameMeta ih hp

/-- **C92, the same order every time.**  The implementers are listed in the same order whatever the order
in which Go iterates over the packages and their types. -/
theorem C92_order (m mid m' : Meta) (hn : (m.map Prod.fst).Nodup) (hn' : ∀ p ∈ m, (p.2.map Prod.fst).Nodup)
    (h : m.Perm mid) (h' : SameMeta mid m') (k : String) : implementersOf m k = implementersOf m' k := by
  unfold implementersOf
  split
  · rfl
  rw [Verif.ImplModel.sort_same Prod.fst h hn]
  have hs := sort_sameMeta h'
  have hd : ∀ p ∈ isort (fun a b => strLe a.1 b.1) mid, (p.2.map Prod.fst).Nodup := fun p hp =>
    hn' p (h.mem_iff.2 ((isort_perm _ _).mem_iff.1 hp))
  revert hs hd
  generalize isort (fun a b => strLe a.1 b.1) mid = A
  generalize isort (fun a b => strLe a.1 b.1) m' = B
  intro hs hd
  induction hs with
  | nil => rfl
  | cons hp _ ih =>
    simp only [List.flatMap_cons]
    rw [ih (fun p hp => hd p (List.mem_cons_of_mem _ hp)), Verif.ImplModel.sort_same Prod.fst hp (hd _ (List.mem_cons_self ..))]

/-! ## Examples, and where the result depends on the order of the references -/

/-- `mux.Handle(pattern string, h http.Handler)`: 1 is `func(string, http.Handler)`, 2 is `string`,
3 is `http.Handler`, 4 is the analyzed struct. -/
def demoG : Types
  | 1 => .sig [2, 3] []
  | 3 => .named (some "net/http") "Handler" (some 1)
  | _ => .other

def mainOnly : String → Bool := fun p => p == "m/a"

def demoMeta : Meta := [("m/a", [("Users", { decl := some 4 }), ("Other", { decl := some 5 })])]

/-- Non-vacuity of `C92_signature_partial`: only `Handle` is referred to. -/
example : "m/a.Users" ∈ implementersOf (analyze demoG mainOnly (fun t i => t == 4 && i == 3) [1] demoMeta) "net/http.Handler" := by
  have hp : ∀ b, Part demoG 1 b → b = 2 ∨ b = 3 := by
    intro b hb
    cases hb with
    | param h h' => injection h with h1 h2; subst h1; simpa using h'
    | result h h' => injection h with h1 h2; subst h2; simp at h'
    | elem h => cases h
    | key h => cases h
    | value h => cases h
  have hp2 : ∀ b, ¬ Part demoG 2 b := by
    intro b hb
    cases hb with
    | param h _ => cases h
    | result h _ => cases h
    | elem h => cases h
    | key h => cases h
    | value h => cases h
  have hp3 : ∀ b, ¬ Part demoG 3 b := by
    intro b hb
    cases hb with
    | param h _ => cases h
    | result h _ => cases h
    | elem h => cases h
    | key h => cases h
    | value h => cases h
  have reach : ∀ n b, Path demoG n 1 b → (n = 0 ∧ b = 1) ∨ (n = 1 ∧ (b = 2 ∨ b = 3)) := by
    intro n b h
    generalize ha : 1 = a at h
    induction h with
    | here => subst ha; exact .inl ⟨rfl, rfl⟩
    | down _ hpart ih =>
      rcases ih ha with ⟨h0, h1⟩ | ⟨_, rfl | rfl⟩
      · subst ha; rw [h1] at hpart; exact .inr ⟨by omega, hp _ hpart⟩
      · exact absurd hpart (hp2 _)
      · exact absurd hpart (hp3 _)
  refine C92_signature_partial demoG mainOnly _ [1] demoMeta (f := 1) (i := 3) (t := 4) (r := { decl := some 4 }) (pkg := "m/a") (name := "Users")
    (by simp) ?_ (.param rfl (by simp)) ⟨some "net/http", "Handler", 0, rfl, .inr ⟨_, rfl, by decide, by decide⟩⟩ (by decide) ?_
    ⟨_, List.mem_singleton.2 rfl, by decide, by simp⟩ rfl (by decide)
  · intro q hq hpath
    simp at hq; subst hq
    rcases reach _ _ hpath with ⟨h, _⟩ | ⟨h, _⟩ <;> cases h
  · intro q hq n j hpath hj
    simp at hq; subst hq
    rcases reach _ _ hpath with ⟨_, rfl⟩ | ⟨_, rfl | rfl⟩
    · obtain ⟨_, _, _, h, _⟩ := hj; cases h
    · obtain ⟨_, _, _, h, _⟩ := hj; cases h
    · rfl

/-- Non-vacuity of `C92_sound`: exactly the struct that implements the interface is found. -/
example : implementersOf (analyze demoG mainOnly (fun t i => t == 4 && i == 3) [1] demoMeta) "net/http.Handler" = ["m/a.Users"] := by
  decide +kernel

/-- `var table map[string][][]func(lib.I)` (1, whose element function is 4) and a function taking it (0). -/
def deepG : Types
  | 0 => .sig [1] []
  | 1 => .map 6 2
  | 2 => .elem 3
  | 3 => .elem 4
  | 4 => .sig [5] []
  | 5 => .named (some "lib") "I" (some 1)
  | _ => .other

/-- **C92 fails for deep types: the result depends on the order of the references.**  Go gives the
references of a package in a random order.  When the outer function type comes first, the function
type inside it is met at the depth limit and never looked into again; the implementers of its
parameter are not found.  In the other order they are. -/
theorem C92_depth_order :
    implementersOf (analyze deepG mainOnly (fun t i => t == 9 && i == 5) [0, 4] [("m/a", [("Impl", { decl := some 9 })])]) "lib.I" = [] ∧
    implementersOf (analyze deepG mainOnly (fun t i => t == 9 && i == 5) [4, 0] [("m/a", [("Impl", { decl := some 9 })])]) "lib.I" = ["m/a.Impl"] := by
  decide +kernel

/-- `lib.Store[User]` (1) and `lib.Store[Order]` (2). -/
def storeG : Types
  | 1 => .named (some "lib") "Store" (some 1)
  | 2 => .named (some "lib") "Store" (some 1)
  | _ => .other

/-- **C92 fails for two instances of one generic interface.**  They share a name; only the one met last is
tested, so a type that implements the other is found or missed by the order of the references. -/
theorem C92_instance_order :
    implementersOf (analyze storeG mainOnly (fun t i => t == 9 && i == 1) [1, 2] [("m/a", [("Users", { decl := some 9 })])]) "lib.Store" = [] ∧
    implementersOf (analyze storeG mainOnly (fun t i => t == 9 && i == 1) [2, 1] [("m/a", [("Users", { decl := some 9 })])]) "lib.Store" = ["m/a.Users"] := by
  decide +kernel

/-- Non-vacuity of `C92_order`: two packages whose types come in another order. -/
example : implementersOf [("b", [("Y", { implements := ["k"] }), ("X", { implements := ["k"] })]), ("a", [("Z", { implements := ["k"] })])] "k" =
    ["a.Z", "b.X", "b.Y"] := by decide +kernel

end Verif.ExtImpl
