/-!
# Shared list machinery

Small, total, structurally recursive stand-ins for the Go library calls used all
over apispec (`sort.Strings`, `sort.SliceStable`, "first one wins" de-duplication
loops), with the general facts about them.  Nothing here is specific to apispec.
-/

namespace Verif.Common

/-! ## Sorting

`sort.Strings`, `sort.Slice` and `sort.SliceStable` are modelled by a stable
insertion sort.  For a total order without ties every correct sort gives the same
result; where Go uses an unstable sort on keys that may tie, the model says so at
the call site. -/

/-- Insert `x` before the first element it is `≤` to. -/
def insertBy {α : Type _} (le : α → α → Bool) (x : α) : List α → List α
  | [] => [x]
  | y :: ys => if le x y then x :: y :: ys else y :: insertBy le x ys

/-- Stable insertion sort: models `sort.SliceStable` / `sort.Strings`. -/
def isort {α : Type _} (le : α → α → Bool) : List α → List α
  | [] => []
  | x :: xs => insertBy le x (isort le xs)

theorem insertBy_perm {α : Type _} (le : α → α → Bool) (x : α) (l : List α) :
    (insertBy le x l).Perm (x :: l) := by
  induction l with
  | nil => exact List.Perm.refl _
  | cons y ys ih =>
    unfold insertBy
    split
    · exact List.Perm.refl _
    · exact (ih.cons y).trans (List.Perm.swap x y ys)

theorem isort_perm {α : Type _} (le : α → α → Bool) (l : List α) : (isort le l).Perm l := by
  induction l with
  | nil => exact List.Perm.refl _
  | cons x xs ih => exact (insertBy_perm le x _).trans (ih.cons x)

@[simp] theorem mem_isort {α : Type _} (le : α → α → Bool) (l : List α) (a : α) :
    a ∈ isort le l ↔ a ∈ l := (isort_perm le l).mem_iff

@[simp] theorem length_isort {α : Type _} (le : α → α → Bool) (l : List α) :
    (isort le l).length = l.length := (isort_perm le l).length_eq

/-- What is needed of a comparison for the result to be sorted. -/
structure TotalPre {α : Type _} (le : α → α → Bool) : Prop where
  trans : ∀ a b c, le a b = true → le b c = true → le a c = true
  total : ∀ a b, le a b = true ∨ le b a = true

/-- … and for the sorted list to be unique. -/
structure TotalOrd {α : Type _} (le : α → α → Bool) : Prop extends TotalPre le where
  antisymm : ∀ a b, le a b = true → le b a = true → a = b

theorem insertBy_pairwise {α : Type _} {le : α → α → Bool} (h : TotalPre le) (x : α) (l : List α)
    (hl : l.Pairwise (fun a b => le a b = true)) :
    (insertBy le x l).Pairwise (fun a b => le a b = true) := by
  induction l with
  | nil => simp [insertBy]
  | cons y ys ih =>
    unfold insertBy
    rw [List.pairwise_cons] at hl
    split
    · next hxy =>
      rw [List.pairwise_cons, List.pairwise_cons]
      refine ⟨?_, hl⟩
      intro z hz
      rcases List.mem_cons.1 hz with rfl | hz
      · exact hxy
      · exact h.trans _ _ _ hxy (hl.1 z hz)
    · next hxy =>
      rw [List.pairwise_cons]
      refine ⟨?_, ih hl.2⟩
      intro z hz
      rcases List.mem_cons.1 ((insertBy_perm le x ys).mem_iff.1 hz) with rfl | hz
      · exact (h.total z y).resolve_left (by simpa using hxy)
      · exact hl.1 z hz

theorem isort_pairwise {α : Type _} {le : α → α → Bool} (h : TotalPre le) (l : List α) :
    (isort le l).Pairwise (fun a b => le a b = true) := by
  induction l with
  | nil => exact List.Pairwise.nil
  | cons x xs ih => exact insertBy_pairwise h x _ ih

/-- Sorting with a total order does not depend on the order of the input: this is
what makes a sorted walk over a Go map deterministic. -/
theorem isort_eq_of_perm {α : Type _} {le : α → α → Bool} (h : TotalOrd le) {l l' : List α}
    (hp : l.Perm l') : isort le l = isort le l' := by
  refine List.Perm.eq_of_pairwise (le := fun a b => le a b = true)
    (fun a b _ _ => h.antisymm a b) (isort_pairwise h.toTotalPre l) (isort_pairwise h.toTotalPre l') ?_
  exact (isort_perm le l).trans (hp.trans (isort_perm le l').symm)

/-- The same when ties only occur between equal members (e.g. a map sorted by key). -/
theorem isort_eq_of_perm_on {α : Type _} {le : α → α → Bool} (h : TotalPre le) {l l' : List α}
    (hanti : ∀ a ∈ l, ∀ b ∈ l, le a b = true → le b a = true → a = b)
    (hp : l.Perm l') : isort le l = isort le l' := by
  refine List.Perm.eq_of_pairwise (le := fun a b => le a b = true)
    (fun a b ha hb => hanti a ((mem_isort le l a).1 ha) b (hp.mem_iff.2 ((mem_isort le l' b).1 hb)))
    (isort_pairwise h l) (isort_pairwise h l') ?_
  exact (isort_perm le l).trans (hp.trans (isort_perm le l').symm)

/-- Sorting a sorted list changes nothing. -/
theorem isort_of_pairwise {α : Type _} {le : α → α → Bool} (l : List α)
    (hl : l.Pairwise (fun a b => le a b = true)) : isort le l = l := by
  induction l with
  | nil => rfl
  | cons x xs ih =>
    rw [List.pairwise_cons] at hl
    unfold isort
    rw [ih hl.2]
    cases xs with
    | nil => rfl
    | cons y ys => simp [insertBy, hl.1 y (by simp)]

theorem insertBy_filter_of_le {α : Type _} {le : α → α → Bool} (p : α → Bool) (x : α) (l : List α)
    (hx : p x = true) (htie : ∀ y ∈ l, p y = true → le x y = true) :
    (insertBy le x l).filter p = x :: l.filter p := by
  induction l with
  | nil => simp [insertBy, hx]
  | cons y ys ih =>
    unfold insertBy
    split
    · simp [hx]
    · next hxy =>
      have hpy : ¬ (p y = true) := fun hp => hxy (htie y (by simp) hp)
      simp [hpy, ih (fun z hz => htie z (by simp [hz]))]

theorem insertBy_filter_of_not {α : Type _} {le : α → α → Bool} (p : α → Bool) (x : α) (l : List α)
    (hx : ¬ p x = true) : (insertBy le x l).filter p = l.filter p := by
  induction l with
  | nil => simp [insertBy, hx]
  | cons y ys ih =>
    unfold insertBy
    split
    · simp [hx]
    · by_cases hy : p y = true <;> simp [hy, ih]

/-- Stability: elements that tie with each other keep their relative order. -/
theorem isort_stable {α : Type _} {le : α → α → Bool} (p : α → Bool) (l : List α)
    (htie : ∀ x ∈ l, ∀ y ∈ l, p x = true → p y = true → le x y = true) :
    (isort le l).filter p = l.filter p := by
  induction l with
  | nil => rfl
  | cons x xs ih =>
    have ih' := ih (fun a ha b hb => htie a (by simp [ha]) b (by simp [hb]))
    unfold isort
    by_cases hx : p x = true
    · rw [insertBy_filter_of_le p x _ hx, ih']
      · simp [hx]
      · intro y hy hpy
        exact htie x (by simp) y (by simp [(mem_isort le xs y).1 hy]) hx hpy
    · rw [insertBy_filter_of_not p x _ hx, ih']
      simp [hx]

/-- The comparison `sort.Strings` uses. Lean's `String` order is the
code-point lexicographic order, which is Go's byte order on UTF-8. -/
def strLe (a b : String) : Bool := decide (a ≤ b)

theorem strLe_ord : TotalOrd strLe where
  trans a b c h1 h2 := by
    simp only [strLe, decide_eq_true_eq] at *; exact String.le_trans h1 h2
  total a b := by simp only [strLe, decide_eq_true_eq]; exact String.le_total a b
  antisymm a b h1 h2 := by
    simp only [strLe, decide_eq_true_eq] at *; exact String.le_antisymm h1 h2

/-- `sort.Strings`. -/
def sortStrings (l : List String) : List String := isort strLe l

theorem sortStrings_eq_of_perm {l l' : List String} (h : l.Perm l') :
    sortStrings l = sortStrings l' := isort_eq_of_perm strLe_ord h

@[simp] theorem mem_sortStrings (l : List String) (a : String) : a ∈ sortStrings l ↔ a ∈ l :=
  mem_isort _ _ _

theorem sortStrings_sorted (l : List String) : (sortStrings l).Pairwise (fun a b => a ≤ b) :=
  (isort_pairwise strLe_ord.toTotalPre l).imp (fun h => by simpa [strLe] using h)

/-! ## First-seen de-duplication

The Go shape `seen := map[K]bool{}; for _, x := range xs { if seen[key(x)] {continue};
seen[key(x)] = true; out = append(out, x) }`. -/

def dedupGo {α κ : Type _} [DecidableEq κ] (key : α → κ) : List κ → List α → List α
  | _, [] => []
  | seen, x :: xs =>
    if key x ∈ seen then dedupGo key seen xs else x :: dedupGo key (key x :: seen) xs

def dedupBy {α κ : Type _} [DecidableEq κ] (key : α → κ) (l : List α) : List α := dedupGo key [] l

section dedup
variable {α κ : Type _} [DecidableEq κ] (key : α → κ)

theorem dedupGo_sublist (seen : List κ) (l : List α) : (dedupGo key seen l).Sublist l := by
  induction l generalizing seen with
  | nil => exact List.Sublist.refl _
  | cons x xs ih =>
    unfold dedupGo
    split
    · exact (ih _).cons x
    · exact (ih _).cons_cons x

theorem dedupGo_not_seen (seen : List κ) (l : List α) :
    ∀ x ∈ dedupGo key seen l, key x ∉ seen := by
  induction l generalizing seen with
  | nil => simp [dedupGo]
  | cons x xs ih =>
    unfold dedupGo
    split
    · exact ih _
    · next h =>
      intro y hy
      rcases List.mem_cons.1 hy with rfl | hy
      · exact h
      · exact fun hm => ih _ y hy (List.mem_cons_of_mem _ hm)

theorem dedupGo_nodup (seen : List κ) (l : List α) : ((dedupGo key seen l).map key).Nodup := by
  induction l generalizing seen with
  | nil => simp [dedupGo]
  | cons x xs ih =>
    unfold dedupGo
    split
    · exact ih _
    · rw [List.map_cons, List.nodup_cons]
      refine ⟨?_, ih _⟩
      intro hm
      obtain ⟨y, hy, hk⟩ := List.mem_map.1 hm
      exact dedupGo_not_seen key _ xs y hy (by simp [hk])

theorem dedupGo_find (seen : List κ) (l : List α) (k : κ) (hk : k ∉ seen) :
    (dedupGo key seen l).find? (fun x => key x = k) = l.find? (fun x => key x = k) := by
  induction l generalizing seen with
  | nil => rfl
  | cons x xs ih =>
    unfold dedupGo
    split
    · next h =>
      have : key x ≠ k := fun e => hk (e ▸ h)
      simp [this, ih seen hk]
    · by_cases e : key x = k
      · simp [e]
      · simp only [List.find?_cons, e, decide_false]
        exact ih _ (by simp [hk, Ne.symm e])

/-- De-duplication keeps relative order and invents nothing. -/
theorem dedupBy_sublist (l : List α) : (dedupBy key l).Sublist l := dedupGo_sublist key [] l

/-- No two survivors share a key. -/
theorem dedupBy_nodup (l : List α) : ((dedupBy key l).map key).Nodup := dedupGo_nodup key [] l

/-- The survivor for a key is the first element that has it. -/
theorem dedupBy_find (l : List α) (k : κ) :
    (dedupBy key l).find? (fun x => key x = k) = l.find? (fun x => key x = k) :=
  dedupGo_find key [] l k (by simp)

/-- Every key of the input is still represented. -/
theorem mem_map_dedupBy (l : List α) (k : κ) : k ∈ (dedupBy key l).map key ↔ k ∈ l.map key := by
  constructor
  · intro h
    obtain ⟨x, hx, rfl⟩ := List.mem_map.1 h
    exact List.mem_map.2 ⟨x, (dedupBy_sublist key l).subset hx, rfl⟩
  · intro h
    obtain ⟨x, hx, rfl⟩ := List.mem_map.1 h
    have hs : (l.find? (fun y => key y = key x)).isSome := by
      rw [List.find?_isSome]; exact ⟨x, hx, by simp⟩
    rw [← dedupBy_find key l (key x)] at hs
    rw [List.find?_isSome] at hs
    obtain ⟨y, hy, e⟩ := hs
    exact List.mem_map.2 ⟨y, hy, by simpa using e⟩

theorem dedupGo_of_nodup (seen : List κ) (l : List α) (hn : (l.map key).Nodup)
    (hs : ∀ x ∈ l, key x ∉ seen) : dedupGo key seen l = l := by
  induction l generalizing seen with
  | nil => rfl
  | cons x xs ih =>
    rw [List.map_cons, List.nodup_cons] at hn
    unfold dedupGo
    rw [if_neg (hs x (by simp)), ih _ hn.2]
    intro y hy hm
    rcases List.mem_cons.1 hm with e | hm
    · exact hn.1 (List.mem_map.2 ⟨y, hy, e⟩)
    · exact hs y (by simp [hy]) hm

/-- De-duplicating a list without duplicates changes nothing. -/
theorem seen_or_kept (l : List α) : ∀ (s : List κ), ∀ x ∈ l, key x ∈ s ++ (dedupGo key s l).map key := by
  induction l with
  | nil => intro s x hx; simp at hx
  | cons y l ih =>
    intro s x hx
    unfold dedupGo
    by_cases hy : key y ∈ s
    · rw [if_pos hy]
      rcases List.mem_cons.1 hx with rfl | hx
      · exact List.mem_append_left _ hy
      · exact ih s x hx
    · rw [if_neg hy]
      rcases List.mem_cons.1 hx with rfl | hx
      · simp
      · have := ih (key y :: s) x hx
        simp only [List.cons_append, List.mem_cons, List.mem_append, List.map_cons] at this ⊢
        rcases this with h | h | h
        · exact .inr (.inl h)
        · exact .inl h
        · exact .inr (.inr h)

theorem dedupGo_congr (l : List α) : ∀ (s s' : List κ), (∀ k, k ∈ s ↔ k ∈ s') → dedupGo key s l = dedupGo key s' l := by
  induction l with
  | nil => intro s s' _; rfl
  | cons x xs ih =>
    intro s s' h
    unfold dedupGo
    by_cases hx : key x ∈ s
    · rw [if_pos hx, if_pos ((h _).1 hx), ih s s' h]
    · rw [if_neg hx, if_neg (fun h' => hx ((h _).2 h')), ih (key x :: s) (key x :: s')]
      intro k; simp [h k]

theorem dedupGo_append (a : List α) : ∀ (s : List κ) (b : List α),
    dedupGo key s (a ++ b) = dedupGo key s a ++ dedupGo key (s ++ (dedupGo key s a).map key) b := by
  induction a with
  | nil => intro s b; simp [dedupGo]
  | cons x xs ih =>
    intro s b
    rw [List.cons_append, dedupGo]
    conv => { rhs; lhs; rw [dedupGo] }
    conv => { rhs; rhs; rw [dedupGo] }
    by_cases hx : key x ∈ s
    · simp only [if_pos hx]; exact ih s b
    · simp only [if_neg hx, List.cons_append, List.map_cons]
      rw [ih]
      congr 2
      apply dedupGo_congr
      intro k
      simp only [List.mem_append, List.mem_cons]
      rw [or_left_comm, or_assoc]

theorem dedupBy_of_nodup (l : List α) (hn : (l.map key).Nodup) : dedupBy key l = l :=
  dedupGo_of_nodup key [] l hn (by simp)

/-- De-duplication is idempotent. -/
theorem dedupBy_idem (l : List α) : dedupBy key (dedupBy key l) = dedupBy key l :=
  dedupBy_of_nodup key _ (dedupBy_nodup key l)

end dedup

/-- `dedup` on the elements themselves (Go: `map[string]bool` of the values). -/
def dedup {α : Type _} [DecidableEq α] (l : List α) : List α := dedupBy id l

theorem dedup_sublist {α : Type _} [DecidableEq α] (l : List α) : (dedup l).Sublist l :=
  dedupBy_sublist id l

theorem dedup_nodup {α : Type _} [DecidableEq α] (l : List α) : (dedup l).Nodup := by
  simpa [dedup] using dedupBy_nodup id l

@[simp] theorem mem_dedup {α : Type _} [DecidableEq α] (l : List α) (a : α) :
    a ∈ dedup l ↔ a ∈ l := by
  simpa [dedup] using mem_map_dedupBy id l a

end Verif.Common
