import Verif.Common
/-!
# Go maps as association lists

Assignment, deletion and lookup, with the usual laws. A Go map is an association
list whose order carries no meaning.
-/

namespace Verif.Common

section
variable {κ : Type _} {β : Type _} [DecidableEq κ]

/-- `m[k]` with the "ok" result. -/
def mget (m : List (κ × β)) (k : κ) : Option β :=
  match m with
  | [] => none
  | (k', v) :: r => if k' = k then some v else mget r k

/-- `m[k] = v`. -/
def mset (m : List (κ × β)) (k : κ) (v : β) : List (κ × β) :=
  match m with
  | [] => [(k, v)]
  | (k', v') :: r => if k' = k then (k, v) :: r else (k', v') :: mset r k v

/-- `delete(m, k)`. -/
def mdel (m : List (κ × β)) (k : κ) : List (κ × β) := m.filter fun x => decide (x.1 ≠ k)

@[simp] theorem mget_nil (k : κ) : mget ([] : List (κ × β)) k = none := rfl

theorem mget_cons (k k' : κ) (v : β) (r : List (κ × β)) :
    mget ((k', v) :: r) k = if k' = k then some v else mget r k := rfl

theorem mget_mset (m : List (κ × β)) (k k' : κ) (v : β) :
    mget (mset m k v) k' = if k' = k then some v else mget m k' := by
  induction m with
  | nil => simp only [mset, mget]; grind
  | cons x r ih =>
    obtain ⟨a, b⟩ := x
    simp only [mset]
    split
    · simp only [mget]; grind
    · simp only [mget, ih]; grind

@[simp] theorem mget_mset_self (m : List (κ × β)) (k : κ) (v : β) : mget (mset m k v) k = some v := by
  rw [mget_mset, if_pos rfl]

theorem mget_mset_ne (m : List (κ × β)) {k k' : κ} (v : β) (h : k' ≠ k) : mget (mset m k v) k' = mget m k' := by
  rw [mget_mset, if_neg h]

theorem mget_mdel (m : List (κ × β)) (k k' : κ) : mget (mdel m k) k' = if k' = k then none else mget m k' := by
  induction m with
  | nil => simp [mdel, mget]
  | cons x r ih =>
    obtain ⟨a, b⟩ := x
    simp only [mdel] at ih ⊢
    rw [List.filter_cons]
    split
    · simp only [mget, ih]; grind
    · simp only [mget, ih]; grind

theorem mget_eq_none_iff (m : List (κ × β)) (k : κ) : mget m k = none ↔ k ∉ m.map Prod.fst := by
  induction m with
  | nil => simp
  | cons x r ih =>
    obtain ⟨a, b⟩ := x
    simp only [mget, List.map_cons, List.mem_cons, not_or]
    split
    · next h => simp [h]
    · next h => rw [ih]; constructor
                · exact fun hr => ⟨Ne.symm h, hr⟩
                · exact fun hr => hr.2

theorem mget_isSome_iff (m : List (κ × β)) (k : κ) : (mget m k).isSome ↔ k ∈ m.map Prod.fst := by
  have := mget_eq_none_iff m k
  cases h : mget m k with
  | none => simp [this.1 h]
  | some v =>
    simp only [Option.isSome_some, true_iff]
    exact Classical.not_not.1 (fun hn => by rw [this.2 hn] at h; cases h)

theorem mem_of_mget {m : List (κ × β)} {k : κ} {v : β} (h : mget m k = some v) : (k, v) ∈ m := by
  induction m with
  | nil => simp at h
  | cons x r ih =>
    obtain ⟨a, b⟩ := x
    simp only [mget] at h
    split at h
    · next e => simp at h; simp [e, h]
    · exact List.mem_cons_of_mem _ (ih h)

/-- In a map each key occurs once, so membership is lookup. -/
theorem mget_of_mem {m : List (κ × β)} (hn : (m.map Prod.fst).Nodup) {k : κ} {v : β} (h : (k, v) ∈ m) :
    mget m k = some v := by
  induction m with
  | nil => simp at h
  | cons x r ih =>
    obtain ⟨a, b⟩ := x
    rw [List.map_cons, List.nodup_cons] at hn
    simp only [mget]
    rcases List.mem_cons.1 h with e | h
    · simp only [Prod.mk.injEq] at e
      simp [e.1, e.2]
    · have : a ≠ k := fun e => hn.1 (e ▸ List.mem_map.2 ⟨_, h, rfl⟩)
      rw [if_neg this, ih hn.2 h]

theorem keys_mset (m : List (κ × β)) (k : κ) (v : β) (k' : κ) :
    k' ∈ (mset m k v).map Prod.fst ↔ k' = k ∨ k' ∈ m.map Prod.fst := by
  rw [← mget_isSome_iff, ← mget_isSome_iff, mget_mset]
  split
  · next h => simp [h]
  · next h => simp [h]

theorem nodup_mset (m : List (κ × β)) (k : κ) (v : β) (h : (m.map Prod.fst).Nodup) :
    ((mset m k v).map Prod.fst).Nodup := by
  induction m with
  | nil => simp [mset]
  | cons x r ih =>
    obtain ⟨a, b⟩ := x
    rw [List.map_cons, List.nodup_cons] at h
    simp only [mset]
    split
    · next e => subst e; rw [List.map_cons, List.nodup_cons]; exact h
    · next e =>
      rw [List.map_cons, List.nodup_cons]
      refine ⟨?_, ih h.2⟩
      rw [keys_mset]
      rintro (e' | e')
      · exact e e'
      · exact h.1 e'

theorem nodup_mdel (m : List (κ × β)) (k : κ) (h : (m.map Prod.fst).Nodup) :
    ((mdel m k).map Prod.fst).Nodup :=
  h.sublist (List.filter_sublist.map _)

/-- Lookup in a map does not depend on the order its entries are listed in. -/
theorem mget_perm {m m' : List (κ × β)} (hp : m.Perm m') (hn : (m.map Prod.fst).Nodup) (k : κ) :
    mget m k = mget m' k := by
  have hn' : (m'.map Prod.fst).Nodup := (hp.map _).nodup_iff.1 hn
  cases h : mget m k with
  | some v => exact (mget_of_mem hn' (hp.mem_iff.1 (mem_of_mget h))).symm
  | none =>
    rw [mget_eq_none_iff] at h
    symm
    rw [mget_eq_none_iff]
    intro hm
    exact h ((hp.map _).mem_iff.2 hm)

end

end Verif.Common
