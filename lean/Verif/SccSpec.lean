/-!
# Specification: reachability in a call graph

Independent of the condensation algorithm.
-/

namespace Verif.GraphSpec

/-- `x` can reach `y` in zero or more steps of `next`. -/
inductive Reach {α : Type _} (next : α → α → Prop) : α → α → Prop
  | refl (x : α) : Reach next x x
  | step {x y z : α} : next x y → Reach next y z → Reach next x z

/-- `x` can reach `y` in one or more steps. -/
def ReachPlus {α : Type _} (next : α → α → Prop) (x y : α) : Prop :=
  ∃ z, next x z ∧ Reach next z y

namespace Reach
variable {α : Type _} {next : α → α → Prop} {x y z : α}

theorem single (h : next x y) : Reach next x y := .step h (.refl _)

theorem trans (h1 : Reach next x y) (h2 : Reach next y z) : Reach next x z := by
  induction h1 with
  | refl => exact h2
  | step h _ ih => exact .step h (ih h2)

theorem tail (h1 : Reach next x y) (h2 : next y z) : Reach next x z := h1.trans (single h2)

/-- A set closed under `next` contains everything reachable from its members. -/
theorem closed {S : α → Prop} (hS : ∀ a b, S a → next a b → S b) (h : Reach next x y)
    (hx : S x) : S y := by
  induction h with
  | refl => exact hx
  | step h _ ih => exact ih (hS _ _ hx h)

theorem mono {next' : α → α → Prop} (hm : ∀ a b, next a b → next' a b) (h : Reach next x y) :
    Reach next' x y := by
  induction h with
  | refl => exact .refl _
  | step h _ ih => exact .step (hm _ _ h) ih

theorem plus (h1 : Reach next x y) (h2 : ReachPlus next y z) : ReachPlus next x z := by
  cases h1 with
  | refl => exact h2
  | step h h' => exact ⟨_, h, h'.trans (by obtain ⟨w, a, b⟩ := h2; exact .step a b)⟩

theorem plus_of_ne (h : Reach next x y) (hne : x ≠ y) : ReachPlus next x y := by
  cases h with
  | refl => exact absurd rfl hne
  | step h h' => exact ⟨_, h, h'⟩

/-- Reversing every edge reverses reachability. -/
theorem reverse (h : Reach next x y) : Reach (fun a b => next b a) y x := by
  induction h with
  | refl => exact .refl _
  | step h _ ih => exact ih.tail h

end Reach

/-- Two functions are mutually recursive (or equal). -/
def Mutual {α : Type _} (next : α → α → Prop) (x y : α) : Prop :=
  Reach next x y ∧ Reach next y x

/-- The call relation of a list of (caller, callee) pairs with non-empty ends. -/
def Calls (calls : List (String × String)) (u v : String) : Prop :=
  (u, v) ∈ calls ∧ u ≠ "" ∧ v ≠ ""

instance (calls : List (String × String)) (u v : String) : Decidable (Calls calls u v) := by
  unfold Calls; infer_instance

/-- A function that occurs at either end of such a call. -/
def Occurs (calls : List (String × String)) (f : String) : Prop :=
  ∃ g, Calls calls f g ∨ Calls calls g f

end Verif.GraphSpec
