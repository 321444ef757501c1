import Verif.SccSpec
import Verif.ReachModel
/-!
# Specification: leading to a matching call
-/

namespace Verif.ReachSpec
open Verif.GraphSpec Verif.Reach

/-- The relation a child list describes. -/
def Next {κ : Type} (children : κ → List κ) (a b : κ) : Prop := b ∈ children a

/-- A finite collection of identities that contains the roots and everything they lead to. -/
structure Universe {κ : Type} (children : κ → List κ) (roots U : List κ) : Prop where
  roots : ∀ r ∈ roots, r ∈ U
  closed : ∀ a ∈ U, ∀ b ∈ children a, b ∈ U

/-- A function's own expansion leads to another: it calls it, or the other is a closure
written inside it. -/
def LeadsTo (edges : List CallEdge) (a b : String) : Prop :=
  ∃ e ∈ edges, (e.caller = a ∧ e.callee = b) ∨ (e.parent = some a ∧ e.caller = b)

/-- The same, between two different named functions. -/
def LeadsToNamed (edges : List CallEdge) (a b : String) : Prop :=
  LeadsTo edges a b ∧ a ≠ "" ∧ b ≠ "" ∧ a ≠ b

/-- A call relation that, unlike `Calls`, keeps empty identifiers. -/
def CallsRaw (edges : List CallEdge) (a b : String) : Prop :=
  ∃ e ∈ edges, e.caller = a ∧ e.callee = b

/-- `b` is what precedes the first `@` or `[` of `id`. -/
def BaseOf (id b : String) : Prop :=
  ∃ rest : List Char, id.toList = b.toList ++ rest ∧ '@' ∉ b.toList ∧ '[' ∉ b.toList ∧
    (rest = [] ∨ rest.head? = some '@' ∨ rest.head? = some '[')

end Verif.ReachSpec
