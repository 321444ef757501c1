import Verif.SccSpec
import Verif.SecuritySpec
/-!
# Specification: middleware applied through helper functions
-/

namespace Verif.MiddlewareSpec
open Verif.GraphSpec Verif.Security

/-- Some mapping recognises the middleware. -/
def Known (rx : String → String → Bool) (ms : List Mapping) (r : Ref) : Prop := ∃ m ∈ ms, Recognises rx m r

/-- The function `a` calls `b`, and the call is not itself recognised middleware. -/
def Descends (rx : String → String → Bool) (ms : List Mapping) (edges : String → List Ref) (a b : String) : Prop :=
  ∃ r ∈ edges a, ¬ Known rx ms r ∧ baseID r = some b

/-- The function `a` itself calls the recognised middleware `r`. -/
def Applies (rx : String → String → Bool) (ms : List Mapping) (edges : String → List Ref) (a : String) (r : Ref) : Prop :=
  r ∈ edges a ∧ (r.fn ≠ "" ∨ r.pkg ≠ "" ∨ r.recv ≠ "") ∧ Known rx ms r

/-- `key` applies `r`, itself or through functions it calls. -/
def Through (rx : String → String → Bool) (ms : List Mapping) (edges : String → List Ref) (key : String) (r : Ref) : Prop :=
  ∃ k, Reach (Descends rx ms edges) key k ∧ Applies rx ms edges k r

/-- No function `key` comes to is (mutually) recursive. -/
def NoRecursionBelow (rx : String → String → Bool) (ms : List Mapping) (edges : String → List Ref) (key : String) : Prop :=
  ∀ k, Reach (Descends rx ms edges) key k → ¬ ReachPlus (Descends rx ms edges) k k

end Verif.MiddlewareSpec
