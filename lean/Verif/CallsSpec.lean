import Verif.CallsModel
/-!
# Specification: what the call graph should record
-/

namespace Verif.CallsSpec
open Verif.CallsModel

/-- A call that belongs in the call graph: a call, not a conversion, inside some function, of
something that has a name. -/
def Recordable (env : Env) (c : CallInfo) (fn : Expr) : Prop := c.conv = false ∧ c.caller ≠ [] ∧ (calleeOf env fn).1 ≠ []

instance (env : Env) (c : CallInfo) (fn : Expr) : Decidable (Recordable env c fn) := by unfold Recordable; infer_instance

mutual
/-- Every call expression below an expression, with the expression called. -/
def calls : Expr → List (CallInfo × Expr)
  | .call c fn args => (c, fn) :: (calls fn ++ callsAll args)
  | .sel x _ _ _ => calls x
  | .ident _ _ _ => []
  | .idx x args => calls x ++ callsAll args
  | .lit _ body => callsAll body
  | .other _ kids => callsAll kids
def callsAll : List Expr → List (CallInfo × Expr)
  | [] => []
  | e :: es => calls e ++ callsAll es
end

/-- The calls that belong in the graph. -/
def wanted (env : Env) (es : List Expr) : List (CallInfo × Expr) := (callsAll es).filter fun x => decide (Recordable env x.1 x.2)

/-- The call a chained call `x.f(…).g(…)` is made on: `x.f(…)`. -/
def chainedOn : Expr → Option CallInfo
  | .sel (.call c _ _) _ _ _ => some c
  | _ => none

/-- The chain of recordable calls that ends in this expression, innermost first. -/
def chain (env : Env) : Expr → List (CallInfo × Expr)
  | .call c (.sel x n p r) _ => if Recordable env c (.sel x n p r) then chain env x ++ [(c, .sel x n p r)] else []
  | .call c fn _ => if Recordable env c fn then [(c, fn)] else []
  | _ => []

mutual
/-- The maximal chains below an expression, other than the one the expression itself ends. -/
def otherChains (env : Env) : Expr → List (List (CallInfo × Expr))
  | .call c (.sel x n p r) args =>
    (if Recordable env c (.sel x n p r) then otherChains env x else chain env x :: otherChains env x) ++ chainsAll env args
  | .call _ fn args => (chain env fn :: otherChains env fn) ++ chainsAll env args
  | .sel x _ _ _ => chain env x :: otherChains env x
  | .ident _ _ _ => []
  | .idx x args => (chain env x :: otherChains env x) ++ chainsAll env args
  | .lit _ body => chainsAll env body
  | .other _ kids => chainsAll env kids
/-- The maximal chains of a file. -/
def chainsAll (env : Env) : List Expr → List (List (CallInfo × Expr))
  | [] => []
  | e :: es => (chain env e :: otherChains env e) ++ chainsAll env es
end

/-- Calls of different chains have different instance ids. -/
def IdsTellApart (env : Env) (es : List Expr) : Prop :=
  (chainsAll env es).Pairwise fun a b => ∀ x ∈ a, ∀ y ∈ b, key env x.1 x.2 ≠ key env y.1 y.2

/-- Calls of different chains start at different places (which a call of the result of a call, or of
a method of a field of the result of a call, does not). -/
def StartsTellApart (env : Env) (es : List Expr) : Prop :=
  (chainsAll env es).Pairwise fun a b => ∀ x ∈ a, ∀ y ∈ b, posOf x.2 ≠ posOf y.2

/-- Names as Go spells them: no `@`, and no package path starting with a star. -/
def PlainNames (env : Env) (x : CallInfo × Expr) : Prop :=
  (calleeOf env x.2).2.1.head? ≠ some '*' ∧ '@' ∉ (calleeOf env x.2).2.1 ∧ '@' ∉ (calleeOf env x.2).2.2 ∧ '@' ∉ (calleeOf env x.2).1 ∧
  ∀ kv ∈ x.1.targs, '@' ∉ kv.1 ∧ '@' ∉ kv.2

/-- Whatever a recordable call is chained on is recordable as well. -/
def ChainsRecordable (env : Env) (es : List Expr) : Prop :=
  ∀ c fn, (c, fn) ∈ wanted env es → ∀ c' fn' args n p r, fn = .sel (.call c' fn' args) n p r → Recordable env c' fn'

end Verif.CallsSpec
