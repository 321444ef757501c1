import Verif.IdsModel
/-!
# Model: building the call graph

internal/metadata/metadata.go:1503-1541 (buildCallGraph), 1581-1779 (processCallExpression),
1834-1846 (extractRootVariable) and internal/metadata/analysis.go:228-300
(getCalleeFunctionNameAndPackage).  The type checker's answers (is this a conversion, which package
and receiver does a selector resolve to, which type arguments does a call have, which function
encloses it) are data of the syntax tree.  Arguments, assignments and signatures of the recorded
edges are left out.
-/

namespace Verif.CallsModel
open Verif.IdsModel (Ident IdType render)

abbrev Str := List Char

/-- What the type checker and the enclosing function say about a call expression. -/
structure CallInfo where
  uid : Nat
  /-- analysis.go:184-225: it is a conversion. -/
  conv : Bool := false
  /-- analysis.go:70-108: the enclosing function, [] at package level. -/
  caller : Str
  /-- metadata.go:1630-1636. -/
  targs : List (Str × Str) := []
  deriving DecidableEq

/-- Syntax, as far as the call graph looks at it. -/
inductive Expr
  /-- `fn(args…)` -/
  | call (c : CallInfo) (fn : Expr) (args : List Expr)
  /-- `x.name`, resolved to a function of package `pkg` with receiver `recv` ([] for none) -/
  | sel (x : Expr) (name pkg recv : Str)
  /-- a name; `obj`: it resolves to a declaration of the same file (`ident.Obj != nil`) -/
  | ident (name : Str) (pos : Nat) (obj : Bool)
  /-- `x[args…]` -/
  | idx (x : Expr) (args : List Expr)
  /-- a function literal -/
  | lit (pos : Nat) (body : List Expr)
  /-- anything else, statements included -/
  | other (pos : Nat) (kids : List Expr)

/-- The file set and the package: how a position is written, how a literal is named. -/
structure Env where
  pkg : Str
  posText : Nat → Str
  litName : Nat → Str

/-- `Node.Pos()`: where the expression starts. -/
def posOf : Expr → Nat
  | .call _ fn _ => posOf fn
  | .sel x _ _ _ => posOf x
  | .ident _ pos _ => pos
  | .idx x _ => posOf x
  | .lit pos _ => pos
  | .other pos _ => pos

/-- analysis.go:228-300: name, package, receiver. -/
def calleeOf (env : Env) : Expr → Str × Str × Str
  | .ident name _ _ => (name, env.pkg, [])
  | .sel _ name pkg recv => (name, pkg, recv)
  | .call _ fn _ => calleeOf env fn
  | .idx x _ => calleeOf env x
  | .lit pos _ => (env.litName pos, env.pkg, [])
  | .other _ _ => ([], [], [])

/-- metadata.go:1664-1675: the instance id of the callee. -/
def key (env : Env) (c : CallInfo) (fn : Expr) : Str :=
  render ⟨(calleeOf env fn).2.1, (calleeOf env fn).1, (calleeOf env fn).2.2, env.posText (posOf fn), c.targs⟩ .site

/-- metadata.go:1834-1846. -/
def rootVar : Expr → Str
  | .ident name _ _ => name
  | .sel x _ _ _ => rootVar x
  | .call _ (.sel x _ _ _) _ => rootVar x
  | _ => []

/-- metadata.go:1638-1646, 1766-1771: a recorded edge. `var` is CalleeVarName ([] if unset). -/
structure Edge where
  uid : Nat
  key : Str
  var : Str
  parent : Option Nat
  root : Str
  depth : Nat
  deriving DecidableEq

/-- The graph, and the instance ids seen in the file (`calleeMap`). -/
structure State where
  graph : List Edge
  seen : List Str

def isCall : Expr → Bool
  | .call _ _ _ => true
  | _ => false

/-- metadata.go:1583-1585, 1596, 1675-1678: the call is not recorded. -/
def blocked (env : Env) (c : CallInfo) (fn : Expr) (st : State) : Bool :=
  c.conv || decide (c.caller = []) || decide ((calleeOf env fn).1 = []) || decide (key env c fn ∈ st.seen)

/-- metadata.go:1776-1778. -/
def push (e : Edge) (st : State) : State := ⟨st.graph ++ [e], e.key :: st.seen⟩

/-- metadata.go:1740-1744: a call on a plain variable. -/
def varOf : Expr → Str
  | .ident name _ true => name
  | _ => []

/-- metadata.go:1745-1763: linking a chained call to the last edge of the graph; none: the graph is
empty and indexing it panics. -/
def chained (env : Env) (c : CallInfo) (fn x : Expr) (st : State) : Option State :=
  match st.graph.getLast? with
  | none => none
  | some par =>
    if par.var = [] ∧ rootVar x ≠ [] then
      some (push ⟨c.uid, key env c fn, rootVar x, some par.uid, rootVar x, 1⟩ st)
    else some (push ⟨c.uid, key env c fn, [], some par.uid, par.var, par.depth + 1⟩ st)

/-- metadata.go:1581-1779. -/
def processCall (env : Env) : Expr → State → Option State
  | .call c (.sel x name pkg recv) _, st =>
    if blocked env c (.sel x name pkg recv) st then some st
    else if isCall x then (processCall env x st).bind (chained env c (.sel x name pkg recv) x)
    else some (push ⟨c.uid, key env c (.sel x name pkg recv), varOf x, none, varOf x, 0⟩ st)
  | .call c fn _, st =>
    if blocked env c fn st then some st else some (push ⟨c.uid, key env c fn, [], none, [], 0⟩ st)
  | _, st => some st

mutual
/-- metadata.go:1520-1536: `ast.Inspect` in preorder. -/
def walk (env : Env) : Expr → State → Option State
  | .call c fn args, st => (processCall env (.call c fn args) st).bind fun st => (walk env fn st).bind fun st => walkAll env args st
  | .sel x _ _ _, st => walk env x st
  | .ident _ _ _, st => some st
  | .idx x args, st => (walk env x st).bind fun st => walkAll env args st
  | .lit _ body, st => walkAll env body st
  | .other _ kids, st => walkAll env kids st
def walkAll (env : Env) : List Expr → State → Option State
  | [], st => some st
  | e :: es, st => (walk env e st).bind fun st => walkAll env es st
end

/-- metadata.go:1503-1541: the files of a package (in sorted order), each with its own `calleeMap`. -/
def buildGraph (env : Env) : List (List Expr) → List Edge → Option (List Edge)
  | [], g => some g
  | file :: files, g => (walkAll env file ⟨g, []⟩).bind fun st => buildGraph env files st.graph

end Verif.CallsModel
