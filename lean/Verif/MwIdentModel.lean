/-
Model of how the middleware values a call applies are identified: `ExtractMiddlewareFromEdge`
(internal/spec/pattern_matchers.go:883-933), `middlewareRefFromArg`, `resolveMiddlewareIdentRef` and
`lookupAssignments` (internal/spec/security.go:66-239).

Simplifications: the package recorded for a selector and for the name it selects are the same
(internal/metadata/expression.go:195-240), so there is one; positions are left out; a name is a package
function or a variable, which the code does not tell apart.
-/
import Verif.Common

namespace Verif.MwIdent
open Verif.Common

/-- Argument expressions as recorded.  `callee` is what a call calls: a name, a selector, or neither. -/
inductive Callee
  | name (n pkg : String)
  | sel (n pkg : String) (recv : Option String)
  | other

inductive Ex
  | fn (n pkg : String)
  | var (n pkg : String)
  | sel (n pkg : String) (recv : Option String)
  | call (c : Callee)
  | lit
  | other

/-- `MiddlewareRef` (internal/spec/security.go:28-33). -/
structure Ref where
  name : String
  pkg : String
  recv : String
  deriving DecidableEq

/-- `empty` (internal/spec/security.go:54-56). -/
def Ref.empty (r : Ref) : Bool := r.name == "" && r.pkg == "" && r.recv == ""

def nonEmpty (r : Ref) : Option Ref := if r.empty then none else some r

/-- `middlewareRefFromArg` (internal/spec/security.go:66-121). -/
def refFromArg : Ex → Option Ref
  | .fn n p => nonEmpty ⟨n, p, ""⟩
  | .var n p => nonEmpty ⟨n, p, ""⟩
  | .sel n p r => nonEmpty ⟨n, p, r.getD ""⟩
  | .call (.name n p) => nonEmpty ⟨n, p, ""⟩
  | .call (.sel n p r) => nonEmpty ⟨n, p, r.getD ""⟩
  | .call .other => nonEmpty ⟨"", "", ""⟩
  | .lit => none
  | .other => none

/-- `Assignment`: the assigned expression, and the callee when it is a call. -/
structure Asg where
  value : Ex
  calleeFunc : String
  calleePkg : String

/-- How an assignment is recorded (internal/metadata/metadata.go:1375-1398): the receiver of the callee
is dropped. -/
def recordAsg (e : Ex) : Asg :=
  match e with
  | .call (.name n p) => ⟨e, n, p⟩
  | .call (.sel n p _) => ⟨e, n, p⟩
  | _ => ⟨e, "", ""⟩

/-- A map from variables to their assignments, in the order of the text. -/
abbrev AssignMap := List (String × List Asg)

def get (am : AssignMap) (n : String) : List Asg := ((am.find? fun e => e.1 == n).map Prod.snd).getD []

structure Method where
  name : String
  recv : String
  assigns : AssignMap

structure File where
  functions : List (String × AssignMap)
  types : List (String × List Method)

/-- The caller of the call, and the assignments on the call itself. -/
structure Edge where
  own : AssignMap
  callerName : String
  callerPkg : String
  callerRecv : String
  args : List Ex

/-- The analyzed packages. -/
abbrev Pkgs := List (String × List (String × File))

/-- `strings.TrimPrefix(s, "*")`. -/
def dropStar (s : String) : String := match s.toList with
  | '*' :: r => String.ofList r
  | _ => s

/-- The assignments of one method, if it may be the caller (internal/spec/security.go:217-233). -/
def methodAssigns (e : Edge) (n : String) (m : Method) : Option (List Asg) :=
  if m.name ≠ e.callerName then none
  else if dropStar e.callerRecv ≠ "" ∧ dropStar m.recv ≠ "" ∧ dropStar m.recv ≠ dropStar e.callerRecv then none
  else if get m.assigns n = [] then none
  else some (get m.assigns n)

/-- One file (internal/spec/security.go:195-236). -/
def fileAssigns (e : Edge) (n : String) (f : File) : Option (List Asg) :=
  match (f.functions.find? fun x => x.1 == e.callerName).map fun x => get x.2 n with
  | some (a :: as) => some (a :: as)
  | _ => (isort (fun a b : String × List Method => strLe a.1 b.1) f.types).findSome? fun t => t.2.findSome? (methodAssigns e n)

/-- `lookupAssignments` (internal/spec/security.go:168-239). -/
def lookupAssignments (pkgs : Pkgs) (e : Edge) (n : String) : List Asg :=
  if get e.own n ≠ [] then get e.own n
  else if e.callerName = "" ∨ e.callerPkg = "" then []
  else match pkgs.find? fun p => p.1 == e.callerPkg with
    | none => []
    | some p => ((isort (fun a b : String × File => strLe a.1 b.1) p.2).findSome? fun f => fileAssigns e n f.2).getD []

/-- `resolveMiddlewareIdentRef` for a name (internal/spec/security.go:136-161). -/
def identRef (pkgs : Pkgs) (e : Edge) (n : String) : Option Ref :=
  match (lookupAssignments pkgs e n).getLast? with
  | none => none
  | some a =>
    if a.calleeFunc ≠ "" then some ⟨a.calleeFunc, a.calleePkg, ""⟩
    else match a.value with
      | .call _ => refFromArg a.value
      | .sel .. => refFromArg a.value
      | _ => none

def resolveIdent (pkgs : Pkgs) (e : Edge) : Ex → Option Ref
  | .fn n _ => identRef pkgs e n
  | .var n _ => identRef pkgs e n
  | _ => none

/-- One argument (internal/spec/pattern_matchers.go:919-930). -/
def argRef (pkgs : Pkgs) (e : Edge) (a : Ex) : Option Ref :=
  match resolveIdent pkgs e a with
  | some r => some r
  | none => refFromArg a

/-- A security pattern: where the middleware stands. -/
structure Pattern where
  wrapper : Bool := false
  handlerIndex : Int := 0
  start : Int := 0
  variadic : Bool := false
  excludeLast : Bool := false

/-- The arguments taken for middleware (internal/spec/pattern_matchers.go:903-918). -/
def middlewareArgs (p : Pattern) (args : List Ex) : List Ex :=
  let start := p.start.toNat
  let stop := if p.variadic then (if p.excludeLast && start < args.length then args.length - 1 else args.length) else start + 1
  (args.take stop).drop start

/-- `ExtractMiddlewareFromEdge` (internal/spec/pattern_matchers.go:883-933). -/
def extract (pkgs : Pkgs) (p : Pattern) (e : Edge) : List Ref :=
  if p.wrapper then
    if p.handlerIndex < 0 then []
    else match e.args[p.handlerIndex.toNat]? with
      | some (.call c) => (refFromArg (.call c)).toList
      | _ => []
  else (middlewareArgs p e.args).filterMap (argRef pkgs e)

end Verif.MwIdent
