/-!
# What the bytes written to the response were made of

`w.Write(b)` sees only a `[]byte`.  When `b` is the result of a configured serializer (`json.Marshal(v)`) the
response is documented with the type of `v`: internal/spec/write_sink.go, called from extractor.go:2547-2549.
The model starts from the statements of the functions, so that what is recorded for them
(internal/metadata/metadata.go:1310-1405, analysis.go:225-300, expression.go:107-285) is part of it.
-/

namespace Verif.WriteSink

/-- `&x`, `<-x` (`KindUnary`), `*x` (`KindStar`), `(x)` (`KindParen`). -/
inductive Wrap
  | unary | star | paren
  deriving DecidableEq, Repr

/-- What stands before the parentheses of a call, after type checking: a declared function (`pkg` is the
package that declares it; `qualified` tells `json.Marshal` from a name of the same package or of a package
imported with a dot), a method of a named type declared in `pkg`, or a variable of a function type. -/
inductive Callee
  | func (pkg name : String) (qualified : Bool)
  | method (pkg recv name : String)
  | value (name : String)
  deriving DecidableEq, Repr

/-- Expressions.  Literals, conversions, field accesses and all that is not followed are `other`. -/
inductive Exp
  | var (name : String)
  | call (f : Callee) (args : List Exp)
  | wrap (w : Wrap) (x : Exp)
  | other (n : Nat)
  deriving Repr

/-- `x, err := e`; `_` stands in the list like any other name.  (A statement with several right-hand sides
is as many statements.) -/
structure Stmt where
  lhs : List String
  rhs : Exp
  deriving Repr

/-- A declared function or, with a receiver, method: the assignments of its body in source order and its
return statements. -/
structure Decl where
  pkg : String
  recv : String := ""
  name : String
  params : List String := []
  body : List Stmt := []
  rets : List (List Exp) := []
  deriving Repr

/-- The declarations, functions and methods apart, each in the sorted order the lookups use. -/
structure Decls where
  funcs : List Decl
  meths : List Decl
  deriving Repr

/-- metadata/types.go:995-1010, the part of an `Assignment` that is read. -/
structure Asg where
  var : String
  calleeFunc : String
  calleePkg : String
  value : Exp
  deriving Repr

/-- analysis.go:225-300, name and package of the callee of an assigned call, in package `here`.  A plain name
is taken for a name of the package it is used in (228-230). -/
def assignedCallee (here : String) : Callee → String × String
  | .func pkg name true => (name, pkg)
  | .func _ name false => (name, here)
  | .method pkg _ name => (name, pkg)
  | .value name => (name, here)

/-- metadata.go:1343-1404: what is recorded for one statement; every name but `_` gets the same
right-hand side. -/
def record (here : String) (s : Stmt) : List Asg :=
  (s.lhs.filter (fun x => decide (x ≠ "_"))).map fun x =>
    match s.rhs with
    | .call f args => ⟨x, (assignedCallee here f).1, (assignedCallee here f).2, .call f args⟩
    | e => ⟨x, "", "", e⟩

/-- metadata.go:301-310 and 1140-1188: `AssignmentMap[x]`, in source order. -/
def Decl.assignments (d : Decl) (x : String) : List Asg :=
  (d.body.flatMap (record d.pkg)).filter (fun a => decide (a.var = x))

/-- expression.go:107-165, 184-240 and extractor.go:2942-2953: `calleeNameOf(call.Fun)`. -/
def Callee.name : Callee → String
  | .func _ n _ => n
  | .method _ _ n => n
  | .value n => n

/-- expression.go:107-165, 184-240: `call.Fun.GetPkg()` in package `here`; here a plain name has the package
of its declaration. -/
def Callee.funPkg (here : String) : Callee → String
  | .func p _ _ => p
  | .method p _ _ => p
  | .value _ => here

/-- extractor.go:1969-1984. -/
def findFunctionByName (m : Decls) (pkg name : String) : Option Decl :=
  if name = "" then none else
  match m.funcs.find? (fun f => decide (f.pkg = pkg) && decide (f.name = name)) with
  | some f => some f
  | none => m.funcs.find? (fun f => decide (f.name = name))

/-- extractor.go:2047-2070. -/
def methodAssignments (m : Decls) (pkg recv name x : String) : List Asg :=
  if name = "" then [] else
  ((m.meths.find? fun f => decide (f.pkg = pkg) && decide (f.name = name) &&
      (decide (recv = "") || decide (f.recv = recv)) && !(f.assignments x).isEmpty).map (·.assignments x)).getD []

/-- The function a closure is written in. -/
structure Parent where
  pkg : String
  recv : String := ""
  name : String
  deriving Repr

/-- The part of the edge of the call to `Write` that is read.  The assignments of the callee's own body,
which the code looks at first (extractor.go:2029-2031), are taken to be none: `Write` is a method of an
interface. -/
structure Edge where
  callerPkg : String
  callerRecv : String := ""
  callerName : String
  parent : Option Parent := none
  deriving Repr

/-- extractor.go:1995-2038. -/
def assignmentsAt (m : Decls) (e : Edge) (x : String) : List Asg :=
  if x = "" then [] else
  match (findFunctionByName m e.callerPkg e.callerName).filter (fun f => !(f.assignments x).isEmpty) with
  | some f => f.assignments x
  | none =>
    match e.parent with
    | none => []
    | some p =>
      match (findFunctionByName m p.pkg p.name).filter (fun f => !(f.assignments x).isEmpty) with
      | some f => f.assignments x
      | none => methodAssignments m p.pkg p.recv p.name x

/-- write_sink.go:180-196. -/
def sinkAssignments (m : Decls) (e : Edge) (x : String) : List Asg :=
  if !(assignmentsAt m e x).isEmpty then assignmentsAt m e x
  else if e.callerRecv = "" then []
  else methodAssignments m e.callerPkg e.callerRecv e.callerName x

/-- config.go:189-200.  A regular expression is a predicate (one that does not compile matches nothing); `none`
is the empty expression, which is not asked. -/
structure Transform where
  call : Option (String → Bool)
  pkg : Option (String → Bool)
  argIndex : Nat

/-- write_sink.go:206-217. -/
def Transform.matches (t : Transform) (f p : String) : Bool :=
  (t.call.map (· f)).getD true && (t.pkg.map (· p)).getD true

/-- write_sink.go:201-221. -/
def matchBodyTransform (ts : List Transform) (f p : String) : Option Nat :=
  if f = "" then none else (ts.find? (·.matches f p)).map (·.argIndex)

/-- write_sink.go:51-55 and 135-137: the payload of an assigned call. -/
def assignedPayload (ts : List Transform) (a : Asg) : Option Exp :=
  match matchBodyTransform ts a.calleeFunc a.calleePkg, a.value with
  | some i, .call _ args => args[i]?
  | _, _ => none

/-- write_sink.go:137-139. -/
def identName : Exp → Option String
  | .var x => some x
  | _ => none

/-- write_sink.go:119-145, one returned value.  The empty string is `none`. -/
def consider (ts : List Transform) (d : Decl) : Exp → Option String
  | .call f args =>
    match matchBodyTransform ts f.name (f.funPkg d.pkg) with
    | some i => (args[i]?).bind identName
    | none => none
  | .var b => (d.assignments b).findSome? fun a => (assignedPayload ts a).bind identName
  | _ => none

/-- metadata.go:1471-1500: the values of the first return statement with the most values. -/
def returnVars : List (List Exp) → List Exp
  | [] => []
  | r :: rs => if (returnVars rs).length > r.length then returnVars rs else r

/-- write_sink.go:118-159. -/
def helperSerializedParam (ts : List Transform) (d : Decl) : Option String :=
  match d.rets.findSome? (fun r => r.findSome? (consider ts d)) with
  | some p => some p
  | none => (returnVars d.rets).findSome? (consider ts d)

/-- write_sink.go:164-171. -/
def paramIndexOf (d : Decl) (p : String) : Option Nat := d.params.findIdx? (fun q => decide (q = p))

/-- write_sink.go:80-111. -/
def unwrapHelperReturn (m : Decls) (ts : List Transform) (e : Edge) (f : Callee) (args : List Exp) : Option Exp :=
  if f.name = "" then none else
  match findFunctionByName m (if f.funPkg e.callerPkg = "" then e.callerPkg else f.funPkg e.callerPkg) f.name with
  | none => none
  | some d =>
    match helperSerializedParam ts d with
    | none => none
    | some p =>
      match paramIndexOf d p with
      | none => none
      | some i => args[i]?

/-- write_sink.go:37-39. -/
def strip : Exp → Exp
  | .wrap _ x => strip x
  | e => e

/-- write_sink.go:32-68: the expression whose type is documented instead of the bytes, if any. -/
def unwrapWriteSink (m : Decls) (ts : List Transform) (e : Edge) (arg : Exp) : Option Exp :=
  if ts.isEmpty then none else
  match strip arg with
  | .var x => (sinkAssignments m e x).getLast?.bind (assignedPayload ts)
  | .call f args => unwrapHelperReturn m ts e f args
  | _ => none

end Verif.WriteSink
