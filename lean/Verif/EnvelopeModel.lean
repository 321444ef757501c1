import Verif.Assoc
/-!
# Envelopes: the payload type of a wrapper response

`respond(w, order)` puts the order into a field of type `any` of an envelope made by a constructor.  The response
is documented with the envelope's schema and, on top of it, the schema of what this route passes:
internal/spec/wrapper_specialisation.go:62-413, called from extractor.go:2608-2612.  The model starts from the
statements of helper and constructor; what is recorded for them is metadata.go:1322-1404 (assignments),
1471-1510 (returns) and expression.go:45-165, 297-307, 421-447 (expressions).
-/

namespace Verif.Envelope

open Verif.Common

abbrev Str := List Char

/-- Expressions.  `ty` is the recorded type text (`CallArgument.Type`: expression.go:107-165, handleCallExpr), and
`info` what `GetArgumentInfo` renders for a variable or a call (context_provider.go:122-330). -/
inductive Exp
  | var (x : String) (ty info : Str)
  | call (pkg name : String) (args : List Exp) (ty info : Str)
  /-- A literal with its source text; no type is recorded. -/
  | lit (raw : Str)
  /-- `T{F: e, …}`, with the rendered type. -/
  | comp (ty : Str) (fields : List (String × Exp))
  /-- `&e` -/
  | addr (e : Exp)
  | paren (e : Exp)

/-- `x, err := e`. -/
structure Stmt where
  lhs : List String
  rhs : Exp

/-- A declared function: the assignments of its body in source order and its return statements. -/
structure Decl where
  pkg : String
  name : String
  params : List String
  body : List Stmt
  rets : List (List Exp)

/-- types.go:995-1010, the part of an `Assignment` that is read here. -/
structure Asg where
  calleeFunc : String
  calleePkg : String
  index : Nat
  value : Exp

/-- metadata.go:1322-1404: what is recorded for `x` by one statement.  A call gives its results to the names in
order; any other right-hand side goes to one name.  (A statement with several right-hand sides is as many
statements.) -/
def record (s : Stmt) (x : String) : List Asg :=
  match s.rhs with
  | .call pkg name args ty info =>
    (s.lhs.zipIdx.filter (fun p => decide (p.1 = x) && decide (p.1 ≠ "_"))).map fun p =>
      ⟨name, pkg, p.2, .call pkg name args ty info⟩
  | e => if s.lhs.head? = some x ∧ x ≠ "_" then [⟨"", "", 0, e⟩] else []

/-- metadata.go:301-310: `AssignmentMap[x]`. -/
def Decl.assignments (d : Decl) (x : String) : List Asg := d.body.flatMap (record · x)

/-- metadata.go:1471-1510: the values of the first return statement with the most values. -/
def returnVars : List (List Exp) → List Exp
  | [] => []
  | r :: rs => if (returnVars rs).length > r.length then returnVars rs else r

/-- body_source.go:339-351. -/
def findFunction (funcs : List Decl) (pkg name : String) : Option Decl :=
  funcs.find? fun f => decide (f.pkg = pkg) && decide (f.name = name)

/-- wrapper_specialisation.go:143-151: `&` and parentheses stripped. -/
def strip : Exp → Exp
  | .addr e => strip e
  | .paren e => strip e
  | e => e

/-- wrapper_specialisation.go:153-178: field name and parameter name. -/
def fieldParams (params : List String) (e : Exp) : List (String × String) :=
  match strip e with
  | .comp _ fields =>
    (fields.filterMap fun f =>
      match f.2 with
      | .var p _ _ => if f.1 ≠ "" ∧ p ≠ "" ∧ p ∈ params then some (f.1, p) else none
      | _ => none).foldl (fun m f => mset m f.1 f.2) []
  | _ => []

/-- wrapper_specialisation.go:354-361. -/
def lookupArg : List Exp → List String → String → Option Exp
  | args, q :: ps, p =>
    match args with
    | a :: as => if q = p then some a else lookupArg as ps p
    | [] => none
  | _, [], _ => none

/-- `strings.Trim` of double quotes: context_provider.go:132-134. -/
def unquote (s : Str) : Str := ((s.dropWhile (· == '"')).reverse.dropWhile (· == '"')).reverse

/-- `CallArgument.GetType()`. -/
def Exp.type : Exp → Str
  | .var _ ty _ => ty
  | .call _ _ _ ty _ => ty
  | _ => []

/-- context_provider.go:122-330: `GetArgumentInfo`. -/
def Exp.info : Exp → Str
  | .var _ _ i => i
  | .call _ _ _ _ i => i
  | .lit raw => unquote raw
  | .comp ty _ => ty
  | .addr e => '*' :: e.info
  | .paren _ => []

/-- wrapper_specialisation.go:209-214. -/
def callerArgType (e : Exp) : Str := if e.type ≠ [] then e.type else e.info

/-- `strings.TrimSpace`, for the blanks of ASCII. -/
def trimSpace (s : Str) : Str :=
  let blank := fun c : Char => c == ' ' || c == '\t' || c == '\n' || c == '\r'
  ((s.dropWhile blank).reverse.dropWhile blank).reverse

/-- `strings.TrimPrefix` with one character. -/
def trimPrefix (c : Char) : Str → Str
  | [] => []
  | a :: s => if a = c then s else a :: s

/-- metadata.go:737-743. -/
def primitives : List Str :=
  ["string".toList, "int".toList, "int8".toList, "int16".toList, "int32".toList, "int64".toList,
   "uint".toList, "uint8".toList, "uint16".toList, "uint32".toList, "uint64".toList,
   "float32".toList, "float64".toList, "bool".toList, "byte".toList, "rune".toList,
   "error".toList, "interface{}".toList, "struct{}".toList, "any".toList,
   "complex64".toList, "complex128".toList, "time.Time".toList, "nil".toList]

/-- metadata.go:733-748; what it says of slices and arrays does not matter here. -/
def isPrimitive (t : Str) : Bool := decide (trimPrefix '*' t ∈ primitives)

def emptyInterface : Str := "interface{}".toList
def anyText : Str := "any".toList
def untypedText : Str := "untyped ".toList

/-- wrapper_specialisation.go:229-243. -/
def cleanOverrideType (s : Str) : Str :=
  let t := trimPrefix '*' (trimPrefix '&' (trimSpace s))
  if t = [] ∨ t = emptyInterface ∨ t = anyText then []
  else if untypedText.isPrefixOf t then []
  else if !(t.any fun c => c == '.' || c == '/' || c == '[') && !isPrimitive t then []
  else t

/-- The call that entered the helper, on the way from the route: parameter names with the arguments
(`ParamArgMap`). -/
abbrev ParentEdge := Option (List (String × Exp))

/-- wrapper_specialisation.go:189-200. -/
def resolveOverrideGoType (parent : ParentEdge) (a : Exp) : Str :=
  match a, parent with
  | .var x ty _, some m =>
    match mget m x with
    | some c => if cleanOverrideType (callerArgType c) ≠ [] then cleanOverrideType (callerArgType c) else cleanOverrideType ty
    | none => cleanOverrideType ty
  | e, _ => cleanOverrideType e.type

/-- wrapper_specialisation.go:62-126: field name and type text of each override.  `pkg` and `name` are those of the
caller of the matched call. -/
def collectWrapperOverrides (funcs : List Decl) (pkg name : String) (parent : ParentEdge) (arg : Exp) : List (String × Str) :=
  match arg with
  | .var x _ _ =>
    match findFunction funcs pkg name with
    | none => []
    | some helper =>
      match (helper.assignments x).getLast? with
      | none => []
      | some a =>
        if a.calleeFunc = "" ∨ a.calleePkg = "" then []
        else match findFunction funcs a.calleePkg a.calleeFunc with
          | none => []
          | some ctor =>
            match (returnVars ctor.rets)[a.index]?, a.value with
            | some rv, .call _ _ args _ _ =>
              (fieldParams ctor.params rv).filterMap fun b =>
                match lookupArg args ctor.params b.2 with
                | none => none
                | some e => if resolveOverrideGoType parent e = [] then none else some (b.1, resolveOverrideGoType parent e)
            | _, _ => []
  | _ => []

/-- A field of the envelope: its name, its declared type and the name its json tag gives (`extractJSONName`,
mapper.go:1754-1777, modelled for C67: empty without a tag, with an empty name and with `-`). -/
structure Field where
  name : String
  ty : Str
  tag : String

/-- wrapper_specialisation.go:382-396. -/
def isGeneric (fields : List Field) (f : String) : Bool :=
  match fields.find? (fun d => decide (d.name = f)) with
  | some d => decide (trimPrefix '*' d.ty = emptyInterface ∨ trimPrefix '*' d.ty = anyText)
  | none => false

/-- wrapper_specialisation.go:398-413. -/
def jsonName (fields : List Field) (f : String) : String :=
  match fields.find? (fun d => decide (d.name = f)) with
  | some d => if d.tag ≠ "" then d.tag else f
  | none => ""

/-- wrapper_specialisation.go:245-314: the properties laid over the reference to the envelope; none leaves the
reference alone.  `mapType` is `mapGoTypeToOpenAPISchema`. -/
def specialise {S : Type} (fields : List Field) (mapType : Str → Option S) (overrides : List (String × Str)) :
    List (String × S) :=
  overrides.foldl (fun m o =>
    if !isGeneric fields o.1 then m
    else if jsonName fields o.1 = "" then m
    else match mapType o.2 with
      | none => m
      | some s => mset m (jsonName fields o.1) s) []

end Verif.Envelope
