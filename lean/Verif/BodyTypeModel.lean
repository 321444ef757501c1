import Verif.Common
/-!
# Model: the type of a body held in an interface variable

`resolveTypeOrigin`, `concreteFromEnclosingFunc`, `concreteSetFromEnclosingFunc` (internal/spec/extractor.go),
`ambiguousConcreteSet`, `oneOfSchemaFor` (internal/spec/handler_value.go) and what `processAssignment`
(internal/metadata/metadata.go) records of an assignment.
-/

namespace Verif.BodyType
open Verif.Common

/-- The static type of the right side of an assignment: a type, the results of a call of several results (also
`v, ok := x.(T)`, which go/types records as a pair), or `nil`. -/
inductive STy
  | one (name : String)
  | tuple (names : List String)
  | nil
  deriving DecidableEq

/-- The text recorded (`typeStringOf`, internal/metadata/analysis.go:319-340, through `analyzeAssignmentValue`,
analysis.go:358-372, with type information): `types.Type.String`.  Tuples and nil are written as Go writes them. -/
def STy.text : STy → String
  | .one n => n
  | .tuple ns => "(" ++ String.intercalate ", " ns ++ ")"
  | .nil => "untyped nil"

/-- The body of a function, as far as variables and the call that sends or reads the body go.  `set v t i`
assigns to `v` a value of static type `t` (component `i` of a tuple). -/
inductive Prog
  | skip
  | seq (a b : Prog)
  | ite (a b : Prog)
  | loop (a : Prog)
  | set (v : String) (t : STy) (i : Nat)
  | use
  deriving DecidableEq

/-- `AssignmentMap` of a function (internal/metadata/metadata.go:1130-1190 and `processAssignment`,
metadata.go:1320-1447, the case of an identifier): variable and recorded type, in the order of the text. -/
def Prog.record : Prog → List (String × String)
  | .seq a b => a.record ++ b.record
  | .ite a b => a.record ++ b.record
  | .loop a => a.record
  | .set v t _ => [(v, t.text)]
  | _ => []

/-- A declared function (methods are not among the functions of a file). -/
structure Fn where
  pkg : String
  name : String
  body : Prog
  deriving DecidableEq

/-- `findFunctionByName` (internal/spec/extractor.go:1970-1984): in the package, else in the first package that
has it.  The functions are listed by package name. -/
def findFn (fns : List Fn) (pkg name : String) : Option Fn :=
  if name = "" then none
  else match fns.find? (fun f => decide (f.pkg = pkg) && decide (f.name = name)) with
    | some f => some f
    | none => fns.find? (fun f => decide (f.name = name))

/-- What is known where the call is: the functions of the program, which recorded types are interfaces
(`isInterfaceTypeName`, extractor.go:3342-3352), the enclosing function of the call, the types recorded for the
variable on the call itself, the concrete type of the argument bound to the variable if it is a parameter
(`concreteFromParamBinding`, extractor.go:3274-3303; empty if none), and the types that have a schema. -/
structure Site where
  fns : List Fn
  iface : String → Bool
  callerPkg : String
  callerName : String
  onCall : List String
  bound : String
  hasSchema : String → Bool

/-- `concreteSetFromEnclosingFunc` (extractor.go:3234-3264). -/
def concreteSet (s : Site) (v orig : String) : List String :=
  if !s.iface orig then []
  else match findFn s.fns s.callerPkg s.callerName with
    | none => []
    | some f => sortStrings (dedup ((f.body.record.filterMap fun r => if r.1 = v then some r.2 else none).filter
        fun t => decide (t ≠ "") && !s.iface t))

/-- `concreteFromEnclosingFunc` (extractor.go:3204-3225). -/
def concreteOne (s : Site) (v orig : String) : String :=
  match concreteSet s v orig with
  | [t] => t
  | _ => ""

/-- `resolveTypeOrigin` for a variable of a type without type parameters (extractor.go:3169-3194 and
pattern_matchers.go:1271-1301). -/
def origin (s : Site) (v orig : String) : String :=
  match s.onCall.find? (fun t => decide (t ≠ "")) with
  | some t => t
  | none =>
    if concreteOne s v orig ≠ "" then concreteOne s v orig
    else if s.iface orig && decide (s.bound ≠ "") then s.bound
    else orig

/-- What is documented: one type, or one of several. -/
inductive Doc
  | one (t : String)
  | oneOf (ts : List String)
  deriving DecidableEq

/-- `ambiguousConcreteSet` (handler_value.go:35-51). -/
def ambiguous (s : Site) (v orig : String) : List String :=
  if (concreteSet s v orig).length < 2 then [] else concreteSet s v orig

/-- The body type of a request or response (pattern_matchers.go:1117-1150 and extractor.go:2251-2262,
2577-2598, with `oneOfSchemaFor`, handler_value.go:70-86).  Dereferencing and generic names are left out. -/
def document (s : Site) (v orig : String) : Doc :=
  let r := origin s v orig
  let set := if r = orig then ambiguous s v orig else []
  if set.length < 2 then .one r
  else if (set.filter s.hasSchema).length < 2 then .one r
  else .oneOf (set.filter s.hasSchema)

end Verif.BodyType
