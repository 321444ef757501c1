/-!
# Model: a call as the body of a response

`processFunctionCallReturnType` (internal/metadata/types.go:2017-2073), `extractReturns` (metadata.go:1471-1501, for
functions with one result), `findFunctionByName` (internal/spec/extractor.go:1970-1984), `concreteFromCalleeReturn`
(3311-3338), the part of `resolveArgType` (2233-2262) for calls and the first lines of `resolveTypeOrigin` (3144-3148).

Simplified: types are names, spelled the same everywhere; whether a name is an interface is a parameter; dereferencing and
generic instances are left out.
-/

namespace Verif.CallBody

/-- A function or method: its name, the type of its first result ("" without one) and, for each return statement in
source order, the type of the value, "" where it is not known. -/
structure Fn where
  name : String
  result : String
  returns : List String
deriving DecidableEq

/-- A file: its functions, and its types in the order of their names, with their methods. -/
structure File where
  funcs : List Fn
  types : List (String × List Fn)

/-- The packages in the order of their names, each with its files in the order of theirs. -/
abbrev Prog := List (String × List File)

/-- A call as an argument: the package and name of what is called, and the type of the call, as the checker says. -/
structure Call where
  pkg : String
  name : String
  typ : String

def filesOf (pr : Prog) (pkg : String) : List File := (pr.lookup pkg).getD []

/-- What types.go:2048-2072 finds in a file: a function of the name, else the first method of the name. -/
def inFile (name : String) (f : File) : Option Fn :=
  match f.funcs.find? (fun g => g.name == name) with
  | some g => some g
  | none => (f.types.flatMap (·.2)).find? (fun g => g.name == name)

/-- types.go:2017-2073: the resolved type of the call; none if nothing is set. -/
def resolvedType (pr : Prog) (c : Call) : Option String :=
  if c.name = "" then none
  else match (filesOf pr c.pkg).findSome? (inFile c.name) with
    | some g => if g.result = "" then none else some g.result
    | none => none

/-- extractor.go:1970-1984 -/
def findFunctionByName (pr : Prog) (pkg name : String) : Option Fn :=
  if name = "" then none
  else match ((filesOf pr pkg).flatMap (·.funcs)).find? (fun g => g.name == name) with
    | some g => some g
    | none => (pr.flatMap fun p => p.2.flatMap (·.funcs)).find? (fun g => g.name == name)

/-- metadata.go:1492-1497 with one result: the first return statement. -/
def returnVars (g : Fn) : List String := g.returns.take 1

/-- The loop of extractor.go:3326-3336. -/
def concreteLoop (iface : String → Bool) : String → List String → String
  | concrete, [] => concrete
  | concrete, ct :: r =>
    if ct = "" || iface ct then concreteLoop iface concrete r
    else if concrete ≠ "" && concrete ≠ ct then ""
    else concreteLoop iface ct r

/-- extractor.go:3311-3338 -/
def concreteFromCalleeReturn (pr : Prog) (iface : String → Bool) (c : Call) : String :=
  if !iface c.typ then ""
  else match findFunctionByName pr c.pkg c.name with
    | none => ""
    | some g => concreteLoop iface "" (returnVars g)

/-- extractor.go:2240-2262 and 3144-3148: the type that is documented for the call; `shown` is the text of the call. -/
def bodyType (pr : Prog) (iface : String → Bool) (shown : String) (c : Call) : String :=
  if c.typ ≠ "" ∧ concreteFromCalleeReturn pr iface c ≠ "" then concreteFromCalleeReturn pr iface c
  else (resolvedType pr c).getD (if c.typ ≠ "" then c.typ else shown)

end Verif.CallBody
