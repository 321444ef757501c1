/-
Model of how the name of a parameter is read off the call that reads it
(internal/spec/extractor.go:3123-3141, 3441-3519, internal/spec/context_provider.go:61-121), of what is
recorded of package-level constants and variables (internal/metadata/metadata.go:1210-1271), and of the
part of the rendering of expressions that is used for it (internal/metadata/expression.go:631-655).

Simplifications: expressions are those that can state a name - literals, names, qualified names, fields,
concatenations - and everything else is one constructor with its rendering; the tracing of a wrapper's
parameter to the caller's argument (C74) is a given second expression; the type of the value read is
opaque.  Files and packages are maps, here lists in arbitrary order.
-/
import Verif.Common
import Verif.ValidateModel

namespace Verif.ParamName
open Verif.Common Verif.ValidateModel

abbrev Str := List Char

/-- Expressions as recorded by `ExprToCallArgument` (internal/metadata/expression.go:45-110): a literal
with its source text; a name declared at package level or inside a function, with the path of its
package and the rendering of its type; an imported package with its path and its own name; a
selector; `x + y`; anything else. -/
inductive Ex
  | lit (text : Str)
  | top (pkg name ty : Str)
  | loc (pkg name ty : Str)
  | imported (path name : Str)
  | sel (x : Ex) (name : Str) (pkg ty : Str)
  | cat (x y : Ex)
  | other (raw : Str)

/-- `GetPkg` (internal/metadata/expression.go:114-166, 195-238). -/
def pkgOf : Ex → Str
  | .top p _ _ => p
  | .loc p _ _ => p
  | .imported p _ => p
  | .sel _ _ p _ => p
  | _ => []

/-- `GetName`: selectors, concatenations and literals have none. -/
def nameOf : Ex → Str
  | .top _ n _ => n
  | .loc _ n _ => n
  | .imported _ n => n
  | _ => []

/-- `GetType`: an imported package has none (internal/metadata/expression.go:119-125). -/
def tyOf : Ex → Str
  | .top _ _ t => t
  | .loc _ _ t => t
  | .sel _ _ _ t => t
  | _ => []

/-- `strings.Trim(s, "\"")`. -/
def trimQ (s : Str) : Str := trimBy (fun c => c == '"') s

/-- `strings.TrimPrefix(s, "*")`. -/
def trimStar : Str → Str
  | '*' :: r => r
  | r => r

/-- `callArgToString` (internal/metadata/expression.go:631-668); `below` says whether it stands inside
another expression. -/
def text : Bool → Ex → Str
  | _, .lit t => trimQ t
  | below, .top _ n ty => if below && ty != [] then ty else n
  | below, .loc _ n ty => if below && ty != [] then ty else n
  | _, .imported _ n => n
  | _, .sel x n _ _ => trimStar (text true x) ++ '.' :: n
  | _, .cat x y => text true x ++ ' ' :: '+' :: ' ' :: text true y
  | _, .other raw => raw

/-- A package-level declaration. -/
structure Decl where
  const : Bool
  init : Option Ex

/-- A package: its files, each with its declarations. -/
abbrev Files := List (Str × List (Str × Decl))

/-- The analyzed packages, and the string that was interned first. -/
structure Prog where
  pkgs : List (Str × Files)
  first : Str

/-- `GetString(variable.Value)` (internal/metadata/metadata.go:1237-1265): without an initial value the
field keeps its zero value, which is the index of the first interned string. -/
def recorded (pr : Prog) (d : Decl) : Str :=
  match d.init with
  | some e => text false e
  | none => pr.first

def lookup (l : List (Str × α)) (k : Str) : Option α := (l.find? fun e => e.1 == k).map Prod.snd

/-- The order of file names. -/
def fileLe (a b : Str) : Bool := strLe (String.ofList a) (String.ofList b)

/-- `constantInPackage` (internal/spec/context_provider.go:84-109): the files in the order of their
names (internal/metadata/types.go:330-356), constants and variables alike. -/
def constantInPackage (pr : Prog) (key name : Str) : Option Str :=
  match lookup pr.pkgs key with
  | none => none
  | some fs =>
    if name = [] then none
    else (isort (fun a b => fileLe a.1 b.1) fs).findSome? fun f => (lookup f.2 name).map fun d => trimQ (recorded pr d)

/-- `strings.HasSuffix`. -/
def hasSuffix (s suf : Str) : Bool := suf.reverse.isPrefixOf s.reverse

/-- `selectorPackageKey` (internal/spec/context_provider.go:113-121). -/
def selectorPackageKey (x : Ex) : Str :=
  if tyOf x = [] && !hasSuffix (pkgOf x) (nameOf x) then pkgOf x ++ '/' :: nameOf x else pkgOf x

/-- `ConstantValue` (internal/spec/context_provider.go:61-77, 89-95). -/
def constantValue (pr : Prog) : Ex → Option Str
  | .lit t => some (trimQ t)
  | .top p n _ => constantInPackage pr p n
  | .loc p n _ => constantInPackage pr p n
  | .imported p n => constantInPackage pr p n
  | .sel x n _ _ => constantInPackage pr (selectorPackageKey x) (if tyOf x = [] then n else tyOf x ++ '.' :: n)
  | .cat _ _ => none
  | .other _ => none

/-- An argument, and the argument the tracing through wrappers finds for it when that is another one. -/
structure Arg where
  ex : Ex
  origin : Option Ex := none

/-- `paramWireName` (internal/spec/extractor.go:3123-3141). -/
def paramWireName (pr : Prog) (a : Arg) : Option Str :=
  match constantValue pr a.ex with
  | some v => some v
  | none =>
    match a.origin with
    | none => none
    | some o => constantValue pr o

/-- Where a parameter is read from (`ParamIn`). -/
inductive Place
  | path | query | header | cookie | form | formFile | multipart
deriving DecidableEq

/-- The schema of a parameter: a plain string, a file, or that of the type of an argument. -/
inductive Shape
  | string | binary | ofArg (i : Nat)
deriving DecidableEq

/-- A parameter pattern. -/
structure Pattern where
  place : Place
  argIndex : Nat
  typeIndex : Option Nat := none

structure Param where
  name : Str
  place : Place
  required : Bool
  shape : Shape
deriving DecidableEq

/-- The schema (internal/spec/extractor.go:3485-3511). -/
def shapeOf (pat : Pattern) (n : Nat) : Shape :=
  match pat.typeIndex with
  | some i => if i < n then .ofArg i else .string
  | none => .string

/-- The parameter with its name known (internal/spec/extractor.go:3473-3518). -/
def finish (pat : Pattern) (n : Nat) (name : Str) : Param :=
  if pat.place = .formFile then { name := name, place := pat.place, required := false, shape := .binary }
  else { name := name, place := pat.place, required := pat.place = .path, shape := shapeOf pat n }

/-- `ExtractParam` (internal/spec/extractor.go:3441-3519): the parameter, and whether the body of the
route is known to be multipart. -/
def extractParam (pr : Prog) (pat : Pattern) (args : List Arg) : Option Param × Bool :=
  if pat.place = .multipart then (none, true)
  else
    match args[pat.argIndex]? with
    | none => (some (finish pat args.length []), pat.place = .formFile)
    | some a =>
      match paramWireName pr a with
      | none => (none, false)
      | some v => (some (finish pat args.length v), pat.place = .formFile)

end Verif.ParamName
