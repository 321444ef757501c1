import Verif.Common
import Verif.ValidateModel

/-!
# Functions stored in struct fields

`internal/spec/func_field_dispatch.go`: a call through a func-typed field of a struct
(`c.Action()`) is resolved to the functions that composite literals store in that
field.  The index decides which code, hence which routes, a program is seen to reach.

Simplifications: the key of the index is the triple of package, type and field instead
of the three joined by dots (types and fields contain none, so the joined text
determines the triple); the maps of metadata are lists in the order of the sorted keys;
what an entrypoint pattern matches is an arbitrary function of the owner type and the
field; positions are left out.
-/

namespace Verif.FuncField
open Verif.Common

abbrev Str := List Char

/-! ## Type names -/

/-- `strings.TrimPrefix`. -/
def trimPrefix (p s : Str) : Str := if p.isPrefixOf s then s.drop p.length else s

/-- What follows the last dot, everything when there is none (`strings.LastIndex`). -/
def afterLastDot (s : Str) : Str := (s.reverse.takeWhile (· != '.')).reverse

/-- `unicode.IsSpace`, on the ASCII range. -/
def isSpace (c : Char) : Bool := c == ' ' || c == '\t' || c == '\n' || c == '\r' || c == '\x0b' || c == '\x0c'

/-- `strings.TrimSpace`. -/
def trimSpace (s : Str) : Str := ValidateModel.trimBy isSpace s

def star : Str := ['*']
def brackets : Str := ['[', ']']

/-- `bareTypeName` (`func_field_dispatch.go:637-649`). -/
def bareTypeName (t : Str) : Str :=
  afterLastDot (trimPrefix star (trimPrefix brackets (trimPrefix star (trimPrefix brackets (trimSpace t)))))

/-- `elementTypeName` (`func_field_dispatch.go:651-668`). -/
def elementTypeName (t : Str) : Str :=
  if brackets.isPrefixOf t then t.drop 2
  else if ['m', 'a', 'p', '['].isPrefixOf t || ['['].isPrefixOf t then
    if t.contains ']' then (t.dropWhile (· != ']')).drop 1 else []
  else []

/-- The loop of `splitQualifiedType` (`func_field_dispatch.go:461-467`). -/
def stripAll : Nat → Str → Str
  | 0, s => s
  | n + 1, s =>
    let s' := trimPrefix star (trimPrefix brackets s)
    if s' = s then s else stripAll n s'

/-- `splitQualifiedType` (`func_field_dispatch.go:455-480`). -/
def splitQualified (t : Str) : Str × Str :=
  let name := stripAll t.length (trimSpace t)
  let last := afterLastDot name
  if last.length = name.length then ([], name)
  else
    let pkg := name.take (name.length - last.length - 1)
    if pkg = [] then ([], name)
    else if pkg.contains '/' then (pkg, last) else ([], last)

/-- `isFuncTypeString` (`func_field_dispatch.go:577-583`). -/
def isFuncType (t : Str) : Bool :=
  let t := trimPrefix star t
  t == ['f', 'u', 'n', 'c'] || ['f', 'u', 'n', 'c', '('].isPrefixOf t

/-! ## Metadata -/

/-- The type of a composite literal as an expression.  An identifier and a selector both
give a name and the package that declares it; maps, generics, struct types and the
like are `other`. -/
inductive TyExpr where
  | named (pkg name : Str)
  | star (t : TyExpr)
  | arr (t : TyExpr)
  | other
deriving DecidableEq, Repr

/-- `CallArgument`, as far as the walk looks. -/
inductive Arg where
  | ident (pkg name : Str)
  /-- `x.name`: the package of what is selected, the receiver type when it is a method,
  the recorded type of `x` otherwise. -/
  | sel (x : Arg) (pkg name : Str) (recv : Option Str) (xtype : Option Str)
  | funcLit (name : Str)
  | lit (ty : Option TyExpr) (elts : List Arg)
  | kv (key : Option Str) (value : Arg)
  /-- Anything else: the parts `X` and `Fun`, and `Args`. -/
  | other (parts args : List Arg)

/-- A struct type with its fields in order, types as recorded. -/
structure Struct where
  pkg : Str
  name : Str
  fields : List (Str × Str)

/-- A literal as `File.StructInstances` records it: the type as rendered and the keyed
fields with the value as rendered. -/
structure Instance where
  type : Str
  fields : List (Str × Str)

/-- What the index is built from. -/
structure World where
  structs : List Struct
  /-- `knownFunctionKeys` (`func_field_dispatch.go:501-520`). -/
  known : Str → Bool
  /-- `matchesEntrypoint`, for a package, a type of it and a field. -/
  entry : Str → Str → Str → Bool
  /-- Whether any entrypoint pattern is configured. -/
  anyEntry : Bool

/-- `structFieldTypes` and `structFieldOrder` (`func_field_dispatch.go:522-575`): the
fields of the first recorded type of that name that has any. -/
def fieldsOf (W : World) (pkg name : Str) : List (Str × Str) :=
  if pkg = [] ∨ name = [] then []
  else match W.structs.find? fun s => s.pkg == pkg && s.name == name && !s.fields.isEmpty with
    | some s => s.fields
    | none => []

/-- Lookup in the map of `structFieldTypes`: the last field of that name. -/
def fieldType (fs : List (Str × Str)) (k : Str) : Str :=
  match fs.reverse.find? fun f => f.1 == k with
  | some f => f.2
  | none => []

/-! ## Values -/

def dot : Str := ['.']

/-- `functionKeyFromName` (`func_field_dispatch.go:482-499`). -/
def keyFromName (known : Str → Bool) (pkg name : Str) : Option Str :=
  if name = [] then none
  else if known name then some name
  else if pkg = [] then none
  else if known (pkg ++ dot ++ name) then some (pkg ++ dot ++ name)
  else none

/-- `functionKeysOfValue` (`func_field_dispatch.go:315-374`). -/
def keysOfValue (known : Str → Bool) (ctx : Str) : Arg → List Str
  | .ident pkg name => (keyFromName known (if pkg = [] then ctx else pkg) name).toList
  | .funcLit name => (keyFromName known ctx name).toList
  | .sel _ pkg name recv xtype =>
    if name = [] then []
    else
      let p := if pkg = [] then ctx else pkg
      let r := bareTypeName (match recv with
        | some r => r
        | none => xtype.getD [])
      if r ≠ [] ∧ known (p ++ dot ++ r ++ dot ++ name) = true then [p ++ dot ++ r ++ dot ++ name]
      else (keyFromName known p name).toList
  | _ => []

/-- An entry of the index: package, type and field, and the function. -/
structure Rec where
  pkg : Str
  type : Str
  field : Str
  fn : Str
deriving DecidableEq, Repr

/-- `litType` (`func_field_dispatch.go:211-221`). -/
structure LitType where
  pkg : Str
  name : Str
deriving DecidableEq, Repr

/-- `typeExprName` (`func_field_dispatch.go:594-617`). -/
def typeExprName : TyExpr → Str
  | .named _ n => n
  | .star t => if typeExprName t = [] then [] else star ++ typeExprName t
  | .arr t => if typeExprName t = [] then [] else brackets ++ typeExprName t
  | .other => []

/-- `compositeLitPkg` (`func_field_dispatch.go:619-635`); for `other` nothing is stated
and the package is not used. -/
def typeExprPkg : TyExpr → Str
  | .named p _ => p
  | .star t => typeExprPkg t
  | .arr t => typeExprPkg t
  | .other => []

/-- The type a literal states, or the one expected, `func_field_dispatch.go:244-247`. -/
def statedOr (expect : LitType) : Option TyExpr → LitType
  | some t => if typeExprName t = [] then expect else ⟨typeExprPkg t, typeExprName t⟩
  | none => expect

/-- The type of a literal, `func_field_dispatch.go:248-256`. -/
def litTypeOf (ctx : Str) (expect : LitType) (ty : Option TyExpr) : LitType :=
  let l := statedOr expect ty
  let p := (splitQualified l.name).1
  let l := if p = [] then l else { l with pkg := p }
  if l.pkg = [] then { l with pkg := ctx } else l

/-- `record` (`func_field_dispatch.go:304-313`) when the field holds functions
(`func_field_dispatch.go:276-280`, 292-296; a positional field always has a name). -/
def record (W : World) (ctx : Str) (l : LitType) (field : Str) (value : Arg) : List Rec :=
  let bare := bareTypeName l.name
  if field ≠ [] ∧ (W.entry l.pkg bare field = true ∨ isFuncType (fieldType (fieldsOf W l.pkg bare) field) = true) then
    (keysOfValue W.known ctx value).map fun k => ⟨l.pkg, bare, field, k⟩
  else []

/-- What is expected of the value of a keyed element (`func_field_dispatch.go:281-284`). -/
def nextKeyed (W : World) (l : LitType) (field : Str) : LitType :=
  let t := fieldType (fieldsOf W l.pkg (bareTypeName l.name)) field
  if t = [] then ⟨l.pkg, elementTypeName l.name⟩ else ⟨l.pkg, t⟩

/-- The field that an element without key initialises (`func_field_dispatch.go:288-292`). -/
def positional (W : World) (l : LitType) (i : Nat) : Option (Str × Str) :=
  if elementTypeName l.name = [] then (fieldsOf W l.pkg (bareTypeName l.name))[i]? else none

mutual
/-- `walkCompositeLits` (`func_field_dispatch.go:223-302`) at depth `d`. -/
def walk (W : World) (ctx : Str) : Nat → LitType → Arg → List Rec
  | d, expect, .lit ty elts =>
    if d > 12 then [] else walkElts W ctx d (litTypeOf ctx expect ty) 0 elts
  | d, expect, .sel x _ _ _ _ => if d > 12 then [] else walk W ctx (d + 1) expect x
  | d, expect, .kv _ v => if d > 12 then [] else walk W ctx (d + 1) expect v
  | d, expect, .other parts args =>
    if d > 12 then []
    else walkAll W ctx (d + 1) expect parts ++ walkAll W ctx (d + 1) ⟨[], []⟩ args
  | _, _, .ident _ _ => []
  | _, _, .funcLit _ => []
/-- The loops over the parts of what is no literal, `func_field_dispatch.go:235-240`. -/
def walkAll (W : World) (ctx : Str) : Nat → LitType → List Arg → List Rec
  | _, _, [] => []
  | d, expect, a :: as => walk W ctx d expect a ++ walkAll W ctx d expect as
/-- The loop over the elements of a literal, `func_field_dispatch.go:265-301`. -/
def walkElts (W : World) (ctx : Str) : Nat → LitType → Nat → List Arg → List Rec
  | _, _, _, [] => []
  | d, l, i, .kv key v :: es =>
    record W ctx l (key.getD []) v ++ walk W ctx (d + 1) (nextKeyed W l (key.getD [])) v ++ walkElts W ctx d l (i + 1) es
  | d, l, i, e :: es =>
    (match positional W l i with
      | some f => record W ctx l f.1 e ++ walk W ctx (d + 1) ⟨l.pkg, f.2⟩ e
      | none => walk W ctx (d + 1) ⟨l.pkg, elementTypeName l.name⟩ e) ++ walkElts W ctx d l (i + 1) es
end

/-! ## Rendered instances -/

/-- `isMajorVersionElement` (`func_field_dispatch.go:441-453`). -/
def isMajor (s : Str) : Bool :=
  match s with
  | 'v' :: c :: cs => (c :: cs).all fun c => '0' ≤ c && c ≤ '9'
  | _ => false

/-- `importTailMatches` (`func_field_dispatch.go:423-439`). -/
def tailMatches (path qual : Str) : Bool :=
  if path = [] ∨ qual = [] then false
  else
    let parts := ValidateModel.splitC '/' path
    let last := parts.getLast?.getD []
    if last = qual then true
    else if parts.length > 1 && isMajor last then parts.dropLast.getLast?.getD [] == qual
    else false

/-- The smallest of the candidates (`func_field_dispatch.go:416-420`). -/
def smallest (l : List Str) : Option Str := ((sortStrings (l.map String.ofList)).head?).map String.toList

/-- `functionKeyFromRendered` (`func_field_dispatch.go:376-421`); `imports` are pairs of
an alias and a path, the alias being the path where none is written. -/
def keyFromRendered (known : Str → Bool) (pkg : Str) (imports : List (Str × Str)) (value : Str) : Option Str :=
  match keyFromName known pkg value with
  | some k => some k
  | none =>
    let qual := value.takeWhile (· != '.')
    if qual.length = value.length ∨ qual = [] then none
    else
      let rest := value.drop (qual.length + 1)
      smallest ((imports.filter fun i => i.1 == qual || tailMatches i.2 qual).filterMap fun i =>
        if known (i.2 ++ dot ++ rest) then some (i.2 ++ dot ++ rest) else none)

/-- `addStructInstances` (`func_field_dispatch.go:154-209`) for one instance in a file of
the package `pkg`. -/
def instanceRecs (W : World) (pkg : Str) (imports : List (Str × Str)) (inst : Instance) : List Rec :=
  let q := splitQualified inst.type
  let p := if q.1 = [] then pkg else q.1
  let fs := fieldsOf W p q.2
  if inst.fields = [] ∨ (fs = [] ∧ W.anyEntry = false) then []
  else inst.fields.flatMap fun f =>
    if f.1 ≠ [] ∧ (W.entry p q.2 f.1 = true ∨ isFuncType (fieldType fs f.1) = true) then
      (keyFromRendered W.known pkg imports f.2).toList.map fun k => ⟨p, q.2, f.1, k⟩
    else []

/-! ## The index -/

/-- One file: its package, its imports, the literals in it as instances, and the values
assigned in its functions. -/
structure File where
  pkg : Str
  imports : List (Str × Str)
  instances : List Instance
  assigned : List Arg

/-- `buildFuncFieldDispatch` (`func_field_dispatch.go:65-111`) before sorting; `calls` are the
call arguments with the package of the caller. -/
def allRecs (W : World) (files : List File) (calls : List (Str × Arg)) : List Rec :=
  files.flatMap (fun f => f.instances.flatMap (instanceRecs W f.pkg f.imports) ++
    f.assigned.flatMap (walk W f.pkg 0 ⟨[], []⟩)) ++
  calls.flatMap fun c => walk W c.1 0 ⟨[], []⟩ c.2

/-- `dedupeSortedStrings` (`func_field_dispatch.go:670-681`). -/
def dedupSorted : List String → List String
  | [] => []
  | [s] => [s]
  | s :: t :: rest => if s = t then dedupSorted (t :: rest) else s :: dedupSorted (t :: rest)

/-- `keysFor` (`func_field_dispatch.go:113-116`, 125-148) for a call of `name` with the receiver type
`recv` as recorded, in package `pkg`. -/
def keysFor (W : World) (files : List File) (calls : List (Str × Arg)) (pkg recv name : Str) : List String :=
  let r := trimPrefix star recv
  if r = [] ∨ pkg = [] ∨ name = [] then []
  else dedupSorted (sortStrings (((allRecs W files calls).filter fun x =>
    x.pkg == pkg && x.type == afterLastDot r && x.field == name).map fun x => String.ofList x.fn))

/-- The functions stored in a field declared as an entrypoint
(`func_field_dispatch.go:203-205`, 309-311, 117-122). -/
def entryKeys (W : World) (files : List File) (calls : List (Str × Arg)) : List String :=
  dedupSorted (sortStrings (((allRecs W files calls).filter fun x =>
    W.entry x.pkg x.type x.field).map fun x => String.ofList x.fn))

end Verif.FuncField
