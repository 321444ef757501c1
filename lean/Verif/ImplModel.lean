/-
Model of how apispec decides which struct types implement which interfaces of the analyzed packages
(internal/metadata/metadata.go:2009-2051, internal/metadata/analysis.go:25-67), of the rendering of
a method's signature it compares (internal/metadata/expression.go:113-175, 190-245, 366-395,
463-495, 548-612, 631-744) and of how a type declaration is given its methods
(internal/metadata/metadata.go:311-326, 669-675, 703-732, 1105-1121).

Simplifications:
* A signature is given with what the Go type checker says about every name in it.  Struct literals
  and non-empty interface literals inside a signature are outside the model.
* Strings stand for string-pool indexes (the pool is injective on non-empty strings, see C02); the
  memo of normalized signatures is transparent and left out.
* `[...]` instantiations with one and with several arguments are one constructor: the code renders
  both as the head, `[`, the arguments joined with `, ` and `]`.
* Local types and the merge of a package's files are not modelled: a package is its list of types.
-/
import Verif.Common

namespace Verif.ImplModel
open Verif.Common

abbrev Str := List Char

/-- Direction of a channel type. -/
inductive Dir | both | send | recv
deriving DecidableEq, Repr

/-- The length of an array type: none for a slice, a literal, or a named constant. -/
inductive Len | none | lit (digits : Str) | const (value : Str)
deriving DecidableEq, Repr

mutual
/-- A type expression of the source, with what the type checker resolved its names to. -/
inductive TE where
  /-- An identifier: the path of the declaring package (`none` for predeclared names), its name, and
  for a generic type its parameter list as go/types prints it (empty otherwise). -/
  | ident (pkg : Option Str) (name : Str) (tparams : Str)
  /-- `pkg.Name`: path and name of the imported package, and the name of the type. -/
  | sel (path pkgName name : Str)
  | star (e : TE)
  | paren (e : TE)
  | array (len : Len) (e : TE)
  | map (k v : TE)
  | chan (d : Dir) (e : TE)
  | ellipsis (e : TE)
  | emptyIface
  | inst (e : TE) (args : Fields)
  | func (ps rs : Fields)
/-- Parameter and result lists: every field declares `names` names (0 when unnamed) of one type. -/
inductive Fields where
  | nil
  | cons (names : Nat) (e : TE) (rest : Fields)
end

/-- `fmt.Sprintf("%s, %s", …)`-style `strings.Join(xs, ", ")`. -/
def joinComma : List Str → Str
  | [] => []
  | [x] => x
  | x :: y :: r => x ++ ", ".toList ++ joinComma (y :: r)

/-- What `SetType`/`GetType` hold for an identifier that is a type
(internal/metadata/expression.go:113-166): the printed type without the path of its package. -/
def identType (name tparams : Str) : Str := name ++ tparams

/-- The value recorded for an array length (internal/metadata/expression.go:377-392): a literal's
text; a constant identifier that is not a string has no value. -/
def lenValue : Len → Str
  | .none => []
  | .lit d => d
  | .const _ => []

/-- `strings.TrimPrefix(argX, "*")` (internal/metadata/expression.go:644). -/
def trimStar : Str → Str
  | '*' :: r => r
  | r => r

/-- The fixed texts of the rendering (internal/metadata/expression.go:692-727). -/
def kMap : Str := "map[".toList
def kChan : Str := "chan ".toList
def kDots : Str := "...".toList
def kIface : Str := "interface{}".toList
def kFunc : Str := "func(".toList
def kClose : Str := ") ".toList

mutual
/-- `callArgToString` of the argument built for a type expression that stands below another one
(internal/metadata/expression.go:631-744).  The identifier of an imported package has no type, so
its name is printed (637-640). -/
def render : TE → Str
  | .ident _ n tp => identType n tp
  | .sel _ pn n => trimStar pn ++ '.' :: n
  | .star e => '*' :: render e
  | .paren e => '(' :: (render e ++ [')'])
  | .array l e => '[' :: (lenValue l ++ ']' :: render e)
  | .map k v => kMap ++ (render k ++ ']' :: render v)
  | .chan _ e => kChan ++ render e
  | .ellipsis e => kDots ++ render e
  | .emptyIface => kIface
  | .inst e args => render e ++ '[' :: (joinComma (renderResults args) ++ [']'])
  | .func ps rs => kFunc ++ (joinComma (renderParams ps) ++ (kClose ++ joinComma (renderResults rs)))
/-- Parameters: one argument per declared name, or one for an unnamed field
(internal/metadata/expression.go:559-581). -/
def renderParams : Fields → List Str
  | .nil => []
  | .cons n e r => List.replicate (if n = 0 then 1 else n) (render e) ++ renderParams r
/-- Results: one argument per field (internal/metadata/expression.go:593-600). -/
def renderResults : Fields → List Str
  | .nil => []
  | .cons _ e r => render e :: renderResults r
end

/-- What the regular expression engine says about characters: which are letters (`\p{L}`) and which
are numbers (`\p{N}`).  Only what holds of ASCII is assumed. -/
structure Uni where
  letter : Char → Bool
  number : Char → Bool
  plain : ∀ c ∈ ".,()[]{}* ".toList, letter c = false ∧ number c = false
  digits : ∀ c ∈ "0123456789".toList, letter c = false
  ascii : ∀ c ∈ "abcdefghijklmnopqrstuvwxyz".toList, letter c = true

/-- `[\p{L}_]` (internal/metadata/analysis.go:28). -/
def Uni.start (u : Uni) (c : Char) : Bool := u.letter c || c == '_'

/-- `[\p{L}\p{N}_]` (internal/metadata/analysis.go:28). -/
def Uni.word (u : Uni) (c : Char) : Bool := u.letter c || u.number c || c == '_'

/-- `pkgQualifierRe.ReplaceAllString(sig, "")` (internal/metadata/analysis.go:28, 37-39) with the word
read so far: a word is dropped together with the dot after it. -/
def normGo (u : Uni) : Str → Str → Str
  | pend, [] => pend
  | [], c :: cs => if u.start c then normGo u [c] cs else c :: normGo u [] cs
  | p :: ps, c :: cs =>
    if u.word c then normGo u (p :: ps ++ [c]) cs
    else if c = '.' then normGo u [] cs
    else p :: ps ++ c :: normGo u [] cs

/-- `normalizeSignature` (internal/metadata/analysis.go:37-39). -/
def norm (u : Uni) (s : Str) : Str := normGo u [] s

/-- A method's signature. -/
structure Sig where
  params : Fields
  results : Fields

/-- `CallArgToString(&m.Signature)` (internal/metadata/metadata.go:325, 1116). -/
def Sig.str (s : Sig) : Str := render (.func s.params s.results)

/-- A function declaration with a receiver: the receiver's type as written, e.g. `*T`. -/
structure FuncDecl where
  recv : String
  name : String
  sig : Sig

/-- One element of an interface type: a method, or an embedded type. -/
inductive Elem
  | method (name : String) (sig : Sig)
  | embedded (pkg name : String)

/-- The type of a declaration (internal/metadata/metadata.go:703-732). -/
inductive Kind
  | struct (embeds : List (String × String))
  | iface (elems : List Elem)
  | other

/-- A type declaration; `params` is its list of type parameters as written in a receiver. -/
structure TypeDecl where
  name : String
  params : String := ""
  kind : Kind

/-- A package: its types (a map) and the methods declared in it, in source order. -/
structure Pkg where
  types : List TypeDecl
  funcs : List FuncDecl

/-- A recorded method. -/
structure Method where
  name : String
  sig : Sig

/-- `allTypeMethods[r]` (internal/metadata/metadata.go:272-328). -/
def methodsAt (fs : List FuncDecl) (r : String) : List Method :=
  (fs.filter (fun f => f.recv == r)).map fun f => ⟨f.name, f.sig⟩

/-- The methods recorded for a type that is not an interface (internal/metadata/metadata.go:669-673):
those with the type as receiver, then those with a pointer to it. -/
def typeMethods (fs : List FuncDecl) (t : TypeDecl) : List Method :=
  methodsAt fs (t.name ++ t.params) ++ methodsAt fs ("*" ++ (t.name ++ t.params))

/-- `processInterfaceMethods` (internal/metadata/metadata.go:1105-1121): embedded types are skipped. -/
def ifaceMethods : List Elem → List Method
  | [] => []
  | .method n s :: r => ⟨n, s⟩ :: ifaceMethods r
  | .embedded _ _ :: r => ifaceMethods r

/-- `structMethods[name]` (internal/metadata/metadata.go:2030-2033): the last one recorded. -/
def findMethod (ms : List Method) (n : String) : Option Method :=
  ms.reverse.find? fun m => m.name == n

/-- `implementsInterface` (internal/metadata/analysis.go:45-67). -/
def implementsInterface (u : Uni) (ms im : List Method) : Bool :=
  !im.isEmpty && im.all fun m =>
    match findMethod ms m.name with
    | none => false
    | some d => norm u d.sig.str == norm u m.sig.str

/-- The analyzed packages: a map from import path to package. -/
abbrev Prog := List (String × Pkg)

/-- `slices.Sorted(maps.Keys(pkgs))` with the packages (internal/metadata/metadata.go:2014). -/
def sortedPkgs (pr : Prog) : Prog := isort (fun a b => strLe a.1 b.1) pr

/-- A package's types in the order of their names (internal/metadata/metadata.go:2018-2021). -/
def sortedTypes (p : Pkg) : List TypeDecl := isort (fun a b => strLe a.name b.name) p.types

/-- All types in the order of the loops (internal/metadata/metadata.go:2022-2025, 2035-2038). -/
def allTypes (pr : Prog) : List (String × List FuncDecl × TypeDecl) :=
  (sortedPkgs pr).flatMap fun e => (sortedTypes e.2).map fun t => (e.1, e.2.funcs, t)

/-- Is the type a struct? (internal/metadata/metadata.go:2026) -/
def isStruct (t : TypeDecl) : Bool := match t.kind with | .struct _ => true | _ => false

/-- The recorded methods of an interface; none for other types
(internal/metadata/metadata.go:2040-2042). -/
def ifaceOf (t : TypeDecl) : Option (List Method) :=
  match t.kind with | .iface es => some (ifaceMethods es) | _ => none

/-- The key a type is recorded under. -/
def key (pkg name : String) : String := pkg ++ "." ++ name

/-- The pairs (struct, interface) in the order in which `analyzeInterfaceImplementations` appends
them to the two lists (internal/metadata/metadata.go:2022-2050). -/
def pairs (u : Uni) (pr : Prog) : List ((String × String) × (String × String)) :=
  (allTypes pr).flatMap fun (sp, fs, s) =>
    if isStruct s then
      (allTypes pr).filterMap fun (ip, _, i) =>
        match ifaceOf i with
        | none => none
        | some im => if implementsInterface u (typeMethods fs s) im then some ((sp, s.name), (ip, i.name)) else none
    else []

/-- `Implements` of a type (internal/metadata/metadata.go:2044). -/
def implementsOf (u : Uni) (pr : Prog) (pkg name : String) : List String :=
  ((pairs u pr).filter fun x => x.1 == (pkg, name)).map fun x => key x.2.1 x.2.2

/-- `ImplementedBy` of an interface (internal/metadata/metadata.go:2045). -/
def implementedBy (u : Uni) (pr : Prog) (pkg name : String) : List String :=
  ((pairs u pr).filter fun x => x.2 == (pkg, name)).map fun x => key x.1.1 x.1.2

end Verif.ImplModel
