import Verif.Common
/-!
# Model: which function encloses a position, and how a function literal is named

internal/metadata/analysis.go:66-180 (getEnclosingFunctionName, findEnclosingFunctionLiteral,
findParentFunction) and internal/metadata/position.go:90-200 (funcLitName, stablePosition,
stableFilename, formatPosition).  Receivers and signatures of the enclosing function are left out;
paths are clean and absolute, given by their components.
-/

namespace Verif.LitModel

abbrev Str := List Char

/-- A function literal: which one, and its source range. -/
structure Lit where
  uid : Nat
  lo : Nat
  hi : Nat
  deriving DecidableEq

/-- A syntax node with `Pos()` and `End()` (0: `token.NoPos`), whether it is a function literal, and
its children in the order `ast.Inspect` visits them. -/
inductive Node
  | mk (lo hi : Nat) (lit : Option Nat) (kids : List Node)

/-- analysis.go:130: `n.Pos()+1 > pos || pos > n.End()-1`. -/
def outside (lo hi pos : Nat) : Bool := decide (lo + 1 > pos) || decide (pos + 1 > hi)

/-- analysis.go:132: the range is not trustworthy. -/
def invalid (lo hi : Nat) : Bool := decide (lo = 0) || decide (hi = 0)

/-- analysis.go:135-139. -/
def record (lo hi : Nat) (lit : Option Nat) (found : Option Lit) : Option Lit :=
  match lit with
  | some u => some ⟨u, lo, hi⟩
  | none => found

mutual
/-- analysis.go:122-146: the pruned walk, `found` so far. -/
def search (pos : Nat) : Node → Option Lit → Option Lit
  | .mk lo hi lit kids, found =>
    if outside lo hi pos then (if invalid lo hi then searchAll pos kids found else found)
    else searchAll pos kids (record lo hi lit found)
def searchAll (pos : Nat) : List Node → Option Lit → Option Lit
  | [], found => found
  | n :: ns, found => searchAll pos ns (search pos n found)
end

/-- A top-level declaration: the name if it is a function, and its node. -/
structure Decl where
  fn : Option Str
  node : Node

/-- A file: its own range and its declarations. -/
structure File where
  lo : Nat
  hi : Nat
  decls : List Decl

def loOf : Node → Nat
  | .mk lo _ _ _ => lo
def hiOf : Node → Nat
  | .mk _ hi _ _ => hi

/-- analysis.go:122-146 applied to the file node. -/
def enclosingLit (f : File) (pos : Nat) : Option Lit := search pos (.mk f.lo f.hi none (f.decls.map Decl.node)) none

/-- What getEnclosingFunctionName finds. -/
inductive Enclosing
  | lit (l : Lit)
  | decl (name : Str)
  | none
  deriving DecidableEq

/-- analysis.go:85-107: the first function declaration whose range holds `pos`. -/
def enclosingDecl (pos : Nat) : List Decl → Enclosing
  | [] => .none
  | d :: ds =>
    match d.fn with
    | some name => if loOf d.node ≤ pos ∧ pos ≤ hiOf d.node then .decl name else enclosingDecl pos ds
    | none => enclosingDecl pos ds

/-- analysis.go:70-108. -/
def enclosing (f : File) (pos : Nat) : Enclosing :=
  match enclosingLit f pos with
  | some l => .lit l
  | none => enclosingDecl pos f.decls

/-- analysis.go:157-178: the first function declaration around a literal; [] if none. -/
def parentDecl (l : Lit) : List Decl → Str
  | [] => []
  | d :: ds =>
    match d.fn with
    | some name => if loOf d.node ≤ l.lo ∧ l.hi ≤ hiOf d.node then name else parentDecl l ds
    | none => parentDecl l ds

/-- analysis.go:148-180. -/
def parentFunction (f : File) (pos : Nat) : Str :=
  match enclosingLit f pos with
  | some l => parentDecl l f.decls
  | none => []

/-! ## Names of literals -/

/-- `filepath.Rel` on clean absolute paths, by components: drop the common part, then climb. -/
def rel : List Str → List Str → List Str
  | [], [] => [['.']]
  | [], t => t
  | b, [] => b.map fun _ => ['.', '.']
  | b :: bs, t :: ts => if b = t then rel bs ts else ((b :: bs).map fun _ => ['.', '.']) ++ (t :: ts)

/-- Components joined with slashes. -/
def joinSlash : List Str → Str
  | [] => []
  | [c] => c
  | c :: cs => c ++ '/' :: joinSlash cs

/-- position.go:151: `modCacheMarker`. -/
def marker : Str := "pkg/mod/".toList

/-- position.go:142-144: what follows the last occurrence of the marker. -/
def afterMarker : Str → Option Str
  | [] => none
  | c :: cs =>
    match afterMarker cs with
    | some r => some r
    | none => if marker.isPrefixOf (c :: cs) then some ((c :: cs).drop marker.length) else none

/-- position.go:133-146, for a file and a module directory ([]: unknown) given by components. -/
def stableFilename (moduleDir file : List Str) : Str :=
  if moduleDir ≠ [] ∧ ¬ (['.', '.'] : Str).isPrefixOf (joinSlash (rel moduleDir file)) = true then joinSlash (rel moduleDir file)
  else match afterMarker ('/' :: joinSlash file) with
    | some r => r
    | none => '/' :: joinSlash file

/-- position.go:173-200 for a valid position (line > 0). -/
def formatPosition (name : Str) (line col : Nat) : Str :=
  (name ++ if name = [] then [] else [':']) ++ (Nat.toDigits 10 line ++ if col = 0 then [] else ':' :: Nat.toDigits 10 col)

/-- position.go:96-98, 108-118: the identity of the literal written at line and column of a file. -/
def litName (moduleDir file : List Str) (line col : Nat) : Str :=
  "FuncLit:".toList ++ formatPosition (stableFilename moduleDir file) line col

end Verif.LitModel
