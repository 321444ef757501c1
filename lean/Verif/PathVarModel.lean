/-
Model of the path variables read from a map (gorilla/mux's `mux.Vars(r)["id"]`): which parameters are
added for them (internal/spec/extractor.go:1738-1793) and which reads are reported because the route
does not declare the variable (internal/spec/extractor.go:1817-1966), of how the assignments of a
function are recorded (internal/metadata/metadata.go:1148-1190, 1340-1440) and of how expressions are
(internal/metadata/expression.go:41-110, 195-350).

Simplifications: of an expression's recorded form only the fields this code reads are kept; regular
expressions are arbitrary predicates; which functions reach the accessor is a given answer (C44); the
index of functions is given by its two lookups; positions are left out.
-/
import Verif.Common
import Verif.ValidateModel
import Verif.PathsModel

namespace Verif.PathVar
open Verif.Common Verif.ValidateModel Verif.Paths

abbrev Str := List Char

/-! ## The recorded form of expressions -/

inductive Kind
  | ident | literal | selector | call | index | other
  deriving DecidableEq

/-- `CallArgument` (internal/metadata/types.go:1160-1200); `nil` is the null pointer. -/
inductive Rec
  | nil
  | mk (kind : Kind) (name value pkg : Str) (x fn sel : Rec) (args : List Rec)

def Rec.kind? : Rec → Option Kind
  | .nil => none
  | .mk k .. => some k
def Rec.name : Rec → Str
  | .nil => []
  | .mk _ n .. => n
def Rec.value : Rec → Str
  | .nil => []
  | .mk _ _ v .. => v
def Rec.pkg : Rec → Str
  | .nil => []
  | .mk _ _ _ p .. => p
def Rec.fn : Rec → Rec
  | .nil => .nil
  | .mk _ _ _ _ _ f .. => f
def Rec.sel : Rec → Rec
  | .nil => .nil
  | .mk _ _ _ _ _ _ s _ => s

/-- The accessor: its `CallRegex` and `RecvTypeRegex` as predicates, and `ParamIn`. -/
structure Acc where
  call : Str → Bool
  recv : Str → Bool
  isPath : Bool := true

/-- `isAccessorCall` (internal/spec/extractor.go:1946-1966). -/
def isAccessorCall (acc : Acc) (x : Rec) : Bool :=
  if x.kind? ≠ some .call || x.fn.kind? = none then false
  else if x.fn.kind? = some .selector && x.fn.sel.kind? ≠ none then
    acc.call x.fn.sel.name && acc.recv (if x.fn.pkg = [] then x.fn.sel.pkg else x.fn.pkg)
  else acc.call x.fn.name && acc.recv x.fn.pkg

/-- `strings.Trim(s, "\"`")`. -/
def trimKey (s : Str) : Str := trimBy (fun c => c == '"' || c == '`') s

/-- The first half of `collectAccessorKeys` (internal/spec/extractor.go:1922-1935). -/
def keyHere (acc : Acc) (vars : Str → Bool) (k : Kind) (x f : Rec) : List Str :=
  if k = .index ∧ f.kind? = some .literal ∧ ((x.kind? = some .ident ∧ vars x.name = true) ∨ isAccessorCall acc x = true) ∧ trimKey f.value ≠ []
  then [trimKey f.value] else []

mutual
/-- `collectAccessorKeys` (internal/spec/extractor.go:1918-1942). -/
def collect (acc : Acc) (vars : Str → Bool) : Rec → List Str
  | .nil => []
  | .mk k _ _ _ x f s as =>
    keyHere acc vars k x f ++ (collect acc vars x ++ (collect acc vars f ++ (collect acc vars s ++ collectAll acc vars as)))
def collectAll (acc : Acc) (vars : Str → Bool) : List Rec → List Str
  | [] => []
  | a :: as => collect acc vars a ++ collectAll acc vars as
end

/-- `Assignment` (internal/metadata/types.go:990-1010): the value and, for a call, who is called. -/
structure Assign where
  value : Rec
  calleeFunc : Str
  calleePkg : Str

/-- `AssignmentMap`: a map from variables to assignments, here a list in arbitrary order. -/
abbrev AssignMap := List (Str × List Assign)

/-- `accessorVars` (internal/spec/extractor.go:1893-1905). -/
def accessorVar (acc : Acc) (am : AssignMap) (n : Str) : Bool :=
  am.any fun e => e.1 == n && e.2.any fun a => acc.call a.calleeFunc && acc.recv a.calleePkg && a.calleeFunc != []

/-- The keys of `recoverAccessorKeys` (internal/spec/extractor.go:1907-1912). -/
def accessorKeys (acc : Acc) (am : AssignMap) : List Str :=
  am.flatMap fun e => e.2.flatMap fun a => collect acc (accessorVar acc am) a.value

/-- The functions of the analyzed packages: by package and name, and by name in any package
(internal/metadata/types.go:537-620). -/
structure Index where
  inPackage : Str → Str → Option AssignMap
  anywhere : Str → Option AssignMap

/-- `findFunctionByName` (internal/spec/extractor.go:1970-1986). -/
def findFunction (ix : Index) (pkg name : Str) : Option AssignMap :=
  if name = [] then none
  else match ix.inPackage pkg name with
    | some f => some f
    | none => ix.anywhere name

/-- `strings.TrimPrefix`. -/
def trimPrefix (s pre : Str) : Str := if pre.isPrefixOf s then s.drop pre.length else s

structure Route where
  method : Str
  mount : Str
  path : Str
  function : Str
  package : Str

/-- `bareFunc` (internal/spec/extractor.go:1878-1881). -/
def bareFunc (r : Route) : Str := if r.package ≠ [] then trimPrefix r.function (r.package ++ ['.']) else r.function

/-- `recoverAccessorKeys` (internal/spec/extractor.go:1876-1913). -/
def recoverKeys (ix : Index) (acc : Acc) (r : Route) : List Str :=
  match findFunction ix r.package (bareFunc r) with
  | none => []
  | some am => accessorKeys acc am

/-- `PathParamMismatch` (internal/spec/extractor.go:1797-1802). -/
structure Mismatch where
  method : Str
  path : Str
  handler : Str
  key : Str
  deriving DecidableEq

/-- The string a report is remembered by (internal/spec/extractor.go:1844). -/
def dedupKey (m : Mismatch) : Str := m.method ++ ' ' :: (m.path ++ ' ' :: m.key)

/-- Every element once. -/
def distinct : List Str → List Str
  | [] => []
  | a :: l => if a ∈ l then distinct l else a :: distinct l

def keyLe (a b : Str) : Bool := strLe (String.ofList a) (String.ofList b)

def mismatchOf (r : Route) (key : Str) : Mismatch :=
  { method := r.method, path := convertPath (Verif.Paths.joinPaths r.mount r.path), handler := r.function, key := key }

/-- One turn of the loop (internal/spec/extractor.go:1839-1857). -/
def addMismatch (r : Route) (out : List Mismatch) (key : Str) : List Mismatch :=
  if key ∈ pathPlaceholders r.path then out
  else if (out.map dedupKey).contains (dedupKey (mismatchOf r key)) then out
  else out ++ [mismatchOf r key]

/-- `recordPathVarKeyMismatches` (internal/spec/extractor.go:1817-1859): reported so far, and the route's. -/
def recordRoute (ix : Index) (acc : Acc) (out : List Mismatch) (r : Route) : List Mismatch :=
  if r.function = [] then out
  else (isort keyLe (distinct (recoverKeys ix acc r))).foldl (addMismatch r) out

/-- The reports of a run (internal/spec/extractor.go:344-349). -/
def mismatches (ix : Index) (acc : Acc) (rs : List Route) : List Mismatch := rs.foldl (recordRoute ix acc) []

/-! ## The parameters added -/

structure Param where
  name : Str
  inPath : Bool
  required : Bool
  pattern : Str
  deriving DecidableEq

/-- `completeMapKeyPathParams` (internal/spec/extractor.go:1738-1793); `reaches` is
`handlerReachesAccessor`. -/
def complete (acc : Acc) (reaches : Bool) (path : Str) (params : List Param) : List Param :=
  let covered := fun n => params.any fun p => p.inPath && p.name == n
  if !((pathPlaceholders path).any fun n => !covered n) then params
  else if !reaches then params
  else params ++ ((pathPlaceholders path).filter fun n => !covered n).map fun n =>
    { name := n, inPath := acc.isPath, required := acc.isPath, pattern := (patternFor path n).getD [] }

/-! ## Go code and how it is recorded -/

/-- Go expressions: a name, a string literal, `m[k]`, a call of a package-level function (written with
its package or not), another literal, and everything else with its operands. -/
inductive GoEx
  | ident (n : Str)
  | str (text : Str)
  | index (m k : GoEx)
  | call (pkg fn : Str) (qualified : Bool) (args : List GoEx)
  | binary (x y : GoEx)
  | other (operands : List GoEx)

mutual
/-- `ExprToCallArgument` (internal/metadata/expression.go:41-110).  For an expression of another kind the
operands are recorded under `X`, `Fun` and `Args`, all of which are walked; here under `Args`. -/
def record : GoEx → Rec
  | .ident n => .mk .ident n [] [] .nil .nil .nil []
  | .str t => .mk .literal [] t [] .nil .nil .nil []
  | .index m k => .mk .index [] [] [] (record m) (record k) .nil []
  | .call p f true as => .mk .call [] [] [] .nil (.mk .selector [] [] p (.mk .ident [] [] p .nil .nil .nil []) .nil (.mk .ident f [] p .nil .nil .nil []) []) .nil (recordAll as)
  | .call p f false as => .mk .call [] [] [] .nil (.mk .ident f [] p .nil .nil .nil []) .nil (recordAll as)
  | .binary x y => .mk .other [] [] [] (record x) (record y) .nil []
  | .other as => .mk .other [] [] [] .nil .nil .nil (recordAll as)
def recordAll : List GoEx → List Rec
  | [] => []
  | a :: as => record a :: recordAll as
end

/-- What an assignment assigns to. -/
inductive Lhs
  | blank
  | var (n : Str)
  | place (text : Str)

/-- Statements: an assignment (one per assigned place; `var` declarations are assignments too,
internal/metadata/metadata.go:1157-1187) and any other use of an expression. -/
inductive Stmt
  | assign (lhs : Lhs) (rhs : GoEx)
  | use (e : GoEx)

/-- `CalleeFunc` and `CalleePkg` (internal/metadata/metadata.go:1394-1398). -/
def calleeOf : GoEx → Str × Str
  | .call p f _ _ => (f, p)
  | _ => ([], [])

/-- `processAssignment` (internal/metadata/metadata.go:1362-1440): nothing for the blank name; the callee
only for names. -/
def recordStmt : Stmt → Option (Str × Assign)
  | .assign .blank _ => none
  | .assign (.var n) e => some (n, ⟨record e, (calleeOf e).1, (calleeOf e).2⟩)
  | .assign (.place t) e => some (t, ⟨record e, [], []⟩)
  | .use _ => none

end Verif.PathVar
