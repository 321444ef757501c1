import Verif.Assoc
/-!
# Model: HTTP methods of routes

internal/spec/method_dispatch.go (splitting by method), internal/metadata/method_dispatch.go
(finding the branches), internal/spec/pattern_matchers.go (verbs from names and arguments) and the
assembly of operations in internal/spec/mapper.go.
-/

namespace Verif.MethodsModel
open Verif.Common

abbrev Str := List Char

/-! ### Branches in a handler body (internal/metadata/method_dispatch.go) -/

/-- metadata/types.go:960-964. -/
structure Branch where
  methods : List Str
  startLine : Int
  endLine : Int
  deriving DecidableEq

/-- A handler body as `ast.Inspect` walks it.  `sw` is a switch statement: whether its tag is the
request's method, and its clauses (the constant strings of the case expressions, `none` for an
expression that is no string constant; an empty list is the default arm), each with its lines and
its statements.  `cond` is an if statement: the constant the request method is compared with for
equality in its condition, if it is such a comparison; the lines of its body; body; else (`node []`
if there is none).
`node` is any other syntax. -/
inductive Node
  | sw (onMethod : Bool) (clauses : List (List (Option Str) × Int × Int × List Node))
  | cond (eqTo : Option Str) (startLine endLine : Int) (body : List Node) (els : Node)
  | node (kids : List Node)

/-- metadata/method_dispatch.go:26-29. -/
def verbTable : List Str :=
  ["GET".toList, "POST".toList, "PUT".toList, "DELETE".toList, "PATCH".toList, "HEAD".toList, "OPTIONS".toList,
   "CONNECT".toList, "TRACE".toList]

/-- metadata/method_dispatch.go:106-116. -/
def constVerb (upper : Str → Str) : Option Str → Option Str
  | none => none
  | some s => if upper s ∈ verbTable then some (upper s) else none

/-- metadata/method_dispatch.go:94-102. -/
def caseVerbs (upper : Str → Str) (l : List (Option Str)) : List Str := l.filterMap (constVerb upper)

/-- metadata/method_dispatch.go:54-68: the branches of a switch on the method. -/
def clauseBranch (upper : Str → Str) (c : List (Option Str) × Int × Int × List Node) : Option Branch :=
  if caseVerbs upper c.1 = [] then none else some ⟨caseVerbs upper c.1, c.2.1, c.2.2.1⟩

/-- metadata/method_dispatch.go:121-138: the arms of an if/else-if chain. -/
def chainArms (upper : Str → Str) : Node → List Branch
  | .cond eqTo a b _ els => (constVerb upper eqTo).toList.map (fun v => ⟨[v], a, b⟩) ++ chainArms upper els
  | _ => []

mutual
/-- metadata/method_dispatch.go:48-77, the walk. -/
def detect (upper : Str → Str) : Node → List Branch
  | .sw onMethod clauses => if onMethod then clauses.filterMap (clauseBranch upper) else detectClauses upper clauses
  | .cond eqTo a b body els =>
    if chainArms upper (.cond eqTo a b body els) = [] then detectAll upper body ++ detect upper els
    else chainArms upper (.cond eqTo a b body els)
  | .node kids => detectAll upper kids
def detectAll (upper : Str → Str) : List Node → List Branch
  | [] => []
  | n :: ns => detect upper n ++ detectAll upper ns
def detectClauses (upper : Str → Str) : List (List (Option Str) × Int × Int × List Node) → List Branch
  | [] => []
  | (_, _, _, body) :: cs => detectAll upper body ++ detectClauses upper cs
end

/-! ### Routes -/

/-- What a request or a response carries: the place it was seen at, and the rest (opaque). -/
structure Site where
  file : Str
  line : Int
  id : Nat
  deriving DecidableEq

/-- extractor.go:40-110, the fields this stage reads or writes; `rest` stands for the others.
`path` is the final OpenAPI path (mapper.go:386-387). -/
structure Route where
  method : Str
  explicit : Bool
  extra : List Str := []
  suffix : Str := []
  path : Str
  pkg : Str
  fn : Str
  request : Option Site := none
  responses : List (Str × Option Site) := []
  rest : Nat := 0
  deriving DecidableEq

/-- method_dispatch.go:78-87, the methods in order of first mention. -/
def mentions (bs : List Branch) : List Str :=
  bs.foldl (fun acc b => b.methods.foldl (fun acc m => if m ∈ acc then acc else acc ++ [m]) acc) []

/-- method_dispatch.go:85, the ranges recorded for one method. -/
def rangesOf (bs : List Branch) (m : Str) : List (Int × Int) :=
  bs.flatMap fun b => (b.methods.filter (· = m)).map fun _ => (b.startLine, b.endLine)

/-- method_dispatch.go:97-104. -/
def inRanges (rs : List (Int × Int)) (line : Int) : Bool := rs.any fun r => decide (r.1 ≤ line) && decide (line ≤ r.2)

/-- method_dispatch.go:94-114. -/
def belongsTo (handlerFile : Str) (rs : List (Int × Int)) (s : Site) : Bool :=
  if !(decide (handlerFile ≠ []) && decide (0 < s.line) && decide (s.file = handlerFile)) then true else inRanges rs s.line

/-- method_dispatch.go:119-133. -/
def routeFor (r : Route) (bs : List Branch) (handlerFile m : Str) : Route :=
  { r with
    method := m, suffix := m,
    responses := r.responses.filter (fun e => match e.2 with
      | some s => belongsTo handlerFile (rangesOf bs m) s
      | none => false),
    request := match r.request with
      | some s => if belongsTo handlerFile (rangesOf bs m) s then some s else none
      | none => none }

/-- method_dispatch.go:76-136. -/
def splitRoute (r : Route) (bs : List Branch) (handlerFile : Str) : List Route :=
  if mentions bs = [] then [r] else (mentions bs).map (routeFor r bs handlerFile)

/-- method_dispatch.go:52-72; `lookup` is the function table, giving the branches recorded for a
handler and the file it is in. -/
def dispatchOf (lookup : Str → Str → Option (List Branch × Str)) (r : Route) : List Branch × Str :=
  if r.fn = [] then ([], [])
  else if r.explicit then ([], [])
  else match lookup r.pkg r.fn with
    | none => ([], [])
    | some (bs, file) => if bs = [] then ([], []) else (bs, file)

/-- method_dispatch.go:36-47. -/
def splitAll (lookup : Str → Str → Option (List Branch × Str)) (rs : List Route) : List Route :=
  rs.flatMap fun r => if (dispatchOf lookup r).1 = [] then [r] else splitRoute r (dispatchOf lookup r).1 (dispatchOf lookup r).2

/-- method_dispatch.go:163-180. -/
def expandRoute (r : Route) : List Route :=
  if r.extra = [] then [r] else (r.method :: r.extra).map fun m => { r with method := m, extra := [], suffix := m }
def expandMulti (rs : List Route) : List Route := rs.flatMap expandRoute

/-! ### Verbs from an argument -/

/-- `strings.Split(s, ",")`. -/
def splitComma : Str → List Str
  | [] => [[]]
  | c :: s => if c = ',' then [] :: splitComma s else match splitComma s with
    | [] => [[c]]
    | x :: xs => (c :: x) :: xs

/-- The cut sets of pattern_matchers.go:1468. -/
def isQuote (c : Char) : Bool := c == '"' || c == '\''
def isBlank (c : Char) : Bool := c == ' ' || c == '\t' || c == '\n' || c == '\r' || c == '\x0b' || c == '\x0c'

/-- `strings.Trim` / `strings.TrimSpace` (ASCII blanks). -/
def trimBy (p : Char → Bool) (s : Str) : Str := ((s.dropWhile p).reverse.dropWhile p).reverse

/-- pattern_matchers.go:634-646. -/
def validMethods : List Str :=
  ["GET".toList, "POST".toList, "PUT".toList, "DELETE".toList, "PATCH".toList, "OPTIONS".toList, "HEAD".toList,
   "TRACE".toList, "CONNECT".toList]
def isValid (upper : Str → Str) (m : Str) : Bool := decide (upper m ∈ validMethods)

/-- pattern_matchers.go:1468. -/
def verbOf (upper : Str → Str) (part : Str) : Str := upper (trimBy isBlank (trimBy isQuote part))

/-- pattern_matchers.go:1464-1477, the loop. -/
def verbsGo (upper : Str → Str) (acc : List Str) : List Str → Option (List Str)
  | [] => some acc
  | p :: ps =>
    if verbOf upper p = [] ∨ isValid upper (verbOf upper p) = false then none
    else verbsGo upper (if verbOf upper p ∈ acc then acc else acc ++ [verbOf upper p]) ps

/-- pattern_matchers.go:1455-1478, given the constant value of the argument; `[]` is nil. -/
def verbsFromArg (upper : Str → Str) : Option Str → List Str
  | none => []
  | some raw => if raw = [] then [] else (verbsGo upper [] (splitComma raw)).getD []

/-- pattern_matchers.go:554-563: what a registration with a method argument becomes. -/
def registered (upper : Str → Str) (arg : Option Str) (r : Route) : Route :=
  match verbsFromArg upper arg with
  | [] => r
  | m :: ms => { r with method := m, extra := ms, explicit := true }

/-! ### Verbs from a name -/

/-- What is assumed of package unicode and `strings.ToLower`. -/
structure Uni where
  letter : Char → Bool
  upper : Char → Bool
  lower : Char → Bool
  toLower : Str → Str

/-- pattern_matchers.go:1420-1425. -/
def flush (cur : Str) (ws : List Str) : List Str := if cur = [] then ws else cur :: ws

/-- pattern_matchers.go:1431-1435. -/
def breaks (u : Uni) (cur : Str) (r : Char) (rest : Str) : Bool :=
  match cur.getLast? with
  | none => false
  | some prev => u.upper r && (u.lower prev || (u.upper prev && (match rest with
      | n :: _ => u.lower n
      | [] => false)))

/-- pattern_matchers.go:1426-1441. -/
def wordsGo (u : Uni) (cur : Str) : Str → List Str
  | [] => flush cur []
  | r :: rest =>
    if u.letter r = false then flush cur (wordsGo u [] rest)
    else if breaks u cur r rest then flush cur (wordsGo u [r] rest)
    else wordsGo u (cur ++ [r]) rest

/-- pattern_matchers.go:1416-1442. -/
def splitNameWords (u : Uni) (name : Str) : List Str := wordsGo u [] name

/-- config.go:224-228. -/
structure Mapping where
  patterns : List Str
  method : Str
  priority : Int
  deriving DecidableEq

/-- config.go:231-242. -/
structure Extraction where
  mappings : List Mapping
  usePrefix : Bool
  useContains : Bool
  caseSensitive : Bool
  defaultMethod : Str

/-- pattern_matchers.go:1370-1374: one inner loop with `k` comparisons. -/
def pass : Nat → List Mapping → List Mapping
  | k + 1, a :: b :: t => if a.priority < b.priority then b :: pass k (a :: t) else a :: pass k (b :: t)
  | _, l => l

/-- pattern_matchers.go:1369-1375: the outer loop. -/
def bubbleGo : Nat → List Mapping → List Mapping
  | 0, l => l
  | k + 1, l => bubbleGo k (pass (k + 1) l)
def bubble (l : List Mapping) : List Mapping := bubbleGo (l.length - 1) l

/-- pattern_matchers.go:1358-1362 and 1377-1382. -/
def norm (u : Uni) (c : Extraction) (s : Str) : Str := if c.caseSensitive then s else u.toLower s

/-- pattern_matchers.go:1385-1393. -/
def leadHit (u : Uni) (c : Extraction) (words : List Str) (m : Mapping) : Bool :=
  match words with
  | [] => false
  | w :: _ => m.patterns.any fun p => w == norm u c p

/-- pattern_matchers.go:1398-1405. -/
def anyHit (u : Uni) (c : Extraction) (words : List Str) (m : Mapping) : Bool :=
  m.patterns.any fun p => words.any fun w => w == norm u c p

/-- pattern_matchers.go:1341-1410 (`config` not nil). -/
def methodFromName (u : Uni) (c : Extraction) (name : Str) : Str × Bool :=
  if name = [] then ([], false)
  else
    let words := (splitNameWords u name).map (norm u c)
    match (if c.usePrefix then (bubble c.mappings).find? (leadHit u c words) else none) with
    | some m => (m.method, true)
    | none => match (if c.useContains then (bubble c.mappings).find? (anyHit u c words) else none) with
      | some m => (m.method, true)
      | none => (c.defaultMethod, false)

/-- config_mux.go:22-38. -/
def defaultExtraction : Extraction where
  mappings := [
    ⟨["get".toList, "list".toList, "show".toList, "find".toList, "fetch".toList, "retrieve".toList], "GET".toList, 10⟩,
    ⟨["post".toList, "create".toList, "add".toList, "new".toList, "insert".toList], "POST".toList, 10⟩,
    ⟨["put".toList, "update".toList, "edit".toList, "modify".toList, "replace".toList], "PUT".toList, 10⟩,
    ⟨["delete".toList, "remove".toList, "destroy".toList], "DELETE".toList, 10⟩,
    ⟨["patch".toList, "partial".toList], "PATCH".toList, 10⟩,
    ⟨["options".toList], "OPTIONS".toList, 10⟩,
    ⟨["head".toList], "HEAD".toList, 10⟩]
  usePrefix := true
  useContains := true
  caseSensitive := false
  defaultMethod := "GET".toList

/-! ### Operations -/

/-- openapi.go:71-77: the operations a path item can hold, and mapper.go:881-898. -/
inductive Slot | get | post | put | delete | patch | options | head
  deriving DecidableEq

def slotOf (m : Str) : Option Slot :=
  if m = "GET".toList then some .get else if m = "POST".toList then some .post else if m = "PUT".toList then some .put
  else if m = "DELETE".toList then some .delete else if m = "PATCH".toList then some .patch
  else if m = "OPTIONS".toList then some .options else if m = "HEAD".toList then some .head else none

/-- `strings.Replace(s, old, "", 1)` / `(s, old, new, 1)`. -/
def replaceFirst (old new : Str) : Str → Str
  | [] => if old = [] then new else []
  | c :: s => if old.isPrefixOf (c :: s) then new ++ (c :: s).drop old.length else c :: replaceFirst old new s

def typeSep : Str := ['-', '-', '>']

/-- mapper.go:395-405. -/
def operationId (r : Route) : Str :=
  let pkg := if r.pkg = [] then [] else r.pkg ++ ['.']
  let base := pkg ++ replaceFirst pkg [] (replaceFirst typeSep ['.'] r.fn)
  if r.suffix = [] then base else base ++ '_' :: r.suffix

/-- An operation of the document: its id and the route it was built from. -/
structure Op where
  id : Str
  route : Route
  deriving DecidableEq

abbrev PathItem := List (Slot × Op)

/-- mapper.go:881-898. -/
def setOp (upper : Str → Str) (item : PathItem) (method : Str) (op : Op) : PathItem :=
  match slotOf (upper method) with
  | none => item
  | some s => mset item s op

/-- mapper.go:381-487, paths and operations. -/
def buildPaths (upper : Str → Str) (rs : List Route) : List (Str × PathItem) :=
  rs.foldl (fun paths r => mset paths r.path (setOp upper ((mget paths r.path).getD []) r.method ⟨operationId r, r⟩)) []

/-- The operation documented for a path and a verb. -/
def opAt (paths : List (Str × PathItem)) (path : Str) (s : Slot) : Option Op :=
  (mget paths path).bind fun item => mget item s

end Verif.MethodsModel
