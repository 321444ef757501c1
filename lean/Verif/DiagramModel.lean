import Verif.Assoc
/-!
# Model: diagrams and their pages

internal/diagserver/server.go:363-425 (handlePaginatedDiagram), 635-741 (by packages), 898-961
(calculateCallGraphDepth), 988-1138 (generatePaginatedDataInternal), 1161-1269 (filters), 130-194, 325-361 (loading and
caching); internal/spec/visualization.go:127-344 (node orders), 346-577, 1022-1095 (call graph drawing).

A node id `node_k` is the number `k`.  Machine integers are integers with an explicit wrap.
-/

namespace Verif.DiagramModel
open Verif.Common

/-- visualization.go:57-86.  Generics are listed by value; call paths by position. -/
structure Node where
  id : Nat
  label : String := ""
  func : String := ""
  pkg : String := ""
  recv : String := ""
  parent : Option Nat := none
  isParent : Bool := false
  depth : Nat := 0
  position : String := ""
  callPositions : List String := []
  signature : String := ""
  generics : Option (List String) := none
  scope : String := ""
deriving DecidableEq

/-- visualization.go:92-98; `calls` is `Type == "calls"`. -/
structure Edge where
  src : Nat
  tgt : Nat
  calls : Bool := true
deriving DecidableEq

/-- visualization.go:48-51. -/
structure Data where
  nodes : List Node
  edges : List Edge
deriving DecidableEq

/-! ## Distances (server.go:898-961) -/

/-- server.go:901-910: the targets of the edges of a node, in order. -/
def next (edges : List Edge) (id : Nat) : List Nat := (edges.filter fun e => e.src = id).map (·.tgt)

/-- server.go:902-912. -/
def inDegree (edges : List Edge) (id : Nat) : Nat := (edges.filter fun e => e.tgt = id).length

/-- server.go:914-927.  The keys of `inDegree` that are no node have a positive degree. -/
def depthRoots (d : Data) : List Nat :=
  let roots := (d.nodes.filter fun n => inDegree d.edges n.id = 0 || n.label = "main" || n.func = "main").map (·.id)
  if roots.isEmpty then (d.nodes.map (·.id)).filter fun i => inDegree d.edges i = 0 else roots

/-- server.go:933-940. -/
structure Bfs where
  queue : List (Nat × Nat)
  visited : List Nat
  depths : List (Nat × Nat)

/-- server.go:950-957: one neighbour. -/
def relax (k : Nat) (s : Bfs) (w : Nat) : Bfs :=
  match mget s.depths w with
  | none => { s with depths := mset s.depths w (k + 1), queue := s.queue ++ [(w, k + 1)] }
  | some old => if k + 1 < old then { s with depths := mset s.depths w (k + 1), queue := s.queue ++ [(w, k + 1)] } else s

/-- server.go:941-958: one turn of the loop; none at the end. -/
def bfsStep (edges : List Edge) (s : Bfs) : Option Bfs :=
  match s.queue with
  | [] => none
  | (v, k) :: q =>
    if s.visited.contains v then some { s with queue := q }
    else some ((next edges v).foldl (relax k) { s with queue := q, visited := v :: s.visited })

/-- At most `fuel` turns; none if that is not enough. -/
def bfs (edges : List Edge) : Nat → Bfs → Option Bfs
  | 0, _ => none
  | fuel + 1, s =>
    match bfsStep edges s with
    | none => some s
    | some s' => bfs edges fuel s'

/-- server.go:929-961. -/
def callDepths (d : Data) : Option (List (Nat × Nat)) :=
  let roots := depthRoots d
  (bfs d.edges (roots.length + d.edges.length + 1) ⟨roots.map fun r => (r, 0), [], roots.foldl (fun m r => mset m r 0) []⟩).map (·.depths)

/-- server.go:1021-1022. -/
def notDeeper (ds : List (Nat × Nat)) (depth : Int) (i : Nat) : Bool :=
  match mget ds i with
  | some k => decide ((k : Int) ≤ depth)
  | none => false

/-- server.go:1012-1036 (also 644-664): call graphs are cut at a depth. -/
def cutDepth (d : Data) (depth : Int) : Option Data :=
  if 0 ≤ depth then
    match callDepths d with
    | none => none
    | some ds =>
      let nodes := d.nodes.filter fun n => notDeeper ds depth n.id
      some ⟨nodes, d.edges.filter fun e => (nodes.map (·.id)).contains e.src && (nodes.map (·.id)).contains e.tgt⟩
  else some d

/-! ## Node orders (visualization.go:127-344) -/

/-- visualization.go:163. -/
def isMain (n : Node) : Bool := n.id = 0 || n.label = "main"

/-- visualization.go:145-148, 164: no incoming edge, or depth 0. -/
def isRoot (edges : List Edge) (n : Node) : Bool := !(edges.any fun e => e.tgt = n.id) || n.depth = 0

/-- visualization.go:167-169: the last one stays. -/
def mainRoot (edges : List Edge) (nodes : List Node) : Option Nat :=
  nodes.foldl (fun m n => if isRoot edges n && isMain n then some n.id else m) none

/-- visualization.go:170-172. -/
def otherRoots (edges : List Edge) (nodes : List Node) : List Nat :=
  (nodes.filter fun n => isRoot edges n && !isMain n).map (·.id)

/-- visualization.go:153-160. -/
def minDepth (big : Nat) (nodes : List Node) : Nat := nodes.foldl (fun m n => if n.depth < m then n.depth else m) big

/-- visualization.go:184-193. -/
def fallbackRoots (big : Nat) (nodes : List Node) : List Nat :=
  nodes.foldl (fun r n => if n.depth = minDepth big nodes then (if isMain n then n.id :: r else r ++ [n.id]) else r) []

/-- visualization.go:177-194. -/
def roots (big : Nat) (edges : List Edge) (nodes : List Node) : List Nat :=
  match mainRoot edges nodes with
  | some m => m :: otherRoots edges nodes
  | none => if (otherRoots edges nodes).isEmpty then fallbackRoots big nodes else otherRoots edges nodes

/-- visualization.go:200-217: `visited` in the order of the visits.  The recursion is at most as deep as there
are ids (`fuel`). -/
def visit (edges : List Edge) : Nat → List Nat → Nat → List Nat
  | 0, v, _ => v
  | fuel + 1, v, id => if v.contains id then v else (next edges id).foldl (visit edges fuel) (v ++ [id])

/-- visualization.go:133-136: of nodes with one id the last is kept. -/
def lookup (nodes : List Node) (id : Nat) : Option Node := nodes.reverse.find? fun n => n.id = id

/-- visualization.go:219-232. -/
def orderBy (big : Nat) (edges : List Edge) (nodes : List Node) : List Node :=
  let v := (roots big edges nodes).foldl (visit edges (nodes.length + edges.length + 1)) []
  v.filterMap (lookup nodes) ++ nodes.filter fun n => !v.contains n.id

/-- visualization.go:127-233. -/
def orderDepthFirst (d : Data) : List Node := orderBy 999999 d.edges d.nodes

/-- visualization.go:238-344: only calls count. -/
def branchOrder (d : Data) : List Node := orderBy 1073741824 (d.edges.filter (·.calls)) d.nodes

/-! ## Filters (server.go:1161-1269) -/

/-- Lower case, trimming and `strings.Contains`. -/
structure Text where
  lower : String → String
  trim : String → String
  contains : String → String → Bool

/-- The filters of a request. -/
structure Filters where
  packages : List String := []
  functions : List String := []
  files : List String := []
  receivers : List String := []
  signatures : List String := []
  generics : List String := []
  scope : String := ""
deriving DecidableEq

/-- server.go:1161-1166. -/
def matchesFunctionName (x : Text) (name term : String) : Bool :=
  if term = "" then false else x.contains (x.lower name) (x.lower (x.trim term))

/-- server.go:1186, 1195, 1213, 1226, 1240. -/
def hasTerm (x : Text) (value term : String) : Bool := x.contains (x.lower value) (x.lower (x.trim term))

/-- server.go:1236-1252. -/
def matchesGenerics (x : Text) (terms : List String) : Option (List String) → Bool
  | none => true
  | some gs => terms.any fun t => gs.any fun g => hasTerm x g t

/-- server.go:1168-1269. -/
def matchesFilters (x : Text) (f : Filters) (n : Node) : Bool :=
  (f.functions.isEmpty || f.functions.any fun t => matchesFunctionName x n.label t) &&
  (f.files.isEmpty || (n.position ≠ "" && f.files.any fun t => hasTerm x n.position t) || f.files.any fun t => n.callPositions.any fun p => hasTerm x p t) &&
  (f.receivers.isEmpty || n.recv = "" || f.receivers.any fun t => hasTerm x n.recv t) &&
  (f.signatures.isEmpty || n.signature = "" || f.signatures.any fun t => hasTerm x n.signature t) &&
  (f.generics.isEmpty || matchesGenerics x f.generics n.generics) &&
  (f.scope = "" || f.scope = "all" ||
    (let s := x.lower (x.trim f.scope)
     let own := x.lower (x.trim n.scope)
     if s = "exported" then own = "exported" else if s = "unexported" then own = "unexported" else true))

/-- server.go:1041-1060: packages are matched by substring. -/
def keeps (x : Text) (f : Filters) (n : Node) : Bool :=
  (f.packages.isEmpty || f.packages.any fun p => x.contains n.pkg (x.trim p)) && matchesFilters x f n

/-! ## Pages (server.go:988-1138) -/

/-- Two's complement, 64 bits. -/
def wrap (n : Int) : Int :=
  let m := n % 18446744073709551616
  if m < 9223372036854775808 then m else m - 18446744073709551616

/-- server.go:1080-1096: none is a run-time panic (slice bounds out of range). -/
def slice (l : List α) (page size : Int) : Option (List α) :=
  let start := wrap (wrap (page - 1) * size)
  let stop := wrap (start + size)
  if start < l.length then
    let stop' := if (l.length : Int) < stop then (l.length : Int) else stop
    if 0 ≤ start ∧ start ≤ stop' then some ((l.take stop'.toNat).drop start.toNat) else none
  else some []

/-- server.go:1112-1121: one node of the page. -/
def addParent (all : List Node) (s : List Nat × List Node) (n : Node) : List Nat × List Node :=
  match n.parent with
  | none => s
  | some p =>
    if s.1.contains p then s
    else match lookup all p with
      | none => s
      | some q => (p :: s.1, s.2 ++ [{ q with isParent := true }])

/-- `DiagramType` (server.go:999, 1012, 1076): the two kinds. -/
inductive Kind
  | callGraph
  | trackerTree
deriving DecidableEq

/-- server.go:1123-1131. -/
structure Page where
  nodes : List Node
  edges : List Edge
  totalNodes : Nat
  totalEdges : Nat
  hasMore : Bool
deriving DecidableEq

/-- The nodes and edges that pass the depth and the filters (server.go:1009-1072). -/
def selected (x : Text) (kind : Kind) (all : Data) (depth : Int) (f : Filters) : Option Data :=
  match (if kind = .callGraph then cutDepth all depth else some all) with
  | none => none
  | some d =>
    let nodes := d.nodes.filter (keeps x f)
    some ⟨nodes, d.edges.filter fun e => (nodes.map (·.id)).contains e.src && (nodes.map (·.id)).contains e.tgt⟩

/-- server.go:1074-1131. -/
def pageOf (kind : Kind) (all : List Node) (d : Data) (page size : Int) : Option Page :=
  let ordered := if kind = .trackerTree then branchOrder d else d.nodes
  match slice ordered page size with
  | none => none
  | some own =>
    let ids := own.map (·.id)
    let nodes := (own.foldl (addParent all) (ids, own)).2
    some ⟨nodes, d.edges.filter fun e => ids.contains e.src && ids.contains e.tgt, d.nodes.length, d.edges.length, decide (nodes.length < d.nodes.length)⟩

/-- server.go:988-1138 without the cache: the data after the request (the order is stored in it) and the page. -/
def generate (x : Text) (kind : Kind) (all : Data) (page size depth : Int) (f : Filters) : Option (Data × Page) :=
  let all' : Data := if kind = .trackerTree then ⟨orderDepthFirst all, all.edges⟩ else all
  match selected x kind all' depth f with
  | none => none
  | some d =>
    match pageOf kind all'.nodes d page size with
    | none => none
    | some p => some (all', p)

/-- server.go:376-387: the page and size a request is given. -/
def clampPage (page : Int) : Int := if page < 1 then 1 else page
/-- server.go:381-387. -/
def clampSize (config size : Int) : Int :=
  let s := if size < 1 then config else size
  if 2000 < s then 2000 else s

/-- server.go:989: the text of the key; `%v` of a list of strings puts spaces between them. -/
def listText (l : List String) : String := "[" ++ String.intercalate " " l ++ "]"

/-- server.go:989. -/
def cacheKey (num : Int → String) (kind : String) (page size depth : Int) (f : Filters) : String :=
  kind ++ "-" ++ num page ++ "-" ++ num size ++ "-" ++ num depth ++ "-" ++ listText f.packages ++ "-" ++ listText f.functions ++ "-" ++ listText f.files ++ "-" ++
    listText f.receivers ++ "-" ++ listText f.signatures ++ "-" ++ listText f.generics ++ "-" ++ f.scope

/-- server.go:988-998, 1133-1137: one request with the page cache; none is a panic. -/
def cached (x : Text) (num : Int → String) (kind : Kind) (s : Data × List (String × Page)) (page size depth : Int) (f : Filters) : Option ((Data × List (String × Page)) × Page) :=
  let key := cacheKey num (if kind = .trackerTree then "tracker-tree" else "call-graph") page size depth f
  match mget s.2 key with
  | some p => some (s, p)
  | none =>
    match generate x kind s.1 page size depth f with
    | none => none
    | some (all', p) => some ((all', mset s.2 key p), p)

/-! ## By packages (server.go:635-741) -/

/-- server.go:689-703. -/
structure Grow where
  nodes : List Node
  ids : List Nat
  edges : List Edge

/-- server.go:717-727: the first node with the id is added, and the edge. -/
def attach (all : List Node) (s : Grow) (e : Edge) (other : Nat) : Grow :=
  match all.find? fun n => n.id = other with
  | none => s
  | some n =>
    if s.ids.contains n.id then { s with edges := s.edges ++ [e] }
    else ⟨s.nodes ++ [n], n.id :: s.ids, s.edges ++ [e]⟩

/-- server.go:705-729: one edge.  `connectedNodeIDs` is always a part of `nodeIDs`. -/
def growStep (all : List Node) (s : Grow) (e : Edge) : Grow :=
  if s.ids.contains e.src && s.ids.contains e.tgt then { s with edges := s.edges ++ [e] }
  else if s.ids.contains e.src then attach all s e e.tgt
  else if s.ids.contains e.tgt then attach all s e e.src
  else s

/-- server.go:666-741; `inPackage` says whether the node's package is selected. -/
def byPackages (x : Text) (all cut : Data) (inPackage : Node → Bool) (f : Filters) (isolate : Bool) : Data :=
  let nodes := cut.nodes.filter fun n => inPackage n && matchesFilters x f n
  let ids := nodes.map (·.id)
  if isolate then ⟨nodes, cut.edges.filter fun e => ids.contains e.src && ids.contains e.tgt⟩
  else
    let g := cut.edges.foldl (growStep all.nodes) ⟨nodes, ids, []⟩
    ⟨g.nodes, g.edges⟩

/-! ## Drawing the call graph (visualization.go:346-577, 1022-1095) -/

/-- A function as a call names it; `id` is its `BaseID` and `lit` says that its name starts with `FuncLit:`. -/
structure Fn where
  id : String
  name : String
  pkg : String := ""
  recv : String := ""
  lit : Bool := false
deriving DecidableEq

/-- internal/metadata/types.go:1511: `parent` is the function around a literal. -/
structure Call where
  caller : Fn
  callee : Fn
  parent : Option Fn := none
deriving DecidableEq

/-- visualization.go:362-368.  `nodePairEdges` is the list of edges; `edgeIDNodeMap` is `ids`. -/
structure Draw where
  nodes : List Node := []
  edges : List Edge := []
  visited : List String := []
  ids : List (String × Nat) := []
  count : Nat := 0
deriving DecidableEq

/-- visualization.go:412-419. -/
def fnLabel (f : Fn) : String :=
  let l := if f.lit then "FuncLit" else f.name
  if f.recv ≠ "" then f.recv ++ "." ++ l else l

/-- visualization.go:440-445. -/
def findNode (nodes : List Node) (f : Fn) : Option Nat :=
  (nodes.find? fun n => n.func = f.name && n.pkg = f.pkg).map (·.id)

/-- visualization.go:1043-1094. -/
def createParent (s : Draw) (p : Fn) : Draw × Nat :=
  ({ s with
      count := s.count + 1
      visited := p.id :: s.visited
      nodes := s.nodes ++ [{ id := s.count + 1, label := if p.recv ≠ "" then p.recv ++ "." ++ p.name else p.name, func := p.name, pkg := p.pkg, recv := p.recv, isParent := true }] },
   s.count + 1)

/-- visualization.go:1022-1095. -/
def ensureParent (s : Draw) (p : Fn) : Draw × Nat :=
  if s.visited.contains p.id then
    match findNode s.nodes p with
    | some i => ({ s with nodes := s.nodes.map fun n => if n.id = i then { n with isParent := true } else n }, i)
    | none => createParent s p
  else createParent s p

/-- visualization.go:433-451. -/
def parentNode (s : Draw) (f : Fn) (parent : Option Fn) : Draw × Option Nat :=
  if f.lit then
    match parent with
    | none => (s, none)
    | some p =>
      match findNode s.nodes p with
      | some i => (s, some i)
      | none => ((ensureParent s p).1, some (ensureParent s p).2)
  else (s, none)

/-- visualization.go:386-473 (caller), 475-551 (callee).  Positions, call paths, generics, signatures and scopes are
left out. -/
def touch (s : Draw) (f : Fn) (parent : Option Fn) : Draw :=
  if s.visited.contains f.id then s
  else
    let k := s.count + 1
    let r := parentNode { s with count := k, visited := f.id :: s.visited, ids := mset s.ids f.id k } f parent
    { r.1 with nodes := r.1.nodes ++ [{ id := k, label := fnLabel f, func := f.name, pkg := f.pkg, recv := f.recv, parent := r.2 }] }

/-- visualization.go:553-577. -/
def link (s : Draw) (c : Call) : Draw :=
  match mget s.ids c.caller.id, mget s.ids c.callee.id with
  | some a, some b => if s.edges.any fun e => e.src = a && e.tgt = b then s else { s with edges := s.edges ++ [{ src := a, tgt := b }] }
  | _, _ => s

/-- visualization.go:381-577. -/
def drawCall (s : Draw) (c : Call) : Draw := link (touch (touch s c.caller c.parent) c.callee c.parent) c

/-- visualization.go:346-378. -/
def drawCalls (calls : List Call) : Draw := calls.foldl drawCall {}

/-! ## Loading and caching (server.go:130-194, 325-361, 988-998, 1133-1135) -/

/-- Where a request is.  A diagram is named by the project it was drawn from (none: no metadata). -/
inductive Pc
  | idle
  | noMetadata (key : String)
  | loading (key : String) (dir : Nat)
  | ready (key : String)
  | wantData (key : String)
  | drawing (key : String) (proj : Option Nat)
  | drawn (key : String) (proj : Option Nat)
  | answered (key : String) (proj : Option Nat)
deriving DecidableEq

/-- `Server` (server.go:120-126, 130-137): directory, metadata, the two caches, and the requests in flight. -/
structure Srv where
  dir : Nat
  meta' : Option Nat := none
  data : Option (Option Nat) := none
  pages : List (String × Option Nat) := []
  reqs : List Pc
deriving DecidableEq

inductive SrvAct
  | setDir (d : Nat)
  | start (i : Nat) (key : String)
  | step (i : Nat)
deriving DecidableEq

/-- One step between two uses of the lock. -/
def srvStep (s : Srv) (i : Nat) : Pc → Option Srv
  | .idle => none
  | .noMetadata k => some { s with reqs := s.reqs.set i (.loading k s.dir) }                                   -- 141-143
  | .loading k d => some { s with meta' := some d, data := none, pages := [], reqs := s.reqs.set i (.ready k) } -- 164-169
  | .ready k => match mget s.pages k with                                                                       -- 991-996
    | some p => some { s with reqs := s.reqs.set i (.answered k p) }
    | none => some { s with reqs := s.reqs.set i (.wantData k) }
  | .wantData k => match s.data with                                                                            -- 332-354
    | some p => some { s with reqs := s.reqs.set i (.drawn k p) }
    | none => some { s with reqs := s.reqs.set i (.drawing k s.meta') }
  | .drawing k p => some { s with data := some p, reqs := s.reqs.set i (.drawn k p) }                           -- 357-360
  | .drawn k p => some { s with pages := mset s.pages k p, reqs := s.reqs.set i (.answered k p) }               -- 1133-1137
  | .answered _ _ => some { s with reqs := s.reqs.set i .idle }

/-- server.go:130-137 (`setDir`), 185-194 (`start`); a load always succeeds. -/
def srvExec (s : Srv) : SrvAct → Option Srv
  | .setDir d => some { s with dir := d, meta' := none, data := none, pages := [] }
  | .start i k => match s.reqs[i]? with
    | some .idle => some { s with reqs := s.reqs.set i (if s.meta'.isSome then .ready k else .noMetadata k) }
    | _ => none
  | .step i => match s.reqs[i]? with
    | some pc => srvStep s i pc
    | none => none

end Verif.DiagramModel
