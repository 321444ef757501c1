import Verif.Assoc
import Verif.Common
/-!
# Model: per-endpoint metrics and the trace graph

internal/insight/metrics.go: 30-36 (bounds), 163-268 (analyzeAdjacency), 296-429 (analyzeResolvedCallGraph), 714-748
(enumeratePaths), 857-893 (countPaths), 895-912 (grade), 914-981 (buildTraceGraph), 987-1002 (sortedSites).

The argument counters (PointerArgs, ValueArgs), ChainDepth and the display metadata of the nodes are left out.  Functions are
named by their `BaseID`.
-/

namespace Verif.InsightModel
open Verif.Common

/-- metrics.go:30-36. -/
structure Limits where
  reachable : Nat := 600
  depth : Nat := 14
  paths : Nat := 1000
  graph : Nat := 60
  sample : Nat := 40

/-- One call of a function: the callee, whether it is a builtin (124-127), and where the call is (empty if unknown). -/
structure Call where
  callee : String
  builtin : Bool := false
  pos : String := ""
deriving DecidableEq

/-- metrics.go:85-88 with the callee it belongs to. -/
structure Site where
  callee : String
  pos : String
  caller : String
deriving DecidableEq

/-- metrics.go:164-177, 296-306.  `visited` holds the functions met, latest first. -/
structure Walk where
  adj : List (String × List String) := []
  depth : List (String × Nat) := []
  visited : List String := []
  queue : List String := []
  sites : List Site := []
  maxDepth : Nat := 0
  fanMax : Nat := 0
  fanSum : Nat := 0
  fanCount : Nat := 0
  truncated : Bool := false
deriving DecidableEq

/-- metrics.go:110-115. -/
def builtinFuncs : List String :=
  ["append", "cap", "clear", "close", "complex", "copy", "delete", "imag", "len", "make", "max", "min", "new", "panic", "print", "println", "real", "recover"]

/-- A call in the metadata: name and package of what is called, its identity and the place (metrics.go:126-129 looks at
the name only). -/
structure RawCall where
  name : String
  pkg : String
  base : String
  pos : String

/-- metrics.go:126-129, 200-206: the call as the walk sees it. -/
def callOf (c : RawCall) : Call := ⟨c.base, builtinFuncs.contains c.name, c.pos⟩

/-- `adj[n]`. -/
def kids (adj : List (String × List String)) (n : String) : List String := (mget adj n).getD []

/-- metrics.go:178-190, 308-319: of several calls at one place the first is kept.  `label` is shortLabel. -/
def recordSite (label : String → String) (s : Walk) (callee caller pos : String) : Walk :=
  if pos = "" then s
  else if s.sites.any fun t => t.callee = callee && t.pos = pos then s
  else { s with sites := s.sites ++ [⟨callee, pos, label caller⟩] }

/-- metrics.go:236-247, 332-346: a function is met. -/
def meet (L : Limits) (s : Walk) (id : String) (d : Nat) : Walk :=
  if s.visited.contains id then s
  else if s.visited.length + 1 ≤ L.reachable then
    { s with visited := id :: s.visited, depth := mset s.depth id d, maxDepth := if s.maxDepth < d then d else s.maxDepth, queue := s.queue ++ [id] }
  else { s with visited := id :: s.visited, truncated := true }

/-- metrics.go:200-248: one call; `seen` is the second component. -/
def addCall (L : Limits) (label : String → String) (cur : String) (d : Nat) (s : Walk × List String) (c : Call) : Walk × List String :=
  if c.builtin || c.callee = "" || c.callee = cur then s
  else
    let w := recordSite label s.1 c.callee cur c.pos
    if s.2.contains c.callee then (w, s.2)
    else (meet L { w with adj := mset w.adj cur (kids w.adj cur ++ [c.callee]) } c.callee (d + 1), c.callee :: s.2)

/-- metrics.go:249-255. -/
def countFan (w : Walk) (n : Nat) : Walk :=
  if 0 < n then { w with fanSum := w.fanSum + n, fanCount := w.fanCount + 1, fanMax := if w.fanMax < n then n else w.fanMax } else w

/-- metrics.go:194-256: one function from the queue. -/
def expand (L : Limits) (label : String → String) (calls : String → List Call) (s : Walk) (cur : String) : Walk :=
  let d := (mget s.depth cur).getD 0
  if L.depth ≤ d then { s with truncated := true }
  else
    let w := ((calls cur).foldl (addCall L label cur d) (s, [])).1
    countFan w (kids w.adj cur).length

/-- metrics.go:191-256: the loop; none if `fuel` turns are not enough. -/
def loop (step : Walk → String → Walk) : Nat → Walk → Option Walk
  | 0, s => match s.queue with
    | [] => some s
    | _ :: _ => none
  | fuel + 1, s => match s.queue with
    | [] => some s
    | cur :: q => loop step fuel (step { s with queue := q } cur)

/-- metrics.go:168-177. -/
def start (root : String) : Walk := { depth := [(root, 0)], visited := [root], queue := [root] }

/-- metrics.go:163-256. -/
def analyze (L : Limits) (label : String → String) (calls : String → List Call) (root : String) : Option Walk :=
  loop (expand L label calls) (L.reachable + 1) (start root)

/-- metrics.go:320-331. -/
def addEdge (w : Walk) (a b : String) : Walk :=
  if a = b then w else if (kids w.adj a).contains b then w else { w with adj := mset w.adj a (kids w.adj a ++ [b]) }

/-- metrics.go:386-393: one implementation. -/
def addImpl (L : Limits) (label : String → String) (cur callee pos : String) (d : Nat) (w : Walk) (cid : String) : Walk :=
  meet L (recordSite label (addEdge w callee cid) cid cur pos) cid (d + 2)

/-- metrics.go:356-395: one call.  `impls` is resolveImplementers (675-708), in any order; it is a function of the callee's
identity. -/
def addCallR (L : Limits) (label : String → String) (calls : String → List Call) (impls : String → List String) (cur : String) (d : Nat)
    (s : Walk × List String) (c : Call) : Walk × List String :=
  if c.builtin || c.callee = "" || c.callee = cur then s
  else
    let w := recordSite label s.1 c.callee cur c.pos
    if s.2.contains c.callee then (w, s.2)
    else
      let w1 := meet L (addEdge w cur c.callee) c.callee (d + 1)
      (if (calls c.callee).isEmpty then (impls c.callee).foldl (addImpl L label cur c.callee c.pos d) w1 else w1, c.callee :: s.2)

/-- metrics.go:348-397. -/
def expandR (L : Limits) (label : String → String) (calls : String → List Call) (impls : String → List String) (s : Walk) (cur : String) : Walk :=
  let d := (mget s.depth cur).getD 0
  if L.depth ≤ d then { s with truncated := true }
  else ((calls cur).foldl (addCallR L label calls impls cur d) (s, [])).1

/-- metrics.go:296-397: none if the function has no body. -/
def analyzeResolved (L : Limits) (label : String → String) (calls : String → List Call) (impls : String → List String) (root : String) : Option Walk :=
  if (calls root).isEmpty then none else loop (expandR L label calls impls) (L.reachable + 1) (start root)

/-! ## Paths -/

/-- metrics.go:858-860. -/
structure Memo where
  memo : List (String × Nat) := []
  truncated : Bool := false

/-- metrics.go:872-882: the children of a function; `f` counts one child. -/
def countKids (cap : Nat) (f : Memo → String → Option (Memo × Nat)) (stack : List String) : List String → Memo → Nat → Option (Memo × Nat)
  | [], s, total => some (s, total)
  | k :: ks, s, total =>
    if stack.contains k then countKids cap f stack ks s total
    else match f s k with
      | none => none
      | some (s', v) =>
        if cap ≤ total + v then some ({ s' with truncated := true }, cap)
        else countKids cap f stack ks s' (total + v)

/-- metrics.go:883-891. -/
def finish (n : String) (s : Memo) (total : Nat) : Memo × Nat :=
  let t := if total = 0 then 1 else total
  (if s.truncated then s else { s with memo := mset s.memo n t }, t)

/-- metrics.go:861-891; `stack` are the functions whose counting is going on; none if the recursion is deeper than `fuel`. -/
def countFrom (cap : Nat) (adj : List (String × List String)) : Nat → List String → Memo → String → Option (Memo × Nat)
  | 0, _, _, _ => none
  | fuel + 1, stack, s, n =>
    match mget s.memo n with
    | some v => some (s, v)
    | none =>
      if (kids adj n).isEmpty then some (s, 1)
      else (countKids cap (countFrom cap adj fuel (n :: stack)) (n :: stack) (kids adj n) s 0).map fun r => finish n r.1 r.2

/-- metrics.go:857-893: the number of paths and whether it was cut. -/
def countPaths (L : Limits) (adj : List (String × List String)) (root : String) : Option (Nat × Bool) :=
  (countFrom L.paths adj (adj.length + 2) [] {} root).map fun r => (r.2, r.1.truncated)

/-- metrics.go:735-741: the children of a function; `f` lists the paths of one child. -/
def listKids (cap : Nat) (f : List (List String) → String → Option (List (List String))) : List String → List (List String) → Option (List (List String))
  | [], out => some out
  | k :: ks, out =>
    if cap ≤ out.length then some out
    else match f out k with
      | none => none
      | some out' => listKids cap f ks out'

/-- metrics.go:719-745.  `path` is the way to `n`, nearest first; none if the recursion is deeper than `fuel`. -/
def listFrom (cap : Nat) (label : String → String) (adj : List (String × List String)) : Nat → List String → List String → List (List String) → String → Option (List (List String))
  | 0, _, _, _, _ => none
  | fuel + 1, stack, path, out, n =>
    if cap ≤ out.length then some out
    else
      let real := (kids adj n).filter fun k => !stack.contains k
      if real.isEmpty then some (out ++ [(label n :: path).reverse])
      else listKids cap (listFrom cap label adj fuel (n :: stack) (label n :: path)) real out

/-- metrics.go:714-748. -/
def enumeratePaths (cap : Nat) (label : String → String) (adj : List (String × List String)) (root : String) : Option (List (List String)) :=
  listFrom cap label adj (adj.length + 2) [] [] [] root

/-! ## Grade -/

/-- The letters (metrics.go:51). -/
inductive Grade
  | a | b | c | d
deriving DecidableEq

/-- `A` is 0; the comparison of metrics.go:908 is that of the letters. -/
def Grade.rank : Grade → Nat
  | .a => 0
  | .b => 1
  | .c => 2
  | .d => 3

/-- metrics.go:895-912. -/
def grade (maxDepth paths fanMax : Nat) (cut : Bool) : Grade :=
  let g := if maxDepth ≤ 4 ∧ paths ≤ 10 ∧ fanMax ≤ 6 then Grade.a
    else if maxDepth ≤ 7 ∧ paths ≤ 50 then .b
    else if maxDepth ≤ 10 ∧ paths ≤ 200 then .c
    else .d
  if cut && decide (g.rank < 2) then .c else g

/-! ## The trace graph -/

/-- metrics.go:936: the order of the nodes. -/
def nodeLe (a b : String × Nat) : Bool := decide (a.2 < b.2) || (decide (a.2 = b.2) && strLe a.1 b.1)

/-- metrics.go:918-923. -/
def calledBy (adj : List (String × List String)) (n : String) : Nat :=
  adj.foldl (fun k e => e.2.foldl (fun k x => if x = n then k + 1 else k) k) 0

/-- metrics.go:945-950. -/
inductive Kind
  | handler | callee | leaf
deriving DecidableEq

/-- metrics.go:58-83 without the display metadata. -/
structure TNode where
  id : String
  depth : Nat
  kind : Kind
  calls : Nat
  calledBy : Nat
deriving DecidableEq

/-- metrics.go:945-969: one node. -/
def mkNode (adj : List (String × List String)) (root : String) (n : String × Nat) : TNode :=
  ⟨n.1, n.2, if n.1 = root then .handler else if (kids adj n.1).isEmpty then .leaf else .callee, (kids adj n.1).length, calledBy adj n.1⟩

/-- metrics.go:95-103. -/
structure TGraph where
  nodes : List TNode
  edges : List (String × String)
  truncated : Bool
deriving DecidableEq

/-- metrics.go:914-981.  `depth` and `adj` are enumerated in any order. -/
def buildGraph (L : Limits) (adj : List (String × List String)) (depth : List (String × Nat)) (root : String) : TGraph :=
  let all := isort nodeLe depth
  let shown := all.take L.graph
  let ids := shown.map (·.1)
  ⟨shown.map (mkNode adj root),
   adj.flatMap fun e => if ids.contains e.1 then (e.2.filter fun k => ids.contains k).map fun k => (e.1, k) else [],
   decide (L.graph < all.length)⟩

/-- metrics.go:996-1001. -/
def siteLe (a b : Site) : Bool := decide (a.pos ≠ b.pos ∧ strLe a.pos b.pos = true) || (decide (a.pos = b.pos) && strLe a.caller b.caller)

/-- metrics.go:987-1002. -/
def sortedSites (sites : List Site) : List Site := if sites.length < 2 then [] else isort siteLe sites

end Verif.InsightModel
