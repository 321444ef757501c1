/-!
# Model: the trace of a route from the tree of calls

`analyzeTrackerSubtree` (internal/insight/metrics.go:440-613), from the children of a route to the functions, edges and
depths of its trace.

Simplified: functions are names; what is recorded about a function (its place, label and arguments) and the counts computed
from the edges alone are left out.  The tree is finite, so the loop is run as often as the tree has nodes; the bounds are
parameters.
-/

namespace Verif.Subtree

/-- A call: the function it is in, the one it calls, and whether that is a builtin. -/
structure Edge where
  caller : String
  callee : String
  builtin : Bool
deriving DecidableEq

/-- A node of the tree of calls. -/
inductive Node
  | mk (key : String) (edge : Option Edge) (children : List Node)

def Node.key : Node → String
  | .mk k _ _ => k

def Node.edge : Node → Option Edge
  | .mk _ e _ => e

def Node.children : Node → List Node
  | .mk _ _ cs => cs

mutual
def size : Node → Nat
  | .mk _ _ cs => 1 + sizes cs
def sizes : List Node → Nat
  | [] => 0
  | c :: cs => size c + sizes cs
end

/-- metrics.go:505-509 -/
structure Item where
  node : Node
  id : String
  d : Nat

/-- The variables of the loop: edges in the order they are met, the depth of each function met, the keys visited. -/
structure St where
  queue : List Item
  adj : List (String × String)
  depth : List (String × Nat)
  visited : List String
  maxDepth : Nat
  truncated : Bool

/-- metrics.go:445-451 -/
def rootOf : List Node → String
  | [] => ""
  | c :: cs =>
    match c.edge with
    | some e => if e.caller ≠ "" then e.caller else rootOf cs
    | none => rootOf cs

/-- metrics.go:476-487 -/
def addEdge (a b : String) (st : St) : St :=
  if a = b then st
  else if (a, b) ∈ st.adj then st
  else { st with adj := st.adj ++ [(a, b)] }

/-- metrics.go:488-495 -/
def setDepth (id : String) (d : Nat) (st : St) : St :=
  if id ∈ st.depth.map (·.1) then st
  else { st with depth := st.depth ++ [(id, d)], maxDepth := if st.maxDepth < d then d else st.maxDepth }

/-- metrics.go:541-558: the call is in another function than the one we are in, so that one comes in between. -/
def boundary (e : Edge) (it : Item) : Bool := decide (e.caller ≠ "" ∧ e.caller ≠ it.id ∧ e.caller ≠ e.callee)

/-- metrics.go:532-585: a call. -/
def visitCall (maxReach : Nat) (e : Edge) (it : Item) (st : St) : St :=
  if e.builtin || e.callee == "" then st
  else
    let st1 := if boundary e it then setDepth e.caller (it.d + 1) (addEdge it.id e.caller st) else st
    let parent := if boundary e it then e.caller else it.id
    let d := if boundary e it then it.d + 1 else it.d
    let st2 := if e.callee ≠ parent then setDepth e.callee (d + 1) (addEdge parent e.callee st1) else st1
    if st2.depth.length > maxReach then { st2 with truncated := true }
    else { st2 with queue := st2.queue ++ it.node.children.map fun c => ⟨c, e.callee, d + 1⟩ }

/-- metrics.go:513-585: one item of the queue. -/
def step (maxTrace maxReach : Nat) (it : Item) (st : St) : St :=
  if it.d ≥ maxTrace then { st with truncated := true }
  else if it.node.key ≠ "" ∧ it.node.key ∈ st.visited then st
  else
    let st := if it.node.key ≠ "" then { st with visited := it.node.key :: st.visited } else st
    match it.node.edge with
    | none => { st with queue := st.queue ++ it.node.children.map fun c => ⟨c, it.id, it.d⟩ }
    | some e => visitCall maxReach e it st

/-- metrics.go:512-586, at most `n` items. -/
def run (maxTrace maxReach : Nat) : Nat → St → St
  | 0, st => st
  | n + 1, st =>
    match st.queue with
    | [] => st
    | it :: q => run maxTrace maxReach n (step maxTrace maxReach it { st with queue := q })

def start (root : String) (kids : List Node) : St :=
  ⟨kids.map fun c => ⟨c, root, 0⟩, [], [(root, 0)], [], 0, false⟩

/-- metrics.go:440-613: none if the route has no body. -/
def analyze (maxTrace maxReach : Nat) (kids : List Node) : Option St :=
  if rootOf kids = "" then none
  else
    let st := run maxTrace maxReach (sizes kids) (start (rootOf kids) kids)
    if st.adj.any (fun e => e.1 == rootOf kids) then some st else none

end Verif.Subtree
