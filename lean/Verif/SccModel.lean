import Verif.Common
/-!
# Model: condensing the call graph into recursion clusters

Models `internal/metadata/scc.go`.  Function identifiers are the strings Go uses
(`BaseID`).  Go's maps from identifiers to numbers are total functions whose value
for an absent key is the Go zero value, exactly what indexing a Go map returns.
-/

namespace Verif.Scc
open Verif.Common

/-- A call edge as the condensation sees it: caller and callee identifiers.
scc.go:80-82 (`edge.Caller.BaseID()`, `edge.Callee.BaseID()`). -/
abbrev Call := String × String

/-- scc.go:83-85: edges with an empty end are skipped. -/
def usable (c : Call) : Bool := c.1 != "" && c.2 != ""

/-- scc.go:77,86-87,94-98: the node set, sorted.  Go ranges over a map (any order)
and sorts; de-duplicating in first-seen order and sorting gives the same list. -/
def nodesOf (calls : List Call) : List String :=
  sortStrings (dedup ((calls.filter usable).flatMap fun c => [c.1, c.2]))

/-- scc.go:88-91,100-108: the successors of `u`, de-duplicated and sorted
(`adj[u]`; a missing key indexes as the empty slice). -/
def adjOf (calls : List Call) (u : String) : List String :=
  sortStrings (dedup (((calls.filter usable).filter (fun c => c.1 == u)).map Prod.snd))

/-- The working state of `condenseSCC`, scc.go:120-132.
`stk` is `tarjanStack` and `cs` is `callStack`, both with the top first.
A frame keeps the successors still to visit, `adj[node][next:]`, instead of the
counter `next`.  `onStack[x]` is membership in `stk`: Go sets it exactly when `x`
is pushed (scc.go:140-141,153-154) and clears it exactly when `x` is popped
(scc.go:177-178). -/
structure St where
  idx : String → Nat
  low : String → Nat
  stk : List String
  cs : List (String × List String)
  cnt : Nat
  comps : List (List String)

/-- Map assignment `f[a] = b`. -/
def upd (f : String → Nat) (a : String) (b : Nat) : String → Nat :=
  fun x => if x = a then b else f x

/-- scc.go:138-142 and 151-155: discover `w` and push a frame for it. -/
def discover (adj : String → List String) (s : St) (w : String) : St :=
  { s with
    cnt := s.cnt + 1
    idx := upd s.idx w (s.cnt + 1)
    low := upd s.low w (s.cnt + 1)
    stk := w :: s.stk
    cs := (w, adj w) :: s.cs }

/-- scc.go:174-183: pop the stack down to and including `v`; the popped members in
popping order, and what remains.  (Go would panic if `v` were missing; the model
then pops everything.  `SccProps` proves `v` is always present.) -/
def popTo (v : String) : List String → List String × List String
  | [] => ([], [])
  | x :: xs => if x = v then ([x], xs) else (x :: (popTo v xs).1, (popTo v xs).2)

/-- scc.go:164-169: hand the retired frame's low-link to the frame below it. -/
def lowToParent (low : String → Nat) (v : String) :
    List (String × List String) → String → Nat
  | [] => low
  | p :: _ => if low v < low p.1 then upd low p.1 (low v) else low

/-- scc.go:163-188: retire the frame of `v`, whose successors are all visited. -/
def retire (s : St) (v : String) (rest : List (String × List String)) : St :=
  let low' := lowToParent s.low v rest
  if low' v = s.idx v then
    { s with
      cs := rest
      low := low'
      stk := (popTo v s.stk).2
      comps := s.comps ++ [sortStrings (popTo v s.stk).1] }
  else { s with cs := rest, low := low' }

/-- One turn of the loop at scc.go:144-189. -/
def step (adj : String → List String) (s : St) : St :=
  match s.cs with
  | [] => s
  | (v, w :: ws) :: rest =>
    let s1 := { s with cs := (v, ws) :: rest }
    if s.idx w = 0 then discover adj s1 w
    else if w ∈ s.stk ∧ s.idx w < s.low v then { s1 with low := upd s.low v (s.idx w) }
    else s1
  | (v, []) :: rest => retire s v rest

/-- The loop at scc.go:144-189, for at most `fuel` turns. -/
def run (adj : String → List String) : Nat → St → St
  | 0, s => s
  | n + 1, s => match s.cs with
    | [] => s
    | _ :: _ => run adj n (step adj s)

/-- A bound on the number of turns: every turn uses up one successor entry or one
frame.  `SccProps.run_done` proves it is always enough, so that the fuel never
shows. -/
def fuelFor (adj : String → List String) (nodes : List String) : Nat :=
  (nodes.map fun v => (adj v).length + 1).sum

/-- scc.go:134-190, one root. -/
def visitRoot (adj : String → List String) (fuel : Nat) (s : St) (root : String) : St :=
  if s.idx root = 0 then run adj fuel (discover adj s root) else s

/-- scc.go:120-132. -/
def init : St := ⟨fun _ => 0, fun _ => 0, [], [], 0, []⟩

/-- scc.go:134-190: the component list. -/
def components (nodes : List String) (adj : String → List String) : List (List String) :=
  (nodes.foldl (visitRoot adj (fuelFor adj nodes)) init).comps

/-- scc.go:185-187: `ComponentOf`.  Go records the number of components emitted so
far for each member of the component being emitted, i.e. its position in the list. -/
def componentOf (comps : List (List String)) (x : String) : Option Nat :=
  comps.findIdx? (fun c => decide (x ∈ c))

/-- scc.go:193-207: more than one member, or one that calls itself. -/
def recursiveFlag (adj : String → List String) (comp : List String) : Bool :=
  decide (1 < comp.length) || comp.any (fun u => decide (u ∈ adj u))

/-- Sorting of component numbers (`sort.Ints`, scc.go:223). -/
def natLe (a b : Nat) : Bool := decide (a ≤ b)

/-- scc.go:195-225: the components a component calls into, without itself.
Go collects, over all nodes, the component of every successor in a set per caller
component; a node belongs to exactly one component, so walking the members of the
component gives the same set. -/
def dagOf (comps : List (List String)) (adj : String → List String) (c : Nat) : List Nat :=
  isort natLe (dedup ((((comps[c]?).getD []).flatMap adj).filterMap (componentOf comps)
    |>.filter (fun d => d != c)))

/-- The result record, scc.go:36-54. -/
structure Result where
  comps : List (List String)
  dag : List (List Nat)
  recursive : List Bool

/-- scc.go:119-228. -/
def condense (nodes : List String) (adj : String → List String) : Result :=
  let comps := components nodes adj
  { comps := comps
    dag := (List.range comps.length).map (dagOf comps adj)
    recursive := comps.map (recursiveFlag adj) }

/-- scc.go:76-111. -/
def build (calls : List Call) : Result := condense (nodesOf calls) (adjOf calls)

/-- scc.go:58-65. -/
def sameComponent (r : Result) (a b : String) : Bool :=
  match componentOf r.comps a with
  | none => false
  | some ca => match componentOf r.comps b with
    | none => false
    | some cb => ca == cb

/-- scc.go:69-72. -/
def inCycle (r : Result) (fn : String) : Bool :=
  match componentOf r.comps fn with
  | none => false
  | some c => (r.recursive[c]?).getD false

end Verif.Scc
