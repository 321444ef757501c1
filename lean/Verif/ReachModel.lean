import Verif.SccModel
/-!
# Model: which functions lead to a matching call

Models `internal/spec/prune.go` (`computeReach`, `canReachMatch`,
`edgeMatchesAnyFamily`), `internal/spec/route_reach.go` (`routeReachSet`),
`internal/spec/reachability.go` (`reachSet`) and `internal/spec/entrypoint_roots.go`.

Sets (Go maps to `bool`) are lists; a work list keeps the element taken next at the
head.  Loops that run until a work list is empty take the number of turns allowed as an
argument; the theorems give the bound that is always enough.
-/

namespace Verif.Reach
open Verif.Common Verif.Scc

/-! ## Work-list search -/

section
variable {κ : Type} [DecidableEq κ]

/-- "If not yet marked, mark it and put it on the work list":
prune.go:190-193 (`lifo`: a stack), route_reach.go:60-66 and
entrypoint_roots.go:110-113 (a queue). -/
def mark (lifo : Bool) (st : List κ × List κ) (x : κ) : List κ × List κ :=
  if x ∈ st.1 then st else (x :: st.1, if lifo then x :: st.2 else st.2 ++ [x])

/-- The loop "take one, mark what it leads to": prune.go:186-195,
route_reach.go:83-89, entrypoint_roots.go:105-115.  The state is (marked, work). -/
def search (lifo : Bool) (next : κ → List κ) : Nat → List κ × List κ → List κ
  | 0, st => st.1
  | _ + 1, (marked, []) => marked
  | n + 1, (marked, k :: work) => search lifo next n ((next k).foldl (mark lifo) (marked, work))

/-! ## `computeReach` -/

/-- The variables of `computeReach`, prune.go:159-162. `rev` lists (child, parent)
pairs: `rev[child]` is the parents paired with `child`, in order. -/
structure Fwd (κ : Type) where
  seen : List κ := []
  frontier : List κ := []
  seeds : List κ := []
  reach : List κ := []
  rev : List (κ × κ) := []

/-- prune.go:164-174. -/
def visit (isMatch : κ → Bool) (s : Fwd κ) (id : κ) : Fwd κ :=
  if id ∈ s.seen then s
  else
    let s1 := { s with seen := id :: s.seen, frontier := id :: s.frontier }
    if isMatch id = true ∧ id ∉ s.reach then
      { s1 with reach := id :: s.reach, seeds := id :: s.seeds }
    else s1

/-- prune.go:181-184, one child. -/
def visitChild (isMatch : κ → Bool) (id : κ) (s : Fwd κ) (child : κ) : Fwd κ :=
  visit isMatch { s with rev := s.rev ++ [(child, id)] } child

/-- prune.go:178-185. -/
def forward (children : κ → List κ) (isMatch : κ → Bool) : Nat → Fwd κ → Fwd κ
  | 0, s => s
  | n + 1, s => match s.frontier with
    | [] => s
    | id :: fr => forward children isMatch n
        ((children id).foldl (visitChild isMatch id) { s with frontier := fr })

/-- prune.go:189: `rev[id]`. -/
def parentsOf (rev : List (κ × κ)) (id : κ) : List κ :=
  (rev.filter (fun p => p.1 = id)).map Prod.snd

/-- prune.go:158-197; `fuel` bounds both loops. -/
def computeReach (fuel : Nat) (roots : List κ) (children : κ → List κ) (isMatch : κ → Bool) : List κ :=
  let s := forward children isMatch fuel (roots.foldl (visit isMatch) {})
  search true (parentsOf s.rev) fuel (s.reach, s.seeds)

/-- prune.go:79-87: without a predicate nothing is pruned. -/
def canReachMatch (edgeMatches : Option (κ → Bool)) (fuel : Nat) (roots : List κ)
    (children : κ → List κ) (id : κ) : Bool :=
  match edgeMatches with
  | none => true
  | some m => decide (id ∈ computeReach fuel roots children m)

end

/-- prune.go:225-261: the six matcher families consulted in turn; `none` is a nil edge. -/
def edgeMatchesAnyFamily {ε : Type} (route mount security request response param : List (ε → Bool)) :
    Option ε → Bool
  | none => false
  | some e => route.any (· e) || mount.any (· e) || security.any (· e) || request.any (· e) ||
      response.any (· e) || param.any (· e)

/-! ## Call edges -/

/-- What these passes read of a `metadata.CallGraphEdge`: the two ends' base
identifiers, the enclosing function of a closure, the bare name of the caller, and an
arbitrary payload `info` the match predicates may look at. -/
structure CallEdge where
  caller : String
  callee : String
  parent : Option String := none
  callerName : String := ""
  info : Nat := 0
  deriving DecidableEq, Repr

/-- The (caller, callee) pairs, as the condensation reads them. -/
def pairs (edges : List CallEdge) : List (String × String) := edges.map fun e => (e.caller, e.callee)

/-- metadata/types.go:274-280: `meta.Callers[key]`. -/
def callersOf (edges : List CallEdge) (key : String) : List CallEdge :=
  edges.filter fun e => e.caller == key

/-! ## `routeReachSet` -/

/-- route_reach.go:51-56. -/
def addPred (preds : List (String × String)) (o p : String) : List (String × String) :=
  if o = "" ∨ p = "" ∨ o = p then preds else preds ++ [(o, p)]

/-- route_reach.go:71-77. -/
def predStep (preds : List (String × String)) (e : CallEdge) : List (String × String) :=
  let preds := addPred preds e.callee e.caller
  match e.parent with
  | none => preds
  | some p => addPred preds e.caller p

/-- route_reach.go:60-66, 78-80: marking the caller of a matching edge. -/
def seedStep (isMatch : CallEdge → Bool) (st : List String × List String) (e : CallEdge) :
    List String × List String :=
  if isMatch e = true ∧ e.caller ≠ "" then mark false st e.caller else st

/-- route_reach.go:44-91.  The single pass over the edges fills `preds` and marks seeds
independently, so the two are folded separately.  (`mark` skips the empty key, which
`addPred` never records as a predecessor.)  Each turn of the loop handles a key marked
once, and only callers and enclosing functions are marked, hence the turn bound. -/
def routeReachSet (edges : List CallEdge) (isMatch : CallEdge → Bool) : List String :=
  let preds := edges.foldl predStep []
  search false (parentsOf preds) (2 * edges.length) (edges.foldl (seedStep isMatch) ([], []))

/-! ## `reachSet` / `reachesMatch` -/

/-- reachability.go:63-73, entrypoint_roots.go:128-137: one edge of a member of
component `c`, given the answers for the components before it. -/
def edgeReaches (comps : List (List String)) (isMatch : CallEdge → Bool) (done : List Bool) (c : Nat)
    (e : CallEdge) : Bool :=
  isMatch e || (match componentOf comps e.callee with
    | none => false
    | some d => decide (d ≠ c) && (done[d]?).getD false)

/-- reachability.go:60-79, entrypoint_roots.go:125-143: the answers, component by
component.  `compReaches[d]` for a component not yet processed is `false`, as is a read
past the end of `done`. -/
def compReaches (comps : List (List String)) (edges : List CallEdge) (isMatch : CallEdge → Bool) :
    List (List String) → List Bool → List Bool
  | [], done => done
  | comp :: rest, done =>
    compReaches comps edges isMatch rest
      (done ++ [comp.any fun m => (callersOf edges m).any (edgeReaches comps isMatch done done.length)])

/-- reachability.go:53-92 (without the cache) and entrypoint_roots.go:122-151:
membership of `f` in the returned set. -/
def reachesMatch (edges : List CallEdge) (isMatch : CallEdge → Bool) (f : String) : Bool :=
  let comps := (build (pairs edges)).comps
  match componentOf comps f with
  | none => false
  | some c => ((compReaches comps edges isMatch comps [])[c]?).getD false

/-! ## Entrypoints -/

/-- metadata.go:134-142: cut at the first `@` or `[`. -/
def stripToBase (id : String) : String :=
  String.ofList (id.toList.takeWhile fun c => c != '@' && c != '[')

/-- entrypoint_roots.go:94-104.  `CallGraphRoots` (metadata/types.go:811-845) lists, among
others, every edge whose caller is named `main`; the loop keeps exactly those. -/
def mainSeedStep (st : List String × List String) (e : CallEdge) : List String × List String :=
  if e.callerName = "main" then mark false st (stripToBase e.caller) else st

/-- entrypoint_roots.go:92-117.  Only mains and callees are marked, each once, hence the
turn bound. -/
def reachableFromMains (edges : List CallEdge) : List String :=
  search false (fun k => (callersOf edges k).map CallEdge.callee) (2 * edges.length)
    (edges.foldl mainSeedStep ([], []))

/-- entrypoint_roots.go:83-88. -/
structure EntryStats where
  declared : Nat := 0
  rooted : Nat := 0
  alreadyReachable : Nat := 0
  noRoutes : Nat := 0
  deriving DecidableEq, Repr

/-- entrypoint_roots.go:57-66: one candidate. -/
def entryStep (fromMain : List String) (registers : String → Bool) (st : List String × EntryStats)
    (key : String) : List String × EntryStats :=
  if key ∈ fromMain then (st.1, { st.2 with alreadyReachable := st.2.alreadyReachable + 1 })
  else if registers key = false then (st.1, { st.2 with noRoutes := st.2.noRoutes + 1 })
  else (st.1 ++ [key], st.2)

/-- entrypoint_roots.go:47-76. -/
def entrypointRoots (edges : List CallEdge) (candidates : List String)
    (routeMatch : CallEdge → Bool) : List String × EntryStats :=
  if candidates = [] then ([], {})
  else
    let r := candidates.foldl
      (entryStep (reachableFromMains edges) (reachesMatch edges routeMatch))
      ([], { declared := candidates.length })
    (sortStrings r.1, { r.2 with rooted := r.1.length })

end Verif.Reach
