import Verif.Common
/-!
# Model: on-demand expansion of the call tree

Models `internal/spec/lazytree.go`: budgets, `scopeOf`, `countKey`,
`noteInstanceTruncation`, `noteRouteTruncation`, `GetChildren`, `orderTowardRoutes` and the
assembly of a plan in `buildPlan`.  Which calls and arguments belong to a function
(`buildRelations`, the metadata indexes) is a parameter: an arbitrary plan per node identity.
Node keys are strings; edges and arguments, compared in Go by pointer, are numbers.
-/

namespace Verif.Lazy
open Verif.Common

/-- `metadata.TrackerLimits`, as far as expansion reads it.  Go integers; a negative limit
behaves as 0 in every comparison made. -/
structure Limits where
  maxNodes : Nat := 0
  maxChildren : Nat := 0
  maxInstances : Nat := 0
  maxRoute : Nat := 0
  deriving DecidableEq, Repr

/-- lazytree.go:367-372. -/
def Limits.instances (L : Limits) : Nat := if 0 < L.maxInstances then L.maxInstances else 100

/-- lazytree.go:501-506. -/
def Limits.route (L : Limits) : Nat := if 0 < L.maxRoute then L.maxRoute else 1000000

/-- lazytree.go:1083-1098 `childSpec`; `argType` is a function of the argument. -/
structure Spec where
  key : String
  edge : Option Nat := none
  arg : Option Nat := none
  argEdge : Option Nat := none
  chain : Bool := false
  deriving DecidableEq, Repr

/-- lazytree.go:1107-1112 `planKey`. -/
structure Ident where
  key : String
  edge : Option Nat := none
  arg : Option Nat := none
  isArg : Bool := false
  deriving DecidableEq, Repr

/-- What a node needs of one of its ancestors. -/
structure Frame where
  key : String
  isArg : Bool := false
  deriving DecidableEq, Repr

/-- lazytree.go:970-998 `LazyNode`.  `parent` never changes once set, nor do the key and
kind of an ancestor, so the chain of parents is kept as a list: `path` is this node's frame
followed by its ancestors'.  `lister` is the index of the node in whose `children` this one
appears (`none` for a root); a node's `children` are the nodes so marked, in the order they
were created, which is the order lazytree.go:1220 appends them. -/
structure Node where
  path : List Frame
  edge : Option Nat := none
  arg : Option Nat := none
  scope : Nat := 0
  lister : Option Nat := none
  deriving DecidableEq, Repr

def Node.key (n : Node) : String := match n.path with | [] => "" | f :: _ => f.key
def Node.isArg (n : Node) : Bool := match n.path with | [] => false | f :: _ => f.isArg
def Node.ident (n : Node) : Ident := { key := n.key, edge := n.edge, arg := n.arg, isArg := n.isArg }

/-- lazytree.go:1057-1064. -/
def Node.instanceScope (n : Node) : String :=
  match n.path.find? (fun f => f.isArg) with
  | some f => f.key
  | none => ""

/-- lazytree.go:1066-1073. -/
def Node.onPath (n : Node) (key : String) : Bool := n.path.any fun f => f.key == key

/-- What expansion asks of the rest of the program: the plan of a node identity
(lazytree.go:1245-1256), whether a planned child can lead to a match (prune.go:79-87) and
whether an edge registers one route (`terminalRouteMatch`, false when unset). -/
structure Program where
  plan : Ident → List Spec
  canReach : Spec → Bool
  terminal : Nat → Bool

/-- The tree's mutable state, lazytree.go:51-263.  `nodes` is every node ever created;
`expanded` lists the nodes whose `expanded` flag is set (lazytree.go:997).
`seenAny` and `seenWiring` are the keys with the respective bit of `seenKeys` set.
`cut` lists the scopes whose `routeScopeCut` is set. -/
structure St where
  nodes : List Node := []
  expanded : List Nat := []
  truncated : Bool := false
  inst : String → String → Nat := fun _ _ => 0
  instTruncs : Nat := 0
  instFirst : String × String := ("", "")
  routeNodes : List Nat := []
  routeKeys : List String := []
  cut : List Nat := []
  routeTruncs : Nat := 0
  routeFirst : String := ""
  seenAny : List String := []
  seenWiring : List String := []
  nodesBuilt : Nat := 0
  wiringBuilt : Nat := 0
  materialized : Nat := 0

/-- lazytree.go:538-540. -/
def budgetExhausted (L : Limits) (s : St) : Bool := decide (0 < L.maxNodes) && decide (L.maxNodes ≤ s.wiringBuilt)

/-- lazytree.go:566-568. -/
def routeBudgetExhausted (L : Limits) (s : St) (scope : Nat) : Bool :=
  decide (0 < scope) && (match s.routeNodes[scope]? with | none => false | some n => decide (L.route ≤ n))

/-- lazytree.go:573-595, without the warning. -/
def noteRoute (s : St) (scope : Nat) : St :=
  if scope ∈ s.cut then s
  else { s with
    cut := scope :: s.cut, routeTruncs := s.routeTruncs + 1,
    routeFirst := if s.routeFirst = "" then (s.routeKeys[scope]?).getD "" else s.routeFirst }

/-- lazytree.go:388-400, without the warning. -/
def noteInst (s : St) (scope key : String) : St :=
  { s with instTruncs := s.instTruncs + 1, instFirst := if s.instFirst.2 = "" then (scope, key) else s.instFirst }

/-- lazytree.go:522-525: id 0 is the wiring walk. -/
def openNodes (s : St) : List Nat := if s.routeNodes = [] then [0] else s.routeNodes
def openKeys (s : St) : List String := if s.routeNodes = [] then [""] else s.routeKeys

/-- lazytree.go:514-529: the scope of `n`'s children, and the tables it may extend. -/
def scopeOf (p : Program) (s : St) (n : Node) : Nat × St :=
  if n.scope ≠ 0 then (n.scope, s)
  else match n.edge with
    | none => (n.scope, s)
    | some e =>
      if p.terminal e = false then (n.scope, s)
      else
        ((openNodes s).length, { s with routeNodes := openNodes s ++ [0], routeKeys := openKeys s ++ [n.key] })

/-- lazytree.go:549-562. -/
def countKey (s : St) (key : String) (scope : Nat) : St :=
  let s1 := if key ∈ s.seenAny then s else { s with seenAny := key :: s.seenAny, nodesBuilt := s.nodesBuilt + 1 }
  if scope = 0 ∧ key ∉ s.seenWiring then
    { s1 with seenWiring := key :: s.seenWiring, wiringBuilt := s.wiringBuilt + 1 }
  else s1

/-- lazytree.go:1182-1198: the node created for a spec, listed by node `i`. -/
def mkChild (i : Nat) (n : Node) (childScope : Nat) (sp : Spec) : Node :=
  { path := { key := sp.key, isArg := sp.arg.isSome } ::
      (if sp.arg = none ∧ sp.chain = true ∧ n.path.tail ≠ [] then n.path.tail else n.path),
    edge := if sp.arg.isSome then sp.argEdge else sp.edge,
    arg := sp.arg, scope := childScope, lister := some i }

/-- lazytree.go:1216-1218. -/
def chargeRoute (s : St) (scope : Nat) : St :=
  if 0 < scope then { s with routeNodes := s.routeNodes.modify scope (· + 1) } else s

/-- lazytree.go:1199. -/
def bump (inst : String → String → Nat) (scope key : String) : String → String → Nat :=
  fun a b => if a = scope ∧ b = key then inst a b + 1 else inst a b

/-- lazytree.go:1182-1220: create the child and charge every counter. -/
def create (i : Nat) (n : Node) (childScope : Nat) (s : St) (sp : Spec) : St :=
  let s1 := { s with
    nodes := s.nodes ++ [mkChild i n childScope sp],
    inst := bump s.inst n.instanceScope sp.key, materialized := s.materialized + 1 }
  countKey (chargeRoute s1 childScope) sp.key childScope

/-- lazytree.go:1160-1221: one planned child.  The state carries `childCount`. -/
def childStep (p : Program) (L : Limits) (i : Nat) (n : Node) (childScope : Nat) (a : St × Nat) (sp : Spec) : St × Nat :=
  if sp.arg = none ∧ L.maxChildren ≤ a.2 then a
  else if n.onPath sp.key = true then a
  else if p.canReach sp = false then a
  else if L.instances ≤ a.1.inst n.instanceScope sp.key then (noteInst a.1 n.instanceScope sp.key, a.2)
  else (create i n childScope a.1 sp, if sp.arg = none then a.2 + 1 else a.2)

/-- lazytree.go:1140. -/
def markExpanded (s : St) (i : Nat) : St := { s with expanded := i :: s.expanded }

/-- lazytree.go:1118-1223, `GetChildren` on node `i`. -/
def expand (p : Program) (L : Limits) (s : St) (i : Nat) : St :=
  match s.nodes[i]? with
  | none => s
  | some n =>
    if i ∈ s.expanded then s
    else if n.scope = 0 ∧ budgetExhausted L s = true then { s with truncated := true }
    else if routeBudgetExhausted L s n.scope = true then noteRoute s n.scope
    else
      let r := scopeOf p (markExpanded s i) n
      ((p.plan n.ident).foldl (childStep p L i n r.1) (r.2, 0)).1

/-- lazytree.go:870-889 and 861-867: the roots. -/
def start (roots : List String) : St := { nodes := roots.map fun k => { path := [{ key := k }] } }

/-- Any sequence of requests for children. -/
def run (p : Program) (L : Limits) (roots : List String) (ops : List Nat) : St :=
  ops.foldl (expand p L) (start roots)

/-- lazytree.go:1119-1121, 1222: what `GetChildren` returned for node `i`, by index. -/
def childrenOf (s : St) (i : Nat) : List Nat :=
  (List.range s.nodes.length).filter fun j => (s.nodes[j]?.bind Node.lister) == some i

/-- lazytree.go:925-941 `ExpansionStats`, the fields that report a refusal. -/
def reportsTruncation (s : St) : Bool := s.truncated || decide (0 < s.instTruncs) || decide (0 < s.routeTruncs)

/-! ## Plans -/

/-- lazytree.go:446-465: the segment from `start` on is partitioned, unless one side is empty. -/
def orderTowardRoutes (leads : Option (String → Bool)) (plan : List Spec) (start : Nat) : List Spec :=
  match leads with
  | none => plan
  | some f =>
    if plan.length ≤ start then plan
    else
      let seg := plan.drop start
      let leading := seg.filter fun sp => f sp.key
      let trailing := seg.filter fun sp => !f sp.key
      if leading = [] ∨ trailing = [] then plan
      else plan.take start ++ (leading ++ trailing)

/-- What lazytree.go:1281-1301 reads of one argument of the owner edge: the trimmed key, or
`none` when 1286-1289 skip it. -/
structure ArgInfo where
  id : Nat
  key : Option String
  argEdge : Option Nat := none

/-- lazytree.go:1280-1302. -/
def argSpecs (maxArgs : Nat) (args : List ArgInfo) : List Spec :=
  (args.take maxArgs).filterMap fun a => a.key.map fun k => { key := k, arg := some a.id, argEdge := a.argEdge }

/-- One call of `appendCalleeOpts`, lazytree.go:1309: the edge, its trimmed callee key,
whether it is chained, and whether the generics filter (1320-1325) lets it through. -/
structure Attempt where
  edge : Nat
  key : String
  chain : Bool := false
  passes : Bool := true

/-- lazytree.go:1309-1328; the state is (added, specs). -/
def appendCallee (st : List String × List Spec) (a : Attempt) : List String × List Spec :=
  if a.key ∈ st.1 then st
  else if a.passes = false then st
  else (a.key :: st.1, st.2 ++ [{ key := a.key, edge := some a.edge, chain := a.chain }])

/-- lazytree.go:1263-1414, given the arguments and the sequence of calls of `appendCalleeOpts`
that lines 1346-1409 make. -/
def buildPlan (maxArgs : Nat) (leads : Option (String → Bool)) (args : List ArgInfo) (attempts : List Attempt) : List Spec :=
  orderTowardRoutes leads (argSpecs maxArgs args ++ (attempts.foldl appendCallee ([], [])).2) (argSpecs maxArgs args).length

end Verif.Lazy
