import Verif.LazyModel
/-!
# Specification: what expansion may build
-/

namespace Verif.LazySpec
open Verif.Lazy

/-- The nearest argument at or above a node; `""` if there is none. -/
def nearestArg : List Frame → String
  | [] => ""
  | f :: rest => if f.isArg = true then f.key else nearestArg rest

/-- The scope a node's copy allowance is taken from: the nearest argument at or above the node
that lists it. -/
def chargedTo (nodes : List Node) (x : Node) : Option String :=
  match x.lister with
  | none => none
  | some i => match nodes[i]? with
    | none => none
    | some n => some (nearestArg n.path)

/-- How many copies of `key` exist in a scope. -/
def copies (nodes : List Node) (scope key : String) : Nat :=
  nodes.countP fun x => x.key == key && chargedTo nodes x == some scope

/-- How many calls (not arguments) node `i` lists. -/
def callees (nodes : List Node) (i : Nat) : Nat :=
  nodes.countP fun x => x.lister == some i && !x.isArg

/-- How many nodes belong to a route's scope. -/
def inRoute (nodes : List Node) (scope : Nat) : Nat := nodes.countP fun x => x.scope == scope

/-- Nodes that are not roots. -/
def built (nodes : List Node) : List Node := nodes.filter fun x => x.lister.isSome

/-- The node is a route registration: its call registers a route, and it is not itself below
one. -/
def Registers (p : Program) (n : Node) : Prop := n.scope = 0 ∧ ∃ e, n.edge = some e ∧ p.terminal e = true

/-- How many requests of a sequence made the tree grow. -/
def growths (p : Program) (L : Limits) : St → List Nat → Nat
  | _, [] => 0
  | s, i :: ops => (if (expand p L s i).nodes = s.nodes then 0 else 1) + growths p L (expand p L s i) ops

/-- Every key a plan mentions is one of `U`. -/
def KeysIn (p : Program) (U : List String) : Prop := ∀ id, ∀ sp ∈ p.plan id, sp.key ∈ U

/-- `L'` allows at least what `L` does, with the same limit on children. -/
structure Allows (L L' : Limits) : Prop where
  children : L'.maxChildren = L.maxChildren
  nodes : L'.maxNodes = 0 ∨ (0 < L.maxNodes ∧ L.maxNodes ≤ L'.maxNodes)
  instances : L.instances ≤ L'.instances
  route : L.route ≤ L'.route

end Verif.LazySpec
