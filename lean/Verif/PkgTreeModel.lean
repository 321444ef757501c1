import Verif.Common
/-!
# Model: the tree of packages of the diagram server, and a drawing of chosen packages

`handlePackageHierarchy` (internal/diagserver/server.go:427-555), the choice of packages in
`handlePackageBasedDiagram` (572-591) and `generatePackageBasedData` (666-682).
Package paths are lists of characters.  Go maps are lists without repetitions in some order; nodes of the drawing are
given by their packages, "" if they have none.
-/

namespace Verif.PkgTree
open Verif.Common

abbrev Path := List Char

/-- `strings.Split(path, "/")` (server.go:457, 471, 487, 505). -/
def split : Path → List Path
  | [] => [[]]
  | c :: cs =>
    if c = '/' then [] :: split cs
    else match split cs with
      | s :: rest => (c :: s) :: rest
      | [] => [[c]]

/-- `strings.Join(parts, "/")` (server.go:459, 460, 473). -/
def join : List Path → Path
  | [] => []
  | [a] => a
  | a :: b :: rest => a ++ '/' :: join (b :: rest)

/-- `strings.Join(parts[:i], "/")` for i up to the number of parts. -/
def upTo (q : Path) (i : Nat) : Path := join ((split q).take i)

/-- `packageSet` (server.go:438-453): packages of the metadata and of the nodes. -/
def packageSet (known nodes : List Path) : List Path := dedup (known ++ nodes.filter (fun p => decide (p ≠ [])))

/-- `packageCounts` (server.go:439-453); a path that is no key counts 0. -/
def packageCount (nodes : List Path) (p : Path) : Nat := (nodes.filter (fun q => decide (q ≠ []))).count p

/-- `packageMap[path]` (server.go:455-466). -/
def childrenOf (set : List Path) (p : Path) : List Path :=
  dedup (set.flatMap fun q => (List.range (split q).length).filterMap fun i =>
    if 1 ≤ i ∧ upTo q i = p then some (upTo q (i + 1)) else none)

/-- server.go:468-482 -/
def isRoot (set : List Path) (q : Path) : Bool :=
  (List.range (split q).length).all fun i => decide (i = 0) || decide (upTo q i ∉ set)

/-- `PackageNode` (server.go:65-70). -/
inductive Tree where
  | node (name full : Path) (count : Nat) (children : List Tree)

def Tree.name : Tree → Path | .node n _ _ _ => n
def Tree.full : Tree → Path | .node _ f _ _ => f
def Tree.count : Tree → Nat | .node _ _ c _ => c
def Tree.children : Tree → List Tree | .node _ _ _ cs => cs

/-- `<` on strings (server.go:512, 533). -/
def pathLe (a b : Path) : Bool := strLe (String.ofList a) (String.ofList b)

/-- server.go:487-500: the last part, or the path if that is empty; the whole path at the top. -/
def nodeName (top : Bool) (p : Path) : Path :=
  if top then p
  else match (split p).getLast? with
    | some [] => p
    | some s => s
    | none => p

/-- server.go:502-514 -/
def childPaths (set : List Path) (p : Path) : List Path :=
  isort pathLe ((childrenOf set p).filter fun c => decide ((split c).length = (split p).length + 1))

/-- `buildTree` (server.go:485-525); the first argument is 20 less the depth. -/
def buildTree (set nodes : List Path) : Nat → Bool → Path → Tree
  | 0, top, p => .node (nodeName top p) p (packageCount nodes p) []
  | k + 1, top, p =>
    let ts := (childPaths set p).map (buildTree set nodes k false)
    .node (nodeName top p) p (packageCount nodes p + (ts.map Tree.count).sum) ts

/-- server.go:506: `depth < 20`. -/
def maxLevels : Nat := 20

/-- server.go:527-541 -/
def hierarchy (known nodes : List Path) : List Tree :=
  let set := packageSet known nodes
  ((isort pathLe (set.filter (isRoot set))).map (buildTree set nodes maxLevels true)).filter
    fun t => decide (t.count > 0) || decide (t.children.length > 0) || decide (t.full ∈ set)

/-- server.go:543-546 -/
def totalCount (known nodes : List Path) : Nat := ((packageSet known nodes).map (packageCount nodes)).sum

/-- server.go:577-591: the chosen packages and the known ones below. -/
def expand (known chosen : List Path) : List Path :=
  dedup (chosen ++ chosen.flatMap fun s => known.filter fun m => (s ++ ['/']).isPrefixOf m || decide (m = s))

/-- server.go:667-682 -/
def shown (known chosen : List Path) (pkg : Path) : Bool :=
  (expand known chosen).any fun s => decide (pkg = s) || (s ++ ['/']).isPrefixOf pkg

end Verif.PkgTree
