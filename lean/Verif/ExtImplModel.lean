/-
Model of how apispec records which types implement interfaces declared outside the analyzed packages
(`analyzeExternalInterfaceImplementations`, internal/metadata/metadata.go:2053-2205) and of the query
for a given interface's implementers (`ImplementersOf`, internal/metadata/types.go:648-696).

Simplifications:
* Types are numbered; `Node` says what a type is.  Two numbers are two `types.Type` values, which is
  what the visited set compares.
* `types.Implements(*T, I)` of the standard library is an arbitrary relation.
* The references of all files (`info.Uses` and `info.Types`, both maps) are one list in arbitrary
  order; untyped and nil types are left out of it.
* A declaration's type is looked up in the metadata by package and name; each record is visited on its
  own, because the loops append to the record of the type they are at and to nothing else.
* The memo of `ImplementersOf` and its lock are left out.
-/
import Verif.Common

namespace Verif.ExtImpl
open Verif.Common

/-- What a type is, as far as the walk looks (internal/metadata/metadata.go:2102-2140). -/
inductive Node
  /-- A named type: the path of its package (`none` in the universe scope), its name, and, when it is
  an interface, its number of methods. -/
  | named (pkg : Option String) (name : String) (methods : Option Nat)
  | sig (params results : List Nat)
  /-- Pointers, slices, arrays and channels. -/
  | elem (t : Nat)
  | map (k v : Nat)
  | other
deriving DecidableEq

/-- The types of a program. -/
abbrev Types := Nat → Node

/-- What the walk has seen and collected (internal/metadata/metadata.go:2087-2088). -/
structure St where
  seen : List Nat := []
  external : List (String × Nat) := []

/-- `external[k] = iface`. -/
def put (m : List (String × Nat)) (k : String) (i : Nat) : List (String × Nat) := (k, i) :: m.filter fun e => e.1 != k

/-- The key of an interface (internal/metadata/metadata.go:2115-2125); `none` when its package is
analyzed. -/
def keyOf (analyzed : String → Bool) (pkg : Option String) (name : String) : Option String :=
  match pkg with
  | none => some name
  | some p => if analyzed p then none else some (p ++ "." ++ name)

/-- The case of a named type (internal/metadata/metadata.go:2103-2125). -/
def considerNamed (analyzed : String → Bool) (s : St) (t : Nat) (pkg : Option String) (name : String) (methods : Option Nat) : St :=
  match methods with
  | none => s
  | some 0 => s
  | some (_ + 1) =>
    match keyOf analyzed pkg name with
    | none => s
    | some k => { s with external := put s.external k t }

/-- `consider(t, depth)` with `5 - depth` levels left (internal/metadata/metadata.go:2089-2141). -/
def consider (g : Types) (analyzed : String → Bool) : Nat → St → Nat → St
  | 0, s, _ => s
  | n + 1, s, t =>
    if t ∈ s.seen then s
    else
      match g t with
      | .named pkg name methods => considerNamed analyzed { s with seen := t :: s.seen } t pkg name methods
      | .sig ps rs => (ps ++ rs).foldl (consider g analyzed n) { s with seen := t :: s.seen }
      | .elem e => consider g analyzed n { s with seen := t :: s.seen } e
      | .map k v => consider g analyzed n (consider g analyzed n { s with seen := t :: s.seen } k) v
      | .other => { s with seen := t :: s.seen }

/-- The collected interfaces (internal/metadata/metadata.go:2142-2151). -/
def collect (g : Types) (analyzed : String → Bool) (refs : List Nat) : List (String × Nat) :=
  (refs.foldl (consider g analyzed 5) {}).external

/-- A recorded type: what it implements so far, and its type when it is declared at package level. -/
structure Rec where
  implements : List String := []
  decl : Option Nat := none

/-- The metadata: a map of packages, each a map of types. -/
abbrev Meta := List (String × List (String × Rec))

/-- One interface for one type (internal/metadata/metadata.go:2191-2200). -/
def addOne (impl : Nat → Nat → Bool) (t : Nat) (acc : List String) (e : String × Nat) : List String :=
  if impl t e.2 then (if e.1 ∈ acc then acc else acc ++ [e.1]) else acc

/-- The collected interfaces in the order of their names (internal/metadata/metadata.go:2155). -/
def sortedIfaces (ext : List (String × Nat)) : List (String × Nat) := isort (fun a b => strLe a.1 b.1) ext

/-- A recorded type afterwards (internal/metadata/metadata.go:2159-2203). -/
def update (impl : Nat → Nat → Bool) (ext : List (String × Nat)) (r : Rec) : Rec :=
  match r.decl with
  | none => r
  | some t => { r with implements := (sortedIfaces ext).foldl (addOne impl t) r.implements }

/-- The metadata afterwards: only the analyzed packages are looked at
(internal/metadata/metadata.go:2159-2163). -/
def analyze (g : Types) (analyzed : String → Bool) (impl : Nat → Nat → Bool) (refs : List Nat) (m : Meta) : Meta :=
  m.map fun p => (p.1, if analyzed p.1 then p.2.map fun t => (t.1, update impl (collect g analyzed refs) t.2) else p.2)

/-- `ImplementersOf` (internal/metadata/types.go:663-696). -/
def implementersOf (m : Meta) (k : String) : List String :=
  if k = "" then []
  else (isort (fun a b => strLe a.1 b.1) m).flatMap fun p =>
    ((isort (fun a b => strLe a.1 b.1) p.2).filter fun t => t.2.implements.contains k).map fun t => p.1 ++ "." ++ t.1

end Verif.ExtImpl
