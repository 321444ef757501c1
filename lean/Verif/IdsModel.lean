import Verif.Assoc
/-!
# Model: the string pool and call identifiers

internal/metadata/types.go:69-131 (StringPool), internal/metadata/metadata.go:33-142
(CallIdentifier, StripToBase), internal/metadata/types.go:1424-1490 (the identifiers a call caches)
and internal/metadata/metadata.go:413-425 (a call copied with further type arguments).
-/

namespace Verif.IdsModel
open Verif.Common

abbrev Str := List Char

/-! ### The string pool -/

/-- types.go:69-72; `strings` is none for a nil map. -/
structure Pool where
  strings : Option (List (Str × Int))
  values : List Str

/-- types.go:74-79. -/
def newPool : Pool := ⟨some [], []⟩

/-- types.go:81-98: the pool after the call, and the index. -/
def get (p : Pool) (s : Str) : Pool × Int :=
  if s = [] then (p, -1)
  else match p.strings.bind (mget · s) with
    | some i => (p, i)
    | none => match p.strings with
      | none => (p, -1)
      | some m => (⟨some (mset m s p.values.length), p.values ++ [s]⟩, p.values.length)

/-- types.go:100-105. -/
def getString (p : Pool) (i : Int) : Str :=
  if 0 ≤ i ∧ i < p.values.length then (p.values[i.toNat]?).getD [] else []

/-- types.go:108-110. -/
def size (p : Pool) : Nat := p.values.length

/-- types.go:113-115. -/
def marshal (p : Pool) : List Str := p.values

/-- types.go:124-129, the loop, from index `i` on. -/
def index (m : List (Str × Int)) (i : Int) : List Str → List (Str × Int)
  | [] => m
  | s :: vs => index (mset m s i) (i + 1) vs

/-- types.go:118-131. -/
def unmarshal (vs : List Str) : Pool := ⟨some (index [] 0 vs), vs⟩

/-- What can happen to a pool: a string is interned, or the metadata is written to a file and read
back (io.go). -/
inductive Op
  | intern (s : Str)
  | reload

def step (p : Pool) : Op → Pool
  | .intern s => (get p s).1
  | .reload => unmarshal (marshal p)

/-- The pool after a history. -/
def run (h : List Op) : Pool := h.foldl step newPool

/-! ### Call identifiers -/

/-- metadata.go:33-42. -/
inductive IdType | base | generic | site
  deriving DecidableEq

/-- metadata.go:45-54; `generics` is a map, its pairs in any order. -/
structure Ident where
  pkg : Str
  name : Str
  recv : Str
  position : Str
  generics : List (Str × Str)

/-- `strings.TrimPrefix(s, "*")`. -/
def trimStar : Str → Str
  | [] => []
  | c :: s => if c = '*' then s else c :: s

/-- metadata.go:74-83. -/
def baseOf (c : Ident) : Str :=
  trimStar (if c.recv = [] then c.pkg ++ '.' :: c.name else c.pkg ++ '.' :: (trimStar c.recv ++ '.' :: c.name))

/-- `slices.Sort` on strings. -/
def strLe (a b : Str) : Bool := Common.strLe (String.ofList a) (String.ofList b)

/-- `strings.Join(parts, ",")`. -/
def joinComma : List Str → Str
  | [] => []
  | [p] => p
  | p :: q :: ps => p ++ ',' :: joinComma (q :: ps)

/-- metadata.go:92-99 and 109-116: `[k=v,…]`, or nothing. -/
def genericText (g : List (Str × Str)) : Str :=
  if g = [] then [] else '[' :: (joinComma (isort strLe (g.map fun kv => kv.1 ++ '=' :: kv.2)) ++ [']'])

/-- metadata.go:85-128. -/
def render (c : Ident) : IdType → Str
  | .base => baseOf c
  | .generic => baseOf c ++ genericText c.generics
  | .site => trimStar (baseOf c ++ (genericText c.generics ++ (if c.position = [] then [] else '@' :: c.position)))

/-- metadata.go:68-72 and 126-131: with the cache. -/
def ID (cache : List (IdType × Str)) (c : Ident) (t : IdType) : List (IdType × Str) × Str :=
  match mget cache t with
  | some s => (cache, s)
  | none => (mset cache t (render c t), render c t)

/-- metadata.go:134-142. -/
def stripToBase (id : Str) : Str := id.takeWhile fun c => c != '@' && c != '['

/-- types.go:1380-1420: a call, with what it caches: the identifier built from it (and that
identifier's own cache), the base id and the instance id ([] is unset). -/
structure Call where
  pkg : Str
  name : Str
  recv : Str
  position : Str
  generics : List (Str × Str)
  identifier : Option (Ident × List (IdType × Str)) := none
  baseCache : Str := []
  instCache : Str := []

/-- types.go:1473-1487. -/
def identOf (c : Call) : Ident := ⟨c.pkg, c.name, c.recv, c.position, c.generics⟩

/-- types.go:1460-1488. -/
def buildIdentifier (c : Call) : Call := { c with identifier := some (identOf c, []) }

/-- types.go:1436-1438 and 1451-1453. -/
def ensure (c : Call) : Call := if c.identifier.isSome then c else buildIdentifier c

/-- types.go:1440, 1455: ask the identifier. -/
def ask (c : Call) (t : IdType) : Call × Str :=
  match c.identifier with
  | none => (c, [])
  | some (i, cache) => ({ c with identifier := some (i, (ID cache i t).1) }, (ID cache i t).2)

/-- types.go:1430-1442. -/
def baseID (c : Call) : Call × Str :=
  if c.baseCache ≠ [] then (c, c.baseCache)
  else ({ (ask (ensure c) .base).1 with baseCache := (ask (ensure c) .base).2 }, (ask (ensure c) .base).2)

/-- types.go:1445-1457. -/
def instanceID (c : Call) : Call × Str :=
  if c.instCache ≠ [] then (c, c.instCache)
  else ({ (ask (ensure c) .site).1 with instCache := (ask (ensure c) .site).2 }, (ask (ensure c) .site).2)

/-- metadata.go:413-425: a copy of the call with other type arguments; the identifier is rebuilt. -/
def withGenerics (c : Call) (g : List (Str × Str)) : Call := buildIdentifier { c with generics := g, identifier := none }

/-- Asking a call for its ids, again and again. -/
inductive Query | base | site

def queryStep (c : Call) : Query → Call
  | .base => (baseID c).1
  | .site => (instanceID c).1

end Verif.IdsModel
