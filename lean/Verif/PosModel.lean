import Verif.IdsModel
/-!
# Model: the positions that are recorded

`positionIndex`, `positionString` and `formatPosition` (internal/metadata/position.go:41-87, 176-196), with the string pool of
`Verif.IdsModel`.

Simplified: the metadata and its pool are there; numbers as texts are a parameter; calls come one after another (the locks
of the cache are not modelled).  A file set is a function that gives the zero place for what is not in it.
-/

namespace Verif.Pos

open Verif.IdsModel (Str Pool get getString newPool)

/-- go/token.Position -/
structure Place where
  file : Str
  line : Nat
  column : Nat
deriving DecidableEq

/-- go/token.FileSet: what `Position` says for each Pos. -/
abbrev FileSet := Nat → Place

structure State where
  pool : Pool
  cache : List (Nat × Int)

/-- position.go:176-196 -/
def formatPosition (num : Nat → Str) (p : Place) : Str :=
  if p.line = 0 then (if p.file = [] then ['-'] else p.file)
  else (if p.file ≠ [] then p.file ++ [':'] else []) ++ num p.line ++ (if p.column ≠ 0 then ':' :: num p.column else [])

/-- `m.posCache[pos]` -/
def cached (s : State) (pos : Nat) : Option Int := (s.cache.find? (fun e => decide (e.1 = pos))).map (·.2)

/-- position.go:41-76; a nil file set is none. -/
def positionIndex (num : Nat → Str) (s : State) (pos : Nat) (fset : Option FileSet) : State × Int :=
  match fset with
  | none => (s, -1)
  | some fs =>
    if pos = 0 then (s, -1)
    else match cached s pos with
      | some i => (s, i)
      | none =>
        if (fs pos).line = 0 then (s, -1)
        else
          let r := get s.pool (formatPosition num (fs pos))
          (⟨r.1, (pos, r.2) :: s.cache⟩, r.2)

/-- position.go:81-87 -/
def positionString (num : Nat → Str) (s : State) (pos : Nat) (fset : Option FileSet) : State × Str :=
  let r := positionIndex num s pos fset
  if r.2 < 0 then (r.1, []) else (r.1, getString r.1.pool r.2)

/-- What is done with the metadata: a text is put into the pool, or a position is recorded. -/
inductive Op where
  | intern (s : Str)
  | place (pos : Nat) (fset : Option FileSet)

def step (num : Nat → Str) (s : State) : Op → State
  | .intern t => ⟨(get s.pool t).1, s.cache⟩
  | .place pos fset => (positionIndex num s pos fset).1

def run (num : Nat → Str) (ops : List Op) : State := ops.foldl (step num) ⟨newPool, []⟩

end Verif.Pos
