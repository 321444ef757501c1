/-!
# Model: the interface behind a call

`typeIndex` and `resolvedInterface` (internal/insight/metrics.go:778-853), from which the trace of an endpoint says which
interface a call was resolved from and how many implementations it has.

Simplified: texts of the string pool are resolved already; the types of all packages and files are one list, in the order in
which the maps are read.  That the index is kept for the next call is not modelled.
-/

namespace Verif.Behind

abbrev Text := List Char

/-- A type (metadata/types.go): its name, its package, the interfaces it implements and the types that implement it. -/
structure Ty where
  name : Text
  pkg : Text
  implements_ : List Text
  implementedBy : List Text
deriving DecidableEq

abbrev Index := List (Text × Ty)

/-- A map read at a key; the newest entry is the first. -/
def look (m : Index) (k : Text) : Option Ty := (m.find? (fun e => decide (e.1 = k))).map (·.2)

/-- metrics.go:796-807 -/
def add (m : Index) (t : Ty) : Index :=
  if t.name = [] then m
  else
    let m' := if (look m t.name).isNone then (t.name, t) :: m else m
    if t.pkg ≠ [] then (t.pkg ++ '.' :: t.name, t) :: m' else m'

/-- metrics.go:788-821 -/
def typeIndex (ts : List Ty) : Index := ts.foldl add []

/-- `strings.TrimSpace` -/
def trimSpace (s : Text) : Text := ((s.dropWhile Char.isWhitespace).reverse.dropWhile Char.isWhitespace).reverse

/-- `strings.TrimPrefix(s, "*")` -/
def trimStar : Text → Text
  | '*' :: s => s
  | s => s

/-- metrics.go:843-851: one interface. -/
def step (m : Index) (best : Text × Nat) (q : Text) : Text × Nat :=
  match look m q with
  | none => best
  | some it => if it.implementedBy.length > best.2 then (it.name, it.implementedBy.length) else best

/-- metrics.go:828-853 -/
def resolvedInterface (ts : List Ty) (recv : Text) : Text × Nat :=
  let r := trimStar (trimSpace recv)
  if r = [] then ([], 0)
  else match look (typeIndex ts) r with
    | none => ([], 0)
    | some ct => ct.implements_.foldl (step (typeIndex ts)) ([], 0)

end Verif.Behind
