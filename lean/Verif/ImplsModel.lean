/-!
# Model: where a trace goes on at a call of an interface

`resolveImplementers` (internal/insight/metrics.go:672-708), which the trace of an endpoint asks for the methods that a call
of a method of an interface can run.

Simplified: texts of the string pool are resolved already; maps are lists in some order with each key once.  Of what is
known about a method only its identifier is kept.
-/

namespace Verif.Impls

abbrev Text := List Char

/-- A type: its kind and the types that implement it, each as its import path, a dot and its name. -/
structure Ty where
  kind : Text
  implementedBy : List Text

/-- The types of a file by name. -/
abbrev File := List (Text × Ty)

structure Meta where
  /-- The files of each package. -/
  packages : List (Text × List File)
  /-- For each function, how many calls are recorded in it. -/
  callers : List (Text × Nat)

/-- A map read at a key. -/
def look (m : List (Text × α)) (k : Text) : Option α := (m.find? (fun e => decide (e.1 = k))).map (·.2)

/-- `strings.LastIndex(s, ".")` with what is before and after it; none if there is no dot. -/
def lastDot : Text → Option (Text × Text)
  | [] => none
  | x :: xs => match lastDot xs with
    | some (a, b) => some (x :: a, b)
    | none => if x = '.' then some ([], xs) else none

/-- metrics.go:693-705: one implementation. -/
def concrete (m : Meta) (name impl : Text) : Option Text :=
  match lastDot impl with
  | none => none
  | some (p, t) =>
    if p = [] ∨ t = [] then none
    else
      let id := p ++ '.' :: t ++ '.' :: name
      if (look m.callers id).getD 0 > 0 then some id else none

/-- `out[concreteID] = cm` -/
def insert (out : List Text) (id : Text) : List Text := if id ∈ out then out else id :: out

/-- metrics.go:688-706: one file. -/
def fileImpls (m : Meta) (recv name : Text) (f : File) : List Text :=
  match look f recv with
  | none => []
  | some t => if t.kind = "interface".toList then t.implementedBy.filterMap (concrete m name) else []

/-- metrics.go:675-708: the keys of the result. -/
def resolveImplementers (m : Meta) (pkg recv name : Text) : List Text :=
  if recv = [] ∨ pkg = [] ∨ name = [] then []
  else match look m.packages pkg with
    | none => []
    | some files => (files.flatMap (fileImpls m recv name)).foldl insert []

end Verif.Impls
