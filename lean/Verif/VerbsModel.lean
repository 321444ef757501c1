/-!
# Model: the handlers that serve several methods

`verbDispatch` (internal/insight/overview.go:518-557) and `lastSegment` (internal/insight/overview.go:898-903), from which
the overview lists the handlers that are split by method.

Simplified: texts of the string pool are resolved already; packages, files and functions are not nil.  The maps of packages,
files and functions are lists in some order, and the two sorts are parameters.
-/

namespace Verif.Verbs

abbrev Text := List Char

/-- A function (metadata/types.go:935-955): the key it is found under, its package and the methods of each arm. -/
structure Fn where
  name : Text
  pkg : Text
  arms : List (List Text)
deriving DecidableEq

/-- Packages of files of functions. -/
abbrev Meta := List (List (List Fn))

/-- overview.go:215-221 -/
structure Row where
  handler : Text
  methods : List Text
deriving DecidableEq

/-- overview.go:537-540: a method that is named and not there yet is put at the end. -/
def add (ms : List Text) (x : Text) : List Text := if x ≠ [] ∧ x ∉ ms then ms ++ [x] else ms

/-- overview.go:533-542 -/
def collect (f : Fn) : List Text := f.arms.foldl (fun ms arm => arm.foldl add ms) []

/-- overview.go:898-903: what is after the last slash. -/
def lastSegment : Text → Text
  | [] => []
  | x :: xs => if '/' ∈ xs then lastSegment xs else if x = '/' then xs else x :: xs

/-- overview.go:547-550 -/
def label (f : Fn) : Text := if f.pkg = [] then f.name else lastSegment f.pkg ++ '.' :: f.name

/-- overview.go:529-551: one function. -/
def row (sort : List Text → List Text) (f : Fn) : Option Row :=
  if f.arms.length = 0 then none
  else if (collect f).length < 2 then none
  else some ⟨label f, sort (collect f)⟩

/-- overview.go:521-557 -/
def verbDispatch (sort : List Text → List Text) (sortRows : List Row → List Row) (m : Meta) : List Row :=
  sortRows (m.flatMap fun files => files.flatMap fun fns => fns.filterMap (row sort))

end Verif.Verbs
