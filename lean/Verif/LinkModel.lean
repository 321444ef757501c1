/-!
# Model: which call a variable is linked to

`Metadata.BuildAssignmentRelationships` (internal/metadata/metadata.go:449-517), from which the tree of calls takes what
is called on a variable, and the comparison by which `sortedAssignmentRelationships` sorts the links
(internal/spec/assignment_order.go:41-58).

Simplified: texts of the string pool are resolved already; edges are numbered, in the order of the call graph; the files
of a package that declare a function are given with its assignments only, in the order of their names
(`SortedFiles`).  Lists of assignments are not empty in the code, which takes their last element; an empty one is passed
over here.
-/

namespace Verif.Link

/-- An assignment: the package and function it is in, the type of its value, and which it is. -/
structure Asg where
  pkg : String
  type : String
  func : String
  at_ : Nat
deriving DecidableEq

/-- A Go map from variables to their assignments, in some order. -/
abbrev AMap := List (String × List Asg)

structure Edge where
  id : Nat
  callerName : String
  callerPkg : String
  /-- The variable the method is called on. -/
  recv : String
  /-- The identity of the function that is called. -/
  callee : String
  assigns : AMap

/-- metadata.go AssignmentKey -/
structure Key where
  name : String
  pkg : String
  type : String
  container : String
deriving DecidableEq

/-- metadata.go AssignmentLink: the assignment and the call. -/
structure Lk where
  asg : Asg
  edge : Nat
deriving DecidableEq

structure Prog where
  edges : List Edge
  /-- For a package and a function, its assignments in each file that declares it. -/
  declared : String → String → List AMap
  /-- The calls made by a function: their numbers and the variables they are made on. -/
  callers : String → List (Nat × String)

/-- metadata.go:460-482: the assignments of the main function. -/
def rootWrites (pr : Prog) (e : Edge) : List (Key × Lk) :=
  if e.callerName = "main" then
    (pr.declared e.callerPkg e.callerName).flatMap fun m => m.filterMap fun va =>
      if e.recv ≠ va.1 then none
      else va.2.getLast?.map fun a => (⟨va.1, e.callerPkg, a.type, e.callerName⟩, ⟨a, e.id⟩)
  else []

/-- metadata.go:496-506: the first call the callee makes on the variable, or else the call itself. -/
def linkEdge (pr : Prog) (e : Edge) (v : String) : Nat :=
  match (pr.callers e.callee).find? (fun c => c.2 == v) with
  | some c => c.1
  | none => e.id

/-- metadata.go:484-513: the assignments passed on with the call. -/
def ownWrites (pr : Prog) (e : Edge) : List (Key × Lk) :=
  e.assigns.filterMap fun va => va.2.getLast?.map fun a => (⟨va.1, a.pkg, a.type, a.func⟩, ⟨a, linkEdge pr e va.1⟩)

/-- A write to a map: what is written last is found first. -/
def write (m : List (Key × Lk)) : List (Key × Lk) → List (Key × Lk)
  | [] => m
  | w :: ws => write (w :: m) ws

/-- metadata.go:449-517 -/
def build (pr : Prog) : List Edge → List (Key × Lk) → List (Key × Lk)
  | [], m => m
  | e :: es, m => build pr es (write (write m (rootWrites pr e)) (ownWrites pr e))

/-- What is found under a key. -/
def linked (pr : Prog) (k : Key) : Option Lk := (build pr pr.edges []).lookup k

/-- The comparison of `sortedAssignmentRelationships` (internal/spec/assignment_order.go:47-56); `idOf` is the identity of
the callee of an edge. -/
def cmpLinks (idOf : Nat → String) (x y : Key × Lk) : Ordering :=
  (compare (idOf x.2.edge) (idOf y.2.edge)).then
    ((compare x.1.container y.1.container).then
      ((compare x.1.pkg y.1.pkg).then ((compare x.1.name y.1.name).then (compare x.1.type y.1.type))))

end Verif.Link
