import Verif.Assoc
/-!
# Model: lookups over the metadata, and the indexes behind them

internal/metadata/types.go:267-320 (BuildCallGraphMaps, calleeEdgesByNamePkg), 330-380
(SortedFileNames, shapeOf), 481-525 (TypeInPackage), 537-580 (FunctionInPackage), 606-645
(FunctionAnywhere), 789-809 (SortedPackageNames), 811-845 (CallGraphRoots).  A declaration is a
number (the address of its record).  Locks are left out here; `ConcModel` has them.
-/

namespace Verif.IndexModel
open Verif.Common

/-- types.go:852-862, as far as lookups read it: declarations by name. -/
structure File where
  types : List (String × Nat)
  funcs : List (String × Nat)

/-- types.go:847-850: `none` is a nil file entry. -/
abbrev Package := List (String × Option File)

/-- types.go:362. -/
structure Shape where
  files : Nat
  types : Nat
  funcs : Nat
  deriving DecidableEq

/-- types.go:367-377: how many declarations a file entry has. -/
def count (get : File → List (String × Nat)) (e : String × Option File) : Nat :=
  match e.2 with
  | some f => (get f).length
  | none => 0

/-- types.go:364-380. -/
def shapeOf (p : Package) : Shape := ⟨p.length, (p.map (count File.types)).sum, (p.map (count File.funcs)).sum⟩

/-- The metadata with its caches: names and lookups by package, each with what it was built for. -/
structure Meta where
  packages : List (String × Package) := []
  sortedFiles : List (String × (List String × Nat)) := []
  typeIndex : List (String × (List (String × Nat) × Shape)) := []
  funcIndex : List (String × (List (String × Nat) × Shape)) := []
  sortedPkgs : Option (List String) := none
  anywhere : Option (List (String × Nat)) := none

/-- types.go:347-353. -/
def storeNames (m : Meta) (pkg : String) (p : Package) : Meta :=
  { m with sortedFiles := mset m.sortedFiles pkg (sortStrings (p.map Prod.fst), p.length) }

/-- types.go:330-355. -/
def sortedFileNames (m : Meta) (pkg : String) : Meta × List String :=
  match mget m.packages pkg with
  | none => (m, [])
  | some p =>
    match mget m.sortedFiles pkg with
    | some (names, n) =>
      if n = p.length then (m, names) else (storeNames m pkg p, sortStrings (p.map Prod.fst))
    | none => (storeNames m pkg p, sortStrings (p.map Prod.fst))

/-- types.go:510-514 and 566-570: the declarations of one file not seen before. -/
def fill : List (String × Nat) → List (String × Nat) → List (String × Nat)
  | idx, [] => idx
  | idx, (name, d) :: ds => fill (match mget idx name with | some _ => idx | none => idx ++ [(name, d)]) ds

/-- The declarations (`get`) of a file entry that may be nil or missing. -/
def declsOf (get : File → List (String × Nat)) (p : Package) (name : String) : List (String × Nat) :=
  match mget p name with
  | some (some f) => get f
  | _ => []

/-- types.go:501-515, 560-571: first file wins. -/
def build (get : File → List (String × Nat)) (p : Package) : List (String × Nat) → List String → List (String × Nat)
  | idx, [] => idx
  | idx, name :: names => build get p (fill idx (declsOf get p name)) names

/-- types.go:517-523. -/
def storeTypes (m : Meta) (pkg : String) (p : Package) (idx : List (String × Nat)) : Meta :=
  { m with typeIndex := mset m.typeIndex pkg (idx, shapeOf p) }

/-- types.go:573-578. -/
def storeFuncs (m : Meta) (pkg : String) (p : Package) (idx : List (String × Nat)) : Meta :=
  { m with funcIndex := mset m.funcIndex pkg (idx, shapeOf p) }

/-- types.go:481-524. -/
def typeInPackage (m : Meta) (pkg name : String) : Meta × Option Nat :=
  match mget m.packages pkg with
  | none => (m, none)
  | some p =>
    match mget m.typeIndex pkg with
    | some (idx, sh) =>
      if sh = shapeOf p then (m, mget idx name)
      else (storeTypes (sortedFileNames m pkg).1 pkg p (build File.types p [] (sortedFileNames m pkg).2),
        mget (build File.types p [] (sortedFileNames m pkg).2) name)
    | none => (storeTypes (sortedFileNames m pkg).1 pkg p (build File.types p [] (sortedFileNames m pkg).2),
        mget (build File.types p [] (sortedFileNames m pkg).2) name)

/-- types.go:537-580. -/
def functionInPackage (m : Meta) (pkg name : String) : Meta × Option Nat :=
  match mget m.packages pkg with
  | none => (m, none)
  | some p =>
    match mget m.funcIndex pkg with
    | some (idx, sh) =>
      if sh = shapeOf p then (m, mget idx name)
      else (storeFuncs (sortedFileNames m pkg).1 pkg p (build File.funcs p [] (sortedFileNames m pkg).2),
        mget (build File.funcs p [] (sortedFileNames m pkg).2) name)
    | none => (storeFuncs (sortedFileNames m pkg).1 pkg p (build File.funcs p [] (sortedFileNames m pkg).2),
        mget (build File.funcs p [] (sortedFileNames m pkg).2) name)

/-- types.go:789-809. -/
def sortedPackageNames (m : Meta) : Meta × List String :=
  match m.sortedPkgs with
  | some names => (m, names)
  | none => ({ m with sortedPkgs := some (sortStrings (m.packages.map Prod.fst)) }, sortStrings (m.packages.map Prod.fst))

/-- types.go:623-643: over the packages. -/
def buildAll : Meta → List (String × Nat) → List String → Meta × List (String × Nat)
  | m, idx, [] => (m, idx)
  | m, idx, pkg :: pkgs =>
    match mget m.packages pkg with
    | none => buildAll m idx pkgs
    | some p =>
      buildAll (sortedFileNames m pkg).1 (build File.funcs p idx (sortedFileNames m pkg).2) pkgs

/-- types.go:644-645. -/
def storeAnywhere (b : Meta × List (String × Nat)) (name : String) : Meta × Option Nat :=
  ({ b.1 with anywhere := some b.2 }, mget b.2 name)

/-- types.go:606-645. -/
def functionAnywhere (m : Meta) (name : String) : Meta × Option Nat :=
  match m.anywhere with
  | some idx => (m, mget idx name)
  | none =>
    storeAnywhere (buildAll (sortedPackageNames m).1 [] (sortedPackageNames m).2) name

/-! ## Additions -/

/-- What happens to metadata over time: it grows, and it is asked. -/
inductive Op
  /-- a new, empty package -/
  | addPackage (pkg : String)
  /-- a new file (possibly nil) -/
  | addFile (pkg file : String) (f : Option File)
  /-- a new type in a file -/
  | addType (pkg file name : String) (d : Nat)
  /-- a new function in a file -/
  | addFunc (pkg file name : String) (d : Nat)
  | askType (pkg name : String)
  | askFunc (pkg name : String)
  | askFiles (pkg : String)
  | askAnywhere (name : String)

/-- Replace the contents of one package. -/
def withPackage (m : Meta) (pkg : String) (g : Package → Package) : Meta :=
  match mget m.packages pkg with
  | some p => { m with packages := mset m.packages pkg (g p) }
  | none => m

/-- Change a file that is there. -/
def withFile (p : Package) (file : String) (g : File → File) : Package :=
  match mget p file with
  | some (some f) => mset p file (some (g f))
  | _ => p

/-- Add a declaration under a name that is not taken. -/
def addNew (l : List (String × Nat)) (name : String) (d : Nat) : List (String × Nat) :=
  match mget l name with
  | some _ => l
  | none => l ++ [(name, d)]

def addFileTo (p : Package) (file : String) (f : Option File) : Package :=
  match mget p file with
  | some _ => p
  | none => p ++ [(file, f)]

def addPackageTo (m : Meta) (pkg : String) : Meta :=
  match mget m.packages pkg with
  | some _ => m
  | none => { m with packages := m.packages ++ [(pkg, [])] }

def apply (m : Meta) : Op → Meta
  | .addPackage pkg => addPackageTo m pkg
  | .addFile pkg file f => withPackage m pkg fun p => addFileTo p file f
  | .addType pkg file name d => withPackage m pkg fun p => withFile p file fun f => { f with types := addNew f.types name d }
  | .addFunc pkg file name d => withPackage m pkg fun p => withFile p file fun f => { f with funcs := addNew f.funcs name d }
  | .askType pkg name => (typeInPackage m pkg name).1
  | .askFunc pkg name => (functionInPackage m pkg name).1
  | .askFiles pkg => (sortedFileNames m pkg).1
  | .askAnywhere name => (functionAnywhere m name).1

def run (m : Meta) : List Op → Meta
  | [] => m
  | op :: ops => run (apply m op) ops

/-! ## The call graph -/

/-- types.go:218-…: an edge, by the base ids of its ends, the pooled name and package of its callee,
whether its caller is called main, and the base ids of its arguments. -/
structure Edge where
  caller : String
  callee : String
  name : Nat
  pkg : Nat
  isMain : Bool
  args : List String
  deriving DecidableEq

structure Graph where
  edges : List Edge := []
  /-- types.go:267-296: built for the first `builtFor` edges; none: never built -/
  callers : List (String × List Edge) := []
  callees : List (String × List Edge) := []
  args : List (String × List Edge) := []
  byName : Option (List ((Nat × Nat) × List Edge)) := none
  builtFor : Nat := 0
  roots : List Edge := []

/-- `m[k] = append(m[k], e)`. -/
def bucket {κ : Type} [DecidableEq κ] (m : List (κ × List Edge)) (k : κ) (e : Edge) : List (κ × List Edge) :=
  match mget m k with
  | some l => mset m k (l ++ [e])
  | none => mset m k [e]

/-- An index by a key. -/
def indexBy {κ : Type} [DecidableEq κ] (key : Edge → κ) : List (κ × List Edge) → List Edge → List (κ × List Edge)
  | m, [] => m
  | m, e :: es => indexBy key (bucket m (key e) e) es

/-- types.go:290-293: by every argument. -/
def indexArgs : List (String × List Edge) → List Edge → List (String × List Edge)
  | m, [] => m
  | m, e :: es => indexArgs (e.args.foldl (fun m a => bucket m a e) m) es

/-- types.go:267-296. -/
def buildMaps (g : Graph) : Graph :=
  { g with callers := indexBy Edge.caller [] g.edges, callees := indexBy Edge.callee [] g.edges, args := indexArgs [] g.edges,
           byName := some (indexBy (fun e => (e.name, e.pkg)) [] g.edges), builtFor := g.edges.length }

/-- types.go:315-320: none is "the index cannot answer". -/
def calleeEdges (g : Graph) (name pkg : Nat) : Option (List Edge) :=
  match g.byName with
  | none => none
  | some m => if g.builtFor = g.edges.length then some ((mget m (name, pkg)).getD []) else none

/-- types.go:820-838. -/
def isRoot (g : Graph) (e : Edge) : Bool :=
  e.isMain || ((mget g.callees e.caller).isNone && (mget g.args e.caller).isNone)

/-- types.go:811-845. -/
def callGraphRoots (g : Graph) : Graph × List Edge :=
  match g.roots with
  | r :: rs => (g, r :: rs)
  | [] => ({ g with roots := g.edges.filter (isRoot g) }, g.edges.filter (isRoot g))

inductive GOp
  | add (e : Edge)
  | build
  | askRoots

def gapply (g : Graph) : GOp → Graph
  | .add e => { g with edges := g.edges ++ [e] }
  | .build => buildMaps g
  | .askRoots => (callGraphRoots g).1

def grun (g : Graph) : List GOp → Graph
  | [] => g
  | op :: ops => grun (gapply g op) ops

end Verif.IndexModel
