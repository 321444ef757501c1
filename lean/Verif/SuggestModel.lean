/-!
# Model: the names the editor suggests

`summarizeMetadata` and `sortedKeys` (cmd/apispecui/main.go:1407-1517), from which the editor of the configuration
suggests packages, functions, methods, types and imports.

Simplified: texts of the string pool are resolved already; the module path that go.mod says is a parameter.  Go maps are
lists in some order, a map that is used as a set is a list to which only what is missing is added, and the sort is a
parameter.
-/

namespace Verif.Suggest

abbrev Text := List Char

/-- A method as recorded: its name and the text of its receiver. -/
structure Meth where
  name : Text
  recv : Text
deriving DecidableEq

/-- A type by its name; nil has no methods. -/
abbrev Types := List (Text × Option (List Meth))

structure File where
  functions : List Text
  types : Types
  /-- The paths of its imports. -/
  imports : List Text

structure Pkg where
  files : List (Option File)
  types : Types

structure Meta where
  modulePath : Text
  pkgs : List (Text × Option Pkg)

/-- main.go:1421 `set[x] = struct{}{}` -/
def insert (set : List Text) (x : Text) : List Text := if x ∈ set then set else x :: set

def insertAll (set : List Text) : List Text → List Text
  | [] => set
  | x :: xs => insertAll (insert set x) xs

/-- main.go:1437, 1440: `pkgPath + "." + name`. -/
def dotted (pkg name : Text) : Text := pkg ++ '.' :: name

/-- main.go:1444-1453, 1470-1479: one method, if it has a name. -/
def methodText (pkg type : Text) (m : Meth) : Option Text :=
  if m.name = [] then none
  else some (pkg ++ '.' :: '(' :: (if m.recv = [] then type else m.recv) ++ ')' :: '.' :: m.name)

def typeMethods (pkg : Text) (ts : Types) : List Text :=
  ts.flatMap fun t => (t.2.getD []).filterMap (methodText pkg t.1)

/-- The files of a package that are not nil, main.go:1432-1435. -/
def files (p : Pkg) : List File := p.files.filterMap id

/-- What is put into the sets, package by package, main.go:1427-1481. -/
def functionTexts (m : Meta) : List Text :=
  m.pkgs.flatMap fun p => (p.2.map files).getD [] |>.flatMap fun f => f.functions.map (dotted p.1)

def typeTexts (m : Meta) : List Text :=
  m.pkgs.flatMap fun p => match p.2 with
    | none => []
    | some k => (files k).flatMap (fun f => f.types.map (fun t => dotted p.1 t.1)) ++ k.types.map (fun t => dotted p.1 t.1)

def methodTexts (m : Meta) : List Text :=
  m.pkgs.flatMap fun p => match p.2 with
    | none => []
    | some k => (files k).flatMap (fun f => typeMethods p.1 f.types) ++ typeMethods p.1 k.types

def importTexts (m : Meta) : List Text :=
  m.pkgs.flatMap fun p => (p.2.map files).getD [] |>.flatMap fun f => f.imports.filter (fun i => decide (i ≠ []))

structure Summary where
  packages : List Text
  functions : List Text
  methods : List Text
  types : List Text
  imports : List Text
  userPackages : List Text
deriving DecidableEq

/-- main.go:1411-1417: the module path of the metadata, or else of go.mod. -/
def modulePath (m : Meta) (goMod : Text) : Text := if m.modulePath = [] then goMod else m.modulePath

/-- main.go:1497 -/
def isUser (module p : Text) : Bool := decide (p = module) || (module ++ ['/']).isPrefixOf p

/-- main.go:1410-1504 -/
def summarize (sort : List Text → List Text) (m : Meta) (goMod : Text) : Summary :=
  let pkgSet := insertAll [] (m.pkgs.map (·.1))
  { packages := sort pkgSet
    functions := sort (insertAll [] (functionTexts m))
    methods := sort (insertAll [] (methodTexts m))
    types := sort (insertAll [] (typeTexts m))
    imports := sort ((insertAll [] (importTexts m)).filter (fun i => decide (i ∉ pkgSet)))
    userPackages := if modulePath m goMod = [] then [] else (sort pkgSet).filter (isUser (modulePath m goMod)) }

end Verif.Suggest
