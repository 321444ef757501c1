/-!
# Model: which declaration is read for a call

`BuildFuncMap` (internal/metadata/metadata.go:528-574), the map of the declarations, and how it is asked for the function
that a call calls (internal/metadata/metadata.go:1689-1697), whose assignments are then recorded with the call.

Simplified: packages and files are lists in the order of their sorted keys, in which the code reads them; of a declaration
only the receiver, the name and which one it is are kept.  Declarations of functions are found only at the top of a file.
-/

namespace Verif.FuncMap

abbrev Text := List Char

/-- The type of a receiver: a name, a pointer to a name, or anything else, for example `T[K]`. -/
inductive Recv where
  | ident (type : Text)
  | star (type : Text)
  | other
deriving DecidableEq

structure Decl where
  recv : Option Recv
  name : Text
  body : Nat
deriving DecidableEq

structure File where
  /-- The name in the package clause, empty if there is none. -/
  pkgName : Text
  decls : List Decl

/-- The files of each package path. -/
abbrev Pkgs := List (Text × List File)

/-- metadata.go:556-563 -/
def typeName : Recv → Text
  | .ident t => t
  | .star t => t
  | .other => []

/-- metadata.go:542-566: the key under which a declaration is kept. -/
def declKey (pkg : Text) (file : File) (d : Decl) : Option Text :=
  match d.recv with
  | none => some (if file.pkgName ≠ [] then pkg ++ '.' :: d.name else d.name)
  | some r => if typeName r ≠ [] then some (pkg ++ '.' :: typeName r ++ '.' :: d.name) else none

/-- `funcMap[key] = fn`; the newest entry is the first. -/
def put (m : List (Text × Decl)) (pkg : Text) (file : File) (d : Decl) : List (Text × Decl) :=
  match declKey pkg file d with
  | some k => (k, d) :: m
  | none => m

/-- metadata.go:531-574 -/
def buildFuncMap (pkgs : Pkgs) : List (Text × Decl) :=
  pkgs.foldl (fun m p => p.2.foldl (fun m f => f.decls.foldl (fun m d => put m p.1 f d) m) m) []

/-- strings.TrimPrefix(calleeParts, "*") -/
def trimStar : Text → Text
  | '*' :: t => t
  | t => t

/-- metadata.go:1689-1695 -/
def calleeKey (pkg parts fn : Text) : Text :=
  if parts = [] then pkg ++ '.' :: fn else pkg ++ '.' :: trimStar parts ++ '.' :: fn

/-- metadata.go:1697 -/
def declOf (pkgs : Pkgs) (pkg parts fn : Text) : Option Decl :=
  ((buildFuncMap pkgs).find? (fun e => decide (e.1 = calleeKey pkg parts fn))).map (·.2)

end Verif.FuncMap
