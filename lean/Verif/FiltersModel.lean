import Verif.GitignoreModel
/-!
# Model: which packages and files are analysed (internal/engine/engine.go)
-/

namespace Verif.FiltersModel
open Verif.RegexModel Verif.GitignoreModel

/-- What stays fixed: POSIX class names and Unicode lower-casing of the standard library. -/
structure Env where
  posix : Str → Option ((Char → Bool) × Str)
  lower : Str → Str

/-- The filter fields of `EngineConfig` (engine.go:148-176) that the analysis reads.  The
function and type patterns (150-151, 154-155) are stored but read by nothing. -/
structure Filters where
  incFiles : List Str := []
  excFiles : List Str := []
  incPkgs : List Str := []
  excPkgs : List Str := []
  skipCGO : Bool := false
  autoTests : Bool := false
  autoMocks : Bool := false
  deriving DecidableEq

/-- engine.go:1060-1062. -/
def matches' (e : Env) (pattern path : Str) : Bool := Match e.posix pattern path

/-- engine.go:1068-1076. -/
def cgoPatterns : List Str :=
  ["*/tensorflow/*".toList, "*/govips/*".toList, "*/opencv/*".toList, "*/ffmpeg/*".toList, "*/sqlite3".toList,
   "*/go-sqlite3".toList, "*/graft/tensorflow".toList]

/-- `strings.HasPrefix`, `strings.HasSuffix`, `strings.Contains`. -/
def hasPrefix (p s : Str) : Bool := p.isPrefixOf s
def hasSuffix (p s : Str) : Bool := p.reverse.isPrefixOf s.reverse
def contains (p : Str) : Str → Bool
  | [] => p.isEmpty
  | c :: s => hasPrefix p (c :: s) || contains p s

/-- `strings.Replace(pattern, "*/", "", 1)`. -/
def dropFirstStarSlash : Str → Str
  | [] => []
  | c :: s => if c = '*' ∧ s.head? = some '/' then s.tail else c :: dropFirstStarSlash s

/-- engine.go:1067-1087. -/
def cgoHit (e : Env) (pkg : Str) : Bool :=
  cgoPatterns.any fun p => matches' e p pkg || contains (dropFirstStarSlash p) pkg

/-- engine.go:1089-1102. -/
def testPkg (l : Str) : Bool := hasSuffix "_test".toList l || hasSuffix "_tests".toList l
def mockPkg (l : Str) : Bool :=
  hasSuffix "mock".toList l || hasSuffix "mocks".toList l || hasSuffix "fake".toList l || hasSuffix "fakes".toList l ||
  hasSuffix "stub".toList l || hasSuffix "stubs".toList l

/-- `parts[len(parts)-1]` of `strings.Split(s, "/")`. -/
def lastPart (s : Str) : Str := (s.reverse.takeWhile (· ≠ '/')).reverse

/-- engine.go:1111-1123 and 1127-1139: a pattern applies to the package path or its last part. -/
def pkgHit (e : Env) (pkg p : Str) : Bool := matches' e p pkg || matches' e p (lastPart pkg)

/-- engine.go:1126-1143: the include half. -/
def includeHalf (hit : Str → Bool) (inc : List Str) : Bool := if inc = [] then true else inc.any hit

/-- engine.go:1065-1144. -/
def shouldIncludePackage (e : Env) (f : Filters) (pkg : Str) : Bool :=
  if f.skipCGO && cgoHit e pkg then false
  else if f.autoTests && testPkg (e.lower pkg) then false
  else if f.autoMocks && mockPkg (e.lower pkg) then false
  else if f.incFiles = [] ∧ f.excFiles = [] ∧ f.incPkgs = [] ∧ f.excPkgs = [] then true
  else if f.excPkgs.any (pkgHit e pkg) then false
  else includeHalf (pkgHit e pkg) f.incPkgs

/-- engine.go:1151-1164. -/
def testFile (l : Str) : Bool := hasSuffix "test.go".toList l || contains "/test/".toList l || contains "/tests/".toList l
def mockFile (l : Str) : Bool :=
  hasSuffix "mock.go".toList l || hasSuffix "fake.go".toList l || hasSuffix "stub.go".toList l ||
  hasSuffix "mocks.go".toList l || hasSuffix "fakes.go".toList l || hasSuffix "stubs.go".toList l

/-- engine.go:1147-1188. -/
def shouldIncludeFile (e : Env) (f : Filters) (file : Str) : Bool :=
  if f.autoTests && testFile (e.lower file) then false
  else if f.autoMocks && mockFile (e.lower file) then false
  else if f.incFiles = [] ∧ f.excFiles = [] then true
  else if f.excFiles.any fun p => matches' e p file then false
  else includeHalf (fun p => matches' e p file) f.incFiles

/-- engine.go:960-976. -/
def unionStrings (base extras : List Str) : List Str :=
  extras.foldl (fun acc s => if s ∈ acc then acc else acc ++ [s]) base

/-- The include/exclude part of an `APISpecConfig` (spec/config.go:673-678); functions and types
are left out as nothing reads them. -/
structure Patterns where
  incFiles : List Str := []
  excFiles : List Str := []
  incPkgs : List Str := []
  excPkgs : List Str := []

/-- engine.go:943-956. -/
def applyConfigFilters (f : Filters) : Option Patterns → Filters
  | none => f
  | some c => { f with
      incPkgs := unionStrings f.incPkgs c.incPkgs, incFiles := unionStrings f.incFiles c.incFiles,
      excPkgs := unionStrings f.excPkgs c.excPkgs, excFiles := unionStrings f.excFiles c.excFiles }

/-- A loaded package: its path, its Go files (named relative to the module root), what the loader
parsed — the entry at index `i` is the parse of file `i` unless the package uses cgo — and whether
it has errors. -/
structure Pkg where
  path : Str
  files : List Str
  syn : List Str
  bad : Bool := false

/-- engine.go:1207-1223: the files kept, and the parses kept at the same indexes. -/
def keepFiles (e : Env) (f : Filters) : List Str → List Str → List Str × List Str
  | [], _ => ([], [])
  | file :: files, syn =>
    let r := keepFiles e f files syn.tail
    if shouldIncludeFile e f file then (file :: r.1, syn.head?.toList ++ r.2) else r

/-- engine.go:1199-1240. -/
def loadFiltered (e : Env) (f : Filters) (pkgs : List Pkg) : List Pkg :=
  pkgs.filterMap fun p =>
    if shouldIncludePackage e f p.path = false then none
    else
      let k := keepFiles e f p.files p.syn
      if k.1 = [] then none else some { p with files := k.1, syn := k.2 }

/-- engine.go:493-523: the (package, file, parse) triples that are analysed; packages with errors
are skipped (454-476). -/
def analysed (e : Env) (f : Filters) (pkgs : List Pkg) : List (Str × Str × Str) :=
  ((loadFiltered e f pkgs).filter fun p => !p.bad).flatMap fun p =>
    if shouldIncludePackage e f p.path = false then []
    else (p.files.zip p.syn).filterMap fun fs => if shouldIncludeFile e f fs.1 then some (p.path, fs.1, fs.2) else none

/-- engine.go:1438-1443. -/
def keepPkg (modPath : Str) (deps : List Str) (pkg : Str) : Bool :=
  deps.contains pkg || (!modPath.isEmpty && (pkg == modPath || hasPrefix (modPath ++ ['/']) pkg))

/-- One run of the analysis (engine.go:402-551) on a mutable configuration: the configured
patterns are folded in (408), the packages are filtered, and with automatic inclusion the
framework packages found among them are added to the configuration (1387-1395) and the result is
narrowed (1417-1485).  `deps` is the dependency analysis.  Returns the packages analysed and the
configuration the next run starts from. -/
def run (e : Env) (auto : Bool) (modPath : Str) (deps : List Pkg → List Str) (cfg : Option Patterns) (pkgs : List Pkg) (f : Filters) :
    List Str × Filters :=
  let f1 := applyConfigFilters f cfg
  let kept := (loadFiltered e f1 pkgs).filter fun p => !p.bad
  if auto then
    ((kept.map (·.path)).filter (keepPkg modPath (deps kept)), { f1 with incPkgs := unionStrings f1.incPkgs (deps kept) })
  else (kept.map (·.path), f1)

/-- engine.go:408 with 729-741: what the analysis filters by, given the configuration object and
the configuration file of a run.  The file is loaded after the analysis has finished. -/
def filtersUsed (f : Filters) (direct : Option Patterns) (_file : Option Patterns) : Filters := applyConfigFilters f direct

end Verif.FiltersModel
