/-!
# Model: the packages that depend on a framework

`FrameworkDetector` of internal/metadata/dependency_analyzer.go as the engine uses it
(internal/engine/engine.go:1356-1371, 1418-1456).
-/

namespace Verif.FwDeps

/-- A loaded package: its path and the imports of its files, in order. -/
structure Pkg where
  path : String
  imports : List String
  deriving DecidableEq

/-- `strings.HasPrefix`. -/
def startsWith (s pre : String) : Bool := pre.toList.isPrefixOf s.toList

/-- `strings.Contains`. -/
def hasInfix (sub : List Char) : List Char → Bool
  | [] => sub.isPrefixOf []
  | c :: cs => sub.isPrefixOf (c :: cs) || hasInfix sub cs
def contains (s sub : String) : Bool := hasInfix sub.toList s.toList

/-- The configuration (dependency_analyzer.go:47-82): import prefixes by framework in the order of detection
(`frameworkDetectionOrder`, 366-396, disabled ones left out), the patterns of test packages, prefixes of other
packages, the module path, the depth, and `strings.ToLower`. -/
structure Cfg where
  types : List (String × List String)
  mocks : List String
  externals : List String
  module : String
  depth : Nat
  lower : String → String

/-- The built-in registry in the order of detection (internal/core/frameworks.go:79-141, 155-160). -/
def builtinTypes : List (String × List String) :=
  [("gin", ["github.com/gin-gonic/gin", "github.com/gin-contrib/"]),
   ("echo", ["github.com/labstack/echo", "github.com/labstack/echo/v4"]),
   ("fiber", ["github.com/gofiber/fiber", "github.com/gofiber/fiber/v2"]),
   ("chi", ["github.com/go-chi/chi", "github.com/go-chi/chi/v5"]),
   ("mux", ["github.com/gorilla/mux"]),
   ("fasthttp", ["github.com/valyala/fasthttp"]),
   ("http", ["net/http"])]

/-- The built-in patterns of test packages (dependency_analyzer.go:178-183). -/
def builtinMocks : List String :=
  ["/mock/", "/mocks/", "/test/", "/tests/", "/fake/", "/fakes/", "/stub/", "/stubs/", "mock", "fake", "stub", "mocked",
   "_mock", "_mocks", "_test", "_tests", "_fake", "_fakes", "_stub", "_stubs"]

/-- `isTestMockPackage` (dependency_analyzer.go:581-589); a suffix is contained as well. -/
def isMock (c : Cfg) (p : String) : Bool := c.mocks.any (fun m => contains (c.lower p) m)

/-- `isProjectRelatedPackage` (dependency_analyzer.go:592-606) with a module path (`isIntelligentProjectPackage`,
621-623). -/
def isProject (c : Cfg) (p : String) : Bool :=
  !isMock c p && !c.externals.any (fun e => startsWith p e) && (decide (p = c.module) || startsWith p (c.module ++ "/"))

/-- The test for the standard library (dependency_analyzer.go:530-535). -/
def isStd (p : String) : Bool := !contains p "/" && !contains p "."

/-- `detectFrameworkType` (dependency_analyzer.go:399-420); empty when there is none. -/
def detectType (c : Cfg) (p : Pkg) : String :=
  match c.types.find? (fun t => t.2.any (fun pat => p.imports.any (fun i => startsWith i pat))) with
  | some t => t.1
  | none => ""

/-- `dependencyGraph` (dependency_analyzer.go:256-278). -/
def graph (pkgs : List Pkg) (p : String) : List String :=
  match pkgs.find? (fun q => decide (q.path = p)) with
  | some q => q.imports
  | none => []

/-- The loop of `hasTransitiveFrameworkDependency` (dependency_analyzer.go:453-462). -/
def scan (fw : String → Bool) (rec : List String → String → Bool × List String) : List String → List String → Bool × List String
  | v, [] => (false, v)
  | v, d :: ds => if fw d then (true, v) else
    match rec v d with
    | (true, v') => (true, v')
    | (false, v') => scan fw rec v' ds

/-- `hasTransitiveFrameworkDependency` (dependency_analyzer.go:441-465): found, and the visited packages.  The
first argument bounds the recursion. -/
def search (fw : String → Bool) (g : String → List String) : Nat → List String → String → Bool × List String
  | 0, v, _ => (false, v)
  | k + 1, v, p => if p ∈ v then (false, v) else scan fw (search fw g k) (p :: v) (g p)

/-- `dependsOnFrameworkPackage` (dependency_analyzer.go:423-438).  The bound is larger than the number of
packages and imports there are. -/
def dependsOn (pkgs : List Pkg) (fw : String → Bool) (p : String) : Bool :=
  (graph pkgs p).any fw || (search fw (graph pkgs) (1 + (p :: pkgs.flatMap (fun q => q.path :: q.imports)).length) [] p).1

/-- One import of `findImportsRecursivelyWithDepth` (dependency_analyzer.go:521-575). -/
def visit (c : Cfg) (processed : List String) (rec : List String → Pkg → List String) (pkgs : List Pkg) (out : List String) (i : String) : List String :=
  if i ∈ processed ∨ i ∈ out then out
  else if isStd i then out
  else if isProject c i then
    match pkgs.find? (fun q => decide (q.path = i)) with
    | some q => rec (out ++ [i]) q
    | none => out ++ [i]
  else out

/-- `findImportsRecursivelyWithDepth` (dependency_analyzer.go:507-578), the first argument being the levels left. -/
def imports (c : Cfg) (processed : List String) (pkgs : List Pkg) : Nat → List String → Pkg → List String
  | 0, out, _ => out
  | k + 1, out, p => p.imports.foldl (visit c processed (imports c processed pkgs k) pkgs) out

/-- The packages that use a framework (dependency_analyzer.go:293-321). -/
def direct (c : Cfg) (pkgs : List Pkg) : List Pkg := pkgs.filter (fun p => !isMock c p.path && decide (detectType c p ≠ ""))

/-- The packages that depend on them (dependency_analyzer.go:324-353). -/
def dependents (c : Cfg) (pkgs : List Pkg) : List Pkg :=
  pkgs.filter (fun p => decide (p.path ∉ (direct c pkgs).map Pkg.path) && !isMock c p.path &&
    dependsOn pkgs (fun d => decide (d ∈ (direct c pkgs).map Pkg.path)) p.path)

def processed (c : Cfg) (pkgs : List Pkg) : List String := (direct c pkgs).map Pkg.path ++ (dependents c pkgs).map Pkg.path

/-- `findImportedPackages` (dependency_analyzer.go:468-493).  The direct packages are in a Go map: `order` is the
order this run goes through them. -/
def imported (c : Cfg) (pkgs order : List Pkg) : List String :=
  order.foldl (imports c (processed c pkgs) pkgs c.depth) []

/-- `findAllFrameworkPackages` (dependency_analyzer.go:281-364): paths with the kind of the package. -/
def report (c : Cfg) (pkgs order : List Pkg) : List (String × String) :=
  (direct c pkgs).map (fun p => (p.path, detectType c p)) ++ (dependents c pkgs).map (fun p => (p.path, "dependent"))
    ++ (imported c pkgs order).map (fun p => (p, "imported"))

/-- `filterToFrameworkPackages` (internal/engine/engine.go:1418-1444): whether a package is analyzed. -/
def keep (c : Cfg) (pkgs order : List Pkg) (p : String) : Bool :=
  decide (p ∈ (report c pkgs order).map Prod.fst) || (decide (c.module ≠ "") && (decide (p = c.module) || startsWith p (c.module ++ "/")))

end Verif.FwDeps
