import Verif.ScopeModel
import Verif.ReachModel
/-!
# Model: the test for a route registration before any route is looked for

`registrationMatcher` (internal/spec/entrypoint_roots.go:191-247), the predicate behind `RouteRegistrationMatcher` (162-166:
which commands of a program are worth expanding) and `TerminalRouteMatcher` (182-184: which calls get a budget of their
own, internal/spec/lazytree.go:518).
-/

namespace Verif.Gate
open Verif.ScopeModel

/-- entrypoint_roots.go:195 -/
structure Gate where
  call : String
  recv : String
  exact : String
  deriving DecidableEq

/-- entrypoint_roots.go:197-201, 203-207: patterns without an expression for the call give no gate. -/
def gatesOf (ps : List Pattern) : List Gate :=
  (ps.filter (fun p => decide (p.callRegex ≠ ""))).map (fun p => ⟨p.callRegex, p.recvTypeRegex, p.recvType⟩)

/-- entrypoint_roots.go:196-208 -/
def gates (routes mounts : List Pattern) (includeMounts : Bool) : List Gate :=
  gatesOf routes ++ (if includeMounts then gatesOf mounts else [])

/-- entrypoint_roots.go:220-227: package and receiver, or whichever there is. -/
def owner (c : Call) : String :=
  if c.pkg ≠ "" ∧ c.recv ≠ "" then c.pkg ++ "." ++ c.recv
  else if c.recv ≠ "" then c.recv
  else c.pkg

/-- `cachedRegex` and `MatchString` (internal/spec/regex_cache.go:37-60 without the cache). -/
def rx (compile : Engine) (e text : String) : Bool :=
  match compile e with
  | some re => re text
  | none => false

/-- One gate (entrypoint_roots.go:229-243). -/
def gateOk (compile : Engine) (c : Call) (g : Gate) : Bool :=
  if !rx compile g.call c.name then false
  else if g.recv ≠ "" then rx compile g.recv (owner c)
  else if g.exact ≠ "" then decide (g.exact = owner c)
  else true

/-- `registrationMatcher` (entrypoint_roots.go:191-247). -/
def registers (compile : Engine) (routes mounts : List Pattern) (includeMounts : Bool) (e : Edge) : Bool :=
  if e.callee.name = "" then false
  else (gates routes mounts includeMounts).any (gateOk compile e.callee)

end Verif.Gate
