import Verif.Assoc
/-! # Model of security resolution

Models `internal/spec/security.go` (mapping and deduplication), the middleware part of
`extractor.go` 651-800, `mapper.go` 337-378 and `config_security.go` 261-342.

Regular expressions supplied by the configuration are an arbitrary predicate
`rx pattern text` (false for a pattern that does not compile, as in the code). Go maps are
association lists; a requirement object is such a map from scheme name to scopes. -/

namespace Verif.Security
open Verif.Common

/-- security.go:28-33 `MiddlewareRef`. -/
structure Ref where
  fn : String := ""
  pkg : String := ""
  recv : String := ""
  position : String := ""
  deriving DecidableEq, Repr

/-- security.go:36-51 `String`, the identity refs are deduplicated by. -/
def Ref.show (r : Ref) : String :=
  (if r.pkg ≠ "" then r.pkg ++ "." else "") ++ (if r.recv ≠ "" then "(" ++ r.recv ++ ")." else "") ++
    (if r.fn ≠ "" then r.fn else "<anonymous>")

/-- A requirement object: scheme name → scopes. -/
abbrev SecReq := List (String × List String)

/-- config.go:545-568 `SecurityMapping`. -/
structure Mapping where
  fnRe : String := ""
  pkgRe : String := ""
  recvRe : String := ""
  schemes : List SecReq := []
  anyOf : List (List SecReq) := []
  isPublic : Bool := false
  skip : Bool := false
  deriving DecidableEq, Repr

/-- security.go:267-284 `matches`. -/
def Mapping.matchesRef (rx : String → String → Bool) (m : Mapping) (r : Ref) : Bool :=
  (m.fnRe == "" || rx m.fnRe r.fn) && (m.pkgRe == "" || rx m.pkgRe r.pkg) && (m.recvRe == "" || rx m.recvRe r.recv)

/-- security.go:242-249 `anyMappingMatches`. -/
def anyMatches (rx : String → String → Bool) (ms : List Mapping) (r : Ref) : Bool := ms.any fun m => m.matchesRef rx r

/-- security.go:321-327, 329-334: merging requirement objects into one. The scopes of a
scheme named twice are those of the last mention. -/
def mergeReqs (acc : SecReq) (objs : List SecReq) : SecReq :=
  objs.foldl (fun acc o => o.foldl (fun acc kv => mset acc kv.1 kv.2) acc) acc

/-- security.go:375-389 `securityRequirementKey`. -/
def reqKey (r : SecReq) : String :=
  String.join ((sortStrings (r.map Prod.fst)).map fun n => n ++ "=" ++ String.intercalate "," ((mget r n).getD []) ++ ";")

/-- security.go:356-371 `dedupSecurityRequirements`. -/
def dedupReqs (l : List SecReq) : List SecReq := dedupBy reqKey l

/-- The loop variables of `resolveSecurity` (security.go:303-304 and its results). -/
structure ResState where
  combined : SecReq := []
  alternatives : List SecReq := []
  isPublic : Bool := false
  unresolved : List Ref := []

/-- security.go:312-338: a matching mapping. -/
def applyMapping (st : ResState) (m : Mapping) : ResState :=
  if m.skip then st
  else { st with
    isPublic := st.isPublic || m.isPublic
    combined := mergeReqs st.combined m.schemes
    alternatives := st.alternatives ++ (m.anyOf.map (mergeReqs [])).filter fun alt => !alt.isEmpty }

/-- security.go:306-343: one middleware. -/
def resolveStep (rx : String → String → Bool) (ms : List Mapping) (st : ResState) (r : Ref) : ResState :=
  let matched := ms.filter fun m => m.matchesRef rx r
  if matched.isEmpty then { st with unresolved := st.unresolved ++ [r] }
  else matched.foldl applyMapping st

/-- security.go:302-351 `resolveSecurity`: requirements, public, unresolved. -/
def resolveSecurity (rx : String → String → Bool) (refs : List Ref) (ms : List Mapping) : List SecReq × Bool × List Ref :=
  let st := refs.foldl (resolveStep rx ms) {}
  (dedupReqs ((if st.combined.isEmpty then [] else [st.combined]) ++ st.alternatives), st.isPublic, st.unresolved)

/-- extractor.go:686-701 `dedupMiddlewareRefs`. -/
def dedupRefs (l : List Ref) : List Ref := dedupBy Ref.show l

/-- extractor.go:653-658 `mergeMW`. -/
def mergeMW (base extra : List Ref) : List Ref := if extra = [] then base else dedupRefs (base ++ extra)

/-- security.go:254-262 `middlewareBaseID`; `none` is the empty string.
`trimStar` is `strings.TrimPrefix(·, "*")`. -/
def trimStar (s : String) : String := if s.toList.head? = some '*' then String.ofList (s.toList.drop 1) else s
def baseID (r : Ref) : Option String :=
  if r.pkg = "" ∨ r.fn = "" then none
  else if r.recv ≠ "" then some (r.pkg ++ "." ++ trimStar r.recv ++ "." ++ r.fn)
  else some (r.pkg ++ "." ++ r.fn)

/-- extractor.go:773-800 `expandMiddlewareRefs`; `through` is `middlewareMatchesThrough`,
modelled in `MiddlewareModel`. (The early return for no mappings gives the same list:
then nothing matches and nothing is found downstream. It skips a deduplication of an
already deduplicated list.) -/
def expand (rx : String → String → Bool) (ms : List Mapping) (through : String → List Ref) (refs : List Ref) : List Ref :=
  dedupRefs (refs.flatMap fun r =>
    if anyMatches rx ms r then [r]
    else match baseID r with
      | none => [r]
      | some key => if through key = [] then [r] else through key)

/-- What the matchers collected for one route (extractor.go:717-737): middleware from
dedicated slots, and calls wrapping the handler. -/
structure RouteMW where
  definite : List Ref
  speculative : List Ref

/-- extractor.go:739-757: the requirements, public flag and unresolved middleware. -/
def routeResolve (rx : String → String → Bool) (ms : List Mapping) (through : String → List Ref) (mw : RouteMW) :
    List SecReq × Bool × List Ref :=
  let d := resolveSecurity rx (expand rx ms through (dedupRefs mw.definite)) ms
  let s := resolveSecurity rx (expand rx ms through (dedupRefs mw.speculative)) ms
  (dedupReqs (d.1 ++ s.1), d.2.1 || s.2.1, d.2.2)

/-- extractor.go:709-766 `applyRouteSecurity`: the operation's security. `none` is nil
(inherit); the route starts with nil. -/
def routeSecurity (rx : String → String → Bool) (ms : List Mapping) (through : String → List Ref) (mw : RouteMW) :
    Option (List SecReq) :=
  let r := routeResolve rx ms through mw
  if r.2.1 then some []
  else if r.1 = [] then none
  else some r.1

/-- extractor.go:662-677 `recordUnresolved`. -/
def recordUnresolved (seen : List Ref) (new : List Ref) : List Ref :=
  new.foldl (fun acc r => if r.show ∈ acc.map Ref.show then acc else acc ++ [r]) seen

/-- All routes in the order they are extracted: the diagnostics list. -/
def unresolvedAll (rx : String → String → Bool) (ms : List Mapping) (through : String → List Ref) (routes : List RouteMW) :
    List Ref :=
  routes.foldl (fun acc mw => recordUnresolved acc (routeResolve rx ms through mw).2.2) []

/-! ## Scheme definitions -/

/-- mapper.go:346-358: the scheme names referenced, in some order. -/
def referenced (global : List SecReq) (routes : List (Option (List SecReq))) : List String :=
  dedup ((global ++ routes.flatMap (·.getD [])).flatMap fun r => r.map Prod.fst)

/-- mapper.go:360-370: one referenced name. -/
def defineStep {σ} (preset out : List (String × σ)) (n : String) : List (String × σ) :=
  match mget out n with
  | some _ => out
  | none => match mget preset n with
    | some d => mset out n d
    | none => out

/-- mapper.go:340-378 `reconcileSecuritySchemes`: emitted definitions and the dangling
names logged. -/
def reconcile {σ} (user preset : List (String × σ)) (global : List SecReq) (routes : List (Option (List SecReq))) :
    List (String × σ) × List String :=
  let refs := referenced global routes
  (refs.foldl (defineStep preset) user,
   sortStrings (refs.filter fun n => (mget user n).isNone && (mget preset n).isNone))

/-! ## Presets -/

/-- config_security.go:118-122 `securityLibraryBundle`. -/
structure Bundle (σ : Type) where
  imports : List String
  mappings : List Mapping
  schemes : List (String × σ) := []

/-- The part of `APISpecConfig` presets touch. -/
structure SecCfg (σ : Type) where
  mappings : List Mapping := []
  userSchemes : List (String × σ) := []
  presetSchemes : List (String × σ) := []
  applied : Bool := false

/-- config_security.go:303-326 `collectImports`: the import paths of all files. -/
def collectImports (files : List (List String)) : List String :=
  sortStrings (dedup (files.flatten.filter fun p => p ≠ ""))

/-- config_security.go:329-342 `anyImportMatches`. -/
def anyImport (rx : String → String → Bool) (imports regexes : List String) : Bool :=
  regexes.any fun e => imports.any fun i => rx e i

/-- config_security.go:289-293: a preset scheme is added unless present. -/
def keepFirst {σ} (acc : List (String × σ)) (kv : String × σ) : List (String × σ) :=
  match mget acc kv.1 with
  | some _ => acc
  | none => mset acc kv.1 kv.2

/-- config_security.go:286-294: one bundle. -/
def addBundle {σ} (c : SecCfg σ) (b : Bundle σ) : SecCfg σ :=
  { c with
    mappings := c.mappings ++ b.mappings
    presetSchemes := b.schemes.foldl keepFirst c.presetSchemes }

/-- config_security.go:267-299 `ApplySecurityPresets`; `bundles` are the built-in library
and skip bundles (config_security.go:134-259). -/
def applyPresets {σ} (rx : String → String → Bool) (bundles : List (Bundle σ)) (imports : List String) (c : SecCfg σ) : SecCfg σ :=
  if c.applied then c
  else if imports = [] then c
  else { (bundles.filter fun b => anyImport rx imports b.imports).foldl addBundle c with applied := true }

end Verif.Security
