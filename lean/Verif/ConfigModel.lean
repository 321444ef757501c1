import Verif.Common
/-! # Model of framework detection and configuration merging

Models `internal/core/detector.go` 36-107, `internal/core/frameworks.go` 72-204,
`internal/spec/config_merge.go` 133-321 and `internal/engine/engine.go` 613-668. -/

namespace Verif.Config
open Verif.Common

/-! ## Detection -/

/-- frameworks.go:35-70 `Framework`, the fields detection and composition read. -/
structure Framework where
  name : String
  sourcePatterns : List String := []
  deriving DecidableEq, Repr

/-- frameworks.go:79-142: the registry. -/
def registry : List Framework :=
  [⟨"gin", ["gin-gonic/gin"]⟩, ⟨"chi", ["go-chi/chi"]⟩, ⟨"echo", ["labstack/echo"]⟩, ⟨"fiber", ["gofiber/fiber"]⟩,
   ⟨"mux", ["gorilla/mux"]⟩, ⟨"fasthttp", []⟩, ⟨"net/http", []⟩]

/-- frameworks.go:26. -/
def stdlib : String := "net/http"

/-- frameworks.go:73, 183-191 `SourceDetectableFrameworks`. -/
def detectable (reg : List Framework) : List Framework := reg.filter fun f => !f.sourcePatterns.isEmpty

/-- detector.go:100-107 `matchesAny`; `has path p` is `strings.Contains(path, p)`. -/
def matchesAny (has : String → String → Bool) (path : String) (pats : List String) : Bool := pats.any fun p => has path p

/-- detector.go:81-86: the framework an import counts for, if any. -/
def classify (has : String → String → Bool) (det : List Framework) (path : String) : Option String :=
  (det.find? fun f => matchesAny has path f.sourcePatterns).map Framework.name

/-- detector.go:58-63, 79-87: the imports of one file. -/
def scanFile (has : String → String → Bool) (det : List Framework) (acc : List String) (imports : List String) : List String :=
  imports.foldl (fun acc i => match classify has det i with
    | some n => if n ∈ acc then acc else acc ++ [n]
    | none => acc) acc

/-- detector.go:73-91: the walk, with the early exit after a file. `none` is a file that
does not parse. -/
def walk (has : String → String → Bool) (det : List Framework) : List String → List (Option (List String)) → List String
  | acc, [] => acc
  | acc, none :: fs => walk has det acc fs
  | acc, some imports :: fs =>
    let acc := scanFile has det acc imports
    if acc.length = det.length then acc else walk has det acc fs

/-- detector.go:50-97 `DetectAll`, on the files in walk order. -/
def detectAll (has : String → String → Bool) (reg : List Framework) (files : List (Option (List String))) : List String :=
  let out := walk has (detectable reg) [] files
  if out = [] then [stdlib] else out

/-- frameworks.go:197-204 `CanonicalFrameworkName`; `ef` is `strings.EqualFold`. -/
def canonical (ef : String → String → Bool) (reg : List Framework) (name : String) : String :=
  match reg.find? fun f => ef f.name name with
  | some f => f.name
  | none => name

/-! ## Merging -/

/-- The six pattern lists of `FrameworkConfig`. -/
inductive Kind | route | request | response | param | mount | security
  deriving DecidableEq, Repr

/-- The fields of the six pattern types that merging reads (config.go:245-537); `hints`
stands for all others. -/
structure Pat where
  callRe : String := ""
  fnRe : String := ""
  recvType : String := ""
  recvRe : String := ""
  paramIn : String := ""
  scope : String := ""
  hints : Nat := 0
  deriving DecidableEq, Repr

/-- Strings joined with NUL (config_merge.go:316, 320). -/
def nulJoin (l : List String) : String := String.intercalate "\x00" l

/-- config_merge.go:224-244, 315-321: the key a pattern is deduplicated by. -/
def key : Kind → Pat → String
  | .route, p => nulJoin [p.callRe, p.fnRe, p.recvType, p.recvRe]
  | .request, p => nulJoin [p.callRe, p.recvRe, ""]
  | .response, p => nulJoin [p.callRe, p.recvRe, ""]
  | .param, p => nulJoin [p.callRe, p.recvRe ++ "\x00" ++ p.recvType, p.paramIn]
  | .mount, p => nulJoin [p.callRe, p.recvRe, ""]
  | .security, p => nulJoin [p.callRe, p.recvRe, p.scope]

/-- The part of `APISpecConfig` merging reads; `own` stands for info, defaults, overrides,
mappings and everything else. -/
structure Cfg where
  pats : Kind → List Pat := fun _ => []
  ext : List (String × Nat) := []
  typeRegexes : List String := []
  bodyAccessors : List String := []
  implicitStatus : Nat := 0
  own : Nat := 0

/-- config_merge.go:172 and alike. -/
def isScoped (p : Pat) : Bool := p.recvType != "" || p.recvRe != ""

/-- config_merge.go:154-202 `SecondaryView`. -/
def secondaryView (c : Cfg) : Cfg :=
  { pats := fun k => (c.pats k).filter isScoped
    ext := c.ext
    typeRegexes := c.typeRegexes
    bodyAccessors := c.bodyAccessors
    implicitStatus := c.implicitStatus }

/-- config_merge.go:252-255 and alike: one secondary entry; the state is the set of seen
keys and the growing list. -/
def addStep {α} (key : α → String) (st : List String × List α) (p : α) : List String × List α :=
  if key p ∈ st.1 then st else (key p :: st.1, st.2 ++ [p])

/-- One list through `MergeFrameworkConfigs`: seeded with the primary's keys
(config_merge.go:218-245), then every secondary in turn (247-294). The loops over the
different lists do not interact, so they are modelled list by list. -/
def mergeList {α} (key : α → String) (prim : List α) (secs : List (List α)) : List α :=
  (secs.foldl (fun st sec => sec.foldl (addStep key) st) (prim.map key, prim)).2

/-- extractor.go:1056-1077 `appendUniqueStrings`. -/
def appendUnique (base extras : List String) : List String :=
  if extras = [] then base else dedup (base ++ extras)

/-- config_merge.go:214-309 `MergeFrameworkConfigs`; `none` is a nil secondary. -/
def mergeConfigs (prim : Cfg) (secondaries : List (Option Cfg)) : Cfg :=
  let secs := secondaries.filterMap id
  { pats := fun k => mergeList (key k) (prim.pats k) (secs.map fun s => s.pats k)
    ext := mergeList Prod.fst prim.ext (secs.map Cfg.ext)
    typeRegexes := secs.foldl (fun acc s => appendUnique acc s.typeRegexes) prim.typeRegexes
    bodyAccessors := secs.foldl (fun acc s => appendUnique acc s.bodyAccessors) prim.bodyAccessors
    implicitStatus := secs.foldl (fun acc s => if acc = 0 then s.implicitStatus else acc) prim.implicitStatus
    own := prim.own }

/-! ## Composition -/

/-- engine.go:614-643: the primary in effect and the ordered list. -/
def composeOrder (canon : String → String) (frameworks : List String) (primary : String) : String × List String :=
  let fs := (if frameworks = [] then [stdlib] else frameworks).map canon
  let p := canon primary
  if p = "" then (fs.headD "", fs) else (p, p :: fs.filter fun f => decide (f ≠ p))

/-- engine.go:613-668 `ComposeFrameworkConfigFrom`. `default` is
`spec.DefaultConfigForFramework`, `http` is `spec.HTTPSecondaryConfig()`. -/
def compose (canon : String → String) (default : String → Cfg) (http : Cfg) (frameworks : List String) (primary : String) :
    Cfg × List String :=
  let (p, fs) := composeOrder canon frameworks primary
  let cfg := fs.foldl (fun c f => if f = p then c else mergeConfigs c [some (secondaryView (default f))]) (default p)
  (if p ≠ stdlib then mergeConfigs cfg [some http] else cfg, fs)

/-- config_merge.go:40-131, config.go:950-1072, config_security.go:106-112: the matching
fields of `HTTPSecondaryConfig` (the long `RouterArgTypeRegex` and the extraction hints are
left out). -/
def httpSecondary : Cfg :=
  let mux := "^net/http(\\.\\*ServeMux)?$"
  let req := "net/http.*Request"
  { pats := fun
      | .route => [{ callRe := "^HandleFunc$", recvRe := mux }, { callRe := "^Handle$", recvRe := mux }]
      | .mount => [{ callRe := "^Handle$", recvRe := mux }]
      | .security => [{ callRe := "^Handle$", scope := "wrapper", recvRe := mux }, { callRe := "^HandleFunc$", scope := "wrapper", recvRe := mux }]
      | .request => [{ callRe := "^Decode$", recvRe := ".*json(iter)?\\.\\*Decoder" }, { callRe := "^Unmarshal$", recvRe := "json" }]
      | .response => [{ callRe := "^WriteHeader$", recvRe := "^net/http\\.ResponseWriter$" }, { callRe := "^Write$", recvRe := "^net/http\\.ResponseWriter$" },
          { callRe := "^Error$", recvRe := "^net/http$" }, { callRe := "^NotFound$", recvRe := "^net/http$" }, { callRe := "^Redirect$", recvRe := "^net/http$" }]
      | .param => [{ callRe := "^Get$", paramIn := "header", recvType := "net/http.Header" }, { callRe := "^Get$", paramIn := "query", recvType := "net/url.Values" },
          { callRe := "^PathValue$", paramIn := "path", recvType := req }, { callRe := "^FormValue$", paramIn := "form", recvType := req },
          { callRe := "^Cookie$", paramIn := "cookie", recvType := req }, { callRe := "^FormFile$", paramIn := "formFile", recvType := req },
          { callRe := "^(ParseMultipartForm|MultipartReader)$", paramIn := "multipart", recvType := req }]
    typeRegexes := ["^\\*?net/http\\.Request$"]
    bodyAccessors := ["^Body$"]
    implicitStatus := 200 }

end Verif.Config
