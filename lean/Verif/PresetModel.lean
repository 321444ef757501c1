/-
Model of the built-in route, mount and entrypoint patterns: which calls they recognise.

Modelled: the patterns of `DefaultChiConfig` (internal/spec/config_chi.go:50-86, 150-168),
`DefaultGinConfig` (config_gin.go:57-66, 122-132), `DefaultEchoConfig` (config_echo.go:58-67, 108-118),
`DefaultFiberConfig` (config_fiber.go:68-77, 125-152), `DefaultMuxConfig` (config_mux.go:47-94, 118-131),
`DefaultHTTPConfig` (config_http.go:90-111), the call name and receiver tests of
`RoutePatternMatcherImpl.MatchNode` (pattern_matchers.go:430-449) and `matchesRecvType`
(recv_forms.go:67-94), `entrypointBundles`, `ApplyEntrypointPresets` and `matchesEntrypoint`
(config_entrypoints.go:43-176), and of Go's `regexp` the syntax these patterns use.

Simplifications: a call is its name and its receiver forms; patterns of these configurations have no
call-scope and no caller restriction, so those tests are left out; a pattern outside the modelled syntax
does not compile.
-/
import Verif.Common
import Verif.RegexModel

namespace Verif.Preset
open Verif.RegexModel

/-! ## Regular expressions -/

/-- The abstract syntax of the patterns. -/
inductive Pat
  | eps
  | none
  | chr (c : Char)
  | any
  | digit
  | cat (a b : Pat)
  | alt (a b : Pat)
  | star (a : Pat)
  deriving DecidableEq

/-- `(?i)`: two letters are the same up to simple folding.  Of the letters outside ASCII, only `ſ` and the
Kelvin sign fold to ASCII letters. -/
def foldEq (c x : Char) : Bool :=
  x.toLower == c.toLower || (c.toLower == 's' && x == 'ſ') || (c.toLower == 'k' && x == '\u212a')

/-- What a pattern denotes. -/
def toRe (fold : Bool) : Pat → Re
  | .eps => .eps
  | .none => .none
  | .chr c => .cls fun x => if fold then foldEq c x else x == c
  | .any => .cls fun x => x != '\n'
  | .digit => .cls fun x => x.isDigit
  | .cat a b => .cat (toRe fold a) (toRe fold b)
  | .alt a b => .alt (toRe fold a) (toRe fold b)
  | .star a => .star (toRe fold a)

/-- A compiled expression: its flags, its anchors and its body. -/
structure Rx where
  fold : Bool
  left : Bool
  right : Bool
  body : Pat
  deriving DecidableEq

/-- A repetition operator after an atom. -/
def rep (p : Pat) : Str → Pat × Str
  | '?' :: t => (.alt .eps p, t)
  | '*' :: t => (.star p, t)
  | '+' :: t => (.cat p (.star p), t)
  | t => (p, t)

/-- Alternatives up to `)`, `$` or the end; the alternatives read so far and the current one are
accumulated. -/
def parse : Nat → Pat → Pat → Str → Option (Pat × Str)
  | 0, _, _, _ => none
  | _ + 1, alts, cur, [] => some (.alt alts cur, [])
  | n + 1, alts, cur, c :: t =>
    if c = ')' ∨ c = '$' then some (.alt alts cur, c :: t)
    else if c = '|' then parse n (.alt alts cur) .eps t
    else if c = '(' then match parse n .none .eps t with
      | some (g, ')' :: u) => parse n alts (.cat cur (rep g u).1) (rep g u).2
      | _ => none
    else if c = '\\' then match t with
      | 'd' :: u => parse n alts (.cat cur (rep .digit u).1) (rep .digit u).2
      | d :: u => if isPunct d then parse n alts (.cat cur (rep (.chr d) u).1) (rep (.chr d) u).2 else none
      | [] => none
    else if c = '.' then parse n alts (.cat cur (rep .any t).1) (rep .any t).2
    else if isRep c ∨ c = '^' ∨ c = '[' ∨ c = '{' then none
    else parse n alts (.cat cur (rep (.chr c) t).1) (rep (.chr c) t).2

def parseTail (fold left : Bool) (s : Str) : Option Rx :=
  match parse (s.length + 1) .none .eps s with
  | some (p, []) => some ⟨fold, left, false, p⟩
  | some (p, ['$']) => some ⟨fold, left, true, p⟩
  | _ => none

/-- `regexp.Compile` for these patterns: `^`, then `(?i)`, both optional. -/
def compileRx : Str → Option Rx
  | '^' :: '(' :: '?' :: 'i' :: ')' :: t => parseTail true true t
  | '^' :: t => parseTail false true t
  | '(' :: '?' :: 'i' :: ')' :: t => parseTail true false t
  | t => parseTail false false t

/-- Any text. -/
def dots : Re := .star (.cls fun _ => true)

/-- `MatchString`: without an anchor, any text may stand before or after. -/
def Rx.re (r : Rx) : Re := .cat (if r.left then .eps else dots) (.cat (toRe r.fold r.body) (if r.right then .eps else dots))

/-- `cachedMatch` (internal/spec/regex_cache.go:37-60): an expression that does not compile matches
nothing. -/
def rxMatch (pattern : String) (s : Str) : Bool :=
  match compileRx pattern.toList with
  | some r => accepts r.re s
  | none => false

/-! ## Route and mount patterns -/

/-- The tests of a pattern: the name of the call and its receiver. -/
structure CallPat where
  call : String
  recvRegex : String := ""
  recvExact : String := ""

/-- `matchesRecvType` (internal/spec/recv_forms.go:67-94); `forms` are the receiver forms of the call. -/
def recvOk (forms : List Str) (p : CallPat) : Bool :=
  if p.recvRegex = "" ∧ p.recvExact = "" then true
  else
    let forms := if forms = [] then [[]] else forms
    if p.recvRegex ≠ "" then forms.any fun f => rxMatch p.recvRegex f
    else forms.any fun f => p.recvExact.toList == f

/-- `MatchNode` (internal/spec/pattern_matchers.go:430-449). -/
def patOk (name : Str) (forms : List Str) (p : CallPat) : Bool := (p.call = "" || rxMatch p.call name) && recvOk forms p

/-- Some pattern recognises the call. -/
def recognised (ps : List CallPat) (name : Str) (forms : List Str) : Bool := ps.any (patOk name forms)

/-- internal/spec/config_chi.go:50-86. -/
def chiRoutes : List CallPat :=
  [ { call := "(?i)(GET|POST|PUT|DELETE|PATCH|OPTIONS|HEAD)$", recvRegex := "^github.com/go-chi/chi(/v\\d)?\\.\\*?(Router|Mux)$" },
    { call := "^Method(Func)?$", recvRegex := "^github.com/go-chi/chi(/v\\d)?\\.\\*?(Router|Mux)$" },
    { call := "^Handle(Func)?$", recvRegex := "^github.com/go-chi/chi(/v\\d)?\\.\\*?(Router|Mux)$" } ]

/-- internal/spec/config_gin.go:57-66. -/
def ginRoutes : List CallPat :=
  [ { call := "^(?i)(GET|POST|PUT|DELETE|PATCH|OPTIONS|HEAD)$", recvRegex := "^github\\.com/gin-gonic/gin\\.\\*(Engine|RouterGroup)$" } ]

/-- internal/spec/config_gin.go:122-132. -/
def ginMounts : List CallPat := [ { call := "^Group$", recvRegex := "^github\\.com/gin-gonic/gin\\.\\*(Engine|RouterGroup)$" } ]

/-- internal/spec/config_echo.go:58-67. -/
def echoRoutes : List CallPat :=
  [ { call := "^(?i)(GET|POST|PUT|DELETE|PATCH|OPTIONS|HEAD)$", recvRegex := "^github\\.com/labstack/echo(/v\\d)?\\.\\*(Echo|Group)$" } ]

/-- internal/spec/config_echo.go:108-118. -/
def echoMounts : List CallPat := [ { call := "^Group$", recvRegex := "^github\\.com/labstack/echo(/v\\d)?\\.\\*(Echo|Group)$" } ]

/-- internal/spec/config_fiber.go:68-77. -/
def fiberRoutes : List CallPat :=
  [ { call := "^(?i)(GET|POST|PUT|DELETE|PATCH|OPTIONS|HEAD)$", recvRegex := "^github\\.com/gofiber/fiber(/v\\d)?\\.\\*?(App|Router|Group)$" } ]

/-- internal/spec/config_fiber.go:125-152. -/
def fiberMounts : List CallPat :=
  [ { call := "^Mount$", recvRegex := "^github\\.com/gofiber/fiber(/v\\d)?\\.\\*?(App|Router|Group)$" },
    { call := "^Group$", recvRegex := "^github\\.com/gofiber/fiber(/v\\d)?\\.\\*?(App|Router|Group)$" },
    { call := "^Use$", recvRegex := "^github\\.com/gofiber/fiber(/v\\d)?\\.\\*?(App|Router|Group)$" } ]

/-- internal/spec/config_mux.go:47-94. -/
def muxRoutes : List CallPat :=
  [ { call := "^HandleFunc$", recvRegex := "^github\\.com/gorilla/mux\\.\\*?Router$" },
    { call := "^Handle$", recvRegex := "^github\\.com/gorilla/mux\\.\\*?Router$" },
    { call := "^HandlerFunc$", recvRegex := "^github\\.com/gorilla/mux\\.\\*?Route$" },
    { call := "^Handler$", recvRegex := "^github\\.com/gorilla/mux\\.\\*?Route$" },
    { call := "^Path$", recvRegex := "^github\\.com/gorilla/mux\\.\\*?(Router|Route)$" },
    { call := "^Methods$", recvRegex := "^github\\.com/gorilla/mux\\.\\*?(Router|Route)$" } ]

/-- internal/spec/config_mux.go:118-131. -/
def muxMounts : List CallPat :=
  [ { call := "^PathPrefix$", recvRegex := "^github\\.com/gorilla/mux\\.\\*?Router$" },
    { call := "^Subrouter$", recvRegex := "^github\\.com/gorilla/mux\\.\\*?Route$" } ]

/-- internal/spec/config_http.go:90-111. -/
def httpRoutes : List CallPat :=
  [ { call := "^HandleFunc$", recvRegex := "^net/http(\\.\\*ServeMux)?$" }, { call := "^Handle$" } ]

/-! ## Entrypoint presets -/

/-- `EntrypointPattern`. -/
structure EntryPat where
  field : String
  recvType : String := ""
  recvRegex : String := ""
  deriving DecidableEq

structure Bundle where
  imports : List String
  patterns : List EntryPat

/-- `entrypointBundles` (internal/spec/config_entrypoints.go:43-105). -/
def bundles : List Bundle :=
  [ { imports := ["^github\\.com/urfave/cli(/v\\d+)?$", "^github\\.com/codegangsta/cli$"],
      patterns := [{ field := "^(Action|Before|After)$", recvRegex := "^github\\.com/(urfave|codegangsta)/cli(/v\\d+)?\\.(Command|App)$" }] },
    { imports := ["^github\\.com/spf13/cobra$"],
      patterns := [{ field := "^(Run|RunE|PreRun|PreRunE|PostRun|PostRunE|PersistentPreRun|PersistentPreRunE)$", recvRegex := "^github\\.com/spf13/cobra\\.Command$" }] },
    { imports := ["^github\\.com/peterbourgon/ff(/v\\d+)?/ffcli$"],
      patterns := [{ field := "^Exec$", recvRegex := "^github\\.com/peterbourgon/ff(/v\\d+)?/ffcli\\.Command$" }] },
    { imports := [], patterns := [] } ]

/-- Append the patterns whose key is not there yet (config_entrypoints.go:128-133); the key of a pattern
is the pattern. -/
def addMissing : List EntryPat → List EntryPat → List EntryPat
  | cfg, [] => cfg
  | cfg, p :: ps => addMissing (if cfg.contains p then cfg else cfg ++ [p]) ps

/-- `anyImportMatches`. -/
def anyImport (imports : List Str) (rxs : List String) : Bool := imports.any fun i => rxs.any fun r => rxMatch r i

/-- `ApplyEntrypointPresets` (internal/spec/config_entrypoints.go:107-134) on the patterns of the
configuration. -/
def applyPresets (imports : List Str) (cfg : List EntryPat) : List EntryPat :=
  if imports = [] then cfg
  else bundles.foldl (fun cfg b => if b.patterns = [] ∨ anyImport imports b.imports = false then cfg else addMissing cfg b.patterns) cfg

/-- One pattern (internal/spec/config_entrypoints.go:148-172). -/
def entryOk (owner field : Str) (p : EntryPat) : Bool :=
  (p.field = "" || rxMatch p.field field) &&
  (if p.recvRegex ≠ "" then rxMatch p.recvRegex owner
   else if p.recvType ≠ "" then p.recvType.toList == owner
   else false)

/-- `matchesEntrypoint` (internal/spec/config_entrypoints.go:143-176). -/
def matchesEntrypoint (ps : List EntryPat) (owner field : Str) : Bool :=
  if field = [] ∨ owner = [] then false else ps.any (entryOk owner field)

end Verif.Preset
