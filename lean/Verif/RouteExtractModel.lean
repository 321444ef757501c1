import Verif.PresetModel
import Verif.MethodsModel
import Verif.PathsModel
/-!
# Model: what one registration call says about its route

`ExtractRoute` and `extractRouteDetails` (internal/spec/pattern_matchers.go), the choice of the pattern
(`executeRoutePattern`, internal/spec/extractor.go) and the built-in patterns' parameters.
-/

namespace Verif.RouteExtract
open Verif.MethodsModel (Uni Extraction methodFromName defaultExtraction verbsFromArg isValid trimBy)
open Verif.Preset (CallPat patOk)

abbrev Str := List Char

/-- What this stage reads of an argument: its recorded value (`GetValue`: the text of a literal, the quoted
value of a string constant, the operator of a unary or binary expression, otherwise empty), its rendering
(`GetArgumentInfo`), the path it stands for and the names of the dynamic parts (`resolvePathArg`), and, of the
handler found under its wrappers (`handlerArgValue`), the rendering, the package (with that of the called
function as fallback, pattern_matchers.go:620-625) and, for a name or a function literal, variable and package
of origin (`traceVariable`; empty otherwise). -/
structure Arg where
  value : Str := []
  info : Str := []
  path : Str := []
  dyn : List Str := []
  hInfo : Str := []
  hPkg : Str := []
  originVar : Str := []
  originPkg : Str := []
  deriving DecidableEq

/-- A call (`CallGraphEdge`): name and package of the callee, position, arguments, receiver forms. -/
structure Call where
  name : Str
  pkg : Str
  pos : Str
  args : List Arg
  forms : List Str := []

/-- The parameters of a route pattern (internal/spec/config.go:244-290).  An index is that of an argument;
`methodIdx = none` is a negative index.  Negative indices of path or handler, which only a user's
configuration can hold, are not modelled. -/
structure RPat where
  methodFromCall : Bool := false
  methodFromHandler : Bool := false
  methodFromArg : Bool := false
  methodFromPath : Bool := false
  handlerFromArg : Bool := false
  pathFromArg : Bool := false
  methodIdx : Option Nat := some 0
  pathIdx : Nat := 0
  handlerIdx : Nat := 0
  extraction : Option Extraction := none

/-- `RouteInfo` (internal/spec/extractor.go:40-110), the fields this stage writes. -/
structure Info where
  file : Str := []
  pkg : Str := []
  method : Str := []
  extra : List Str := []
  explicit : Bool := false
  path : Str := []
  dyn : List Str := []
  handler : Str := []
  function : Str := []
  deriving DecidableEq

/-- The cut set of pattern_matchers.go:571. -/
def quoteTrim (s : Str) : Str := trimBy MethodsModel.isQuote s

/-- pattern_matchers.go:564-591: the verb an argument is. -/
def argVerb (up : Str → Str) (a : Arg) : Option Str :=
  if a.value = [] then none
  else if isValid up (quoteTrim a.value) then some (up (quoteTrim a.value))
  else if a.info = [] then none
  else if isValid up (quoteTrim a.info) then some (up (quoteTrim a.info))
  else none

/-- pattern_matchers.go:1330-1350, with the default rules when the pattern has none. -/
def nameVerb (u : Uni) (p : RPat) (name : Str) : Str × Bool := methodFromName u (p.extraction.getD defaultExtraction) name

/-- pattern_matchers.go:535-591. -/
def verbStage (u : Uni) (up : Str → Str) (p : RPat) (c : Call) (r : Info) : Info × Bool :=
  if p.methodFromCall then ({ r with method := (nameVerb u p c.name).1, explicit := true }, true)
  else if p.methodFromHandler && p.handlerFromArg && decide (p.handlerIdx < c.args.length) then
    match c.args[p.handlerIdx]? with
    | none => (r, false)
    | some a => if a.info = [] then (r, false)
      else ({ r with method := (nameVerb u p a.info).1, explicit := (nameVerb u p a.info).2 }, true)
  else match p.methodIdx.bind fun i => c.args[i]? with
    | none => (r, false)
    | some a =>
      if p.methodFromArg then
        match verbsFromArg up (some a.value) with
        | [] => (r, false)
        | m :: ms => ({ r with method := m, extra := ms, explicit := true }, true)
      else match argVerb up a with
        | none => (r, false)
        | some v => ({ r with method := v, explicit := true }, true)

/-- `appendUniqueStrings`. -/
def appendUnique (l : List Str) : List Str → List Str
  | [] => l
  | x :: xs => appendUnique (if x ∈ l then l else l ++ [x]) xs

/-- pattern_matchers.go:599-607. -/
def pathAndVerb (p : RPat) (path : Str) : Option Str × Str :=
  if p.methodFromPath then
    if (Paths.splitMethodFromPath path).1 = [] then (none, Paths.normalizeServeMux path)
    else (some (Paths.splitMethodFromPath path).1, Paths.normalizeServeMux (Paths.splitMethodFromPath path).2)
  else (none, path)

/-- pattern_matchers.go:593-614. -/
def pathStage (p : RPat) (c : Call) (r : Info) : Info × Bool :=
  if p.pathFromArg then
    match c.args[p.pathIdx]? with
    | none => (r, false)
    | some a =>
      let v := pathAndVerb p a.path
      ({ r with
        method := v.1.getD r.method
        explicit := if v.1.isSome then true else r.explicit
        path := if v.2 = [] then ['/'] else v.2
        dyn := appendUnique r.dyn a.dyn }, true)
  else (r, false)

/-- pattern_matchers.go:616-629. -/
def handlerStage (p : RPat) (c : Call) (r : Info) : Info × Bool :=
  if p.handlerFromArg then
    match c.args[p.handlerIdx]? with
    | none => (r, false)
    | some a => ({ r with handler := a.hInfo, function := a.hInfo, pkg := a.hPkg }, true)
  else (r, false)

/-- `extractRouteDetails` (pattern_matchers.go:531-632). -/
def details (u : Uni) (up : Str → Str) (p : RPat) (c : Call) (r : Info) : Info × Bool :=
  let a := verbStage u up p c r
  let b := pathStage p c a.1
  let d := handlerStage p c b.1
  (d.1, a.2 || b.2 || d.2)

/-- pattern_matchers.go:480-488: a route not begun yet (no file or no package) is begun. -/
def begin_ (c : Call) (r : Info) : Info :=
  if r.file = [] ∨ r.pkg = [] then { method := "POST".toList, pkg := c.pkg, file := c.pos } else r

/-- pattern_matchers.go:503-527. -/
def traceStage (p : RPat) (c : Call) (r : Info) : Info × Bool :=
  if p.handlerFromArg then
    match c.args[p.handlerIdx]? with
    | none => (r, false)
    | some a => ({ r with
        handler := if a.originVar = [] then r.handler else a.originVar
        pkg := if a.originPkg = [] then r.pkg else a.originPkg }, true)
  else (r, false)

/-- `ExtractRoute` (pattern_matchers.go:476-528). -/
def extractRoute (u : Uni) (up : Str → Str) (p : RPat) (c : Call) (r : Info) : Info × Bool :=
  let d := details u up p c (begin_ c r)
  let t := traceStage p c d.1
  (t.1, d.2 || t.2)

/-- `GetPriority` (pattern_matchers.go:460-473); the built-in patterns have no test of the caller. -/
def priority (p : CallPat) : Nat := (if p.call = "" then 0 else 10) + (if p.recvRegex = "" ∧ p.recvExact = "" then 0 else 3)

/-- `executeRoutePattern` (extractor.go:519-536), the loop over the patterns: state is the route, whether it
was found and the best priority. -/
def executeGo (u : Uni) (up : Str → Str) (c : Call) : List (CallPat × RPat) → Info × Bool × Nat → Info × Bool × Nat
  | [], s => s
  | (t, p) :: ps, (r, found, best) =>
    executeGo u up c ps
      (if patOk c.name c.forms t = false then (r, found, best)
       else if found = false ∨ best < priority t then
         ((extractRoute u up p c r).1, (extractRoute u up p c r).2, if (extractRoute u up p c r).2 then priority t else best)
       else (r, found, best))
def execute (u : Uni) (up : Str → Str) (ps : List (CallPat × RPat)) (c : Call) (r : Info) : Info :=
  (executeGo u up c ps (r, false, 0)).1

/-- The calls of a registration, in the order in which they are visited (`extractRouteChildren`; which calls
these are is C87). -/
def executeAll (u : Uni) (up : Str → Str) (ps : List (CallPat × RPat)) (cs : List Call) : Info :=
  cs.foldl (fun r c => execute u up ps c r) {}

/-! ## The built-in patterns -/

/-- config_chi.go:50-86. -/
def chiPats : List (CallPat × RPat) :=
  Preset.chiRoutes.zip
    [ { methodFromCall := true, pathFromArg := true, handlerFromArg := true, pathIdx := 0, handlerIdx := 1 },
      { pathFromArg := true, handlerFromArg := true, methodIdx := some 0, pathIdx := 1, handlerIdx := 2 },
      { pathFromArg := true, handlerFromArg := true, methodFromHandler := true, methodIdx := none, pathIdx := 0, handlerIdx := 1 } ]

/-- config_gin.go:57-66, config_echo.go:58-67, config_fiber.go:68-77. -/
def verbPat : RPat := { methodFromCall := true, pathFromArg := true, handlerFromArg := true, pathIdx := 0, handlerIdx := 1 }
def ginPats : List (CallPat × RPat) := Preset.ginRoutes.zip [verbPat]
def echoPats : List (CallPat × RPat) := Preset.echoRoutes.zip [verbPat]
def fiberPats : List (CallPat × RPat) := Preset.fiberRoutes.zip [verbPat]

/-- config_mux.go:47-94. -/
def muxPats : List (CallPat × RPat) :=
  Preset.muxRoutes.zip
    [ { pathFromArg := true, handlerFromArg := true, pathIdx := 0, handlerIdx := 1, extraction := some defaultExtraction },
      { pathFromArg := true, handlerFromArg := true, pathIdx := 0, handlerIdx := 1, extraction := some defaultExtraction },
      { handlerFromArg := true, handlerIdx := 0, extraction := some defaultExtraction },
      { handlerFromArg := true, handlerIdx := 0, extraction := some defaultExtraction },
      { pathFromArg := true, pathIdx := 0, extraction := some defaultExtraction },
      { methodFromHandler := true, methodIdx := some 0, extraction := some defaultExtraction } ]

/-- config_http.go:90-111. -/
def httpPats : List (CallPat × RPat) :=
  Preset.httpRoutes.zip
    [ { methodFromPath := true, pathFromArg := true, handlerFromArg := true, methodIdx := none, pathIdx := 0, handlerIdx := 1 },
      { methodFromPath := true, pathFromArg := true, handlerFromArg := true, methodIdx := none, pathIdx := 0, handlerIdx := 1 } ]

end Verif.RouteExtract
