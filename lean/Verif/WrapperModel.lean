import Verif.Common
import Verif.ValidateModel

/-!
# The project's own routers and contexts

`internal/spec/wrapper_detect.go`, `internal/spec/wrapper_params.go` and
`applyDetectedWrappers` (`internal/engine/engine.go:1486-1565`).

A project may register its routes through methods of its own (`func (r *Router)
Get(pattern string, h http.HandlerFunc) { r.mux.Method("GET", pattern, h) }`) and
answer through methods of its own (`ctx.JSON(status, body)`).  The functions
modelled here read the call graph, derive patterns for such methods, and put them
in front of the configured ones.

Simplifications: a receiver type is a package and a name without its `*` (the
derived constraint is `^pkg\.\*?Name$`, `recvTypeRegexFor` 383-385, so both forms
match and one type never has two methods of one name); a derived `CallRegex` /
`RecvTypeRegex` is the set of names it spells out (`regexp.QuoteMeta`, anchored on
both sides); which calls a configured pattern matches is an arbitrary function.
-/

namespace Verif.Wrappers
open Verif.Common

/-- An argument as metadata records it (`CallArgument`, `internal/metadata/types.go`):
its own name, `""` when it has none (a literal, an operator), and its parts `X`,
`Sel`, `Fun` and `Args`, in that order, absent ones left out. -/
inductive Expr where
  | node (name : String) (kids : List Expr)
deriving Repr

/-- An identifier on its own. -/
def Expr.id (x : String) : Expr := .node x []

/-- A literal. -/
def Expr.lit : Expr := .node "" []

mutual
/-- `identsIn` (`wrapper_params.go:176-192`): the names an expression mentions,
outermost first, at most `depth` levels down. -/
def idents : Nat → Expr → List String
  | 0, _ => []
  | d + 1, .node n ks => (if n = "" then [] else [n]) ++ identsAll d ks
/-- The loops over the parts, `wrapper_params.go:185-190`. -/
def identsAll : Nat → List Expr → List String
  | _, [] => []
  | d, k :: ks => idents d k ++ identsAll d ks
end

/-- The type of a parameter, as far as `groupShape` looks (`wrapper_detect.go:194-209`):
`KindFuncType`, the identifier `string`, or anything else. -/
inductive Kind where
  | func
  | string
  | other
deriving DecidableEq, Repr

/-- A method: package, receiver type, name. -/
structure Id where
  pkg : String
  recv : String
  name : String
deriving DecidableEq, Repr

/-- A declared method (`metadata.Method`): parameters in declaration order and the
recorded assignments, in order. -/
structure Meth where
  id : Id
  params : List (String × Kind)
  assigns : List (String × Expr) := []
deriving Repr

/-- A declared function, for the fallback of `assignmentsOf`. -/
structure Func where
  pkg : String
  name : String
  assigns : List (String × Expr) := []
deriving Repr

/-- A call (`metadata.CallGraphEdge`).  `caller.recv = ""` for a plain function;
`forms` are the receivers the callee is known by (`recvForms`,
`internal/spec/recv_forms.go:36-60`). -/
structure Edge where
  caller : Id
  pkg : String
  forms : List (String × String)
  name : String
  args : List Expr
deriving Repr

/-- A struct type and what it embeds (`metadata.Type.Embeds`, without `*` and
without its own package). -/
structure Emb where
  pkg : String
  name : String
  embeds : List String
deriving Repr

/-- What the detection reads of the metadata.  Methods, functions and types are in
the order of sorted file names. -/
structure Prog where
  module : String
  meths : List Meth
  funcs : List Func := []
  types : List Emb := []
  edges : List Edge
deriving Repr

/-- Which calls a pattern matches: a configured pattern (`MatchNode`), or a derived
one, which spells out a package, receiver types and method names. -/
inductive Scope where
  | configured (k : Nat)
  | own (pkg : String) (recvs : List String) (names : List String)
deriving DecidableEq, Repr

/-- `MatchNode` (`internal/spec/pattern_matchers.go:417-452`); `fw` for the
configured patterns. -/
def Scope.hits (fw : Nat → Edge → Bool) (e : Edge) : Scope → Bool
  | .configured k => fw k e
  | .own pkg recvs names => names.contains e.name && e.forms.any fun f => f.1 == pkg && recvs.contains f.2

/-- `RoutePattern`: the position of the path and of the handler, when they are
arguments, and where the verb is read. -/
structure RoutePat where
  scope : Scope
  path : Option Nat := none
  handler : Option Nat := none
  verbFromCall : Bool := false
  /-- `MethodFromHandler || MethodFromPath`. -/
  verbElsewhere : Bool := false
  verbFromArg : Bool := false
  verbArg : Nat := 0
deriving DecidableEq, Repr

/-! ## Parameters -/

/-- `methodOf` (`wrapper_params.go:130-152`). -/
def methodOf (P : Prog) (w : Id) : Option Meth := P.meths.find? fun m => m.id == w

/-- `paramsOf` (`wrapper_params.go:94-108`). -/
def paramsOf (P : Prog) (w : Id) : List String :=
  match methodOf P w with
  | some m => m.params.map (·.1)
  | none => []

/-- What is assigned to a name, in order. -/
def assigned (as : List (String × Expr)) (x : String) : List Expr :=
  (as.filter fun a => a.1 == x).map (·.2)

/-- `findFunctionByName` (`internal/spec/extractor.go:1970-1984`): the function of the
package, else one of that name anywhere. -/
def findFunc (P : Prog) (pkg name : String) : Option Func :=
  match P.funcs.find? fun f => f.pkg == pkg && f.name == name with
  | some f => some f
  | none => P.funcs.find? fun f => f.name == name

/-- `assignmentsOf` (`wrapper_params.go:115-128`). -/
def assignmentsOf (P : Prog) (w : Id) (x : String) : List Expr :=
  let own := match methodOf P w with
    | some m => assigned m.assigns x
    | none => []
  if own.isEmpty then
    match findFunc P w.pkg w.name with
    | some f => assigned f.assigns x
    | none => []
  else own

/-- `matchParam` (`wrapper_params.go:155-167`). -/
def matchParam (params : List String) : List String → Option Nat
  | [] => none
  | n :: ns =>
    if n = "" then matchParam params ns
    else match params.findIdx? (· == n) with
      | some i => some i
      | none => matchParam params ns

/-- One hop (`wrapper_params.go:76-85`): the names in the values assigned to the
names not seen before, and what is then seen. -/
def hop (asg : String → List Expr) : List String → List String → List String × List String
  | [], seen => ([], seen)
  | n :: ns, seen =>
    if n = "" ∨ n ∈ seen then hop asg ns seen
    else
      let r := hop asg ns (n :: seen)
      ((asg n).flatMap (idents 6) ++ r.1, r.2)

/-- The loop of `indexOf` (`wrapper_params.go:72-87`), `left` hops still allowed. -/
def hops (params : List String) (asg : String → List Expr) : Nat → List String → List String → Option Nat
  | 0, _, _ => none
  | left + 1, names, seen =>
    match matchParam params names with
    | some i => some i
    | none =>
      let r := hop asg names seen
      hops params asg left r.1 r.2

/-- `indexOf` (`wrapper_params.go:58-88`). -/
def indexOf (P : Prog) (w : Id) (arg : Option Expr) : Option Nat :=
  match arg with
  | none => none
  | some a =>
    if (paramsOf P w).isEmpty then none
    else hops (paramsOf P w) (assignmentsOf P w) 4 (idents 6 a) []

/-! ## Routers -/

/-- `DetectedWrapper` of a registrar; `via` is only shown in the report. -/
structure Wrapper where
  id : Id
  via : String
  pat : RoutePat
  complete : Bool
deriving DecidableEq, Repr

/-- `wrapperMethodOf` (`wrapper_detect.go:288-303`): the calls in methods of the
module, by the prefix of the package path. -/
def inModule (P : Prog) (w : Id) : Bool :=
  w.recv != "" && w.pkg != "" && P.module != "" && P.module.toList.isPrefixOf w.pkg.toList

/-- `isHTTPMethod(strings.ToUpper(name))` (`pattern_matchers.go:392-400`). -/
def isVerb (name : String) : Bool :=
  [name.toUpper].any fun s =>
    ["GET", "POST", "PUT", "DELETE", "PATCH", "OPTIONS", "HEAD", "CONNECT", "TRACE"].contains s

/-- `innerVerbArgIndex` (`wrapper_detect.go:365-381`). -/
def verbIndex (p : RoutePat) : Option Nat :=
  if p.verbFromCall || p.verbElsewhere then none
  else if p.verbFromArg then some p.verbArg
  else if p.path == some p.verbArg then none
  else if p.handler == some p.verbArg then none
  else some p.verbArg

/-- The position of the parameter that an argument comes from, for an argument that
the pattern names (`wrapper_detect.go:318-337`). -/
def roleOf (P : Prog) (w : Id) (e : Edge) (role : Option Nat) : Option Nat :=
  match role with
  | none => none
  | some i => indexOf P w e.args[i]?

/-- `deriveWrapper` (`wrapper_detect.go:307-355`). -/
def derive (P : Prog) (inner : RoutePat) (e : Edge) : Wrapper :=
  let path := roleOf P e.caller e inner.path
  let handler := roleOf P e.caller e inner.handler
  let verb := roleOf P e.caller e (verbIndex inner)
  { id := e.caller
    via := e.pkg ++ "." ++ e.name
    pat :=
      { scope := .own e.caller.pkg [e.caller.recv] [e.caller.name]
        path := path
        handler := handler
        verbFromArg := verb.isSome
        verbArg := verb.getD 0
        verbFromCall := !verb.isSome && isVerb e.caller.name }
    complete := path.isSome && handler.isSome }

/-- One call of `derivationRound` (`wrapper_detect.go:246-271`): the first pattern that
matches decides, and a method already found is left as it is. -/
def visit (P : Prog) (fw : Nat → Edge → Bool) (seeds : List RoutePat) (e : Edge) (found : List Wrapper) :
    Option Wrapper :=
  if !inModule P e.caller then none
  else if found.any fun w => w.id == e.caller then none
  else match seeds.find? fun p => p.scope.hits fw e with
    | none => none
    | some p => some (derive P p e)

/-- `derivationRound` (`wrapper_detect.go:238-274`): what is found afterwards and the
patterns derived. -/
def round (P : Prog) (fw : Nat → Edge → Bool) (seeds : List RoutePat) :
    List Edge → List Wrapper → List Wrapper × List RoutePat
  | [], found => (found, [])
  | e :: es, found =>
    match visit P fw seeds e found with
    | none => round P fw seeds es found
    | some w =>
      let r := round P fw seeds es (found ++ [w])
      (r.1, if w.complete then w.pat :: r.2 else r.2)

/-- The rounds of `DetectRouterWrappers` (`wrapper_detect.go:93-101`). -/
def rounds (P : Prog) (fw : Nat → Edge → Bool) : Nat → List RoutePat → List Wrapper → List Wrapper
  | 0, _, found => found
  | n + 1, seeds, found =>
    let r := round P fw seeds P.edges found
    if r.2.isEmpty then r.1 else rounds P fw n r.2 r.1

/-- What `DetectRouterWrappers` finds before grouping: four rounds. -/
def findWrappers (P : Prog) (fw : Nat → Edge → Bool) (routes : List RoutePat) : List Wrapper :=
  rounds P fw 4 routes []

/-- A group of methods with the same roles (`DetectedWrapper` after `groupWrappers`). -/
structure Group where
  pkg : String
  recv : String
  methods : List String
  via : String
  pat : RoutePat
  complete : Bool
deriving DecidableEq, Repr

/-- `rolesKey` (`wrapper_detect.go:492-499`) with the receiver type and completeness
(456): everything but the names. -/
def sameRoles (g : Group) (w : Wrapper) : Bool :=
  g.pkg == w.id.pkg && g.recv == w.id.recv && g.complete == w.complete &&
  ({ g.pat with scope := .configured 0 } : RoutePat) == { w.pat with scope := .configured 0 }

/-- One turn of the loop `wrapper_detect.go:455-465`. -/
def addTo (w : Wrapper) : List Group → List Group
  | [] => [⟨w.id.pkg, w.id.recv, [w.id.name], w.via, w.pat, w.complete⟩]
  | g :: gs => if sameRoles g w then { g with methods := g.methods ++ [w.id.name] } :: gs else g :: addTo w gs

/-- `strings.Join(names, "|")` (`wrapper_detect.go:474`). -/
def joined (names : List String) : String := String.ofList (ValidateModel.joinC '|' (names.map String.toList))

/-- The order of `wrapper_detect.go:479-484`. -/
def groupLe (a b : Group) : Bool :=
  if a.pkg ++ "." ++ a.recv != b.pkg ++ "." ++ b.recv then strLe (a.pkg ++ "." ++ a.recv) (b.pkg ++ "." ++ b.recv)
  else strLe (joined a.methods) (joined b.methods)

/-- The second loop, `wrapper_detect.go:467-478`. -/
def finish (g : Group) : Group :=
  { g with methods := sortStrings g.methods
           pat := { g.pat with scope := .own g.pkg [g.recv] (sortStrings g.methods) } }

/-- `groupWrappers` (`wrapper_detect.go:450-490`); `found` in the order in which the map
is iterated. -/
def groupWrappers (found : List Wrapper) : List Group :=
  isort groupLe ((found.foldl (fun gs w => addTo w gs) []).map finish)

/-! ## Groups -/

/-- `groupShape` (`wrapper_detect.go:194-209`): the first string parameter and the name
of the first function parameter that has one. -/
def groupShape (m : Meth) : Option (Nat × String) :=
  match m.params.findIdx? fun p => p.2 == Kind.string,
        m.params.find? fun p => p.2 == Kind.func && p.1 != "" with
  | some i, some p => some (i, p.1)
  | _, _ => none

/-- `MountPattern` of a grouping method. -/
structure Mount where
  id : Id
  path : Nat
deriving DecidableEq, Repr

/-- One method of `detectGroupMounts` (`wrapper_detect.go:155-178`). -/
def mountOf (P : Prog) (m : Meth) : Option Mount :=
  match groupShape m with
  | none => none
  | some (i, f) =>
    if P.edges.any fun e => e.caller == m.id && e.name == f then some ⟨m.id, i⟩ else none

/-- `detectGroupMounts` (`wrapper_detect.go:122-190`), without the final sort. -/
def mounts (P : Prog) (gs : List Group) : List Mount :=
  (P.meths.filter fun m => gs.any fun g => g.complete && g.pkg == m.id.pkg && g.recv == m.id.recv).filterMap
    (mountOf P)

/-! ## Contexts -/

/-- `ResponsePattern`: the position of the status and of the body, when they are
arguments. -/
structure RespPat where
  scope : Scope
  status : Option Nat := none
  body : Option Nat := none
  deflt : Nat := 0
deriving DecidableEq, Repr

/-- `RequestBodyPattern`. -/
structure ReqPat where
  scope : Scope
  body : Option Nat := none
deriving DecidableEq, Repr

/-- `ParamPattern`: where the parameter is (`""`: nowhere), whether its name is a map
key, and which argument names it. -/
structure ParPat where
  scope : Scope
  loc : String
  mapKey : Bool := false
  arg : Nat
deriving DecidableEq, Repr

/-- `DetectedWrapper` of a responder, decoder or reader. -/
structure Entry where
  id : Id
  via : String
  response : Option RespPat := none
  request : Option ReqPat := none
  param : Option ParPat := none
  complete : Bool := false
deriving DecidableEq, Repr

/-- One pass over the types of `embeddingRecvRegex` (`wrapper_detect.go:414-432`). -/
def embedPass (ts : List Emb) (pkg : String) (names : List String) : List String :=
  ts.foldl (fun ns t =>
    if t.pkg == pkg && !ns.contains t.name && t.embeds.any ns.contains then ns ++ [t.name] else ns) names

/-- `embeddingRecvRegex` (`wrapper_detect.go:401-437`): the type and those of its package
that embed it, four passes. -/
def embedding (P : Prog) (w : Id) : List String :=
  sortStrings (embedPass P.types w.pkg (embedPass P.types w.pkg (embedPass P.types w.pkg
    (embedPass P.types w.pkg [w.recv]))))

/-- The pattern of one method (`wrapper_detect.go:642-646`, 688-694, 713-718). -/
def ownScope (P : Prog) (w : Id) : Scope := .own w.pkg (embedding P w) [w.name]

/-- The accumulating entry of a method, `wrapperShell` (`wrapper_detect.go:623-634`),
changed by `f`. -/
def upsert (w : Id) (via : String) (f : Entry → Entry) : List Entry → List Entry
  | [] => [f { id := w, via := via }]
  | x :: xs => if x.id = w then f x :: xs else x :: upsert w via f xs

/-- The roles that `mergeResponseRoles` adds (`wrapper_detect.go:639-665`). -/
def mergeResp (P : Prog) (inner : RespPat) (e : Edge) (r : RespPat) : RespPat :=
  let r1 := if r.status.isSome then r else { r with status := roleOf P e.caller e inner.status }
  let r2 := if r1.body.isSome then r1 else { r1 with body := roleOf P e.caller e inner.body }
  if inner.deflt != 0 && r2.deflt == 0 then { r2 with deflt := inner.deflt } else r2

/-- `mergeResponseRoles` (`wrapper_detect.go:639-670`). -/
def mergeResponse (P : Prog) (inner : RespPat) (e : Edge) (es : List Entry) : List Entry :=
  upsert e.caller (e.pkg ++ "." ++ e.name) (fun x =>
    let r := mergeResp P inner e (x.response.getD { scope := ownScope P e.caller })
    { x with response := some r, complete := r.body.isSome }) es

/-- `deriveRequestWrapper` (`wrapper_detect.go:674-696`). -/
def deriveRequest (P : Prog) (inner : ReqPat) (e : Edge) (es : List Entry) : List Entry :=
  match roleOf P e.caller e inner.body with
  | none => es
  | some i => upsert e.caller (e.pkg ++ "." ++ e.name)
      (fun x => { x with request := some ⟨ownScope P e.caller, some i⟩, complete := true }) es

/-- `deriveParamWrapper` (`wrapper_detect.go:701-720`). -/
def deriveParam (P : Prog) (inner : ParPat) (e : Edge) (es : List Entry) : List Entry :=
  if inner.loc = "" ∨ inner.mapKey then es
  else match roleOf P e.caller e (some inner.arg) with
    | none => es
    | some i => upsert e.caller (e.pkg ++ "." ++ e.name)
        (fun x => { x with param := some ⟨ownScope P e.caller, inner.loc, false, i⟩, complete := true }) es

/-- The patterns that a round matches against. -/
structure Seeds where
  resp : List RespPat := []
  req : List ReqPat := []
  par : List ParPat := []
deriving DecidableEq, Repr

/-- One call in `detectValueRound` (`wrapper_detect.go:594-620`). -/
def visitValue (P : Prog) (fw : Nat → Edge → Bool) (s : Seeds) (es : List Entry) (e : Edge) : List Entry :=
  if !inModule P e.caller then es
  else
    let es := (s.resp.filter fun p => p.scope.hits fw e).foldl (fun es p => mergeResponse P p e es) es
    let es := (s.req.filter fun p => p.scope.hits fw e).foldl (fun es p => deriveRequest P p e es) es
    (s.par.filter fun p => p.scope.hits fw e).foldl (fun es p => deriveParam P p e es) es

/-- `detectValueRound` (`wrapper_detect.go:577-622`). -/
def valueRound (P : Prog) (fw : Nat → Edge → Bool) (s : Seeds) (es : List Entry) : List Entry :=
  P.edges.foldl (visitValue P fw s) es

/-- `seedsFrom` (`wrapper_detect.go:558-575`): complete entries, one role each; the entries
in the order in which the map is iterated. -/
def seedsFrom : List Entry → Seeds
  | [] => {}
  | x :: xs =>
    let s := seedsFrom xs
    if x.complete then
      match x.response, x.request, x.param with
      | some p, _, _ => { s with resp := p :: s.resp }
      | none, some p, _ => { s with req := p :: s.req }
      | none, none, some p => { s with par := p :: s.par }
      | none, none, none => s
    else s

/-- The rounds of `detectValueWrappers` (`wrapper_detect.go:529-541`), `shuffle` being the
order in which the map is iterated after each of them. -/
def valueRounds (P : Prog) (fw : Nat → Edge → Bool) (shuffle : List Entry → List Entry) :
    Nat → Seeds → List Entry → List Entry
  | 0, _, es => es
  | n + 1, s, es =>
    let es' := valueRound P fw s es
    if es'.length = es.length then es' else valueRounds P fw shuffle n (seedsFrom (shuffle es')) es'

/-- `detectValueWrappers` (`wrapper_detect.go:527-555`), without the final sort. -/
def values (P : Prog) (fw : Nat → Edge → Bool) (shuffle : List Entry → List Entry) (s : Seeds) : List Entry :=
  valueRounds P fw shuffle 4 s []

/-! ## Applying -/

/-- The part of the configuration that is changed. -/
structure Config where
  routes : List RoutePat := []
  mounts : List Mount := []
  seeds : Seeds := {}
deriving DecidableEq, Repr

/-- `addPatternOnce` (`engine.go:1555-1564`). -/
def addOnce {α β : Type} [DecidableEq β] (key : α → β) (x : α) (l : List α) : List α :=
  if l.any fun y => key y == key x then l else x :: l

/-- A group in `applyDetectedWrappers` (`engine.go:1503-1551`). -/
def applyGroup (c : Config) (g : Group) : Config :=
  if g.complete then { c with routes := addOnce (·.scope) g.pat c.routes } else c

/-- A mount in `applyDetectedWrappers`. -/
def applyMount (c : Config) (m : Mount) : Config :=
  { c with mounts := addOnce (·.id) m c.mounts }

/-- A responder, decoder or reader in `applyDetectedWrappers`; one whose roles are all
unresolved goes through as an empty route pattern in the code (`!roled`, 1542-1549)
only if it is complete, which it then is not. -/
def applyEntry (c : Config) (x : Entry) : Config :=
  if x.complete then
    let c := match x.response with
      | some p => if p.body.isSome || p.status.isSome then
          { c with seeds := { c.seeds with resp := addOnce (·.scope) p c.seeds.resp } } else c
      | none => c
    let c := match x.request with
      | some p => { c with seeds := { c.seeds with req := addOnce (·.scope) p c.seeds.req } }
      | none => c
    match x.param with
      | some p => { c with seeds := { c.seeds with par := addOnce (·.scope) p c.seeds.par } }
      | none => c
  else c

/-- `DetectRouterWrappers` followed by `applyDetectedWrappers` (`engine.go:765-767`):
what a run makes of the configuration. -/
def detectAndApply (P : Prog) (fw : Nat → Edge → Bool) (shuffle : List Entry → List Entry) (c : Config) : Config :=
  let gs := groupWrappers (findWrappers P fw c.routes)
  let ms := mounts P gs
  let vs := values P fw shuffle c.seeds
  vs.foldl applyEntry (ms.foldl applyMount (gs.foldl applyGroup c))

end Verif.Wrappers
