import Std.Data.String.ToInt
import Verif.Assoc
/-!
# Model: pairing statuses with bodies, and the responses section

extractor.go:1343-1490 `pairAndFillResponses`, 1572-1652 (preferences), 997-1024
`mergeRouteExtraction`; mapper.go:636-678, 787-878 `buildResponses`.
-/

namespace Verif.Responses
open Verif.Common

/-- The facts about a `*Schema` these functions look at: which kinds of content it has,
its `type`, and (mapper.go:656-663) the text it renders to. -/
structure Schema where
  hasRef : Bool := false
  hasProperties : Bool := false
  hasAllOf : Bool := false
  hasOneOf : Bool := false
  hasAnyOf : Bool := false
  hasItems : Bool := false
  hasAdditional : Bool := false
  type : String := ""
  rendered : String := ""
  deriving DecidableEq, Repr

/-- extractor.go:157-189 `ResponseInfo`. -/
structure Resp where
  schema : Option Schema := none
  contentType : String := ""
  bodyType : String := ""
  file : String := ""
  line : Nat := 0
  status : Int := 0
  implicit : Int := 0
  statusUnresolved : Bool := false
  deriving DecidableEq, Repr

/-- extractor.go:137-154 `RequestInfo`. -/
structure Req where
  schema : Option Schema := none
  contentType : String := ""
  bodyType : String := ""
  deriving DecidableEq, Repr

/-- extractor.go:1595-1596, 1650-1651. -/
def schemaConcrete (s : Option Schema) : Bool :=
  match s with
  | none => false
  | some s => s.hasRef || s.hasProperties || s.hasAllOf || s.hasItems

/-- extractor.go:1646-1652 `responseIsConcrete`. -/
def Resp.concrete (r : Resp) : Bool := schemaConcrete r.schema
/-- extractor.go:1591-1597 `requestIsConcrete`. -/
def Req.concrete (r : Req) : Bool := schemaConcrete r.schema

/-- extractor.go:1631-1641: the choice between two non-nil responses. -/
def pickResp (cur next : Resp) : Resp :=
  if next.concrete ≠ cur.concrete then (if next.concrete then next else cur)
  else if next.bodyType < cur.bodyType then next else cur

/-- extractor.go:1624-1642 `preferResponseInfo`; `none` is nil. -/
def preferResp : Option Resp → Option Resp → Option Resp
  | none, next => next
  | cur, none => cur
  | some c, some n => some (pickResp c n)

/-- extractor.go:1572-1587 `preferRequestInfo`. -/
def preferReq : Option Req → Option Req → Option Req
  | none, next => next
  | cur, none => cur
  | some c, some n =>
    if n.concrete && !c.concrete then some n
    else if c.concrete && !n.concrete then some c
    else some n

/-! ## Pairing -/

/-- One collected response candidate (extractor.go:1356-1361): the call chain it was
reached on, the call site, the enclosing function, the position, and what its matcher
extracted (`none` = nil entries). -/
structure Candidate where
  chain : String
  site : String
  caller : String
  file : String
  line : Nat
  col : Nat
  resps : List (Option Resp)

/-- extractor.go:1344-1351 `fragment`. -/
structure Frag where
  resp : Resp
  chain : String
  site : String
  caller : String
  file : String
  line : Nat
  col : Nat
  deriving DecidableEq, Repr

/-- extractor.go:1363-1365, 1366-1370, 1378: which extracted entries become fragments,
with unknown statuses normalised and the position filled in. -/
def fragOf (c : Candidate) (r : Option Resp) : Option Frag :=
  match r with
  | none => none
  | some r =>
    if r.bodyType = "" ∧ r.status < 100 ∧ r.statusUnresolved = false then none
    else some ⟨{ r with status := if r.status < 0 then -1 else r.status, file := c.file, line := c.line },
      c.chain, c.site, c.caller, c.file, c.line, c.col⟩

/-- extractor.go:1371: the dedupe key. (The code joins the four parts with a separator
that cannot occur in them; the model keeps them apart.) -/
def Frag.key (f : Frag) : String × String × Int × String := (f.chain, f.site, f.resp.status, f.resp.bodyType)

/-- extractor.go:1384-1392: order by source position. -/
def posLe (a b : Frag) : Bool :=
  if a.file ≠ b.file then decide (a.file < b.file)
  else if a.line ≠ b.line then decide (a.line < b.line)
  else decide (a.col ≤ b.col)

/-- extractor.go:1354-1392: the fragments in the order they are paired. -/
def fragments (cands : List Candidate) : List Frag :=
  isort posLe (dedupBy Frag.key (cands.flatMap fun c => c.resps.filterMap (fragOf c)))

/-- extractor.go:1395: `fmt.Sprintf("%d", status)`. -/
def slot (status : Int) : String := status.repr

abbrev RespMap := List (String × Resp)

/-- extractor.go:1396-1406: what a slot holds after storing `r` into it. -/
def storeIn (existing : Option Resp) (r : Resp) : Resp :=
  match existing with
  | none => r
  | some e =>
    if e.bodyType = "" ∧ r.bodyType ≠ "" then r
    else if e.bodyType ≠ "" ∧ r.bodyType = "" then e
    else pickResp e r

/-- extractor.go:1394-1407 `store`. -/
def store (m : RespMap) (r : Resp) : RespMap := mset m (slot r.status) (storeIn (mget m (slot r.status)) r)

/-- extractor.go:1421. -/
def Frag.known (f : Frag) : Bool := decide (100 ≤ f.resp.status) && decide (f.resp.status < 600)

structure PairState where
  resps : RespMap
  pending : List (String × Int)     -- chain ↦ status waiting for its body
  unresolved : List String          -- chains with an unreadable status write
  unpaired : List Frag

/-- extractor.go:1419-1446: one fragment. -/
def pairStep (st : PairState) (f : Frag) : PairState :=
  if f.known && f.resp.bodyType == "" then
    { st with resps := store st.resps f.resp, pending := mset st.pending f.chain f.resp.status }
  else if f.known then { st with resps := store st.resps f.resp }
  else if f.resp.statusUnresolved then { st with unresolved := f.chain :: st.unresolved }
  else if f.resp.bodyType ≠ "" then
    let r := if f.chain ∈ st.unresolved then { f.resp with implicit := 0 } else f.resp
    match mget st.pending f.chain with
    | some s => { st with resps := store st.resps { r with status := s }, pending := mdel st.pending f.chain }
    | none => { st with unpaired := st.unpaired ++ [{ f with resp := r }] }
  else st

/-- extractor.go:1459-1464 `depthOf`; `depths` is the result of `handlerCallDepths`. -/
def depthOf (depths : String → Option Nat) (f : Frag) : Nat := (depths f.caller).getD (2 ^ 20)

/-- extractor.go:1465-1470: the smallest depth (0 when there is nothing). -/
def minDepth (depths : String → Option Nat) : List Frag → Nat
  | [] => 0
  | [f] => depthOf depths f
  | f :: g :: fs => min (depthOf depths f) (minDepth depths (g :: fs))

/-- extractor.go:1471-1488. `n` is the counter `unknown`. -/
def storeUnpaired (m : RespMap) (n : Nat) : List Frag → RespMap
  | [] => m
  | f :: fs =>
    if f.resp.implicit > 0 then storeUnpaired (store m { f.resp with status := f.resp.implicit }) n fs
    else storeUnpaired (store m { f.resp with status := -((n : Int) + 1) }) (n + 1) fs

/-- extractor.go:1343-1490 `pairAndFillResponses`. -/
def pairAndFill (depths : String → Option Nat) (saved : RespMap) (cands : List Candidate) : RespMap :=
  let st := (fragments cands).foldl pairStep ⟨saved, [], [], []⟩
  storeUnpaired st.resps 0
    (st.unpaired.filter fun f => decide (depthOf depths f = minDepth depths st.unpaired))

/-! ## The responses section -/

/-- mapper.go:668-678 `isGenericObjectResponse`. -/
def genericObject (r : Resp) : Bool :=
  match r.schema with
  | none => true
  | some s =>
    if s.hasRef || s.hasProperties || s.hasAllOf || s.hasOneOf || s.hasAnyOf || s.hasItems || s.hasAdditional then false
    else s.type == "" || s.type == "object"

/-- mapper.go:656-663 `sameRenderedBody`. -/
def sameBody (a b : Option Schema) : Bool :=
  match a, b with
  | none, none => true
  | some a, some b => a.rendered == b.rendered
  | _, _ => false

/-- mapper.go:641-651 `uninformativeDefault`. -/
def uninformativeDefault (d : Resp) (chosen : RespMap) : Bool :=
  genericObject d || chosen.any fun x => decide (x.1 ≠ "default") && sameBody x.2.schema d.schema

/-- mapper.go:876-878 `isBodylessStatus`. -/
def isBodyless (code : Int) : Bool :=
  (decide (100 ≤ code) && decide (code < 200)) || code == 204 || code == 205 || code == 304

/-- mapper.go:818-829: one key of the sorted walk. -/
def chooseStep (chosen : RespMap) (kr : String × Resp) : RespMap :=
  if kr.2.status < 0 then
    mset chosen "default" (match mget chosen "default" with
      | none => kr.2
      | some c => pickResp c kr.2)
  else mset chosen kr.1 kr.2

/-- The walk in ascending key order (mapper.go:811-818). -/
def sortedEntries (m : RespMap) : RespMap := isort (fun a b => strLe a.1 b.1) m

/-- A rendered response: description text and content (media type, schema). -/
structure Out where
  description : String
  content : Option (String × Option Schema)
  deriving DecidableEq, Repr

/-- mapper.go:845-866; `statusText` is `http.StatusText`. -/
def render (statusText : Int → String) (r : Resp) : Out :=
  let d := if r.status < 0 ∨ statusText r.status = "" then "Status code could not be determined" else statusText r.status
  if isBodyless r.status then ⟨d, none⟩ else ⟨d, some (r.contentType, r.schema)⟩

/-- mapper.go:817-842: the chosen response per status key. -/
def chosenResponses (m : RespMap) : RespMap :=
  let chosen := (sortedEntries m).foldl chooseStep []
  match mget chosen "default" with
  | some d => if chosen.length > 1 && uninformativeDefault d chosen then mdel chosen "default" else chosen
  | none => chosen

/-- mapper.go:787-870 `buildResponses`. -/
def buildResponses (statusText : Int → String) (m : RespMap) : List (String × Out) :=
  if m = [] then
    [("default", ⟨"Default response (no response found)", some ("application/json", some { type := "object" })⟩)]
  else (chosenResponses m).map fun x => (x.1, render statusText x.2)

/-! ## Merging two extractions of one route -/

/-- The part of `RouteInfo` that `mergeRouteExtraction` writes; parameters, tags and
security requirements are opaque. -/
structure Ext (π τ ς : Type) where
  used : List (String × Option Schema) := []
  response : RespMap := []
  request : Option Req := none
  params : List π := []
  tags : List τ := []
  security : Option (List ς) := none   -- none = nil (inherit), some [] = explicitly public

/-- extractor.go:1007-1009: one entry of `next.UsedTypes`. -/
def mergeUsedStep (m : List (String × Option Schema)) (e : String × Option Schema) : List (String × Option Schema) :=
  match mget m e.1 with
  | some (some _) => m
  | _ => mset m e.1 e.2

/-- extractor.go:1012: one slot of `next.Response` (values are never nil). -/
def mergeRespStep (m : RespMap) (e : String × Resp) : RespMap :=
  mset m e.1 (match mget m e.1 with | none => e.2 | some c => pickResp c e.2)

/-- extractor.go:997-1024 `mergeRouteExtraction`. -/
def mergeExt {π τ ς} (existing next : Ext π τ ς) : Ext π τ ς where
  used := next.used.foldl mergeUsedStep existing.used
  response := next.response.foldl mergeRespStep existing.response
  request := preferReq existing.request next.request
  params := if existing.params.length = 0 then next.params else existing.params
  tags := if existing.tags.length = 0 then next.tags else existing.tags
  security := if (existing.security.getD []).length = 0 then next.security else existing.security

end Verif.Responses
