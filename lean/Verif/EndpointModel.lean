import Verif.BrowseModel
/-!
# Model: the report about one endpoint

`operationFor`, the part of `BuildEndpointWithSource` that repeats the document, `firstContent` and `shortName`
(internal/insight/endpoint.go:87-105, 136-191, 492-500, 544-552).

Simplified: Go maps are lists in the order in which they are walked; the summary of a schema is a parameter; tags, issues
and the trace are left out.  `sort.Strings` is a parameter too.
-/

namespace Verif.Endpoint

abbrev Str := List Char

/-- A Go map from content type to schema, in the order it is walked; the schema may be missing. -/
abbrev Content (S : Type) := List (Str × Option S)

structure Param (S : Type) where
  name : Str
  place : Str
  required : Bool
  schema : Option S

structure Op (S : Type) where
  id : Str
  summary : Str
  body : Option (Content S × Bool)
  responses : List (Str × Content S)
  params : List (Param S)

structure PathItem (S : Type) where
  get : Option (Op S)
  post : Option (Op S)
  put : Option (Op S)
  delete : Option (Op S)
  patch : Option (Op S)
  options : Option (Op S)
  head : Option (Op S)
  params : List (Param S)

structure Report where
  found : Bool
  method : Str
  handler : Str
  summary : Str
  request : Option (Str × Str × Bool)
  responses : List (Str × Str × Str)
  params : List (Str × Str × Bool × Str)
deriving DecidableEq

/-- endpoint.go:87-105; the method is in upper case already. -/
def operationFor {S : Type} (pi : PathItem S) (method : Str) : Option (Op S) :=
  if method = "GET".toList then pi.get
  else if method = "POST".toList then pi.post
  else if method = "PUT".toList then pi.put
  else if method = "DELETE".toList then pi.delete
  else if method = "PATCH".toList then pi.patch
  else if method = "OPTIONS".toList then pi.options
  else if method = "HEAD".toList then pi.head
  else none

def json : Str := "application/json".toList

/-- endpoint.go:492-500 -/
def firstContent {S : Type} (content : Content S) : Str × Option S :=
  match content.lookup json with
  | some mt => (json, mt)
  | none =>
    match content with
    | [] => ([], none)
    | (ct, mt) :: _ => (ct, mt)

/-- endpoint.go:506-508: a missing schema has an empty summary. -/
def summaryOf {S : Type} (sum : S → Str) : Option S → Str
  | none => []
  | some s => sum s

/-- endpoint.go:164-169 -/
def requestOf {S : Type} (sum : S → Str) : Option (Content S × Bool) → Option (Str × Str × Bool)
  | none => none
  | some (content, required) =>
    if (firstContent content).1 ≠ [] then some ((firstContent content).1, summaryOf sum (firstContent content).2, required) else none

/-- endpoint.go:171-180 -/
def responsesOf {S : Type} (sum : S → Str) (sortS : List Str → List Str) (rs : List (Str × Content S)) : List (Str × Str × Str) :=
  (sortS (rs.map (·.1))).map fun st =>
    let c := (rs.lookup st).getD []
    (st, (firstContent c).1, summaryOf sum (firstContent c).2)

/-- endpoint.go:182-186 -/
def paramsOf {S : Type} (sum : S → Str) (path op : List (Param S)) : List (Str × Str × Bool × Str) :=
  (path ++ op).map fun p => (p.name, p.place, p.required, summaryOf sum p.schema)

/-- endpoint.go:136-186; `method` in upper case. -/
def buildEndpoint {S : Type} (sum : S → Str) (sortS : List Str → List Str) (paths : List (Str × PathItem S)) (method path : Str) : Report :=
  match paths.lookup path with
  | none => ⟨false, method, [], [], none, [], []⟩
  | some pi =>
    match operationFor pi method with
    | none => ⟨false, method, [], [], none, [], []⟩
    | some op => ⟨true, method, op.id, op.summary, requestOf sum op.body, responsesOf sum sortS op.responses, paramsOf sum pi.params op.params⟩

/-- The part of a text after the last of a character; none if it is not there. -/
def afterLast (ch : Char) (s : Str) : Option Str :=
  if ch ∈ s then some (s.reverse.takeWhile (fun c => decide (c ≠ ch))).reverse else none

/-- endpoint.go:544-552 -/
def shortName (s : Str) : Str :=
  match afterLast '_' s with
  | some n => n
  | none => (afterLast '.' s).getD s

end Verif.Endpoint
