import Verif.Common
/-!
# Model: references in the OpenAPI document and their repair

Models `internal/spec/refcheck.go` over the document types of
`internal/spec/openapi.go`.

Pointers matter here: `*Schema` values are shared between operations and may be
cyclic, and the walk guards itself with an on-path set of *pointers*.  So schemas
live in a heap and a pointer is an index into it.
-/

namespace Verif.Refs
open Verif.Common

/-- A `*Schema`: `none` is nil, `some a` points at heap cell `a`. -/
abbrev Ptr := Option Nat

/-- openapi.go:142-178 `Schema`, restricted to `$ref` and to the fields that hold
schemas.  `info` stands for all remaining scalar fields (type, description, …),
which the walk never looks at. Properties is a Go map: a list in arbitrary order. -/
structure Schema where
  ref : List Char := []
  properties : List (String × Ptr) := []
  items : Ptr := none
  additionalProperties : Ptr := none
  not : Ptr := none
  allOf : List Ptr := []
  oneOf : List Ptr := []
  anyOf : List Ptr := []
  info : String := ""
  deriving DecidableEq, Repr

abbrev Heap := List Schema

/-- openapi.go:100-109 `Parameter`. -/
structure Parameter where
  ref : List Char := []
  schema : Ptr := none
  deriving DecidableEq, Repr

/-- openapi.go:127-131 `Header`. -/
structure Header where
  schema : Ptr := none
  deriving DecidableEq, Repr

/-- openapi.go:134-139 `MediaType`. `Encoding` (whose headers could carry schemas)
is left out: no code in /repo ever fills it in. -/
structure MediaType where
  schema : Ptr := none
  deriving DecidableEq, Repr

/-- openapi.go:112-116 `RequestBody`. -/
structure RequestBody where
  content : List (String × MediaType) := []
  deriving DecidableEq, Repr

/-- openapi.go:119-124 `Response`. -/
structure Response where
  headers : List (String × Header) := []
  content : List (String × MediaType) := []
  deriving DecidableEq, Repr

/-- openapi.go:82-97 `Operation`. -/
structure Operation where
  parameters : List Parameter := []
  requestBody : Option RequestBody := none
  responses : List (String × Response) := []
  deriving DecidableEq, Repr

/-- openapi.go:67-79 `PathItem`. -/
structure PathItem where
  get : Option Operation := none
  post : Option Operation := none
  put : Option Operation := none
  delete : Option Operation := none
  patch : Option Operation := none
  options : Option Operation := none
  head : Option Operation := none
  parameters : List Parameter := []
  deriving DecidableEq, Repr

/-- openapi.go:223-233 `Components`; the pointer-valued maps may hold nil. -/
structure Components where
  schemas : List (String × Ptr) := []
  responses : List (String × Option Response) := []
  parameters : List (String × Option Parameter) := []
  requestBodies : List (String × Option RequestBody) := []
  headers : List (String × Option Header) := []
  deriving DecidableEq, Repr

/-- openapi.go:18-27 `OpenAPISpec`, with the heap its pointers point into.
`components` is a pointer in Go, hence the `Option`. -/
structure Doc where
  heap : Heap := []
  paths : List (String × PathItem) := []
  components : Option Components := none
  deriving DecidableEq, Repr

/-- mapper.go:39 `refComponentsSchemasPrefix`. -/
def refPrefix : List Char := "#/components/schemas/".toList

/-- refcheck.go:254-263 `componentSchemaName`. -/
def componentSchemaName (ref : List Char) : Option String :=
  if ref = [] ∨ ¬ (refPrefix.isPrefixOf ref) then none
  else
    let name := ref.drop refPrefix.length
    if name = [] then none else some (String.ofList name)

/-- refcheck.go:167-177: the schema-valued fields of one schema in walk order. -/
def kids (s : Schema) : List Ptr :=
  s.properties.map Prod.snd ++ [s.items, s.additionalProperties, s.not] ++
    s.allOf ++ s.oneOf ++ s.anyOf

/-- refcheck.go:164-166: the name visited for this schema itself. -/
def ownName (s : Schema) : List String := (componentSchemaName s.ref).toList

/-- refcheck.go:156-178 `walk`.  The result is the list of names passed to `visit`.
`fuel` bounds the recursion; with `fuel > heap.length` it is never the reason the
walk stops (`walk_complete` in RefsProps shows nothing is missed), because the
on-path set holds distinct heap cells. -/
def walk (h : Heap) : Nat → List Nat → Ptr → List String
  | 0, _, _ => []
  | fuel + 1, onPath, p =>
    match p with
    | none => []
    | some a =>
      if a ∈ onPath then []
      else match h[a]? with
        | none => []
        | some s => ownName s ++ (kids s).flatMap (fun k => walk h fuel (a :: onPath) k)

/-- One top-level call `walk(s)` with an empty on-path set. -/
def walkTop (h : Heap) (p : Ptr) : List String := walk h (h.length + 1) [] p

/-- refcheck.go:180-187 `walkParams`. -/
def walkParams (h : Heap) (ps : List Parameter) : List String :=
  ps.flatMap fun p => (componentSchemaName p.ref).toList ++ walkTop h p.schema

/-- refcheck.go:188-192 `walkContent`. -/
def walkContent (h : Heap) (c : List (String × MediaType)) : List String :=
  c.flatMap fun m => walkTop h m.2.schema

/-- refcheck.go:239-241 / 195-198: content then headers of one response. -/
def walkResponse (h : Heap) (r : Response) : List String :=
  walkContent h r.content ++ r.headers.flatMap fun x => walkTop h x.2.schema

/-- refcheck.go:193-200 `walkResponses`. -/
def walkResponses (h : Heap) (rs : List (String × Response)) : List String :=
  rs.flatMap fun r => walkResponse h r.2

/-- The `if x == nil { continue }` guards of refcheck.go:205-207, 209, 223-248. -/
def onSome {α : Type} (f : α → List String) : Option α → List String
  | none => []
  | some x => f x

/-- refcheck.go:208-212: one operation. -/
def walkOperation (h : Heap) (op : Operation) : List String :=
  walkParams h op.parameters ++
    onSome (fun rb => walkContent h rb.content) op.requestBody ++
    walkResponses h op.responses

/-- refcheck.go:204: the operation slots in walk order. -/
def operations (i : PathItem) : List (Option Operation) :=
  [i.get, i.post, i.put, i.delete, i.patch, i.head, i.options]

/-- refcheck.go:202-214: one path item. -/
def walkPathItem (h : Heap) (i : PathItem) : List String :=
  walkParams h i.parameters ++ (operations i).flatMap (onSome (walkOperation h))

/-- refcheck.go:219-248: the components section. -/
def walkComponents (h : Heap) (c : Components) : List String :=
  (c.schemas.flatMap fun s => walkTop h s.2) ++
  (c.parameters.flatMap fun x => onSome (fun p => walkTop h p.schema) x.2) ++
  (c.requestBodies.flatMap fun x => onSome (fun rb => walkContent h rb.content) x.2) ++
  (c.responses.flatMap fun x => onSome (fun r => walkResponse h r) x.2) ++
  (c.headers.flatMap fun x => onSome (fun x => walkTop h x.schema) x.2)

/-- refcheck.go:147-249 `forEachSchemaRef`: every name visited, with multiplicity. -/
def refNames (d : Doc) : List String :=
  (d.paths.flatMap fun p => walkPathItem d.heap p.2) ++
  onSome (walkComponents d.heap) d.components

/-- refcheck.go:63-68 `defined`. -/
def definedNames (d : Doc) : List String :=
  match d.components with
  | none => []
  | some c => c.schemas.map Prod.fst

/-- refcheck.go:57-81: the sorted list of referenced but undefined names.
(`counts` has each referenced name once as a key, hence the `dedup`.) -/
def missingNames (d : Doc) : List String :=
  sortStrings ((dedup (refNames d)).filter (fun n => decide (n ∉ definedNames d)))

/-- refcheck.go:24-35 `UnresolvedRef`. -/
structure UnresolvedRef where
  component : String
  goType : String
  sites : Nat
  deriving DecidableEq, Repr

/-- mapper.go:63-68 `unresolvedExternalPlaceholder`: an object schema with no
references, described by `name`. -/
def placeholder (name : String) : Schema :=
  { info := "type: object; description: External or unresolved type: " ++ name }

/-- refcheck.go:94-98: the text the placeholder is described with. -/
def described (goTypes : String → String) (name : String) : String :=
  if goTypes name = "" then name else goTypes name

/-- refcheck.go:92-101: allocate a placeholder for each missing name (a fresh heap
cell per `&Schema{…}`) and register it in components.schemas. -/
def addPlaceholders (goTypes : String → String) : List String → Heap → List (String × Ptr) →
    Heap × List (String × Ptr)
  | [], h, cs => (h, cs)
  | n :: ns, h, cs =>
    addPlaceholders goTypes ns (h ++ [placeholder (described goTypes n)]) (cs ++ [(n, some h.length)])

/-- refcheck.go:52-103 `repairDanglingRefs` for a non-nil document.  `goTypes` is
the result of `goTypeByComponentName` (absent key = `""`).  Registering a missing
name appends to the association list: the name is not a key yet, so this is what
the Go map assignment does. -/
def repair (goTypes : String → String) (d : Doc) : Doc × List UnresolvedRef :=
  if refNames d = [] then (d, [])
  else
    let missing := missingNames d
    if missing = [] then (d, [])
    else
      let c := d.components.getD {}
      let r := addPlaceholders goTypes missing d.heap c.schemas
      ({ d with heap := r.1, components := some { c with schemas := r.2 } },
        missing.map fun n => ⟨n, goTypes n, (refNames d).count n⟩)

/-! ## goTypeByComponentName -/

/-- refcheck.go:120 `strings.TrimPrefix(goType, "*")`. -/
def bareType (t : List Char) : List Char :=
  match t with
  | '*' :: r => r
  | t => t

/-- One iteration of refcheck.go:116-132. State: (`out` as an association list with
at most one entry per name, `ambiguous`). `mangle` is the component-name replacer. -/
def goTypeStep (mangle : List Char → String) (st : List (String × List Char) × List String)
    (goType : List Char) : List (String × List Char) × List String :=
  let bare := bareType goType
  let name := mangle bare
  match st.1.lookup name with
  | some prev => if prev ≠ bare then (st.1, name :: st.2) else st
  | none => ((name, bare) :: st.1, st.2)

/-- refcheck.go:109-138 `goTypeByComponentName`, over the used types in whatever
order the map yields them. -/
def goTypeByComponentName (mangle : List Char → String) (usedTypes : List (List Char))
    (name : String) : Option (List Char) :=
  let st := usedTypes.foldl (goTypeStep mangle) ([], [])
  if name ∈ st.2 then none else st.1.lookup name

end Verif.Refs
