import Verif.RefsModel
/-!
# Specification: what it means for a document to refer to a component

Written without using the walk of the model.  A document *refers to* `name` if,
starting from some place of the document that holds a schema and following any
number of schema-valued fields, one arrives at a schema whose `$ref` is
`#/components/schemas/name`, or if a parameter carries such a `$ref` itself.
-/

namespace Verif.Refs

/-- The text of a reference to component `name`. -/
def refText (name : String) : List Char := "#/components/schemas/".toList ++ name.toList

/-- `ref` is a reference to the component schema `name`. -/
def IsRefTo (ref : List Char) (name : String) : Prop := name ≠ "" ∧ ref = refText name

/-- Schema `s` holds pointer `p` in one of its schema-valued fields. -/
def Holds (s : Schema) (p : Ptr) : Prop :=
  p ∈ s.allOf ∨ p ∈ s.oneOf ∨ p ∈ s.anyOf ∨ s.not = p ∨ s.items = p ∨
  (∃ k, (k, p) ∈ s.properties) ∨ s.additionalProperties = p

/-- Cell `a` points at cell `b`. -/
def Edge (h : Heap) (a b : Nat) : Prop := ∃ s, h[a]? = some s ∧ Holds s (some b)

/-- Any number of pointer steps. -/
inductive Reach (h : Heap) : Nat → Nat → Prop
  | refl (a) : Reach h a a
  | step {a b c} : Edge h a b → Reach h b c → Reach h a c

/-- A parameter that occurs (non-nil) in a path item. -/
def ItemParam (i : PathItem) (p : Parameter) : Prop :=
  p ∈ i.parameters ∨ ∃ op : Operation, p ∈ op.parameters ∧
    (i.get = some op ∨ i.post = some op ∨ i.put = some op ∨ i.delete = some op ∨
     i.patch = some op ∨ i.options = some op ∨ i.head = some op)

/-- An operation that occurs in a path item. -/
def ItemOp (i : PathItem) (op : Operation) : Prop :=
  i.get = some op ∨ i.post = some op ∨ i.put = some op ∨ i.delete = some op ∨
  i.patch = some op ∨ i.options = some op ∨ i.head = some op

/-- A response holds a schema pointer. -/
def ResponseHolds (r : Response) (p : Ptr) : Prop :=
  (∃ k m, (k, m) ∈ r.content ∧ m.schema = p) ∨ (∃ k x, (k, x) ∈ r.headers ∧ x.schema = p)

/-- A request body holds a schema pointer. -/
def BodyHolds (b : RequestBody) (p : Ptr) : Prop := ∃ k m, (k, m) ∈ b.content ∧ m.schema = p

/-- The places of a document (outside schemas) that hold a schema. -/
def Root (d : Doc) (p : Ptr) : Prop :=
  (∃ path i q, (path, i) ∈ d.paths ∧ ItemParam i q ∧ q.schema = p) ∨
  (∃ path i op b, (path, i) ∈ d.paths ∧ ItemOp i op ∧ op.requestBody = some b ∧ BodyHolds b p) ∨
  (∃ path i op st r, (path, i) ∈ d.paths ∧ ItemOp i op ∧ (st, r) ∈ op.responses ∧ ResponseHolds r p) ∨
  (∃ c, d.components = some c ∧
    ((∃ k, (k, p) ∈ c.schemas) ∨
     (∃ k q, (k, some q) ∈ c.parameters ∧ q.schema = p) ∨
     (∃ k b, (k, some b) ∈ c.requestBodies ∧ BodyHolds b p) ∨
     (∃ k r, (k, some r) ∈ c.responses ∧ ResponseHolds r p) ∨
     (∃ k x, (k, some x) ∈ c.headers ∧ x.schema = p)))

/-- The document refers to component schema `name`. -/
def RefersTo (d : Doc) (name : String) : Prop :=
  (∃ a b s, Root d (some a) ∧ Reach d.heap a b ∧ d.heap[b]? = some s ∧ IsRefTo s.ref name) ∨
  (∃ path i q, (path, i) ∈ d.paths ∧ ItemParam i q ∧ IsRefTo q.ref name)

/-- The document defines component schema `name`. -/
def Defines (d : Doc) (name : String) : Prop :=
  ∃ c p, d.components = some c ∧ (name, p) ∈ c.schemas

/-- Every pointer of the document points into its heap: true of any Go value. -/
def PtrOk (h : Heap) (p : Ptr) : Prop := ∀ a, p = some a → a < h.length
def WellFormed (d : Doc) : Prop :=
  (∀ p, Root d p → PtrOk d.heap p) ∧
  (∀ (a : Nat) (s : Schema) (p : Ptr), d.heap[a]? = some s → Holds s p → PtrOk d.heap p)

/-! ## Counting places

`serial h n p` lists the names referred to by the serialized (fully unfolded) form
of the schema at `p`, down to depth `n`; `finite h n p` says the unfolding is
complete at depth `n`, i.e. the serialized form is a finite text. Fields are
listed in declaration order of openapi.go, which is not the order of the walk. -/

def nameOf (ref : List Char) : List String :=
  if "#/components/schemas/".toList.isPrefixOf ref ∧ ref.length > 21 then
    [String.ofList (ref.drop 21)] else []

def fields (s : Schema) : List Ptr :=
  s.allOf ++ s.oneOf ++ s.anyOf ++ [s.not, s.items] ++ s.properties.map Prod.snd ++
    [s.additionalProperties]

def finite (h : Heap) : Nat → Ptr → Bool
  | _, none => true
  | 0, some _ => false
  | n + 1, some a =>
    match h[a]? with
    | none => true
    | some s => (fields s).all (finite h n)

def serial (h : Heap) : Nat → Ptr → List String
  | _, none => []
  | 0, some _ => []
  | n + 1, some a =>
    match h[a]? with
    | none => []
    | some s => nameOf s.ref ++ (fields s).flatMap (serial h n)

def paramsNames (h : Heap) (n : Nat) (ps : List Parameter) : List String :=
  ps.flatMap fun p => nameOf p.ref ++ serial h n p.schema

def contentNames (h : Heap) (n : Nat) (c : List (String × MediaType)) : List String :=
  c.flatMap fun m => serial h n m.2.schema

def responseNames (h : Heap) (n : Nat) (r : Response) : List String :=
  (r.headers.flatMap fun x => serial h n x.2.schema) ++ contentNames h n r.content

def operationNames (h : Heap) (n : Nat) (slot : Option Operation) : List String :=
  slot.toList.flatMap fun op => paramsNames h n op.parameters ++
      (op.requestBody.toList.flatMap fun b => contentNames h n b.content) ++
      op.responses.flatMap fun r => responseNames h n r.2

/-- All reference occurrences of the serialized document, in the order of the
struct declarations. -/
def serialDoc (d : Doc) (n : Nat) : List String :=
  (d.paths.flatMap fun (_, i) =>
    operationNames d.heap n i.get ++ operationNames d.heap n i.post ++
    operationNames d.heap n i.put ++ operationNames d.heap n i.delete ++
    operationNames d.heap n i.patch ++ operationNames d.heap n i.options ++
    operationNames d.heap n i.head ++ paramsNames d.heap n i.parameters) ++
  (d.components.toList.flatMap fun c =>
     (c.schemas.flatMap fun s => serial d.heap n s.2) ++
     (c.responses.flatMap fun e => e.2.toList.flatMap fun x => responseNames d.heap n x) ++
     (c.parameters.flatMap fun e => e.2.toList.flatMap fun x => serial d.heap n x.schema) ++
     (c.requestBodies.flatMap fun e => e.2.toList.flatMap fun x => contentNames d.heap n x.content) ++
     (c.headers.flatMap fun e => e.2.toList.flatMap fun x => serial d.heap n x.schema))

/-- `t` is the type `u` names, without the leading `*` if `u` is a pointer type. -/
def BareOf (u t : List Char) : Prop := u = '*' :: t ∨ (u = t ∧ t.head? ≠ some '*')

end Verif.Refs
