import Verif.SchemaShapeProps

/-!
# C75: the values that are sent conform to the documented schemas

JSON values, the values `encoding/json` writes for a Go type, and the values a schema
admits are specified apart from the generator.  The generated document is then shown to
admit every value of every type of a route.
-/

namespace Verif.SchemaGen

open Verif.Common

/-! ## Specification -/

/-- A JSON value.  Numbers are told apart by whether they are whole. -/
inductive J where
  | null
  | bool (b : Bool)
  | int (z : Int)
  | dec (digits : String)
  | str (s : String)
  | arr (js : List J)
  | obj (fs : List (String × J))

/-- There is no `null` in the value. -/
inductive Whole : J → Prop where
  | bool {b} : Whole (.bool b)
  | int {z} : Whole (.int z)
  | dec {d} : Whole (.dec d)
  | str {s} : Whole (.str s)
  | arr {js} : (∀ j ∈ js, Whole j) → Whole (.arr js)
  | obj {fs} : (∀ e ∈ fs, Whole e.2) → Whole (.obj fs)

/-- The properties of an object schema. -/
def Schema.props : Schema → List (String × Schema)
  | .prop l s r => (l, s) :: r.props
  | _ => []

/-- The value conforms to the schema, as OpenAPI has it; an object schema with
properties is read strictly: the value has no others.  `comps` are the components. -/
inductive Conforms (comps : Comps) : Schema → J → Prop where
  | ref {t q j} : mget comps t = some q → Conforms comps q j → Conforms comps (.ref t) j
  | string {k s} : k ∈ ["string", "date-time", "byte"] → Conforms comps (.scalar k) (.str s)
  | integer {z} : Conforms comps (.scalar "integer") (.int z)
  /-- `{type: integer, minimum: 0}`. -/
  | natural {z} : 0 ≤ z → Conforms comps (.scalar "natural") (.int z)
  | number {z} : Conforms comps (.scalar "number") (.int z)
  | fraction {d} : Conforms comps (.scalar "number") (.dec d)
  | boolean {b} : Conforms comps (.scalar "boolean") (.bool b)
  | obj {fs} : Conforms comps .obj (.obj fs)
  | hole {t fs} : Conforms comps (.hole t) (.obj fs)
  | props {l s r fs} :
      (∀ e ∈ fs, ∃ s', (e.1, s') ∈ (Schema.prop l s r).props) →
      (∀ e ∈ fs, ∀ s', (e.1, s') ∈ (Schema.prop l s r).props → Conforms comps s' e.2) →
      Conforms comps (.prop l s r) (.obj fs)
  | array {q js} : (∀ j ∈ js, Conforms comps q j) → Conforms comps (.array q) (.arr js)
  | mapOf {q fs} : (∀ e ∈ fs, Conforms comps q e.2) → Conforms comps (.mapOf q) (.obj fs)

/-- What the program's types do not tell: how the values found in interfaces are written,
and those of types declared elsewhere. -/
structure World where
  free : J → Prop
  own : String → String → J → Prop

/-- A value of a builtin type, written as JSON. -/
inductive Written (w : World) : String → J → Prop where
  | string {s} : Written w "string" (.str s)
  | int {n z} : n ∈ ["int", "int8", "int16", "int32", "int64", "rune"] → Written w n (.int z)
  | nat {n z} : n ∈ ["uint", "uint8", "uint16", "uint32", "uint64", "byte"] → 0 ≤ z →
      Written w n (.int z)
  | float {n z} : n ∈ ["float32", "float64"] → Written w n (.int z)
  | fraction {n d} : n ∈ ["float32", "float64"] → Written w n (.dec d)
  | bool {b} : Written w "bool" (.bool b)
  | time {s} : Written w "time.Time" (.str s)
  | free {n j} : n ∈ ["interface{}", "any"] → w.free j → Written w n j
  | nil {n} : n ∈ ["interface{}", "any"] → Written w n .null
  | empty : Written w "struct{}" (.obj [])

/-- Something that has values: a type, a declaration, a struct's fields in a package. -/
inductive Thing where
  | ty (t : Ty)
  | decl (d : Decl)
  | body (pkg : String) (b : Body)

/-- The fields of an inline struct. -/
def Ty.fields : Ty → List (String × Thing)
  | .fld l t r => (l, .ty t) :: r.fields
  | _ => []

/-- The fields of a declared struct. -/
def Body.fields (pkg : String) : Body → List (String × Thing)
  | .done => []
  | .field l t r => (l, .ty (within pkg t)) :: r.fields pkg
  | .sub l _ i r => (l, .body pkg i) :: r.fields pkg

/-- `encoding/json` may write a value of this type as this JSON value (for types without
a `MarshalJSON` method).  Of a struct's fields any may be left out (`omitempty`): a
written field is its label, its type and its value. -/
inductive Enc (c : Ctx) (w : World) : Thing → J → Prop where
  | prim {n j} : Written w n j → Enc c w (.ty (.prim n)) j
  | declared {p b d j} : c.find p b = some d → Enc c w (.decl d) j → Enc c w (.ty (.name p b)) j
  | foreign {p b j} : c.find p b = none → w.own p b j → Enc c w (.ty (.name p b)) j
  | nilPtr {e} : Enc c w (.ty (.ptr e)) .null
  | ptr {e j} : Enc c w (.ty e) j → Enc c w (.ty (.ptr e)) j
  | nilSlice {e} : Enc c w (.ty (.slice e)) .null
  | bytes {e s} : IsByte c e → Enc c w (.ty (.slice e)) (.str s)
  | slice {e js} : ¬ IsByte c e → (∀ j ∈ js, Enc c w (.ty e) j) →
      Enc c w (.ty (.slice e)) (.arr js)
  | arr {n e js} : (∀ j ∈ js, Enc c w (.ty e) j) → Enc c w (.ty (.arr n e)) (.arr js)
  | nilMap {k v} : Enc c w (.ty (.map k v)) .null
  | map {k v fs} : (∀ e ∈ fs, Enc c w (.ty v) e.2) → Enc c w (.ty (.map k v)) (.obj fs)
  | lit : Enc c w (.ty .lit) (.obj [])
  | inline {l t r} {es : List (String × Thing × J)} :
      (∀ e ∈ es, (e.1, e.2.1) ∈ (Ty.fld l t r).fields) → (∀ e ∈ es, Enc c w e.2.1 e.2.2) →
      Enc c w (.ty (.fld l t r)) (.obj (es.map fun e => (e.1, e.2.2)))
  | struct {pkg b j} : Enc c w (.body pkg b) j → Enc c w (.decl (.struct pkg b)) j
  | nilIface : Enc c w (.decl .iface) .null
  | iface {j} : w.free j → Enc c w (.decl .iface) j
  | alias {pkg u j} : Enc c w (.ty (within pkg u.ty)) j → Enc c w (.decl (.alias pkg u)) j
  | other {pkg u j} : Enc c w (.ty (within pkg u)) j → Enc c w (.decl (.other pkg (some u))) j
  | unknown {pkg j} : w.free j → Enc c w (.decl (.other pkg none)) j
  | body {pkg b} {es : List (String × Thing × J)} :
      (∀ e ∈ es, (e.1, e.2.1) ∈ b.fields pkg) → (∀ e ∈ es, Enc c w e.2.1 e.2.2) →
      Enc c w (.body pkg b) (.obj (es.map fun e => (e.1, e.2.2)))

/-- What the tool cannot see is as it assumes: a value in an interface is written as an
object, and a type with a mapping, from the user or the table of known types, is written
as the mapping says. -/
structure Honest (c : Ctx) (w : World) : Prop where
  free : ∀ j, w.free j → ∃ fs, j = .obj fs
  told : ∀ t q, (c.conf t = some q ∨ c.extern t = some q ∨ c.extMap t = some q ∨
    c.extGen t = some q) → ∀ j, Enc c w (.ty t) j → Conforms [] q j

/-! ## Proof -/

theorem conforms_nil {comps : Comps} {q : Schema} {j : J} (h : Conforms [] q j) :
    Conforms comps q j := by
  induction h with
  | ref h => cases h
  | string h => exact .string h
  | integer => exact .integer
  | natural h => exact .natural h
  | number => exact .number
  | fraction => exact .fraction
  | boolean => exact .boolean
  | obj => exact .obj
  | hole => exact .hole
  | props h1 _ ih => exact .props h1 ih
  | array _ ih => exact .array ih
  | mapOf _ ih => exact .mapOf ih

def DescThing (c : Ctx) : Thing → Schema → Prop
  | .ty t, q => Desc c t q
  | .decl d, q => DescDecl c d q
  | .body pkg b, q => DescBody c pkg b q

def OkThing (c : Ctx) : Thing → Prop
  | .ty t => Tame t ∧ Straight c t
  | .decl d => (∀ t ∈ d.types, Tame t) ∧ d.exact c
  | .body pkg b => (∀ t ∈ b.types, Tame t) ∧ b.exact c pkg

theorem tame_within {pkg : String} {t : Ty} (h : Tame t) : Tame (within pkg t) := by
  induction t with
  | name p b => simp only [within]; split <;> exact h
  | ptr e ih => exact ih h
  | slice e ih => exact ih h
  | arr n e ih => exact ih h
  | map k v _ ih => exact ih h
  | fld l t r ih1 ih2 => exact ⟨ih1 h.1, ih2 h.2⟩
  | _ => exact h

/-- A schema's properties are the fields, and each field has one. -/
structure Lists (c : Ctx) (fs : List (String × Thing)) (q : Schema) : Prop where
  sound : ∀ k s, (k, s) ∈ q.props → ∃ u, (k, u) ∈ fs ∧ DescThing c u s
  full : ∀ k u, (k, u) ∈ fs → ∃ s, (k, s) ∈ q.props
  once : ∀ k u u', (k, u) ∈ fs → (k, u') ∈ fs → u = u'
  ok : ∀ k u, (k, u) ∈ fs → OkThing c u
  shape : q = .obj ∨ ∃ l s r, q = .prop l s r

theorem lists_cons {c : Ctx} {fs : List (String × Thing)} {o q : Schema} {l : String} {u : Thing}
    (h : Lists c fs o) (hu : DescThing c u q) (hok : OkThing c u) (hl : l ∉ fs.map Prod.fst) :
    Lists c ((l, u) :: fs) (.prop l q o) := by
  have hl' : ∀ u', (l, u') ∉ fs := fun u' hm => hl (List.mem_map.2 ⟨_, hm, rfl⟩)
  refine ⟨?_, ?_, ?_, ?_, Or.inr ⟨_, _, _, rfl⟩⟩
  · intro k s hm
    simp only [Schema.props, List.mem_cons, Prod.mk.injEq] at hm
    rcases hm with ⟨rfl, rfl⟩ | hm
    · exact ⟨u, List.mem_cons_self .., hu⟩
    · obtain ⟨v, h1, h2⟩ := h.sound k s hm
      exact ⟨v, List.mem_cons_of_mem _ h1, h2⟩
  · intro k v hm
    simp only [List.mem_cons, Prod.mk.injEq] at hm
    rcases hm with ⟨rfl, rfl⟩ | hm
    · exact ⟨q, List.mem_cons_self ..⟩
    · obtain ⟨s, hs⟩ := h.full k v hm
      exact ⟨s, List.mem_cons_of_mem _ hs⟩
  · intro k v v' h1 h2
    simp only [List.mem_cons, Prod.mk.injEq] at h1 h2
    rcases h1 with ⟨rfl, rfl⟩ | h1 <;> rcases h2 with ⟨e, rfl⟩ | h2
    · rfl
    · exact absurd h2 (hl' _)
    · subst e; exact absurd h1 (hl' _)
    · exact h.once k v v' h1 h2
  · intro k v hm
    simp only [List.mem_cons, Prod.mk.injEq] at hm
    rcases hm with ⟨rfl, rfl⟩ | hm
    · exact hok
    · exact h.ok k v hm

theorem lists_nil (c : Ctx) : Lists c [] .obj :=
  ⟨(by intro k s h; cases h), (by intro k u h; cases h), (by intro k u u' h; cases h),
    (by intro k u h; cases h), Or.inl rfl⟩

theorem ty_labels (t : Ty) : t.fields.map Prod.fst = t.labels := by
  induction t with
  | fld l t r _ ih => simp [Ty.fields, Ty.labels, ih]
  | _ => rfl

theorem body_labels (pkg : String) (b : Body) : (b.fields pkg).map Prod.fst = b.labels := by
  induction b with
  | done => rfl
  | field l t r ih => simp [Body.fields, Body.labels, ih]
  | sub l k i r _ ih => simp [Body.fields, Body.labels, ih]

theorem conf_inline {c : Ctx} (hT : PlainTable c) {t : Ty} (ht : ¬ Named t) :
    c.conf t = none ∧ c.extern t = none := by
  constructor
  · cases h : c.conf t with
    | none => rfl
    | some q => exact absurd (hT.conf t q h).1 ht
  · cases h : c.extern t with
    | none => rfl
    | some q => exact absurd (hT.extern t q h).1 ht

theorem lists_ty {c : Ctx} (hT : PlainTable c) {t : Ty} (hs : t = .lit ∨ ∃ l u r, t = .fld l u r) :
    ∀ {q : Schema}, Tame t → Straight c t → Desc c t q → Lists c t.fields q := by
  induction t with
  | lit =>
    intro q _ _ h
    obtain ⟨h1, h2⟩ := conf_inline hT (t := .lit) (by rintro (⟨p, b, h⟩ | ⟨n, h⟩) <;> cases h)
    cases h with
    | given h => rw [h1] at h; cases h
    | known _ h => rw [h2] at h; cases h
    | lit => exact lists_nil c
  | fld l u r _ ih =>
    intro q ht hst h
    obtain ⟨h1, h2⟩ := conf_inline hT (t := .fld l u r)
      (by rintro (⟨p, b, h⟩ | ⟨n, h⟩) <;> cases h)
    cases h with
    | given h => rw [h1] at h; cases h
    | known _ h => rw [h2] at h; cases h
    | fld ha hb =>
      refine lists_cons (ih hst.2.2.1 ht.2 hst.2.1 hb) ha ⟨ht.1, hst.1⟩ ?_
      rw [ty_labels]; exact hst.2.2.2.2.2
  | _ => rcases hs with h | ⟨_, _, _, h⟩ <;> cases h

theorem lists_body {c : Ctx} {pkg : String} {b : Body} :
    ∀ {q : Schema}, (∀ t ∈ b.types, Tame t) → b.exact c pkg → DescBody c pkg b q →
      Lists c (b.fields pkg) q := by
  induction b with
  | done => intro q _ _ h; cases h; exact lists_nil c
  | field l t r ih =>
    intro q ht hb h
    cases h with
    | field h1 h2 =>
      refine lists_cons (ih (fun x hx => ht x (List.mem_cons_of_mem _ hx)) hb.2.2 h2) h1
        ⟨tame_within (ht t (List.mem_cons_self ..)), hb.1.2.1⟩ ?_
      rw [body_labels]; exact hb.2.1
  | sub l k i r _ ih =>
    intro q ht hb h
    cases h with
    | sub h1 h2 =>
      refine lists_cons (ih (fun x hx => ht x (List.mem_append.2 (Or.inr hx))) hb.2.2 h2) h1
        ⟨fun x hx => ht x (List.mem_append.2 (Or.inl hx)), hb.1⟩ ?_
      rw [body_labels]; exact hb.2.1

theorem props_refs {q s : Schema} {k : String} (h : (k, s) ∈ q.props) : ∀ r ∈ s.refs, r ∈ q.refs := by
  induction q with
  | prop l s' r _ ih =>
    simp only [Schema.props, List.mem_cons, Prod.mk.injEq] at h
    intro x hx
    rcases h with ⟨_, rfl⟩ | h
    · exact List.mem_append.2 (Or.inl hx)
    · exact List.mem_append.2 (Or.inr (ih h x hx))
  | _ => cases h

theorem scalar_cases {n : String} {q : Schema} (h : Scalar n q) :
    (n ∈ ["string"] ∧ q = .scalar "string") ∨
    (n ∈ ["int", "int8", "int16", "int32", "int64", "rune"] ∧ q = .scalar "integer") ∨
    (n ∈ ["uint", "uint8", "uint16", "uint32", "uint64", "byte"] ∧ q = .scalar "natural") ∨
    (n ∈ ["float32", "float64"] ∧ q = .scalar "number") ∨
    (n ∈ ["bool"] ∧ q = .scalar "boolean") ∨ (n ∈ ["time.Time"] ∧ q = .scalar "date-time") ∨
    (n ∈ ["interface{}", "struct{}", "any"] ∧ q = .obj) := by
  cases h with
  | string => simp
  | int h => exact Or.inr (Or.inl ⟨h, rfl⟩)
  | nat h => exact Or.inr (Or.inr (Or.inl ⟨h, rfl⟩))
  | float h => exact Or.inr (Or.inr (Or.inr (Or.inl ⟨h, rfl⟩)))
  | bool => simp
  | time => simp
  | free h => exact Or.inr (Or.inr (Or.inr (Or.inr (Or.inr (Or.inr ⟨h, rfl⟩)))))

theorem clash {n : String} {l m : List String} (h : n ∈ l) (h' : n ∈ m)
    (hd : ∀ x ∈ l, x ∉ m) {P : Prop} : P := absurd h' (hd n h)

theorem written_conforms {c : Ctx} {w : World} {comps : Comps} (hH : Honest c w) {n : String}
    {j : J} {q : Schema} (h : Written w n j) (hq : Scalar n q) (hw : Whole j) :
    Conforms comps q j := by
  have hs : ∀ l, l ∈ [["string"], ["int", "int8", "int16", "int32", "int64", "rune"],
      ["uint", "uint8", "uint16", "uint32", "uint64", "byte"], ["float32", "float64"], ["bool"],
      ["time.Time"], ["interface{}", "any"], ["struct{}"]] → n ∈ l →
      (l = ["string"] ∧ q = .scalar "string") ∨
      (l = ["int", "int8", "int16", "int32", "int64", "rune"] ∧ q = .scalar "integer") ∨
      (l = ["uint", "uint8", "uint16", "uint32", "uint64", "byte"] ∧ q = .scalar "natural") ∨
      (l = ["float32", "float64"] ∧ q = .scalar "number") ∨
      (l = ["bool"] ∧ q = .scalar "boolean") ∨ (l = ["time.Time"] ∧ q = .scalar "date-time") ∨
      ((l = ["interface{}", "any"] ∨ l = ["struct{}"]) ∧ q = .obj) := by
    intro l hl hn
    simp only [List.mem_cons, List.not_mem_nil, or_false] at hl
    rcases hl with rfl | rfl | rfl | rfl | rfl | rfl | rfl | rfl <;>
      rcases scalar_cases hq with ⟨h, rfl⟩ | ⟨h, rfl⟩ | ⟨h, rfl⟩ | ⟨h, rfl⟩ | ⟨h, rfl⟩ | ⟨h, rfl⟩ | ⟨h, rfl⟩ <;>
      first | decide | exact clash hn h (by decide)
  cases h with
  | string =>
    have := hs ["string"] (by decide) (by decide)
    simp at this; subst this; exact .string (by simp)
  | int h =>
    have := hs _ (by decide) h
    simp at this; subst this; exact .integer
  | nat h hz =>
    have := hs _ (by decide) h
    simp at this; subst this; exact .natural hz
  | float h =>
    have := hs _ (by decide) h
    simp at this; subst this; exact .number
  | fraction h =>
    have := hs _ (by decide) h
    simp at this; subst this; exact .fraction
  | bool =>
    have := hs ["bool"] (by decide) (by decide)
    simp at this; subst this; exact .boolean
  | time =>
    have := hs ["time.Time"] (by decide) (by decide)
    simp at this; subst this; exact .string (by simp)
  | free h hf =>
    have := hs _ (by decide) h
    simp at this; subst this
    obtain ⟨fs, rfl⟩ := hH.free j hf; exact .obj
  | nil _ => cases hw
  | empty =>
    have := hs ["struct{}"] (by decide) (by decide)
    simp at this; subst this; exact .obj

/-- What the components have to be like. -/
structure Sealed (c : Ctx) (w : World) (comps : Comps) : Prop where
  full : ∀ k q, mget comps k = some q → Full c k q
  refs : ∀ k q, mget comps k = some q → ∀ r ∈ q.refs, r ∈ keys comps
  hole : ∀ p b t, c.find p b = none → mget comps (.name p b) = some (.hole t) →
    ∀ j, w.own p b j → ∃ fs, j = .obj fs

theorem conforms_fields {c : Ctx} {comps : Comps} {fs : List (String × Thing)} {q : Schema}
    (hl : Lists c fs q) (hr : ∀ r ∈ q.refs, r ∈ keys comps) {es : List (String × Thing × J)}
    (h1 : ∀ e ∈ es, (e.1, e.2.1) ∈ fs) (hw : Whole (.obj (es.map fun e => (e.1, e.2.2))))
    (ih : ∀ e ∈ es, ∀ q, OkThing c e.2.1 → Whole e.2.2 → DescThing c e.2.1 q →
      (∀ r ∈ q.refs, r ∈ keys comps) → Conforms comps q e.2.2) :
    Conforms comps q (.obj (es.map fun e => (e.1, e.2.2))) := by
  rcases hl.shape with rfl | ⟨l, s, r, rfl⟩
  · exact .obj
  · cases hw with
    | obj hw =>
    refine .props ?_ ?_
    · intro e he
      obtain ⟨x, hx, rfl⟩ := List.mem_map.1 he
      exact hl.full _ _ (h1 x hx)
    · intro e he s' hs
      obtain ⟨x, hx, rfl⟩ := List.mem_map.1 he
      obtain ⟨u, hu, hd⟩ := hl.sound _ _ hs
      obtain rfl := hl.once _ _ _ (h1 x hx) hu
      exact ih x hx s' (hl.ok _ _ hu) (hw _ he) hd (fun r hr' => hr r (props_refs hs r hr'))

theorem mget_of_key {comps : Comps} {k : Ty} (h : k ∈ keys comps) : ∃ q, mget comps k = some q := by
  induction comps with
  | nil => cases h
  | cons x xs ih =>
    by_cases hx : x.1 = k
    · exact ⟨x.2, by simp [mget, hx]⟩
    · simp only [keys, List.map_cons, List.mem_cons] at h
      rcases h with h | h
      · exact absurd h.symm hx
      · obtain ⟨q, hq⟩ := ih h
        exact ⟨q, by simpa [mget, hx] using hq⟩

theorem conforms_of {c : Ctx} {w : World} {comps : Comps} (hT : PlainTable c) (hF : FitTable c)
    (hE : ExactTable c) (hH : Honest c w) (hS : Sealed c w comps) {x : Thing} {j : J}
    (h : Enc c w x j) : ∀ q, OkThing c x → Whole j → DescThing c x q →
      (∀ r ∈ q.refs, r ∈ keys comps) → Conforms comps q j := by
  have told : ∀ t q j, (c.conf t = some q ∨ c.extern t = some q ∨ c.extMap t = some q ∨
      c.extGen t = some q) → Enc c w (.ty t) j → Conforms comps q j :=
    fun t q j h1 h2 => conforms_nil (hH.told t q h1 j h2)
  induction h with
  | @prim n j h =>
    intro q hok hw hd hr
    cases hd with
    | given h' => exact told _ _ _ (Or.inl h') (.prim h)
    | known _ h' => exact told _ _ _ (Or.inr (Or.inl h')) (.prim h)
    | prim _ _ h' => exact written_conforms hH h h' hw
  | @declared p b d j hf h ih =>
    have hd' : OkThing c (.decl d) := ⟨hF.types p b d hf, (hE.decl p b d hf).1⟩
    intro q hok hw hd hr
    cases hd with
    | given h' => exact told _ _ _ (Or.inl h') (.declared hf h)
    | known _ h' => exact told _ _ _ (Or.inr (Or.inl h')) (.declared hf h)
    | ref =>
      obtain ⟨q, hq⟩ := mget_of_key (hr _ (List.mem_singleton.2 rfl))
      refine .ref hq ?_
      rcases hS.full _ _ hq p b (Or.inl rfl) with h' | h' | h' | h' | ⟨d', h1, h2⟩ | ⟨h', _⟩ | h'
      · exact told _ _ _ (Or.inl h') (.declared hf h)
      · exact told _ _ _ (Or.inr (Or.inl h')) (.declared hf h)
      · exact told _ _ _ (Or.inr (Or.inr (Or.inl h'))) (.declared hf h)
      · exact told _ _ _ (Or.inr (Or.inr (Or.inr h'))) (.declared hf h)
      · rw [hf] at h1; cases h1
        exact ih q hd' hw h2 (hS.refs _ _ hq)
      · rw [hf] at h'; cases h'
      · exact absurd (hE.decl _ _ _ hf).2 h'
    | decl _ _ h1 h2 =>
      rw [hf] at h1; cases h1
      exact ih q hd' hw h2 hr
  | @foreign p b j hf h =>
    intro q hok hw hd hr
    cases hd with
    | given h' => exact told _ _ _ (Or.inl h') (.foreign hf h)
    | known _ h' => exact told _ _ _ (Or.inr (Or.inl h')) (.foreign hf h)
    | ref =>
      obtain ⟨q, hq⟩ := mget_of_key (hr _ (List.mem_singleton.2 rfl))
      refine .ref hq ?_
      rcases hS.full _ _ hq p b (Or.inl rfl) with h' | h' | h' | h' | ⟨d', h1, h2⟩ | ⟨_, t, rfl⟩ | h'
      · exact told _ _ _ (Or.inl h') (.foreign hf h)
      · exact told _ _ _ (Or.inr (Or.inl h')) (.foreign hf h)
      · exact told _ _ _ (Or.inr (Or.inr (Or.inl h'))) (.foreign hf h)
      · exact told _ _ _ (Or.inr (Or.inr (Or.inr h'))) (.foreign hf h)
      · rw [hf] at h1; cases h1
      · obtain ⟨fs, rfl⟩ := hS.hole p b t hf hq j h
        exact .hole
      · exact absurd hok.1 h'
    | decl _ _ h1 h2 => rw [hf] at h1; cases h1
  | nilPtr => intro q _ hw; cases hw
  | @ptr e j h ih =>
    intro q hok hw hd hr
    obtain ⟨h1, h2⟩ := conf_inline hT (t := .ptr e) (by rintro (⟨p, b, h⟩ | ⟨n, h⟩) <;> cases h)
    cases hd with
    | given h' => rw [h1] at h'; cases h'
    | known _ h' => rw [h2] at h'; cases h'
    | ptr hd => exact ih q hok hw hd hr
  | nilSlice => intro q _ hw; cases hw
  | @bytes e s hb =>
    intro q hok hw hd hr
    obtain ⟨h1, h2⟩ := conf_inline hT (t := .slice e) (by rintro (⟨p, b, h⟩ | ⟨n, h⟩) <;> cases h)
    cases hd with
    | given h' => rw [h1] at h'; cases h'
    | known _ h' => rw [h2] at h'; cases h'
    | bytes _ => exact .string (by simp)
    | slice h' _ => exact absurd hb h'
  | @slice e js hb h ih =>
    intro q hok hw hd hr
    obtain ⟨h1, h2⟩ := conf_inline hT (t := .slice e) (by rintro (⟨p, b, h⟩ | ⟨n, h⟩) <;> cases h)
    cases hd with
    | given h' => rw [h1] at h'; cases h'
    | known _ h' => rw [h2] at h'; cases h'
    | bytes h' => exact absurd h' hb
    | slice _ hd =>
      cases hw with
      | arr hw => exact .array fun j hj => ih j hj _ ⟨hok.1, hok.2.1⟩ (hw j hj) hd hr
  | @arr n e js h ih =>
    intro q hok hw hd hr
    obtain ⟨h1, h2⟩ := conf_inline hT (t := .arr n e) (by rintro (⟨p, b, h⟩ | ⟨n, h⟩) <;> cases h)
    cases hd with
    | given h' => rw [h1] at h'; cases h'
    | known _ h' => rw [h2] at h'; cases h'
    | arr hd =>
      cases hw with
      | arr hw => exact .array fun j hj => ih j hj _ ⟨hok.1, hok.2.1⟩ (hw j hj) hd hr
  | nilMap => intro q _ hw; cases hw
  | @map k v fs h ih =>
    intro q hok hw hd hr
    obtain ⟨h1, h2⟩ := conf_inline hT (t := .map k v) (by rintro (⟨p, b, h⟩ | ⟨n, h⟩) <;> cases h)
    cases hd with
    | given h' => rw [h1] at h'; cases h'
    | known _ h' => rw [h2] at h'; cases h'
    | map hd =>
      cases hw with
      | obj hw => exact .mapOf fun e he => ih e he _ ⟨hok.1, hok.2.1⟩ (hw e he) hd hr
    | keyed _ => exact .obj
  | lit =>
    intro q hok hw hd hr
    rcases (lists_ty hT (Or.inl rfl) hok.1 hok.2 hd).shape with rfl | ⟨l, s, r, rfl⟩
    · exact .obj
    · exact .props (by intro e he; cases he) (by intro e he; cases he)
  | @inline l t r es h1 h2 ih =>
    intro q hok hw hd hr
    exact conforms_fields (lists_ty hT (Or.inr ⟨_, _, _, rfl⟩) hok.1 hok.2 hd) hr h1 hw ih
  | struct _ ih => intro q hok hw hd hr; cases hd with | struct hd => exact ih q hok hw hd hr
  | nilIface => intro q _ hw; cases hw
  | iface h => intro q hok hw hd hr; cases hd; obtain ⟨fs, rfl⟩ := hH.free _ h; exact .obj
  | @alias pkg u j h ih =>
    intro q hok hw hd hr
    cases hd with
    | alias hd =>
      obtain ⟨n, rfl, h1, _, _⟩ := hok.2
      refine ih q ⟨tame_within (hok.1 _ (by simp [Decl.types])), h1⟩ hw hd hr
  | @other pkg u j h ih =>
    intro q hok hw hd hr
    cases hd with
    | other hd => exact ih q ⟨tame_within (hok.1 _ (by simp [Decl.types])), hok.2.2⟩ hw hd hr
  | unknown h => intro q hok hw hd hr; cases hd; obtain ⟨fs, rfl⟩ := hH.free _ h; exact .obj
  | @body pkg b es h1 h2 ih =>
    intro q hok hw hd hr
    exact conforms_fields (lists_body hok.1 hok.2 hd) hr h1 hw ih

/-! ## The theorem -/

/-- **C75.**  In a document written for any routes, in whatever order its components are
written: every value of a route's type, as `encoding/json` writes it, conforms to the
type's schema, if there is no `null` in it, if what the tool cannot see is as it assumes,
and if the values of types the document has placeholders for are objects. -/
theorem C75_document_partial {c : Ctx} (hT : PlainTable c) (hF : FitTable c) (hE : ExactTable c)
    {rs : List RouteIn}
    (hrs : ∀ r ∈ rs, (∀ t ∈ r.types, Plain t ∧ Tame t ∧ Straight c t) ∧
      ∀ t ∈ r.bodies, t ∈ r.types ∧ BodyOk c t)
    {f g : Nat} {routes : List (List Schema × RouteTypes)} (h1 : mapRoutes c f rs = some routes)
    {order : List Ty} (ho : ∀ k, k ∈ order ↔ k ∈ keys (collect (routes.map (·.2))))
    {comps : Comps} (h2 : generate c g (collect (routes.map (·.2))) order [] = some comps)
    {w : World} (hH : Honest c w)
    (hole : ∀ p b t, c.find p b = none → mget comps (.name p b) = some (.hole t) →
      ∀ j, w.own p b j → ∃ fs, j = .obj fs) :
    ∀ x ∈ routes, ∃ r ∈ rs, r.types.length = x.1.length ∧ ∀ y ∈ r.types.zip x.1,
      ∀ j, Enc c w (.ty y.1) j → Whole j → Conforms comps y.2 j := by
  have hrs' : ∀ r ∈ rs, (∀ t ∈ r.types, Plain t ∧ Tame t) ∧
      ∀ t ∈ r.bodies, t ∈ r.types ∧ BodyOk c t := fun r hr =>
    ⟨fun t ht => ⟨((hrs r hr).1 t ht).1, ((hrs r hr).1 t ht).2.1⟩, (hrs r hr).2⟩
  obtain ⟨a1, a2⟩ := C69_document_partial hT hF hE hrs h1 ho h2
  obtain ⟨b1, b2⟩ := C44_document_refs_partial hT hF hrs' h1 ho h2
  have hS : Sealed c w comps := ⟨a2, fun k q h => b2 k q (mem_of_mget h), hole⟩
  intro x hx
  obtain ⟨r, hr, e, h⟩ := a1 x hx
  refine ⟨r, hr, e, ?_⟩
  intro y hy j hj hw
  have hyt := (List.of_mem_zip hy).1
  exact conforms_of hT hF hE hH hS hj y.2 ⟨((hrs r hr).1 _ hyt).2.1, ((hrs r hr).1 _ hyt).2.2⟩ hw
    (h y hy) (b1 x hx y.2 (List.of_mem_zip hy).2)

/-! ### The hypotheses are met -/

/-- Nothing is in an interface, nothing is declared elsewhere. -/
@[reducible] def exWorld : World where
  free _ := False
  own _ _ _ := False

theorem exTree_honest : Honest exTree exWorld where
  free := by intro j h; cases h
  told := by rintro t q (h | h | h | h) <;> cases h

/-- `{"kids": [{"meta": {"kind": "leaf"}}], "tree": {"x": {}}}`. -/
def exNode : J :=
  .obj [("kids", .arr [.obj [("meta", .obj [("kind", .str "leaf")])]]), ("tree", .obj [("x", .obj [])])]

theorem exNode_whole : Whole exNode := by
  have h0 : Whole (.obj []) := .obj (by intro e he; cases he)
  have h1 : ∀ k j, Whole j → Whole (.obj [(k, j)]) := fun k j h => .obj (by simpa using h)
  refine .obj ?_
  simp only [List.forall_mem_cons]
  refine ⟨.arr ?_, h1 _ _ h0, by intro e he; cases he⟩
  simp only [List.forall_mem_cons]
  exact ⟨h1 _ _ (h1 _ _ .str), by intro e he; cases he⟩

theorem exNode_of {b : Body} {es : List (String × Thing × J)}
    (hf : exTree.find "p" "Node" = some (.struct "p" b))
    (h1 : ∀ e ∈ es, (e.1, e.2.1) ∈ b.fields "p") (h2 : ∀ e ∈ es, Enc exTree exWorld e.2.1 e.2.2) :
    Enc exTree exWorld (.ty (.name "p" "Node")) (.obj (es.map fun e => (e.1, e.2.2))) :=
  .declared hf (.struct (.body h1 h2))

/-- It is a `Node`, and the theorem says that it conforms to what the document says of
one: a list of them to the schema of the first route's answer. -/
example : Enc exTree exWorld (.ty (.name "p" "Node")) exNode := by
  have hnb : ¬ IsByte exTree (.ptr (.name "p" "Node")) := not_byte_ptr
  refine exNode_of (es := [("kids", .ty (.slice (.ptr (.name "p" "Node"))), _),
    ("tree", .ty (.name "p" "Forest"), _)]) rfl (by simp [Body.fields, within]) ?_
  simp only [List.forall_mem_cons]
  refine ⟨?_, ?_, by intro e he; cases he⟩
  · refine .slice hnb ?_
    simp only [List.forall_mem_cons]
    refine ⟨.ptr ?_, by intro e he; cases he⟩
    refine exNode_of (es := [("meta", .body "p" (.field "kind" (.name "" "Kind") .done), _)]) rfl
      (by simp [Body.fields]) ?_
    simp only [List.forall_mem_cons]
    refine ⟨?_, by intro e he; cases he⟩
    refine .body (es := [("kind", .ty (.name "p" "Kind"), _)]) (by simp [Body.fields, within]) ?_
    simp only [List.forall_mem_cons]
    exact ⟨.declared rfl (.alias (.prim .string)), by intro e he; cases he⟩
  · refine .declared rfl (.other (.map ?_))
    simp only [List.forall_mem_cons]
    exact ⟨exNode_of (es := []) rfl (by intro e he; cases he) (by intro e he; cases he),
      by intro e he; cases he⟩

/-! ### Where the documents are too narrow -/

/-- The components of the example's document. -/
def exComps : Comps :=
  [(.name "p" "Node", .prop "next" (.ref (.name "p" "Node"))
    (.prop "kids" (.array (.ref (.name "p" "Node")))
    (.prop "meta" (.prop "kind" (.scalar "string") .obj)
    (.prop "tree" (.ref (.name "p" "Forest")) .obj)))),
   (.name "p" "Forest", .mapOf (.ref (.name "p" "Node"))),
   (.name "p" "Kind", .scalar "string")]

/-- **C75, the failure for nil.**  A nil slice (or pointer, or map) is written as `null`,
which the schema of the field does not admit: `{"kids": null}` is a `Node` without
children, but does not conform. -/
theorem C75_nil_slice :
    ((mapRoutes exTree 60 exRoutes).bind fun r =>
      generate exTree 60 (collect (r.map (·.2))) (keys (collect (r.map (·.2)))) []) =
      some exComps ∧
    Enc exTree exWorld (.ty (.name "p" "Node")) (.obj [("kids", .null)]) ∧
    ¬ Conforms exComps (.ref (.name "p" "Node")) (.obj [("kids", .null)]) := by
  refine ⟨by decide, ?_, ?_⟩
  · refine exNode_of (es := [("kids", .ty (.slice (.ptr (.name "p" "Node"))), .null)]) rfl
      (by simp [Body.fields, within]) ?_
    simp only [List.forall_mem_cons]
    exact ⟨.nilSlice, by intro e he; cases he⟩
  · intro h
    cases h with
    | ref h1 h2 =>
      simp only [exComps, mget, if_true, Option.some.injEq] at h1
      subst h1
      cases h2 with
      | props _ h =>
        have := h _ (List.mem_cons_self ..) _ (List.mem_cons_of_mem _ (List.mem_cons_self ..))
        cases this

/-- `type Reply struct { Data any }`. -/
@[reducible] def exAny : Ctx where
  find _ b := if b = "Reply" then some (.struct "p" (.field "data" (.prim "any") .done)) else none

/-- **C75, the failure for interfaces.**  A field of type `any` may hold a string (here
that is all it may hold), and the schema says that it is an object. -/
theorem C75_any_string :
    ((mapRoutes exAny 60 [⟨[.name "p" "Reply"], [.name "p" "Reply"]⟩]).bind fun r =>
      generate exAny 60 (collect (r.map (·.2))) (keys (collect (r.map (·.2)))) []) =
      some [(.name "p" "Reply", .prop "data" .obj .obj)] ∧
    Enc exAny ⟨fun j => ∃ s, j = .str s, fun _ _ _ => False⟩ (.ty (.name "p" "Reply"))
      (.obj [("data", .str "ok")]) ∧
    ¬ Conforms [(.name "p" "Reply", .prop "data" .obj .obj)] (.ref (.name "p" "Reply"))
      (.obj [("data", .str "ok")]) := by
  refine ⟨by decide, ?_, ?_⟩
  · refine .declared rfl (.struct (.body (es := [("data", .ty (.prim "any"), .str "ok")])
      (by simp [Body.fields, within]) ?_))
    simp only [List.forall_mem_cons]
    exact ⟨.prim (.free (by decide) ⟨_, rfl⟩), by intro e he; cases he⟩
  · intro h
    cases h with
    | ref h1 h2 =>
      simp only [mget, if_true, Option.some.injEq] at h1
      subst h1
      cases h2 with
      | props _ h =>
        have := h _ (List.mem_cons_self ..) _ (List.mem_cons_self ..)
        cases this

end Verif.SchemaGen
