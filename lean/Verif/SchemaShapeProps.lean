import Verif.SchemaDocProps

/-!
# C69: schemas describe the types they stand for

A relation says when a schema describes a Go type the way `encoding/json` writes its
values: objects with a property per serialised field, arrays, maps, scalars, and
references by name.  The schemas of the routes and the components stand in it.
-/

namespace Verif.SchemaGen

open Verif.Common

/-! ## Specification -/

/-- The scalar a builtin type is written as.  A value of an interface type can be
anything; the tool's convention is an object. -/
inductive Scalar : String → Schema → Prop where
  | string : Scalar "string" (.scalar "string")
  | int {n} : n ∈ ["int", "int8", "int16", "int32", "int64", "rune"] → Scalar n (.scalar "integer")
  | nat {n} : n ∈ ["uint", "uint8", "uint16", "uint32", "uint64", "byte"] →
      Scalar n (.scalar "natural")
  | float {n} : n ∈ ["float32", "float64"] → Scalar n (.scalar "number")
  | bool : Scalar "bool" (.scalar "boolean")
  | time : Scalar "time.Time" (.scalar "date-time")
  | free {n} : n ∈ ["interface{}", "struct{}", "any"] → Scalar n .obj

/-- A type as it is written in package `pkg`: names without a package are that
package's.  (Keys of maps do not matter here.) -/
def within (pkg : String) : Ty → Ty
  | .name p b => if p = "" then .name pkg b else .name p b
  | .ptr e => .ptr (within pkg e)
  | .slice e => .slice (within pkg e)
  | .arr n e => .arr n (within pkg e)
  | .map k v => .map k (within pkg v)
  | .fld l t r => .fld l (within pkg t) (within pkg r)
  | t => t

/-- A byte, or a type declared as one: `encoding/json` writes a slice of these as a
base64 string. -/
def IsByte (c : Ctx) (e : Ty) : Prop :=
  e = .prim "byte" ∨ e = .prim "uint8" ∨
  ∃ p b pkg, e = .name p b ∧ (c.find p b = some (.alias pkg (.builtin "byte")) ∨
    c.find p b = some (.alias pkg (.builtin "uint8")))

mutual

/-- The schema describes the type. -/
inductive Desc (c : Ctx) : Ty → Schema → Prop where
  /-- The user's mapping comes first, then the known external types. -/
  | given {t q} : c.conf t = some q → Desc c t q
  | known {t q} : c.conf t = none → c.extern t = some q → Desc c t q
  | prim {n q} : c.conf (.prim n) = none → c.extern (.prim n) = none → Scalar n q →
      Desc c (.prim n) q
  | ref {p b} : Desc c (.name p b) (.ref (.name p b))
  | decl {p b d q} : c.conf (.name p b) = none → c.extern (.name p b) = none →
      c.find p b = some d → DescDecl c d q → Desc c (.name p b) q
  | ptr {e q} : Desc c e q → Desc c (.ptr e) q
  | bytes {e} : IsByte c e → Desc c (.slice e) (.scalar "byte")
  | slice {e q} : ¬ IsByte c e → Desc c e q → Desc c (.slice e) (.array q)
  | arr {n e q} : Desc c e q → Desc c (.arr n e) (.array q)
  | map {v q} : Desc c v q → Desc c (.map (.prim "string") v) (.mapOf q)
  /-- With other keys the entries are left open. -/
  | keyed {k v} : k ≠ .prim "string" → Desc c (.map k v) .obj
  | lit : Desc c .lit .obj
  | fld {l t r q o} : Desc c t q → Desc c r o → Desc c (.fld l t r) (.prop l q o)

/-- The schema describes the declared type. -/
inductive DescDecl (c : Ctx) : Decl → Schema → Prop where
  | struct {pkg b q} : DescBody c pkg b q → DescDecl c (.struct pkg b) q
  | iface : DescDecl c .iface .obj
  | alias {pkg u q} : Desc c (within pkg u.ty) q → DescDecl c (.alias pkg u) q
  | other {pkg u q} : Desc c (within pkg u) q → DescDecl c (.other pkg (some u)) q
  | unknown {pkg} : DescDecl c (.other pkg none) .obj

/-- The schema is an object with one property per field, in order. -/
inductive DescBody (c : Ctx) : String → Body → Schema → Prop where
  | done {pkg} : DescBody c pkg .done .obj
  | field {pkg l t r q o} : Desc c (within pkg t) q → DescBody c pkg r o →
      DescBody c pkg (.field l t r) (.prop l q o)
  | sub {pkg l key i r q o} : DescBody c pkg i q → DescBody c pkg r o →
      DescBody c pkg (.sub l key i r) (.prop l q o)

end

/-- What the component of a name says: what the user or the table of known types says
of it, or its declaration, or that it is unknown.  Nothing is said of names that are
not components. -/
def FullName (c : Ctx) (p b : String) (q : Schema) : Prop :=
  c.conf (.name p b) = some q ∨ c.extern (.name p b) = some q ∨
  c.extMap (.name p b) = some q ∨ c.extGen (.name p b) = some q ∨
  (∃ d, c.find p b = some d ∧ DescDecl c d q) ∨
  (c.find p b = none ∧ ∃ t, q = .hole t) ∨ ¬ Nameable b

/-- The same for a type that is a name or a pointer to one. -/
def Full (c : Ctx) (k : Ty) (q : Schema) : Prop :=
  ∀ p b, (k = .name p b ∨ k = .ptr (.name p b)) → FullName c p b q

/-! ### The types the generator gets right -/

/-- No name in the type is declared as `type A B`, seen with its package or without. -/
def AliasFree (c : Ctx) (t : Ty) : Prop :=
  ∀ n ∈ t.names, (∀ q i, c.find n.1 n.2 ≠ some (.alias q i)) ∧
    ∀ q i, c.find "" n.2 ≠ some (.alias q i)

/-- An element of a slice or map: no alias in it, unless near the top. -/
def ElemOk (c : Ctx) (e : Ty) : Prop :=
  AliasFree c e ∨ ∃ p b, e = .name p b ∨ e = .ptr (.name p b) ∨ e = .slice (.name p b) ∨
    e = .slice (.ptr (.name p b))

def NoMap : Ty → Prop
  | .ptr e => NoMap e
  | .slice e => NoMap e
  | .arr _ e => NoMap e
  | .map _ _ => False
  | .fld _ t r => NoMap t ∧ NoMap r
  | _ => True

def Ty.labels : Ty → List String
  | .fld l _ r => l :: r.labels
  | _ => []

/-- Builtins have a schema, arrays are not of bytes, elements are as above, inline
structs have distinct fields and no maps. -/
def Straight (c : Ctx) : Ty → Prop
  | .prim n => Documented n
  | .name _ _ => True
  | .ptr e => Straight c e
  | .slice e => Straight c e ∧ ElemOk c e
  | .arr _ e => Straight c e ∧ e ≠ .prim "byte"
  | .map _ v => Straight c v ∧ ElemOk c v
  | .lit => True
  | .fld l t r => Straight c t ∧ Straight c r ∧ (r = .lit ∨ ∃ l' t' r', r = .fld l' t' r') ∧
      NoMap t ∧ NoMap r ∧ l ∉ r.labels

/-- Names in inline structs carry their package. -/
def Packed : Ty → Prop
  | .ptr e => Packed e
  | .slice e => Packed e
  | .arr _ e => Packed e
  | .map _ v => Packed v
  | .fld _ t r => (∀ n ∈ t.names, n.1 ≠ "") ∧ ∀ n ∈ r.names, n.1 ≠ ""
  | _ => True

/-- A field's type, as written in package `pkg`. -/
def FieldOk (c : Ctx) (pkg : String) (t : Ty) : Prop :=
  Packed t ∧ Straight c (within pkg t) ∧
  ((∃ e, t = .slice e) ∨ ¬ NoMap t ∨ AliasFree c t ∨
    ∃ p b, (t = .name p b ∨ t = .ptr (.name p b)) ∧
      ∀ q i, c.find p b = some (.alias q i) →
        c.find (if p = "" then pkg else p) b = some (.alias q i))

def Body.labels : Body → List String
  | .done => []
  | .field l _ r => l :: r.labels
  | .sub l _ _ r => l :: r.labels

def Body.exact (c : Ctx) (pkg : String) : Body → Prop
  | .done => True
  | .field l t r => FieldOk c pkg t ∧ l ∉ r.labels ∧ r.exact c pkg
  | .sub l _ i r => i.exact c pkg ∧ l ∉ r.labels ∧ r.exact c pkg

def Decl.exact (c : Ctx) : Decl → Prop
  | .struct pkg b => b.exact c pkg
  | .iface => True
  | .alias _ u => ∃ n, u = .builtin n ∧ Documented n ∧ n ≠ "byte" ∧ n ≠ "uint8"
  | .other pkg (some u) => Packed u ∧ Straight c (within pkg u)
  | .other _ none => True

/-- A table the generator gets right: declarations as above, under names that can be
components; `type A B` only for builtin `B`, and without a mapping of `A`; the user's
external types are names that can be components. -/
structure ExactTable (c : Ctx) : Prop where
  decl : ∀ p b d, c.find p b = some d → d.exact c ∧ Nameable b
  alias : ∀ p b q i, c.find p b = some (.alias q i) →
    c.conf (.name p b) = none ∧ c.extern (.name p b) = none
  extGen : ∀ t q, c.extGen t = some q → ∃ p b, t = .name p b ∧ Nameable b

/-! ## Types -/

theorem names_core {t : Ty} {p b : String} (h : core t = .name p b) : (p, b) ∈ t.names := by
  induction t with
  | name p' b' => simp only [core, Ty.name.injEq] at h; simp [Ty.names, h]
  | ptr e ih => exact ih h
  | slice e ih => exact ih h
  | arr n e ih => exact ih h
  | _ => cases h

theorem names_leaf {t : Ty} {p b : String} (h : leaf t = .name p b) : (p, b) ∈ t.names := by
  induction t with
  | name p' b' => simp only [leaf, Ty.name.injEq] at h; simp [Ty.names, h]
  | ptr e ih => exact ih h
  | slice e ih => exact ih h
  | arr n e ih => exact ih h
  | map k v _ ih => exact List.mem_append.2 (Or.inr (ih h))
  | _ => cases h

theorem aliasOf_none {c : Ctx} {t : Ty} (h : AliasFree c t) : aliasOf c t = none := by
  unfold aliasOf
  split
  · rfl
  · split
    · rename_i p b hc
      split
      · rename_i q i hf
        exact absurd hf ((h _ (names_core hc)).1 q i)
      · rfl
    · rfl

theorem aliasOfMap_none {c : Ctx} {t : Ty} (h : AliasFree c t) : aliasOfMap c t = none := by
  unfold aliasOfMap
  split
  · rename_i p b hc
    split
    · rfl
    · split
      · rename_i q i hf
        exact absurd hf ((h _ (names_leaf hc)).2 q i)
      · rfl
  · rfl

theorem resolve_none {c : Ctx} {t : Ty} (h : AliasFree c t) : resolve c t = none := by
  unfold resolve
  split
  · rename_i k v
    rw [aliasOfMap_none (t := v) fun n hn => h n (by simp [Ty.names, hn])]; rfl
  · rename_i k v
    rw [aliasOfMap_none (t := v) fun n hn => h n (by simp [Ty.names, hn])]; rfl
  · rename_i e; rw [aliasOf_none (t := e) h]; rfl
  · rename_i e _; rw [aliasOf_none (t := e) h]; rfl
  · rename_i e; rw [aliasOf_none (t := e) h]; rfl
  · rename_i e _ _ _ _; rw [aliasOf_none (t := e) h]; rfl
  · rename_i e; rw [aliasOf_none (t := e) h]; rfl
  · exact aliasOf_none h

theorem alias_prim {c : Ctx} (hE : ExactTable c) {p b : String} {u : Ty}
    (h : aliasOf c (.name p b) = some u) :
    ∃ pkg n, c.find p b = some (.alias pkg (.builtin n)) ∧ u = .prim n ∧ n ≠ "byte" ∧ n ≠ "uint8" := by
  simp only [aliasOf, isPrim, derive, Bool.false_eq_true, if_false, core] at h
  split at h
  · rename_i q i hf
    obtain ⟨n, rfl, _, h1, h2⟩ := (hE.decl p b _ hf).1
    exact ⟨q, n, hf, (Option.some.inj h).symm, h1, h2⟩
  · cases h

theorem desc_alias {c : Ctx} (hE : ExactTable c) {p b pkg n : String}
    (h : c.find p b = some (.alias pkg (.builtin n))) {q : Schema} (hq : Desc c (.prim n) q) :
    Desc c (.name p b) q :=
  .decl (hE.alias p b _ _ h).1 (hE.alias p b _ _ h).2 h (.alias hq)

theorem not_byte {c : Ctx} (hE : ExactTable c) {p b : String} : ¬ IsByte c (.name p b) := by
  rintro (h | h | ⟨p', b', pkg, h, hf⟩)
  · cases h
  · cases h
  · cases h
    rcases hf with hf | hf
    · obtain ⟨n, hn, _, h1, _⟩ := (hE.decl _ _ _ hf).1
      cases hn; exact h1 rfl
    · obtain ⟨n, hn, _, _, h2⟩ := (hE.decl _ _ _ hf).1
      cases hn; exact h2 rfl

theorem not_byte_ptr {c : Ctx} {e : Ty} : ¬ IsByte c (.ptr e) := by
  rintro (h | h | ⟨p', b', pkg, h, hf⟩) <;> cases h

/-- What replaces an element describes the element. -/
theorem elem_desc {c : Ctx} (hT : PlainTable c) (hF : FitTable c) (hE : ExactTable c) {e : Ty}
    (hs : Straight c e) (he : ElemOk c e) :
    Straight c ((resolve c e).getD e) ∧ (∀ q, Desc c ((resolve c e).getD e) q → Desc c e q) ∧
      ((resolve c e).getD e = e ∨ isPrim ((resolve c e).getD e) = true) := by
  rcases he with he | ⟨p, b, he⟩
  · rw [resolve_none he]
    exact ⟨hs, fun _ h => h, Or.inl rfl⟩
  · have hdoc : ∀ {pkg n}, c.find p b = some (.alias pkg (.builtin n)) → Documented n :=
      fun h => hF.solid _ _ _ h
    have hx : ∀ {e u : Ty} (k : Ty → Ty), resolve c e = (aliasOf c (.name p b)).map k →
        Straight c e →
        (∀ pkg n, c.find p b = some (.alias pkg (.builtin n)) → n ≠ "byte" → n ≠ "uint8" →
          Straight c (k (.prim n)) ∧ (∀ q, Desc c (k (.prim n)) q → Desc c e q) ∧
          isPrim (k (.prim n)) = true) →
        Straight c ((resolve c e).getD e) ∧ (∀ q, Desc c ((resolve c e).getD e) q → Desc c e q) ∧
        ((resolve c e).getD e = e ∨ isPrim ((resolve c e).getD e) = true) := by
      intro e u k hk hs h
      rw [hk]
      cases ha : aliasOf c (.name p b) with
      | none => exact ⟨hs, fun _ h => h, Or.inl rfl⟩
      | some u =>
        obtain ⟨pkg, n, hf, rfl, h1, h2⟩ := alias_prim hE ha
        obtain ⟨a1, a2, a3⟩ := h pkg n hf h1 h2
        exact ⟨a1, a2, Or.inr a3⟩
    have hslice : ∀ {n x}, n ≠ "byte" → n ≠ "uint8" → ¬ IsByte c x →
        (∀ q, Desc c (.prim n) q → Desc c x q) →
        ∀ q, Desc c (.slice (.prim n)) q → Desc c (.slice x) q := by
      intro n x h1 h2 hb hd q hq
      have hno := conf_none hT (t := .slice (.prim n)) (by intro p b h; cases h)
        (by intro n h; cases h)
      cases hq with
      | given h => rw [hno.1] at h; cases h
      | known _ h => rw [hno.2] at h; cases h
      | bytes h =>
        rcases h with h | h | ⟨_, _, _, h, _⟩
        · cases h; exact absurd rfl h1
        · cases h; exact absurd rfl h2
        · cases h
      | slice _ h => exact .slice hb (hd _ h)
    have hsl : ∀ {n}, Documented n → Straight c (.slice (.prim n)) := fun h =>
      ⟨h, Or.inl (by intro x hx; cases hx)⟩
    rcases he with rfl | rfl | rfl | rfl
    · exact hx (u := .lit) id (by simp [resolve]) hs fun pkg n hf h1 h2 =>
        ⟨hdoc hf, fun q hq => desc_alias hE hf hq, rfl⟩
    · refine hx (u := .lit) .ptr rfl hs fun pkg n hf h1 h2 => ⟨hdoc hf, fun q hq => ?_, rfl⟩
      have hno := conf_none hT (t := .ptr (.prim n)) (by intro p b h; cases h)
        (by intro n h; cases h)
      cases hq with
      | given h => rw [hno.1] at h; cases h
      | known _ h => rw [hno.2] at h; cases h
      | ptr h => exact .ptr (desc_alias hE hf h)
    · exact hx (u := .lit) .slice rfl hs fun pkg n hf h1 h2 =>
        ⟨hsl (hdoc hf), hslice h1 h2 (not_byte hE) fun q hq => desc_alias hE hf hq, rfl⟩
    · exact hx (u := .lit) .slice rfl hs fun pkg n hf h1 h2 =>
        ⟨hsl (hdoc hf), hslice h1 h2 not_byte_ptr fun q hq => .ptr (desc_alias hE hf hq), rfl⟩

theorem within_id {pkg : String} {t : Ty} (h : ∀ n ∈ t.names, n.1 ≠ "") : within pkg t = t := by
  induction t with
  | name p b => simp only [within]; rw [if_neg (h (p, b) (by simp [Ty.names]))]
  | ptr e ih => simp only [within]; rw [ih h]
  | slice e ih => simp only [within]; rw [ih h]
  | arr n e ih => simp only [within]; rw [ih h]
  | map k v _ ih => simp only [within]; rw [ih fun n hn => h n (by simp [Ty.names, hn])]
  | fld l t r iht ihr =>
    simp only [within]
    rw [iht fun n hn => h n (by simp [Ty.names, hn]), ihr fun n hn => h n (by simp [Ty.names, hn])]
  | _ => rfl

theorem qualify_within {pkg : String} {t : Ty} (h : Packed t) : qualify pkg t = within pkg t := by
  induction t with
  | ptr e ih => simp only [within, qualify]; rw [ih h]
  | slice e ih => simp only [within, qualify]; rw [ih h]
  | arr n e ih => simp only [within, qualify]; rw [ih h]
  | map k v _ ih => simp only [within, qualify]; rw [ih h]
  | fld l t r iht ihr =>
    simp only [within, qualify]
    rw [within_id h.1, within_id h.2]
  | _ => rfl

theorem hasMap_iff (t : Ty) : hasMap t = true ↔ ¬ NoMap t := by
  induction t with
  | fld l t r iht ihr =>
    simp only [hasMap, NoMap, Bool.or_eq_true, iht, ihr]
    constructor
    · rintro (h | h) ⟨h1, h2⟩
      · exact h h1
      · exact h h2
    · intro h
      by_cases h1 : NoMap t
      · exact Or.inr fun h2 => h ⟨h1, h2⟩
      · exact Or.inl h1
  | ptr e ih => exact ih
  | slice e ih => exact ih
  | arr n e ih => exact ih
  | _ => simp [hasMap, NoMap]

theorem noMap_scan {t : Ty} (h : NoMap t) : ∀ k g, scan t ≠ .found k g := by
  induction t with
  | ptr e ih =>
    intro k g hs
    simp only [scan] at hs
    split at hs
    · rename_i k' g' h'; exact ih h k' g' h'
    · rename_i hne; exact hne _ _ hs
  | map k v => exact (h : False).elim
  | fld l t r iht ihr =>
    intro k g hs
    simp only [scan] at hs
    split at hs
    · split at hs
      · rename_i h'; exact ihr h.2 _ _ h'
      · rename_i hne; exact hne _ _ hs
    · cases hs
    · rename_i h'; exact iht h.1 _ _ h'
  | _ => intro k g hs; cases hs

theorem qualify_prim {pkg : String} {t : Ty} (h : isPrim t = true) : qualify pkg t = t := by
  unfold isPrim at h
  have key : ∀ x, (match x with
      | .prim _ => true | .slice e => isPrimName e | .arr _ e => isPrimName e
      | .map k v => isPrimName k && isPrimName v | _ => false) = true → qualify pkg x = x := by
    intro x hx
    cases x with
    | slice e => cases e <;> simp [isPrimName] at hx; rfl
    | arr n e => cases e <;> simp [isPrimName] at hx; rfl
    | map k v => cases v <;> simp [isPrimName] at hx; rfl
    | prim n => rfl
    | _ => cases hx
  cases t with
  | ptr e => simp only [qualify]; rw [key e h]
  | _ => exact key _ h

/-- What a field is mapped as describes the field. -/
theorem field_desc {c : Ctx} (hT : PlainTable c) (hF : FitTable c) (hE : ExactTable c)
    {pkg : String} {t : Ty} (h : FieldOk c pkg t) :
    Straight c (fieldType c pkg t) ∧
      ∀ q, Desc c (fieldType c pkg t) q → Desc c (within pkg t) q := by
  obtain ⟨hp, hs, h⟩ := h
  have same : (if (isSlice t || hasMap t) = true then t else (resolve c t).getD t) = t →
      Straight c (fieldType c pkg t) ∧
      ∀ q, Desc c (fieldType c pkg t) q → Desc c (within pkg t) q := by
    intro he
    have : fieldType c pkg t = within pkg t := by
      unfold fieldType
      rw [he]
      dsimp only
      split
      · rename_i hpr
        rw [← qualify_within hp, qualify_prim hpr]
      · exact qualify_within hp
    rw [this]
    exact ⟨hs, fun _ h => h⟩
  rcases h with ⟨e, rfl⟩ | h | h | ⟨p, b, ht, h⟩
  · exact same (by simp [isSlice])
  · exact same (by simp [(hasMap_iff t).2 h])
  · apply same
    rw [resolve_none h]
    split <;> rfl
  · have hk : ∀ k : Ty → Ty, t = k (.name p b) → isSlice t = false → hasMap t = false →
        resolve c t = (aliasOf c (.name p b)).map k →
        (∀ n, isPrim (k (.prim n)) = true ∧ (Documented n → Straight c (k (.prim n)))) →
        (∀ n q, Desc c (k (.prim n)) q →
          (∀ q, Desc c (.prim n) q → Desc c (.name (if p = "" then pkg else p) b) q) →
          Desc c (within pkg t) q) →
        Straight c (fieldType c pkg t) ∧
        ∀ q, Desc c (fieldType c pkg t) q → Desc c (within pkg t) q := by
      intro k hkt h1 h2 hr hpk hd
      cases ha : aliasOf c (.name p b) with
      | none => exact same (by rw [h1, h2, hr, ha]; rfl)
      | some u =>
        obtain ⟨pkg', n, hf, rfl, h3, h4⟩ := alias_prim hE ha
        have : fieldType c pkg t = k (.prim n) := by
          unfold fieldType
          rw [h1, h2, hr, ha]
          simp only [Bool.or_self, Bool.false_eq_true, if_false, Option.map_some, Option.getD_some,
            (hpk n).1, if_true]
        rw [this]
        refine ⟨(hpk n).2 (hF.solid _ _ _ hf), fun q hq => hd n q hq fun q hq => ?_⟩
        exact desc_alias hE (h _ _ hf) hq
    have hname : within pkg (.name p b) = .name (if p = "" then pkg else p) b := by
      simp only [within]; split <;> rfl
    rcases ht with rfl | rfl
    · refine hk id rfl rfl rfl (by simp [resolve]) (fun n => ⟨rfl, fun h => h⟩) ?_
      intro n q hq h
      rw [hname]; exact h q hq
    · refine hk .ptr rfl rfl rfl rfl (fun n => ⟨rfl, fun h => h⟩) ?_
      intro n q hq h
      have hno := conf_none hT (t := .ptr (.prim n)) (by intro p b h; cases h)
        (by intro n h; cases h)
      rw [within, hname]
      cases hq with
      | given h => rw [hno.1] at h; cases h
      | known _ h => rw [hno.2] at h; cases h
      | ptr hq => exact .ptr (h q hq)

theorem prim_scalar {n : String} (h : Documented n) : Scalar n (primSchema n) := by
  simp only [Documented, List.mem_cons, List.not_mem_nil, or_false] at h
  rcases h with rfl | rfl | rfl | rfl | rfl | rfl | rfl | rfl | rfl | rfl | rfl | rfl | rfl | rfl |
    rfl | rfl | rfl | rfl | rfl | rfl
  · exact .string
  all_goals first
    | exact .int (by decide)
    | exact .nat (by decide)
    | exact .float (by decide)
    | exact .bool
    | exact .time
    | exact .free (by decide)

/-! ## The invariant -/

def ValL (c : Ctx) (l : List (Ty × Schema)) : Prop := ∀ x ∈ l, Full c x.1 x.2

structure Sound (c : Ctx) (s : St) : Prop where
  val : ValL c s.used
  gen : ∀ k ∈ s.gen, k ∈ s.vis ∨ canAddRef k = false

/-- The answer for a type. -/
structure Said (c : Ctx) (t : Ty) (a : Ans) : Prop where
  sound : Sound c a.2.2
  out : ValL c a.2.1
  says : Desc c t a.1
  full : ∀ p b, (t = .name p b ∨ t = .ptr (.name p b)) → Nameable b → isRef a.1 = false →
    FullName c p b a.1

/-- The answer for a declaration. -/
structure SaidDecl (c : Ctx) (key : Ty) (d : Decl) (a : Ans) : Prop where
  sound : Sound c a.2.2
  out : ValL c a.2.1
  says : DescDecl c d a.1 ∨ c.extGen key = some a.1
  used : a.1 ≠ .absent → usedSome a.2.2 key = true

structure SaidBody (c : Ctx) (pkg : String) (b : Body) (a : Ans) : Prop where
  sound : Sound c a.2.2
  out : ValL c a.2.1
  says : DescBody c pkg b a.1

structure SaidLit (c : Ctx) (t : Ty) (a : Ans) : Prop where
  sound : Sound c a.2.2
  out : ValL c a.2.1
  says : Desc c t a.1

def PlanOut (c : Ctx) (P : Ans → Prop) : Plan → Prop
  | .done r => P r
  | .go s t fin => Sound c s ∧ Straight c t ∧ ∀ f a, mapGo c f s t = some a → Said c t a → P (fin a)
  | .lit s t fin => Sound c s ∧ Straight c t ∧ (∃ l x r, t = .fld l x r) ∧
      ∀ a, SaidLit c t a → P (fin a)
  | .decl s key d fin => Sound c s ∧ key ∈ s.vis ∧ key ∉ s.gen ∧ usedSome s key = false ∧
      (∃ p b, key = .name p b ∧ c.find p b = some d) ∧
      ∀ a : Ans, a.1 ≠ .absent → SaidDecl c key d a → P (fin a)
  | .body s pkg b fin => Sound c s ∧ b.exact c pkg ∧ ∀ a, SaidBody c pkg b a → P (fin a)

theorem val_nil (c : Ctx) : ValL c [] := by intro x hx; cases hx

theorem val_mset {c : Ctx} {l : List (Ty × Schema)} {k : Ty} {v : Schema} (h : ValL c l)
    (hx : Full c k v) : ValL c (mset l k v) := by
  intro x h'
  rcases mem_mset_kv h' with rfl | h'
  · exact hx
  · exact h x h'

theorem val_copy {c : Ctx} {l m : List (Ty × Schema)} (h : ValL c l) (h' : ValL c m) :
    ValL c (copy l m) := by
  intro x hx
  rcases mem_copy hx with hx | hx
  · exact h x hx
  · exact h' x hx

theorem full_ptr {c : Ctx} {e : Ty} {q : Schema} (h : Full c (.ptr e) q)
    (hn : ∀ x, e ≠ .ptr x) : Full c e q := by
  rintro p b (rfl | rfl)
  · exact h p b (Or.inr rfl)
  · exact absurd rfl (hn _)

theorem sound_mark {c : Ctx} {s : St} {t : Ty} {q : Schema} (h : Sound c s) (hx : Full c t q)
    (hn : ∀ x, t ≠ .ptr (.ptr x)) : Sound c (mark s t q) := by
  unfold mark
  split
  · exact h
  · dsimp only
    split
    · rename_i e
      split
      · exact ⟨val_mset h.val hx, h.gen⟩
      · refine ⟨val_mset (val_mset h.val hx) (full_ptr hx ?_), h.gen⟩
        rintro x rfl; exact hn x rfl
    · exact ⟨val_mset h.val hx, h.gen⟩

theorem val_own {c : Ctx} (hT : PlainTable c) {t : Ty} : ValL c (ownComps c t) := by
  unfold ownComps
  split
  · rename_i q hq
    obtain ⟨⟨p, b, rfl⟩, _⟩ := hT.extMap t q hq
    intro x hx
    rw [List.mem_singleton.1 hx]
    rintro p' b' (h | h)
    · cases h; exact Or.inr (Or.inr (Or.inl hq))
    · cases h
  · exact val_nil c

/-- A promoted type is a name or a pointer to one, and its schema says what it is. -/
theorem promoted_full {c : Ctx} (hT : PlainTable c) (hF : FitTable c) {f s r a} (hp : Plain r)
    (hm : mapGo c f s r = some a) (h : Said c r a) (hpr : promote r a.1 = true) :
    (∃ p b, (r = .name p b ∨ r = .ptr (.name p b)) ∧ Desc c r (addRef r)) ∧ Full c r a.1 := by
  obtain ⟨p, b, hd, hn, _⟩ := (promoted_name hT hF hp hm hpr).2
  have hr : r = .name p b ∨ r = .ptr (.name p b) := by
    cases r with
    | ptr e => exact Or.inr (congrArg Ty.ptr hd)
    | _ => exact Or.inl hd
  refine ⟨⟨p, b, hr, ?_⟩, ?_⟩
  · rcases hr with rfl | rfl
    · exact .ref
    · exact .ptr .ref
  · intro p' b' h'
    have : p' = p ∧ b' = b := by
      rcases hr with rfl | rfl <;> rcases h' with h' | h' <;> cases h' <;> exact ⟨rfl, rfl⟩
    obtain ⟨rfl, rfl⟩ := this
    exact h.full _ _ hr hn (promote_ne hpr).2.1

theorem said_of {c : Ctx} {t : Ty} {a : Ans} (h1 : Sound c a.2.2) (h2 : ValL c a.2.1)
    (h3 : Desc c t a.1) (h4 : ∀ p b, t ≠ .name p b ∧ t ≠ .ptr (.name p b)) : Said c t a :=
  ⟨h1, h2, h3, fun p b h => (h.elim (h4 p b).1 (h4 p b).2).elim⟩

theorem said_elem {c : Ctx} (hT : PlainTable c) (hF : FitTable c) {f s r out a} (hp : Plain r)
    (ho : ValL c out) (hm : mapGo c f s r = some a) (h : Said c r a) {e : Ty}
    (he : ∀ q, Desc c r q → Desc c e q) :
    ∃ q, (finElem r out a).1 = .array q ∧ Desc c e q ∧ ValL c (finElem r out a).2.1 ∧
      Sound c (finElem r out a).2.2 := by
  obtain ⟨q, more, s'⟩ := a
  unfold finElem
  dsimp only
  split
  · rename_i hpr
    obtain ⟨⟨p, b, _, hd⟩, hf⟩ := promoted_full hT hF hp hm h hpr
    exact ⟨_, rfl, he _ hd, val_mset (val_copy ho h.out) hf, h.sound⟩
  · exact ⟨_, rfl, he _ h.says, val_copy ho h.out, h.sound⟩

theorem said_map {c : Ctx} (hT : PlainTable c) (hF : FitTable c) {f s r out a} (hp : Plain r)
    (ho : ValL c out) (hm : mapGo c f s r = some a) (h : Said c r a) {e : Ty}
    (he : ∀ q, Desc c r q → Desc c e q) :
    ∃ q, (finMap r out a).1 = .mapOf q ∧ Desc c e q ∧ ValL c (finMap r out a).2.1 ∧
      Sound c (finMap r out a).2.2 := by
  obtain ⟨q, more, s'⟩ := a
  unfold finMap
  dsimp only
  split
  · rename_i hpr
    obtain ⟨⟨p, b, _, hd⟩, hf⟩ := promoted_full hT hF hp hm h hpr
    exact ⟨_, rfl, he _ hd, val_mset (val_copy ho h.out) hf, h.sound⟩
  · exact ⟨_, rfl, he _ h.says, val_copy ho h.out, h.sound⟩

/-- Slices and arrays.  `wrap` makes the claim about the container from one about the
element. -/
theorem out_planElem {c : Ctx} (hT : PlainTable c) (hF : FitTable c) (hE : ExactTable c) {s : St}
    {fixed : Bool} {t e : Ty} {out : Comps} (hs : Sound c s) (hfit : FitL c s.used)
    (ho : ValL c out) (hp : Plain e)
    (hst : Straight c e) (hel : ElemOk c e) (ht : ∀ p b, t ≠ .name p b ∧ t ≠ .ptr (.name p b))
    (hbyte : isByte fixed e ((resolve c e).getD e) = true → Desc c t (.scalar "byte"))
    (wrap : isByte fixed e ((resolve c e).getD e) = false → ∀ q, Desc c e q → Desc c t (.array q)) :
    PlanOut c (Said c t) (planElem c s fixed e out) := by
  obtain ⟨h1, h2, h3⟩ := elem_desc hT hF hE hst hel
  have hpr : Plain ((resolve c e).getD e) := plain_resolve hp
  unfold planElem
  dsimp only
  split
  · rename_i hb
    exact said_of hs ho (hbyte hb) ht
  · rename_i hb
    have wrap := wrap (Bool.eq_false_iff.2 hb)
    have hgo : PlanOut c (Said c t) (.go s ((resolve c e).getD e)
        (finElem ((resolve c e).getD e) out)) := by
      refine ⟨hs, h1, fun f a hm ha => ?_⟩
      obtain ⟨q, hq, hd, hv, hsd⟩ := said_elem hT hF hpr ho hm ha h2
      exact said_of hsd hv (by rw [hq]; exact wrap q hd) ht
    split
    · exact hgo
    · rename_i hg
      simp only [Bool.or_eq_true, not_or, Bool.not_eq_true] at hg
      split
      · exact hgo
      · rename_i hu
        exact absurd rfl (hfit _ (mem_of_mget hu)).ne
      · rename_i q hqne hu
        have hre : (resolve c e).getD e = e := by
          rcases h3 with h3 | h3
          · exact h3
          · rw [h3] at hg; cases hg.1
        rw [hre]
        rw [hre] at hg
        have hent := hfit _ (mem_of_mget hu)
        have hfull := hs.val _ (mem_of_mget hu)
        have href : Desc c e (addRef e) := by
          rcases hent.key with ⟨n, h⟩ | ⟨p, b, h, _⟩ | ⟨p, b, h, _⟩
          · dsimp only at h; subst h; cases hg.1
          · dsimp only at h; subst h; exact .ref
          · dsimp only at h; subst h; exact .ptr .ref
        have hnp : ∀ x, e ≠ .ptr (.ptr x) := by
          rintro x rfl; exact hp.1 x rfl
        exact said_of (sound_mark hs hfull hnp) (val_copy ho (val_nil c)) (wrap _ href) ht

theorem said_unresolved {c : Ctx} {s : St} {p b : String} {out : Comps} (hs : Sound c s)
    (ho : ValL c out) (hn : c.find p b = none) :
    Said c (.name p b) (unresolved (.name p b) out s) := by
  refine ⟨hs, ?_, .ref, ?_⟩
  · unfold unresolved
    dsimp only
    split
    · exact ho
    · refine val_mset ho ?_
      rintro p' b' (h | h)
      · cases h; exact Or.inr (Or.inr (Or.inr (Or.inr (Or.inr (Or.inl ⟨hn, _, rfl⟩)))))
      · cases h
  · intro _ _ _ _ h; cases h

theorem said_name {c : Ctx} (hE : ExactTable c) {p b : String} {d : Decl} {out : Comps} {a : Ans}
    (ho : ValL c out) (hf : c.find p b = some d) (hne : a.1 ≠ .absent)
    (ha : SaidDecl c (.name p b) d a) : Said c (.name p b) (finName (.name p b) out a) := by
  have hc : canAddRef (.name p b) = true := by
    rw [canAddRef_name]; exact (refable_iff _).2 (hE.decl p b d hf).2
  obtain ⟨q, more, s⟩ := a
  unfold finName
  dsimp only
  rw [if_neg hne, if_pos hc]
  have hm : mark s (.name p b) (addRef (.name p b)) = s := by
    unfold mark
    rw [if_pos (ha.used hne)]
  rw [hm]
  refine ⟨ha.sound, val_copy (val_mset ho ?_) ha.out, .ref, ?_⟩
  · rintro p' b' (h | h)
    · cases h
      rcases ha.says with h | h
      · exact Or.inr (Or.inr (Or.inr (Or.inr (Or.inl ⟨d, hf, h⟩))))
      · exact Or.inr (Or.inr (Or.inr (Or.inl h)))
    · cases h
  · intro _ _ _ _ h; cases h

theorem out_planGo {c : Ctx} (hT : PlainTable c) (hF : FitTable c) (hE : ExactTable c) {s : St}
    {t : Ty} (hs : Sound c s) (hfit : FitL c s.used) (hp : Plain t) (hst : Straight c t) :
    PlanOut c (Said c t) (planGo c s t) := by
  obtain ⟨hpd, hnd⟩ := derive_plain hp
  have href : ∀ s', Sound c s' → canAddRef (derive t) = true →
      Said c t (.ref (derive t), [], s') := by
    intro s' hs' h1
    obtain ⟨p, b, e, hr⟩ := name_of_canAddRef hpd hnd h1
    refine ⟨hs', val_nil c, ?_, by intro _ _ _ _ h; cases h⟩
    dsimp only
    rw [e]
    cases t with
    | ptr x => simp only [derive] at e; subst e; exact .ptr .ref
    | _ => simp only [derive] at e; first | (cases e; exact .ref) | cases e
  unfold planGo
  dsimp only
  split
  · rename_i hg
    simp only [Bool.and_eq_true, Bool.not_eq_true'] at hg
    exact href s hs hg.1.2
  · rename_i hvis
    have hs1 : Sound c { s with vis := t :: s.vis } :=
      ⟨hs.val, fun k hk => (hs.gen k hk).imp (fun h => List.mem_cons_of_mem _ h) id⟩
    split
    · rename_i hg
      simp only [Bool.and_eq_true, Bool.not_eq_true'] at hg
      have := href _ hs1 hg.1.2
      simp only [addRef, derive_derive hnd]
      exact this
    · rename_i hused
      split
      · rename_i q hq
        have hfull : Full c t q := by
          rintro p b (rfl | rfl)
          · exact Or.inl hq
          · rcases (hT.conf _ q hq).1 with ⟨_, _, h⟩ | ⟨_, h⟩ <;> cases h
        have hnp : ∀ x, t ≠ .ptr (.ptr x) := by rintro x rfl; exact hp.1 x rfl
        refine ⟨?_, val_nil c, .given hq, fun p b h _ _ => hfull p b h⟩
        dsimp only
        split
        · exact hs1
        · exact sound_mark hs1 hfull hnp
      · rename_i hcn
        split
        · rename_i q hq
          have hfull : Full c t q := by
            rintro p b (rfl | rfl)
            · exact Or.inr (Or.inl hq)
            · rcases (hT.extern _ q hq).1 with ⟨_, _, h⟩ | ⟨_, h⟩ <;> cases h
          have hnp : ∀ x, t ≠ .ptr (.ptr x) := by rintro x rfl; exact hp.1 x rfl
          refine ⟨?_, val_own hT, .known hcn hq, fun p b h _ _ => hfull p b h⟩
          dsimp only
          split
          · exact sound_mark hs1 hfull hnp
          · exact hs1
        · rename_i hxn
          have ho : ValL c (ownComps c t) := val_own hT
          cases t with
          | prim n =>
            exact said_of hs1 ho (.prim hcn hxn (prim_scalar hst)) (by intro p b; constructor <;> intro h <;> cases h)
          | name p b =>
            simp only [planShape]
            split
            · rename_i d hd
              have hn := (hE.decl p b d hd).2
              have hc : canAddRef (.name p b) = true := by
                rw [canAddRef_name]; exact (refable_iff _).2 hn
              have hi : inlineExt c (.name p b) = false := by simp [inlineExt, hxn]
              refine ⟨hs1, List.mem_cons_self, ?_, ?_, ⟨p, b, rfl, hd⟩,
                fun a hne ha => said_name hE ho hd hne ha⟩
              · intro hgen
                apply hvis
                have : .name p b ∈ s.vis := by
                  rcases hs.gen _ hgen with h | h
                  · exact h
                  · rw [hc] at h; cases h
                simp [derive, hc, hi, this]
              · simp only [derive, hc, hi, Bool.and_true, Bool.not_false] at hused
                exact Bool.eq_false_iff.2 hused
            · rename_i hn
              exact said_unresolved hs1 ho hn
          | ptr e =>
            refine ⟨hs1, hst, fun f a hm ha => ?_⟩
            obtain ⟨q, more, s'⟩ := a
            refine ⟨ha.sound, val_copy ho ha.out, .ptr ha.says, ?_⟩
            rintro p b (h | h) hn hr
            · cases h
            · cases h; exact ha.full p b (Or.inl rfl) hn hr
          | slice e =>
            refine out_planElem hT hF hE hs1 hfit ho hp hst.1 hst.2
              (by intro p b; constructor <;> intro h <;> cases h) ?_ ?_
            · intro hb
              simp only [isByte, Bool.false_eq_true, if_false, Bool.or_eq_true, beq_iff_eq] at hb
              refine .bytes ?_
              rcases hb with rfl | rfl
              · exact Or.inl rfl
              · exact Or.inr (Or.inl rfl)
            · intro hb q hq
              refine .slice ?_ hq
              simp only [isByte, Bool.false_eq_true, if_false, Bool.or_eq_false_iff] at hb
              rintro (rfl | rfl | h)
              · simp at hb
              · simp at hb
              · obtain ⟨p, b, pkg, rfl, h⟩ := h
                exact not_byte hE (Or.inr (Or.inr ⟨p, b, pkg, rfl, h⟩))
          | arr n e =>
            obtain ⟨m, rfl⟩ := hp
            have hr : resolve c (.prim m) = none := by simp [resolve, aliasOf, isPrim, derive]
            refine out_planElem hT hF hE hs1 hfit ho trivial hst.1
              (Or.inl (by intro x hx; cases hx))
              (by intro p b; constructor <;> intro h <;> cases h) ?_ ?_
            · intro hb
              rw [hr] at hb
              simp only [isByte, if_true, Option.getD_none, Bool.or_self, beq_iff_eq] at hb
              exact absurd hb hst.2
            · intro _ q hq
              exact .arr hq
          | map k v =>
            have hno : ∀ p b, Ty.map k v ≠ .name p b ∧ Ty.map k v ≠ .ptr (.name p b) := by
              intro p b; constructor <;> intro h <;> cases h
            simp only [planShape]
            split
            · rename_i hk
              subst hk
              obtain ⟨h1, h2, h3⟩ := elem_desc hT hF hE hst.1 hst.2
              refine ⟨hs1, h1, fun f a hm ha => ?_⟩
              obtain ⟨q, hq, hd, hv, hsd⟩ :=
                said_map hT hF (plain_resolve (show Plain v from hp)) ho hm ha h2
              exact said_of hsd hv (by rw [hq]; exact .map hd) hno
            · rename_i hk
              exact said_of hs1 ho (.keyed hk) hno
          | lit => exact said_of hs1 ho .lit (by intro p b; constructor <;> intro h <;> cases h)
          | fld l x r =>
            obtain ⟨_, _, _, hn1, hn2, _⟩ := id hst
            simp only [planShape]
            split
            · rename_i k g hg
              exact absurd hg (noMap_scan (t := .fld l x r) ⟨hn1, hn2⟩ k g)
            · refine ⟨hs1, hst, ⟨l, x, r, rfl⟩, fun a ha => ?_⟩
              obtain ⟨q, more, s'⟩ := a
              exact said_of ha.sound (val_copy ho ha.out) ha.says
                (by intro p b; constructor <;> intro h <;> cases h)

theorem used_mark {s : St} {t : Ty} {q : Schema} (h : q ≠ .absent) :
    usedSome (mark s t q) t = true := by
  unfold mark
  split
  · rename_i h; exact h
  · dsimp only
    have h0 : usedSome { s with used := mset s.used t q } t = true := by
      unfold usedSome
      simp [mget_mset_self, h]
    split
    · split
      · exact h0
      · unfold usedSome
        dsimp only
        rw [mget_mset_ne _ _ (ptr_ne _), mget_mset_self]
        simp [h]
    · exact h0

theorem saidDecl_fin {c : Ctx} {p b : String} {d : Decl} {a : Ans} (hs : Sound c a.2.2)
    (ho : ValL c a.2.1) (h : DescDecl c d a.1)
    (hf : c.find p b = some d ∨ ¬ Nameable b) :
    SaidDecl c (.name p b) d (finDecl (.name p b) a) := by
  obtain ⟨q, out, s⟩ := a
  refine ⟨sound_mark hs ?_ (by intro x hx; cases hx), ho, Or.inl h, fun hne => used_mark hne⟩
  rintro p' b' (h' | h')
  · cases h'
    rcases hf with hf | hf
    · exact Or.inr (Or.inr (Or.inr (Or.inr (Or.inl ⟨d, hf, h⟩))))
    · exact Or.inr (Or.inr (Or.inr (Or.inr (Or.inr (Or.inr hf)))))
  · cases h'

theorem out_planDecl {c : Ctx} (hE : ExactTable c) {s : St} {p b : String} {d : Decl}
    (hs : Sound c s) (hx : d.exact c) (hf : c.find p b = some d ∨ ¬ Nameable b)
    (hvis : .name p b ∈ s.vis ∨ canAddRef (.name p b) = false)
    (hnew : canAddRef (.name p b) = true → .name p b ∉ s.gen ∧ usedSome s (.name p b) = false) :
    PlanOut c (SaidDecl c (.name p b) d) (planDecl c s (.name p b) d) := by
  unfold planDecl
  dsimp only
  split
  · rename_i h
    simp only [Bool.and_eq_true, List.contains_iff_mem] at h
    exact absurd h.1 (hnew h.2).1
  · have hs1 : Sound c { s with gen := .name p b :: s.gen } := by
      refine ⟨hs.val, fun k hk => ?_⟩
      rcases List.mem_cons.1 hk with rfl | hk
      · exact hvis
      · exact hs.gen k hk
    split
    · rename_i h
      simp only [Bool.and_eq_true] at h
      have h1 : usedSome s (.name p b) = true := h.1
      rw [(hnew h.2).2] at h1; cases h1
    · split
      · rename_i q hq
        refine ⟨sound_mark hs1 ?_ (by intro x hx; cases hx), val_nil c, Or.inr hq,
          fun hne => used_mark hne⟩
        rintro p' b' (h' | h')
        · cases h'; exact Or.inr (Or.inr (Or.inr (Or.inl hq)))
        · cases h'
      · cases d with
        | struct pkg bd => exact ⟨hs1, hx, fun a ha => saidDecl_fin ha.sound ha.out (.struct ha.says) hf⟩
        | iface => exact saidDecl_fin hs1 (val_nil c) .iface hf
        | alias pkg u =>
          obtain ⟨n, rfl, hd, _⟩ := hx
          exact ⟨hs1, hd, fun f a _ ha => saidDecl_fin ha.sound ha.out (.alias ha.says) hf⟩
        | other pkg u =>
          cases u with
          | none => exact saidDecl_fin hs1 (val_nil c) .unknown hf
          | some u =>
            dsimp only
            rw [qualify_within hx.1]
            exact ⟨hs1, hx.2, fun f a _ ha => saidDecl_fin ha.sound ha.out (.other ha.says) hf⟩

/-- The answer for a field. -/
structure SaidField (c : Ctx) (pkg : String) (t : Ty) (a : Ans) : Prop where
  sound : Sound c a.2.2
  out : ValL c a.2.1
  says : Desc c (within pkg t) a.1

theorem out_planField {c : Ctx} (hT : PlainTable c) (hF : FitTable c) (hE : ExactTable c) {s : St}
    {pkg : String} {t : Ty} {out : Comps} (hs : Sound c s) (hfit : FitL c s.used)
    (ho : ValL c out) (hp : Plain t) (ht : FieldOk c pkg t) :
    PlanOut c (SaidField c pkg t) (planField c s pkg t out) := by
  obtain ⟨hst, hd⟩ := field_desc hT hF hE ht
  have hpf : Plain (fieldType c pkg t) := plain_field hp
  obtain ⟨hpd, hnd⟩ := derive_plain hpf
  have hdd := derive_derive hnd
  have hstd : Straight c (derive (fieldType c pkg t)) := by
    revert hst
    generalize fieldType c pkg t = u
    intro h; cases u <;> exact h
  have hdd' : ∀ q, Desc c (derive (fieldType c pkg t)) q → Desc c (within pkg t) q := by
    intro q hq
    apply hd
    revert hq
    generalize fieldType c pkg t = u
    intro h
    cases u with
    | ptr e => exact .ptr h
    | _ => exact h
  have hgo : PlanOut c (SaidField c pkg t) (.go s (derive (fieldType c pkg t))
      (finField (derive (fieldType c pkg t)) out)) := by
    refine ⟨hs, hstd, fun f a hm ha => ?_⟩
    obtain ⟨q, more, s'⟩ := a
    unfold finField
    dsimp only
    split
    · rename_i hpr
      obtain ⟨⟨p, b, _, hd⟩, hf⟩ := promoted_full hT hF hpd hm ha hpr
      exact ⟨ha.sound, val_copy (val_mset ho hf) ha.out, hdd' _ hd⟩
    · exact ⟨ha.sound, val_copy ho ha.out, hdd' _ ha.says⟩
  unfold planField
  dsimp only
  split
  · exact hgo
  · rename_i hg
    simp only [Bool.or_eq_true, not_or, Bool.not_eq_true] at hg
    split
    · exact hgo
    · rename_i hu
      exact absurd rfl (hfit _ (mem_of_mget hu)).ne
    · rename_i q _ hu
      have hent := hfit _ (mem_of_mget hu)
      have hfull := hs.val _ (mem_of_mget hu)
      refine ⟨sound_mark hs hfull (fun x hx => hnd _ hx),
        val_mset (val_copy ho (val_nil c)) hfull, hdd' _ ?_⟩
      simp only [finUsed, addRef, hdd]
      rcases hent.key with ⟨n, e⟩ | ⟨p, b, e, _⟩ | ⟨p, b, e, _⟩
      · have e' : derive (fieldType c pkg t) = .prim n := e
        have := hg.1
        unfold isPrim at this
        rw [e'] at this
        cases this
      · have e' : derive (fieldType c pkg t) = .name p b := e
        rw [e']; exact .ref
      · exact absurd e (hnd _)

/-! ## Objects -/

def mkObj : List (String × Schema) → Schema
  | [] => .obj
  | (l, q) :: r => .prop l q (mkObj r)

theorem setProp_mkObj {ps : List (String × Schema)} {l : String} (q : Schema)
    (h : l ∉ ps.map Prod.fst) : setProp (mkObj ps) l q = mkObj (ps ++ [(l, q)]) := by
  induction ps with
  | nil => rfl
  | cons x r ih =>
    obtain ⟨l', q'⟩ := x
    simp only [List.map_cons, List.mem_cons, not_or] at h
    simp only [mkObj, List.cons_append, setProp]
    rw [if_neg (fun h' => h.1 h'.symm), ih h.2]

structure ShapeAt (c : Ctx) (f : Nat) : Prop where
  go : ∀ s t r, Sound c s → FitL c s.used → Plain t → Tame t → Straight c t →
    mapGo c f s t = some r → Said c t r
  run : ∀ (P : Ans → Prop) p r, PlanFit c p → PlanOut c P p → run c f p = some r → P r
  lit : ∀ s t ps out r, Sound c s → FitL c s.used → Plain t → Tame t → Straight c t →
    (t = .lit ∨ ∃ l x y, t = .fld l x y) → ValL c out → FitL c out →
    (∀ l ∈ t.labels, l ∉ ps.map Prod.fst) → (∀ x ∈ (mkObj ps).refs, RefOk c x) →
    mapLit c f s t (mkObj ps) out = some r →
    Sound c r.2.2 ∧ ValL c r.2.1 ∧ ∃ qs, r.1 = mkObj (ps ++ qs) ∧ Desc c t (mkObj qs)
  body : ∀ s pkg b ps out r, Sound c s → FitL c s.used → (∀ t ∈ b.types, Plain t ∧ Tame t) →
    b.keysOk → b.undeclared c → b.exact c pkg → ValL c out → FitL c out →
    (∀ l ∈ b.labels, l ∉ ps.map Prod.fst) → (∀ x ∈ (mkObj ps).refs, RefOk c x) →
    mapBody c f s pkg b (mkObj ps) out = some r →
    Sound c r.2.2 ∧ ValL c r.2.1 ∧ ∃ qs, r.1 = mkObj (ps ++ qs) ∧ DescBody c pkg b (mkObj qs)

theorem shapeAt {c : Ctx} (hT : PlainTable c) (hF : FitTable c) (hE : ExactTable c) (f : Nat) :
    ShapeAt c f := by
  induction f with
  | zero => constructor <;> intros <;> simp_all [mapGo, run, mapLit, mapBody]
  | succ f ih =>
    have hfa := fitAt hT hF f
    constructor
    · intro s t r hs hfit hp ht hst h
      rw [mapGo] at h
      exact ih.run _ _ r (fit_planGo hT hF hfit hp ht) (out_planGo hT hF hE hs hfit hp hst) h
    · intro P p r hp hP h
      cases p with
      | done q => simp only [run, Option.some.injEq] at h; subst h; exact hP
      | go s t fin =>
        simp only [run, Option.map_eq_some_iff] at h
        obtain ⟨x, hx, rfl⟩ := h
        exact hP.2.2 f x hx (ih.go s t x hP.1 hp.1 hp.2.1 hp.2.2.1 hP.2.1 hx)
      | lit s t fin =>
        simp only [run, Option.map_eq_some_iff] at h
        obtain ⟨x, hx, rfl⟩ := h
        obtain ⟨a1, a2, qs, a3, a4⟩ := ih.lit s t [] [] x hP.1 hp.1 hp.2.1 hp.2.2.1 hP.2.1
          (Or.inr hP.2.2.1) (val_nil c) (fit_nil c) (by simp) (by simp [mkObj, Schema.refs]) hx
        exact hP.2.2.2 x ⟨a1, a2, by rw [a3]; exact a4⟩
      | decl s key d fin =>
        simp only [run, Option.map_eq_some_iff] at h
        obtain ⟨x, hx, rfl⟩ := h
        obtain ⟨h1, ⟨p, b, rfl, h0⟩, h2, h3, h4, h4', h5, h6⟩ := hp
        obtain ⟨g1, g2, g3, g4, ⟨p', b', he, g5⟩, g6⟩ := hP
        cases he
        refine g6 x ((solidAt hT hF f).2 _ x (solid_planDecl hF _ _ h5) hx) ?_
        exact ih.run _ _ x (fit_planDecl hT hF h1 h0 (fun _ => h2) h3 h4 h4' h5)
          (out_planDecl hE g1 (hE.decl p b d g5).1 (Or.inl g5) (Or.inl g2) fun _ => ⟨g3, g4⟩) hx
      | body s pkg b fin =>
        simp only [run, Option.map_eq_some_iff] at h
        obtain ⟨x, hx, rfl⟩ := h
        obtain ⟨h1, h2, h3, h3', h4⟩ := hp
        obtain ⟨a1, a2, qs, a3, a4⟩ := ih.body s pkg b [] [] x hP.1 h1 h2 h3 h3' hP.2.1 (val_nil c)
          (fit_nil c) (by simp) (by simp [mkObj, Schema.refs]) hx
        exact hP.2.2 x ⟨a1, a2, by rw [a3]; exact a4⟩
    · intro s t ps out r hs hfit hp ht hst hch ho hfo hl hq h
      rcases hch with rfl | ⟨l, a, rest, rfl⟩
      · rw [mapLit] at h
        · obtain rfl := Option.some.inj h
          exact ⟨hs, ho, [], by simp, .lit⟩
        · intro _ _ _ h; cases h
      · rw [mapLit] at h
        split at h
        · cases h
        · rename_i q more s1 hx
          obtain ⟨t1, t2, t3, t4, t5, t6⟩ := hst
          have ha := ih.go s a _ hs hfit hp.1 ht.1 t1 hx
          have hb := hfa.go s a _ hfit hp.1 ht.1 hx
          have hln : l ∉ ps.map Prod.fst := hl l (by simp [Ty.labels])
          rw [setProp_mkObj q hln] at h
          obtain ⟨a1, a2, qs, a3, a4⟩ := ih.lit s1 rest (ps ++ [(l, q)]) _ r ha.sound hb.used hp.2 ht.2
            t2 t3 (val_copy ho ha.out) (fit_copy hfo hb.out) (by
              intro l' hl'
              simp only [List.map_append, List.map_cons, List.map_nil, List.mem_append,
                List.mem_singleton, not_or]
              refine ⟨hl l' (by simp [Ty.labels, hl']), ?_⟩
              rintro rfl; exact t6 hl') (by
              rw [← setProp_mkObj q hln]
              intro x hx'
              rcases refs_setProp hx' with hx' | hx'
              · exact hq x hx'
              · exact hb.q x hx') h
          exact ⟨a1, a2, (l, q) :: qs, by rw [a3]; simp, .fld ha.says a4⟩
    · intro s pkg b ps out r hs hfit hp hkeys hund hex ho hfo hl hq h
      cases b with
      | done =>
        rw [mapBody] at h
        obtain rfl := Option.some.inj h
        exact ⟨hs, ho, [], by simp, .done⟩
      | field l a rest =>
        rw [mapBody] at h
        split at h
        · cases h
        · rename_i q out1 s1 hx
          obtain ⟨hpa, hta⟩ := hp a (by simp [Body.types])
          obtain ⟨e1, e2, e3⟩ := hex
          have hpf := fit_planField hT hF (pkg := pkg) hfit hfo hpa hta
          have ha := ih.run _ _ _ hpf (out_planField hT hF hE hs hfit ho hpa e1) hx
          have hb := hfa.run _ _ hpf hx
          have hln : l ∉ ps.map Prod.fst := hl l (by simp [Body.labels])
          rw [setProp_mkObj q hln] at h
          obtain ⟨a1, a2, qs, a3, a4⟩ := ih.body s1 pkg rest (ps ++ [(l, q)]) _ r ha.sound hb.used
            (fun t h => hp t (by simp [Body.types, h])) hkeys hund e3 ha.out hb.out (by
              intro l' hl'
              simp only [List.map_append, List.map_cons, List.map_nil, List.mem_append,
                List.mem_singleton, not_or]
              refine ⟨hl l' (by simp [Body.labels, hl']), ?_⟩
              rintro rfl; exact e2 hl') (by
              rw [← setProp_mkObj q hln]
              intro x hx'
              rcases refs_setProp hx' with hx' | hx'
              · exact hq x hx'
              · exact hb.q x hx') h
          exact ⟨a1, a2, (l, q) :: qs, by rw [a3]; simp, .field ha.says a4⟩
      | sub l key inner rest =>
        rw [mapBody] at h
        split at h
        · cases h
        · rename_i q more s1 hx
          obtain ⟨hk1, hk2, hk3⟩ := hkeys
          obtain ⟨hu1, hu2, hu3⟩ := hund
          obtain ⟨e1, e2, e3⟩ := hex
          have hnr : canAddRef (.name "" key) = false := by
            rw [canAddRef_name]
            exact Bool.eq_false_iff.2 fun h => hk1 ((refable_iff _).1 h)
          have hpf := fit_planDecl hT hF (p := "") (b := key)
            (d := .struct pkg inner) hfit (Or.inr hu1) (fun h => by rw [hnr] at h; cases h)
            (fun t h => hp t (by simp [Body.types]; exact Or.inl h)) hk2 hu2 trivial
          have ha := ih.run _ _ _ hpf (out_planDecl hE (p := "") (b := key)
            (d := .struct pkg inner) hs e1 (Or.inr hk1) (Or.inr hnr)
            (fun h => by rw [hnr] at h; cases h)) hx
          have hb := hfa.run _ _ hpf hx
          have hsays : DescBody c pkg inner q := by
            rcases ha.says with h | h
            · cases h with | struct h => exact h
            · obtain ⟨p, b, he, hn⟩ := hE.extGen _ _ h
              cases he; exact absurd hn hk1
          have hln : l ∉ ps.map Prod.fst := hl l (by simp [Body.labels])
          rw [setProp_mkObj q hln] at h
          obtain ⟨a1, a2, qs, a3, a4⟩ := ih.body s1 pkg rest (ps ++ [(l, q)]) _ r ha.sound hb.used
            (fun t h => hp t (by simp [Body.types, h])) hk3 hu3 e3 (val_copy ho ha.out)
            (fit_copy hfo hb.out) (by
              intro l' hl'
              simp only [List.map_append, List.map_cons, List.map_nil, List.mem_append,
                List.mem_singleton, not_or]
              refine ⟨hl l' (by simp [Body.labels, hl']), ?_⟩
              rintro rfl; exact e2 hl') (by
              rw [← setProp_mkObj q hln]
              intro x hx'
              rcases refs_setProp hx' with hx' | hx'
              · exact hq x hx'
              · exact hb.q x hx') h
          exact ⟨a1, a2, (l, q) :: qs, by rw [a3]; simp, .sub hsays a4⟩

/-! ## Routes -/

theorem val_notes {c : Ctx} {out used : List (Ty × Schema)} (h1 : ValL c out) (h2 : ValL c used) :
    ValL c (out.foldl forRoute.note used) := by
  intro x hx
  rcases (notes_keys out used).2.2.1 x hx with h | h
  · exact h2 x h
  · exact h1 x h

/-- **C69, one type.**  The schema a route gets for a type describes the type, and what
the route uses is described by what is recorded for it. -/
theorem C69_route_partial {c : Ctx} (hT : PlainTable c) (hF : FitTable c) (hE : ExactTable c)
    {t : Ty} (hp : Plain t) (ht : Tame t) (hst : Straight c t) {used : List (Ty × Schema)}
    (hfit : FitL c used) (hval : ∀ x ∈ used, Full c x.1 x.2) {f : Nat} {q : Schema}
    {used' : List (Ty × Schema)} (h : forRoute c f used t = some (q, used')) :
    Desc c t q ∧ ∀ x ∈ used', Full c x.1 x.2 := by
  unfold forRoute at h
  split at h
  · cases h
  · rename_i q' out s hm
    simp only [Option.some.injEq, Prod.mk.injEq] at h
    obtain ⟨rfl, rfl⟩ := h
    have ha := (shapeAt hT hF hE f).go { used := used } t _ ⟨hval, by simp⟩ hfit hp ht hst hm
    exact ⟨ha.says, val_notes ha.out ha.sound.val⟩

theorem said_routes {c : Ctx} (hT : PlainTable c) (hF : FitTable c) (hE : ExactTable c) {f : Nat} :
    ∀ {ts : List Ty} {used qs used'}, (∀ t ∈ ts, Plain t ∧ Tame t ∧ Straight c t) → FitL c used →
    ValL c used → forRouteAll c f used ts = some (qs, used') →
    ValL c used' ∧ ts.length = qs.length ∧ ∀ x ∈ ts.zip qs, Desc c x.1 x.2
  | [], used, qs, used', _, _, hu, h => by
    simp only [forRouteAll, Option.some.injEq, Prod.mk.injEq] at h
    obtain ⟨rfl, rfl⟩ := h
    exact ⟨hu, rfl, by simp⟩
  | t :: ts, used, qs, used', ht, hfit, hu, h => by
    rw [forRouteAll] at h
    split at h
    · cases h
    · rename_i q used1 h1
      split at h
      · cases h
      · rename_i qs2 used2 h2
        simp only [Option.some.injEq, Prod.mk.injEq] at h
        obtain ⟨rfl, rfl⟩ := h
        obtain ⟨t1, t2, t3⟩ := ht t (by simp)
        obtain ⟨a1, a2⟩ := C69_route_partial hT hF hE t1 t2 t3 hfit hu h1
        obtain ⟨b1, b2, b3⟩ := said_routes hT hF hE (fun x hx => ht x (List.mem_cons_of_mem _ hx))
          (fit_forRoute hT hF t1 t2 hfit h1).1 a2 h2
        refine ⟨b1, by simp [b2], ?_⟩
        intro x hx
        rw [List.zip_cons_cons] at hx
        rcases List.mem_cons.1 hx with rfl | hx
        · exact a1
        · exact b3 x hx

/-! ## Components -/

/-- Full, or without a schema. -/
def ValA (c : Ctx) (l : List (Ty × Schema)) : Prop := ∀ x ∈ l, x.2 = .absent ∨ Full c x.1 x.2

theorem mem_mark {u : List (Ty × Schema)} {k : Ty} {q : Schema} {x : Ty × Schema}
    (h : x ∈ (mark { used := u } k q).used) :
    x ∈ u ∨ x = (k, q) ∨ ∃ e, k = .ptr e ∧ x = (e, q) := by
  unfold mark at h
  split at h
  · exact Or.inl h
  · dsimp only at h
    split at h
    · split at h
      · rcases mem_mset_kv h with h | h
        · exact Or.inr (Or.inl h)
        · exact Or.inl h
      · rcases mem_mset_kv h with h | h
        · exact Or.inr (Or.inr ⟨_, rfl, h⟩)
        · rcases mem_mset_kv h with h | h
          · exact Or.inr (Or.inl h)
          · exact Or.inl h
    · rcases mem_mset_kv h with h | h
      · exact Or.inr (Or.inl h)
      · exact Or.inl h

theorem valA_bodies {c : Ctx} : ∀ (ts : List Ty) (u : List (Ty × Schema)), ValA c u →
    ValA c (ts.foldl (fun u t => (mark { used := u } t .absent).used) u)
  | [], _, h => h
  | t :: ts, u, h => by
    rw [List.foldl_cons]
    apply valA_bodies ts
    intro x hx
    rcases mem_mark hx with hx | rfl | ⟨e, _, rfl⟩
    · exact h x hx
    · exact Or.inl rfl
    · exact Or.inl rfl

theorem valA_used {c : Ctx} : ∀ (l : List (Ty × Schema)) (u : List (Ty × Schema)), FitL c l →
    ValL c l → ValA c u → ValA c (l.foldl (fun u kv => (mark { used := u } kv.1 kv.2).used) u)
  | [], _, _, _, h => h
  | kv :: l, u, hf, hv, h => by
    rw [List.foldl_cons]
    apply valA_used l _ (fun x hx => hf x (List.mem_cons_of_mem _ hx))
      (fun x hx => hv x (List.mem_cons_of_mem _ hx))
    intro x hx
    have hkv := hv kv List.mem_cons_self
    rcases mem_mark hx with hx | rfl | ⟨e, he, rfl⟩
    · exact h x hx
    · exact Or.inr hkv
    · refine Or.inr (full_ptr (by rw [← he]; exact hkv) ?_)
      rintro y rfl
      rcases (hf kv List.mem_cons_self).key with ⟨_, h⟩ | ⟨_, _, h, _⟩ | ⟨_, _, h, _⟩ <;>
        rw [he] at h <;> cases h

theorem valA_collect {c : Ctx} : ∀ (rs : List RouteTypes) (u : List (Ty × Schema)), ValA c u →
    (∀ r ∈ rs, FitL c r.used ∧ ValL c r.used) → ValA c (rs.foldl collectRoute u)
  | [], _, h, _ => h
  | r :: rs, u, h, hr => by
    rw [List.foldl_cons]
    apply valA_collect rs _ _ fun x hx => hr x (List.mem_cons_of_mem _ hx)
    obtain ⟨h1, h2⟩ := hr r List.mem_cons_self
    exact valA_used _ _ h1 h2 (valA_bodies _ _ h)

/-- What each component says. -/
def ValM (c : Ctx) (comps : Comps) : Prop := ∀ k q, mget comps k = some q → Full c k q

theorem valM_mset {c : Ctx} {comps : Comps} {k : Ty} {q : Schema} (h : ValM c comps)
    (hq : Full c k q) : ValM c (mset comps k q) := by
  intro k' q' h'
  rw [mget_mset] at h'
  split at h'
  · rename_i he
    cases h'; rw [he]; exact hq
  · exact h k' q' h'

theorem emit_full {c : Ctx} (hT : PlainTable c) (hE : ExactTable c) {U : List (Ty × Schema)}
    (hU : Gathered c (Quiet c) U) (hV : ValA c U) {f : Nat} {comps : Comps} {key : Ty}
    (hkey : key ∈ keys U) (hc : ValM c comps) {u' : List (Ty × Schema)} {comps' : Comps}
    (h : emit c f (U, comps) key = some (u', comps')) : ValM c comps' := by
  unfold emit at h
  dsimp only at h
  split at h
  · simp only [Option.some.injEq, Prod.mk.injEq] at h
    obtain ⟨rfl, rfl⟩ := h
    exact hc
  · generalize hc1 : emit.asked c key comps = comps1 at h
    have hc' : ValM c comps1 := by
      subst hc1
      unfold emit.asked
      split
      · rename_i q hq
        refine valM_mset hc ?_
        obtain ⟨p, b, rfl, _⟩ := hE.extGen _ _ hq
        rintro p' b' (h | h)
        · cases h; exact Or.inr (Or.inr (Or.inr (Or.inl hq)))
        · cases h
      · exact hc
    split at h
    · rename_i q hq
      simp only [Option.some.injEq, Prod.mk.injEq] at h
      obtain ⟨rfl, rfl⟩ := h
      split
      · refine valM_mset hc' ?_
        rintro p b (rfl | rfl)
        · exact Or.inr (Or.inl hq)
        · rcases (hT.extern _ q hq).1 with ⟨_, _, h⟩ | ⟨_, h⟩ <;> cases h
      · exact hc'
    · rename_i hext
      split at h
      · rename_i hlk
        simp only [Option.some.injEq, Prod.mk.injEq] at h
        obtain ⟨rfl, rfl⟩ := h
        split
        · refine valM_mset hc' ?_
          rintro p b (rfl | rfl)
          · exact Or.inr (Or.inr (Or.inr (Or.inr (Or.inr (Or.inl ⟨hlk, _, rfl⟩)))))
          · exact Or.inr (Or.inr (Or.inr (Or.inr (Or.inr (Or.inl ⟨hlk, _, rfl⟩)))))
        · exact hc'
      · rename_i d hlk
        have hstep := hlk
        unfold emit.lookup at hlk
        split at hlk
        · cases hlk
        · split at hlk
          · rename_i hnp p b hcore
            obtain ⟨x, hx, rfl⟩ := List.mem_map.1 hkey
            obtain ⟨k, v⟩ := x
            dsimp only at *
            have hent : Ent c (k, v) := by
              rcases hU.ent _ hx with h | ⟨_, h | h⟩
              · exact h
              · exact absurd (core_named hcore) h
              · exact absurd h (not_inPlace hext)
            have hmget : mget U k = some v := mget_of_mem hU.nodup hx
            have hfull : Full c k v := by
              rcases hV _ hx with h | h
              · exact absurd h hent.ne
              · exact h
            have hcan : canAddRef k = true := by
              rcases hent.key with ⟨n, e⟩ | ⟨p', b', e, hn⟩ | ⟨p', b', e, hn, hx'⟩
              · dsimp only at e; subst e; cases hcore
              · dsimp only at e
                subst e
                simp only [core, Ty.name.injEq] at hcore
                obtain ⟨rfl, rfl⟩ := hcore
                rw [canAddRef_name]
                exact (refable_iff _).2 (hE.decl _ _ _ hlk).2
              · dsimp only at e
                subst e
                simp [canAddRef, isPrim, derive, isSlice, hasMap, hasLit, core, (refable_iff b').2 hn]
            have hplan : planDecl c { used := U } k d =
                .done (addRef k, [(k, v)], { used := U, gen := [k] }) := by
              unfold planDecl
              have hu : usedSome { used := U, gen := [k] } k = true :=
                usedSome_iff.2 ⟨v, hmget, hent.ne⟩
              simp [hu, hcan, hmget]
            unfold mapDecl at h
            rw [hplan] at h
            split at h
            · cases h
            · rename_i q out s hr
              have hr' := run_done hr
              simp only [Prod.mk.injEq] at hr'
              obtain ⟨rfl, rfl, rfl⟩ := hr'
              simp only [Option.some.injEq, Prod.mk.injEq] at h
              obtain ⟨rfl, rfl⟩ := h
              have hne : addRef k ≠ .absent := by intro h; cases h
              rw [if_neg hne]
              intro k' q' h'
              simp only [copy, List.foldl_cons, List.foldl_nil, mget_mset] at h'
              split at h'
              · rename_i he
                cases h'; rw [he]; exact hfull
              · exact hc' k' q' h'
          · cases hlk

theorem emit_full_fold {c : Ctx} (hT : PlainTable c) (hE : ExactTable c)
    {U : List (Ty × Schema)} (hU : Gathered c (Quiet c) U) (hV : ValA c U) {f : Nat} :
    ∀ {order : List Ty} {comps : Comps}, (∀ k ∈ order, k ∈ keys U) → CompsOk c U comps →
    ValM c comps →
    ∀ {r}, order.foldl (fun st key => st.bind fun st => emit c f st key) (some (U, comps)) =
      some r → ValM c r.2
  | [], comps, _, _, hc, r, h => by
    obtain rfl := Option.some.inj h
    exact hc
  | k :: ks, comps, ho, hok, hc, r, h => by
    rw [List.foldl_cons, Option.bind_some] at h
    cases he : emit c f (U, comps) k with
    | none =>
      rw [he] at h
      have : ∀ ks : List Ty, ks.foldl (fun st key => st.bind fun st => emit c f st key) none =
          none := by
        intro ks
        induction ks with
        | nil => rfl
        | cons _ _ ih => rw [List.foldl_cons]; exact ih
      rw [this] at h; cases h
    | some st =>
      obtain ⟨u', comps'⟩ := st
      rw [he] at h
      have hfull := emit_full hT hE hU hV (ho k List.mem_cons_self) hc he
      obtain ⟨rfl, a1, _⟩ := emit_step hT hU (ho k List.mem_cons_self) hok he
      exact emit_full_fold hT hE hU hV (fun x hx => ho x (List.mem_cons_of_mem _ hx)) a1 hfull h

/-! ## The theorem -/

/-- **C69, the whole document.**  The schema of every type mapped for a route describes
the type, and every component that is written, in whatever order, says what its name
stands for: what the user or the table of known types says, or its declaration. -/
theorem C69_document_partial {c : Ctx} (hT : PlainTable c) (hF : FitTable c) (hE : ExactTable c)
    {rs : List RouteIn}
    (hrs : ∀ r ∈ rs, (∀ t ∈ r.types, Plain t ∧ Tame t ∧ Straight c t) ∧
      ∀ t ∈ r.bodies, t ∈ r.types ∧ BodyOk c t)
    {f g : Nat} {routes : List (List Schema × RouteTypes)} (h1 : mapRoutes c f rs = some routes)
    {order : List Ty} (ho : ∀ k, k ∈ order ↔ k ∈ keys (collect (routes.map (·.2))))
    {comps : Comps} (h2 : generate c g (collect (routes.map (·.2))) order [] = some comps) :
    (∀ x ∈ routes, ∃ r ∈ rs, r.types.length = x.1.length ∧ ∀ y ∈ r.types.zip x.1, Desc c y.1 y.2) ∧
    ∀ k q, mget comps k = some q → Full c k q := by
  have hrs' : ∀ r ∈ rs, (∀ t ∈ r.types, Plain t ∧ Tame t) ∧
      ∀ t ∈ r.bodies, t ∈ r.types ∧ BodyOk c t := fun r hr =>
    ⟨fun t ht => ⟨((hrs r hr).1 t ht).1, ((hrs r hr).1 t ht).2.1⟩, (hrs r hr).2⟩
  obtain ⟨hU, hfit, _⟩ := document_gathered hT hF hrs' h1
  have hsaid : ∀ x ∈ routes, ValL c x.2.used ∧ ∃ r ∈ rs, r.types.length = x.1.length ∧
      ∀ y ∈ r.types.zip x.1, Desc c y.1 y.2 := by
    intro x hx
    obtain ⟨r, hr, h3, h4⟩ := mapRoutes_mem h1 x hx
    obtain ⟨a1, a2, a3⟩ := said_routes hT hF hE (hrs r hr).1 (fit_nil c) (val_nil c) h3
    exact ⟨a1, r, hr, a2, a3⟩
  refine ⟨fun x hx => (hsaid x hx).2, ?_⟩
  have hV : ValA c (collect (routes.map (·.2))) := by
    refine valA_collect _ [] (by intro x hx; cases hx) ?_
    intro r hr
    obtain ⟨x, hx, rfl⟩ := List.mem_map.1 hr
    exact ⟨hfit x hx, (hsaid x hx).1⟩
  unfold generate at h2
  simp only [Option.map_eq_some_iff] at h2
  obtain ⟨r, hr, rfl⟩ := h2
  exact emit_full_fold hT hE hU hV (fun k hk => (ho k).1 hk) (by intro x hx; cases hx)
    (by intro k q h; cases h) hr

/-- In particular the component of a struct the user says nothing about is an object
with the struct's fields. -/
theorem C69_struct_component_partial {c : Ctx} (hT : PlainTable c) (hF : FitTable c)
    (hE : ExactTable c) {rs : List RouteIn}
    (hrs : ∀ r ∈ rs, (∀ t ∈ r.types, Plain t ∧ Tame t ∧ Straight c t) ∧
      ∀ t ∈ r.bodies, t ∈ r.types ∧ BodyOk c t)
    {f g : Nat} {routes : List (List Schema × RouteTypes)} (h1 : mapRoutes c f rs = some routes)
    {order : List Ty} (ho : ∀ k, k ∈ order ↔ k ∈ keys (collect (routes.map (·.2))))
    {comps : Comps} (h2 : generate c g (collect (routes.map (·.2))) order [] = some comps)
    {p b pkg : String} {body : Body} (hf : c.find p b = some (.struct pkg body))
    (hu : c.conf (.name p b) = none ∧ c.extern (.name p b) = none ∧
      c.extMap (.name p b) = none ∧ c.extGen (.name p b) = none)
    {q : Schema} (hq : mget comps (.name p b) = some q) : DescBody c pkg body q := by
  have h := (C69_document_partial hT hF hE hrs h1 ho h2).2 _ q hq p b (Or.inl rfl)
  obtain ⟨u1, u2, u3, u4⟩ := hu
  rcases h with h | h | h | h | ⟨d, hd, h⟩ | ⟨hn, _⟩ | h
  · rw [u1] at h; cases h
  · rw [u2] at h; cases h
  · rw [u3] at h; cases h
  · rw [u4] at h; cases h
  · rw [hf] at hd; cases hd
    cases h with | struct h => exact h
  · rw [hf] at hn; cases hn
  · exact absurd (hE.decl _ _ _ hf).2 h

theorem exTree_exact : ExactTable exTree where
  decl := by
    intro p b d h
    have hfree : ∀ x : Ty, (∀ n ∈ x.names, n.2 = "Node" ∨ n.2 = "Forest") → AliasFree exTree x := by
      intro x hx n hn
      constructor
      · intro q i h'
        rcases hx n hn with e | e <;> simp [e] at h'
      · intro q i h'
        rcases hx n hn with e | e <;> simp [e] at h'
    simp only at h
    split at h
    · rename_i hb
      subst hb
      obtain rfl := Option.some.inj h
      refine ⟨⟨?_, by decide, ?_, by decide, ⟨⟨?_, by decide, trivial⟩, by decide, ?_, by decide, trivial⟩⟩,
        by rw [← refable_iff]; decide⟩
      · exact ⟨trivial, trivial, Or.inr (Or.inr (Or.inl (hfree _ (by simp [Ty.names]))))⟩
      · refine ⟨trivial, ⟨trivial, Or.inr ⟨"p", "Node", Or.inr (Or.inl ?_)⟩⟩, Or.inl ⟨_, rfl⟩⟩
        simp [within]
      · exact ⟨trivial, trivial, Or.inr (Or.inr (Or.inr ⟨"", "Kind", Or.inl rfl, fun q i h => h⟩))⟩
      · exact ⟨trivial, trivial, Or.inr (Or.inr (Or.inl (hfree _ (by simp [Ty.names]))))⟩
    · split at h
      · rename_i hb
        subst hb
        obtain rfl := Option.some.inj h
        refine ⟨⟨trivial, trivial, Or.inr ⟨"p", "Node", Or.inl ?_⟩⟩, by rw [← refable_iff]; decide⟩
        simp [within]
      · split at h
        · rename_i hb
          subst hb
          obtain rfl := Option.some.inj h
          exact ⟨⟨"string", rfl, by simp [Documented], by decide, by decide⟩,
            by rw [← refable_iff]; decide⟩
        · cases h
  alias := by intros; exact ⟨rfl, rfl⟩
  extGen := by intro t q h; cases h

/-- The theorem's remaining hypothesis holds of the example's routes. -/
example : ∀ r ∈ exRoutes, ∀ t ∈ r.types, Straight exTree t := by
  intro r hr t ht
  simp only [List.mem_cons, List.not_mem_nil, or_false] at hr
  rcases hr with rfl | rfl
  · simp only [List.mem_cons, List.not_mem_nil, or_false] at ht
    rcases ht with rfl | rfl
    · exact ⟨trivial, Or.inr ⟨_, _, Or.inl rfl⟩⟩
    · trivial
  · simp only [List.mem_singleton] at ht
    subst ht; trivial

/-! ### Where the code falls short -/

/-- `type Level int`, `type Octet byte` and a struct of containers of them. -/
@[reducible] def exLevel : Ctx where
  find _ b :=
    if b = "S" then some (.struct "p" (.field "a" (.arr "2" (.name "" "Level"))
      (.field "b" (.ptr (.slice (.name "" "Level")))
      (.field "c" (.slice (.slice (.slice (.name "" "Level"))))
      (.field "d" (.slice (.map (.prim "string") (.name "q" "Level")))
      (.field "e" (.arr "16" (.prim "byte"))
      (.field "f" (.slice (.name "" "Octet")) .done)))))))
    else if b = "Level" then some (.alias "p" (.builtin "int"))
    else if b = "Octet" then some (.alias "p" (.builtin "byte"))
    else none

theorem desc_slice_scalar {c : Ctx} {e : Ty} {s : String} (h1 : c.conf (.slice e) = none)
    (h2 : c.extern (.slice e) = none) (hs : s ≠ "byte") : ¬ Desc c (.slice e) (.scalar s) := by
  intro h
  generalize hq : Schema.scalar s = q at h
  generalize ht : Ty.slice e = t at h
  cases h with
  | given h => rw [← ht, h1] at h; cases h
  | known _ h => rw [← ht, h2] at h; cases h
  | bytes _ => injection hq with hq; exact hs hq
  | slice _ _ => cases hq
  | _ => cases ht

/-- **C69, the failure for containers of aliases.**  An array or a pointer to a slice of
`Level` is documented as a single integer, three nested slices lose one dimension, the
values of a map in a slice are lost, an array of bytes is documented as a base64 string
although it is written as an array of numbers, and a slice of a byte type as an array
of numbers although it is written as a base64 string. -/
theorem C69_alias_containers :
    ∃ q used', forRoute exLevel 60 [] (.name "p" "S") = some (q, used') ∧
      mget used' (.name "p" "S") = some (.prop "a" (.scalar "integer")
        (.prop "b" (.scalar "integer") (.prop "c" (.array (.array (.scalar "integer")))
        (.prop "d" (.array .obj) (.prop "e" (.scalar "byte")
        (.prop "f" (.array (.scalar "natural")) .obj)))))) ∧
      ¬ Desc exLevel (within "p" (.arr "2" (.name "" "Level"))) (.scalar "integer") ∧
      ¬ Desc exLevel (within "p" (.ptr (.slice (.name "" "Level")))) (.scalar "integer") ∧
      ¬ Desc exLevel (within "p" (.slice (.slice (.slice (.name "" "Level")))))
        (.array (.array (.scalar "integer"))) ∧
      ¬ Desc exLevel (within "p" (.slice (.map (.prim "string") (.name "q" "Level")))) (.array .obj) ∧
      ¬ Desc exLevel (within "p" (.arr "16" (.prim "byte"))) (.scalar "byte") ∧
      ¬ Desc exLevel (within "p" (.slice (.name "" "Octet"))) (.array (.scalar "natural")) := by
  refine ⟨.ref (.name "p" "S"), [(.name "p" "S", .prop "a" (.scalar "integer")
        (.prop "b" (.scalar "integer") (.prop "c" (.array (.array (.scalar "integer")))
        (.prop "d" (.array .obj) (.prop "e" (.scalar "byte")
        (.prop "f" (.array (.scalar "natural")) .obj))))))], by decide, by decide, ?_, ?_, ?_, ?_,
        ?_, ?_⟩
  · intro h
    cases h with
    | given h => cases h
    | known _ h => cases h
  · intro h
    cases h with
    | given h => cases h
    | known _ h => cases h
    | ptr h => exact desc_slice_scalar rfl rfl (by decide) h
  · intro h
    cases h with
    | given h => cases h
    | known _ h => cases h
    | slice _ h =>
      cases h with
      | given h => cases h
      | known _ h => cases h
      | slice _ h => exact desc_slice_scalar rfl rfl (by decide) h
  · intro h
    cases h with
    | given h => cases h
    | known _ h => cases h
    | slice _ h =>
      cases h with
      | given h => cases h
      | known _ h => cases h
      | keyed h => exact h rfl
  · intro h
    cases h with
    | given h => cases h
    | known _ h => cases h
  · intro h
    cases h with
    | given h => cases h
    | known _ h => cases h
    | slice hb _ => exact hb (Or.inr (Or.inr ⟨"p", "Octet", "p", rfl, Or.inl rfl⟩))

/-- `package q; type A B; type B struct { X int }` and
`package p; type S struct { A q.A }; type B struct { Y bool }`. -/
@[reducible] def exCross : Ctx where
  find p b :=
    if p = "p" ∧ b = "S" then some (.struct "p" (.field "a" (.name "q" "A") .done))
    else if (p = "q" ∨ p = "") ∧ b = "A" then some (.alias "q" (.declared "B"))
    else if (p = "q" ∨ p = "") ∧ b = "B" then some (.struct "q" (.field "x" (.prim "int") .done))
    else if p = "p" ∧ b = "B" then some (.struct "p" (.field "y" (.prim "bool") .done))
    else none

/-- **C69, the failure for aliases of another package.**  The field is documented as the
struct's own package's `B`, with a boolean `y`, not as `q.B` with an integer `x`. -/
theorem C69_cross_package_alias :
    ∃ q used', forRoute exCross 60 [] (.name "p" "S") = some (q, used') ∧
      mget used' (.name "p" "S") = some (.prop "a" (.ref (.name "p" "B")) .obj) ∧
      mget used' (.name "p" "B") = some (.prop "y" (.scalar "boolean") .obj) :=
  ⟨.ref (.name "p" "S"), [(.name "p" "B", .prop "y" (.scalar "boolean") .obj),
    (.name "p" "S", .prop "a" (.ref (.name "p" "B")) .obj)], by decide, by decide, by decide⟩

/-- **C69, the failure for a used alias.**  The elements of `[]A`, mapped after `A`, are
references to the bare name `B`, whose component is a reference to `q.B`. -/
theorem C69_used_alias :
    ∃ used', forRouteAll exCross 60 [] [.name "q" "A", .slice (.name "q" "A")] =
      some ([.ref (.name "q" "A"), .array (.ref (.name "" "B"))], used') ∧
      mget used' (.name "" "B") = some (.ref (.name "q" "B")) :=
  ⟨[(.name "q" "B", .prop "x" (.scalar "integer") .obj), (.name "q" "A", .ref (.name "q" "B")),
    (.name "" "B", .ref (.name "q" "B"))], by decide, by decide⟩

/-- No declarations. -/
@[reducible] def exNone : Ctx where
  find _ _ := none

/-- **C69, the failure for inline structs with a map.**  `struct { Tags map[string]int;
Name string }` is documented as a map. -/
theorem C69_inline_map :
    ∃ q used', forRoute exNone 60 [] (.fld "tags" (.map (.prim "string") (.prim "int"))
        (.fld "name" (.prim "string") .lit)) = some (.mapOf q, used') :=
  ⟨.prop "tags" (.ref (.name "" ".int")) (.prop "name" (.scalar "string") .obj),
    [(.name "" ".int", .hole (.name "" ".int"))], by decide⟩

/-- `package p; type S struct { A Kind }; type Kind struct { X int }` and
`package a; type Kind string`, where `a` is the first package with a `Kind`. -/
@[reducible] def exBare : Ctx where
  find p b :=
    if p = "p" ∧ b = "S" then some (.struct "p" (.field "a" (.name "" "Kind") .done))
    else if p = "p" ∧ b = "Kind" then some (.struct "p" (.field "x" (.prim "int") .done))
    else if (p = "a" ∨ p = "") ∧ b = "Kind" then some (.alias "a" (.builtin "string"))
    else none

/-- **C69, the failure for names that several packages declare.**  The field, a struct
of the same package, is documented as the string of the other package. -/
theorem C69_bare_name :
    ∃ q used', forRoute exBare 60 [] (.name "p" "S") = some (q, used') ∧
      mget used' (.name "p" "S") = some (.prop "a" (.scalar "string") .obj) ∧
      ¬ Desc exBare (within "p" (.name "" "Kind")) (.scalar "string") := by
  refine ⟨.ref (.name "p" "S"), [(.name "p" "S", .prop "a" (.scalar "string") .obj)], by decide,
    by decide, ?_⟩
  intro h
  have hw : within "p" (.name "" "Kind") = .name "p" "Kind" := by decide
  rw [hw] at h
  cases h with
  | given h => cases h
  | known _ h => cases h
  | decl _ _ hf h =>
    have : exBare.find "p" "Kind" = some (.struct "p" (.field "x" (.prim "int") .done)) := by decide
    rw [this] at hf
    cases hf
    cases h with
    | struct h => cases h

/-- `type Level int`, mapped to a string by the user. -/
@[reducible] def exUser : Ctx where
  find _ b :=
    if b = "S" then some (.struct "p" (.field "a" (.name "" "Level") .done))
    else if b = "Level" then some (.alias "p" (.builtin "int"))
    else none
  conf t := if t = .name "p" "Level" then some (.scalar "string") else none

/-- **C69, the failure for mapped aliases.**  The user's mapping of `Level` counts when
`Level` is a body, but not for a field or an element of that type. -/
theorem C69_mapping_ignored :
    (∃ u, forRoute exUser 60 [] (.name "p" "Level") = some (.scalar "string", u)) ∧
    (∃ u, forRoute exUser 60 [] (.slice (.name "p" "Level")) =
      some (.array (.scalar "integer"), u)) ∧
    ∃ q u, forRoute exUser 60 [] (.name "p" "S") = some (q, u) ∧
      mget u (.name "p" "S") = some (.prop "a" (.scalar "integer") .obj) :=
  ⟨⟨[], by decide⟩, ⟨[], by decide⟩, .ref (.name "p" "S"),
    [(.name "p" "S", .prop "a" (.scalar "integer") .obj)], by decide, by decide⟩

/-! ### The lookup by name -/

/-- mapper.go 1209-1232, `typeByName`, with the packages in sorted order and the types
each declares. -/
def typeByName (pkgs : List (String × List (String × Decl))) (p b : String) : Option Decl :=
  match (if p ≠ "" ∧ b ≠ "" then (mget pkgs p).bind (mget · b) else none) with
  | some d => some d
  | none => pkgs.findSome? fun x => mget x.2 b

/-- A type that its package declares is found there. -/
theorem C69_lookup_declared {pkgs : List (String × List (String × Decl))} {p b : String}
    {ts : List (String × Decl)} {d : Decl} (hp : p ≠ "") (hb : b ≠ "")
    (h1 : mget pkgs p = some ts) (h2 : mget ts b = some d) : typeByName pkgs p b = some d := by
  simp [typeByName, hp, hb, h1, h2]

example : typeByName [("a", [("T", .iface)]), ("b", [("T", .other "b" none)])] "b" "T" =
    some (.other "b" none) :=
  C69_lookup_declared (ts := [("T", .other "b" none)]) (by decide) (by decide) (by decide) (by decide)

/-- What is found is the declaration of that name in some package, and nothing is found
only if no package declares the name. -/
theorem C69_lookup_sound {pkgs : List (String × List (String × Decl))} {p b : String} :
    (∀ d, typeByName pkgs p b = some d → ∃ x ∈ pkgs, mget x.2 b = some d) ∧
    (typeByName pkgs p b = none → ∀ x ∈ pkgs, mget x.2 b = none) := by
  unfold typeByName
  constructor
  · intro d h
    split at h
    · rename_i d' hd
      obtain rfl := Option.some.inj h
      split at hd
      · obtain ⟨ts, ht, h2⟩ := Option.bind_eq_some_iff.1 hd
        exact ⟨(p, ts), mem_of_mget ht, h2⟩
      · cases hd
    · exact List.exists_of_findSome?_eq_some h
  · intro h
    split at h
    · cases h
    · exact List.findSome?_eq_none_iff.1 h

/-- **C69, the failure for types outside the module.**  `ext.User`, a type of a package
that is not scanned, is documented as the `User` of another package. -/
theorem C69_foreign_type :
    let pkgs := [("app", [("User", Decl.struct "app" (.field "secret" (.prim "string") .done))])]
    ∃ u, forRoute { find := typeByName pkgs } 60 [] (.name "ext" "User") =
      some (.ref (.name "ext" "User"), u) ∧
      mget u (.name "ext" "User") = some (.prop "secret" (.scalar "string") .obj) :=
  ⟨[(.name "ext" "User", .prop "secret" (.scalar "string") .obj)], by decide, by decide⟩

end Verif.SchemaGen
