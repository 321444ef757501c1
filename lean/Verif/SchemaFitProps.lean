import Verif.SchemaRefProps

/-!
# C44: every reference of the finished document has a component

The references of the routes' schemas and of the components are to names, and the
pass that writes the components writes one for each of them.
-/

namespace Verif.SchemaGen

open Verif.Common

/-! ## Specification -/

/-- The builtin names a schema exists for. -/
def Documented (n : String) : Prop :=
  n ∈ ["string", "int", "int8", "int16", "int32", "int64", "rune", "uint", "uint8", "uint16",
    "uint32", "uint64", "byte", "float32", "float64", "bool", "time.Time", "interface{}",
    "struct{}", "any"]

/-- Not a builtin without a schema, nor a pointer to one. -/
def Solid : Ty → Prop
  | .prim n => Documented n
  | .ptr e => Solid e
  | _ => True

/-- No name in the type is one that cannot be a component. -/
def Tame : Ty → Prop
  | .prim n => Nameable n
  | .name _ b => Nameable b
  | .ptr e => Tame e
  | .slice e => Tame e
  | .arr _ e => Tame e
  | .map _ v => Tame v
  | .lit => True
  | .fld _ t r => Tame t ∧ Tame r

/-- A known external type that is documented in place. -/
def InPlace (c : Ctx) (t : Ty) : Prop :=
  (∃ k, c.extern t = some (.scalar k)) ∨ ∃ i, c.extern t = some (.array i)

def Decl.solid : Decl → Prop
  | .alias _ u => Solid u.ty
  | .other _ (some u) => Solid u
  | _ => True

/-- No inline struct's synthetic name is declared. -/
def Body.undeclared (c : Ctx) : Body → Prop
  | .done => True
  | .field _ _ r => r.undeclared c
  | .sub _ key i r => c.find "" key = none ∧ i.undeclared c ∧ r.undeclared c

def Decl.undeclared (c : Ctx) : Decl → Prop
  | .struct _ b => b.undeclared c
  | _ => True

/-- A type table and a configuration under which every type has a schema:

* declared types mention names that can be components, and are not declared as a
  builtin without a schema (`type E error`);
* the user maps types to schemas, and no known external type that is documented in
  place;
* such an external type is written with its package;
* the synthetic names of inline structs are not declared. -/
structure FitTable (c : Ctx) : Prop where
  types : ∀ p b d, c.find p b = some d → ∀ t ∈ d.types, Tame t
  solid : ∀ p b d, c.find p b = some d → d.solid
  conf : ∀ t q, c.conf t = some q → q ≠ .absent ∧ ¬ InPlace c t
  extGen : ∀ t q, c.extGen t = some q → q ≠ .absent
  bare : ∀ b, ¬ InPlace c (.name "" b)
  subs : ∀ p b d, c.find p b = some d → d.undeclared c

/-! ## Entries -/

theorem inlineExt_iff (c : Ctx) (t : Ty) : inlineExt c t = true ↔ InPlace c t := by
  unfold inlineExt InPlace
  cases c.extern t with
  | none => simp
  | some q => cases q <;> simp [primShaped]

theorem inlineExt_false (c : Ctx) (t : Ty) : inlineExt c t = false ↔ ¬ InPlace c t := by
  rw [← inlineExt_iff]; simp

/-- What a reference is to. -/
def RefOk (c : Ctx) (r : Ty) : Prop := ∃ p b, r = .name p b ∧ Nameable b ∧ ¬ InPlace c r

/-- What is in use. -/
def KeyOk (c : Ctx) (k : Ty) : Prop :=
  (∃ n, k = .prim n) ∨ (∃ p b, k = .name p b ∧ (Nameable b ∨ c.find p b = none)) ∨
    ∃ p b, k = .ptr (.name p b) ∧ Nameable b ∧ ¬ InPlace c (.name p b)

structure Ent (c : Ctx) (x : Ty × Schema) : Prop where
  key : KeyOk c x.1
  ne : x.2 ≠ .absent
  refs : ∀ r ∈ x.2.refs, RefOk c r

def FitL (c : Ctx) (l : List (Ty × Schema)) : Prop := ∀ x ∈ l, Ent c x

structure FitA (c : Ctx) (a : Ans) : Prop where
  q : ∀ r ∈ a.1.refs, RefOk c r
  out : FitL c a.2.1
  used : FitL c a.2.2.used

theorem fit_nil (c : Ctx) : FitL c [] := by intro x hx; cases hx

theorem fit_mset {c : Ctx} {l : List (Ty × Schema)} {k : Ty} {v : Schema} (h : FitL c l)
    (hx : Ent c (k, v)) : FitL c (mset l k v) := by
  intro x h'
  rcases mem_mset_kv h' with rfl | h'
  · exact hx
  · exact h x h'

theorem fit_copy {c : Ctx} {l m : List (Ty × Schema)} (h : FitL c l) (h' : FitL c m) :
    FitL c (copy l m) := by
  intro x hx
  rcases mem_copy hx with hx | hx
  · exact h x hx
  · exact h' x hx

theorem fit_mark {c : Ctx} {s : St} {t : Ty} {q : Schema} (h : FitL c s.used)
    (hx : Ent c (t, q)) : FitL c (mark s t q).used := by
  unfold mark
  split
  · exact h
  · dsimp only
    split
    · rename_i e
      split
      · exact fit_mset h hx
      · refine fit_mset (fit_mset h hx) ⟨?_, hx.ne, hx.refs⟩
        rcases hx.key with ⟨n, e⟩ | ⟨p, b, e, _⟩ | ⟨p, b, e, hn, _⟩
        · cases e
        · cases e
        · simp only [Ty.ptr.injEq] at e
          exact Or.inr (Or.inl ⟨p, b, e, Or.inl hn⟩)
    · exact fit_mset h hx

theorem fit_own {c : Ctx} (hT : PlainTable c) {t : Ty} (ht : Tame t) : FitL c (ownComps c t) := by
  unfold ownComps
  split
  · rename_i q hq
    obtain ⟨⟨p, b, rfl⟩, h1, h2⟩ := hT.extMap t q hq
    intro x hx
    rw [List.mem_singleton.1 hx]
    exact ⟨Or.inr (Or.inl ⟨p, b, rfl, Or.inl ht⟩), h2, by rw [h1]; simp⟩
  · exact fit_nil c

/-! ## Types -/

theorem nameable_dot {b : String} (h : Nameable b) : Nameable ("." ++ b) := by
  obtain ⟨h1, h2⟩ := h
  constructor
  · rintro ⟨l, hl⟩
    apply h1
    cases l with
    | nil =>
      simp only [String.toList_append, List.nil_append] at hl
      have := congrArg List.head? hl
      simp at this
    | cons x l =>
      simp only [String.toList_append, List.cons_append] at hl
      exact ⟨l, (List.cons.inj hl).2⟩
  · rintro ⟨l, m, hl⟩
    apply h2
    cases l with
    | nil =>
      simp only [String.toList_append, List.nil_append] at hl
      have := congrArg List.head? hl
      simp at this
    | cons x l =>
      simp only [String.toList_append, List.cons_append] at hl
      exact ⟨l, m, (List.cons.inj hl).2⟩

theorem tame_derive {t : Ty} (h : Tame t) : Tame (derive t) := by
  cases t <;> exact h

theorem tame_qualify {pkg : String} {t : Ty} (h : Tame t) : Tame (qualify pkg t) := by
  induction t with
  | name p b => simp only [qualify]; split <;> exact h
  | ptr e ih => exact ih h
  | slice e ih => exact ih h
  | arr n e ih => exact ih h
  | map k v _ ih => exact ih h
  | _ => exact h

theorem solid_qualify {pkg : String} {t : Ty} (h : Solid t) : Solid (qualify pkg t) := by
  induction t with
  | name p b => simp only [qualify]; split <;> trivial
  | ptr e ih => exact ih h
  | _ => exact h

theorem tame_glue {t : Ty} (h : Tame t) : Tame (glue t) := by
  have hdot : Nameable "." := by rw [← refable_iff]; decide
  cases t with
  | prim n => exact nameable_dot h
  | name p b =>
    simp only [glue]
    split
    · exact nameable_dot h
    · exact h
  | _ => exact hdot

theorem tame_scan {t k g : Ty} (ht : Tame t) (h : scan t = .found k g) : Tame g := by
  induction t generalizing k g with
  | ptr e ih =>
    simp only [scan] at h
    split at h
    · rename_i k' g' h'
      simp only [Scan.found.injEq] at h
      obtain ⟨rfl, rfl⟩ := h
      show Tame g'
      exact ih (show Tame e from ht) h'
    · rename_i hne
      exact absurd h (hne _ _)
  | map k' v _ _ =>
    simp only [scan] at h
    cases h
    exact tame_glue (show Tame v from ht)
  | fld l a r iha ihr =>
    simp only [scan] at h
    split at h
    · split at h
      · rename_i k' g' h'
        cases h
        exact ⟨ht.1, ihr ht.2 h'⟩
      · rename_i hne
        exact absurd h (hne _ _)
    · cases h
    · rename_i k' g' h'
      cases h
      exact ⟨iha ht.1 h', ht.2⟩
  | _ => cases h

theorem tame_resolve {c : Ctx} (hF : FitTable c) {t : Ty} (h : Tame t) :
    Tame ((resolve c t).getD t) := by
  cases hr : resolve c t with
  | none => exact h
  | some r =>
    obtain ⟨p, b, pkg, i, hf, he, -⟩ := resolve_some hr
    have hi : Tame i.ty := hF.types p b _ hf _ (by simp [Decl.types])
    simp only [Option.getD_some]
    rcases he with rfl | rfl | rfl | rfl <;> exact hi

theorem tame_field {c : Ctx} (hF : FitTable c) {pkg : String} {t : Ty} (h : Tame t) :
    Tame (fieldType c pkg t) := by
  unfold fieldType
  generalize hu : (if (isSlice t || hasMap t) = true then t else (resolve c t).getD t) = u
  have : Tame u := by
    subst hu
    split
    · exact h
    · exact tame_resolve hF h
  dsimp only
  split
  · exact this
  · exact tame_qualify this

/-! ## No schema is missing -/

theorem prim_documented {n : String} (h : Documented n) : primSchema n ≠ .absent := by
  simp only [Documented, List.mem_cons, List.not_mem_nil, or_false] at h
  rcases h with rfl | rfl | rfl | rfl | rfl | rfl | rfl | rfl | rfl | rfl | rfl | rfl | rfl | rfl |
    rfl | rfl | rfl | rfl | rfl | rfl <;> decide

def PlanSolid : Plan → Prop
  | .done r => r.1 ≠ .absent
  | .go _ t fin => (Solid t ∧ ∀ r : Ans, r.1 ≠ .absent → (fin r).1 ≠ .absent) ∨
      ∀ r, (fin r).1 ≠ .absent
  | .lit _ _ fin => ∀ r : Ans, r.1 ≠ .absent → (fin r).1 ≠ .absent
  | .decl _ _ _ fin => ∀ r, (fin r).1 ≠ .absent
  | .body _ _ _ fin => ∀ r : Ans, r.1 ≠ .absent → (fin r).1 ≠ .absent

theorem solid_planElem (c s fixed e out) : PlanSolid (planElem c s fixed e out) := by
  unfold planElem
  dsimp only
  split
  · intro h; cases h
  · split
    · exact Or.inr (abs_elem _ _)
    · split
      · exact Or.inr (abs_elem _ _)
      · exact Or.inr (abs_stored _ _)
      · exact abs_stored _ _ _

theorem solid_planGo {c : Ctx} (hT : PlainTable c) (hF : FitTable c) (s : St) {t : Ty}
    (h : Solid t) : PlanSolid (planGo c s t) := by
  unfold planGo
  dsimp only
  split
  · intro h; cases h
  · split
    · intro h; cases h
    · split
      · rename_i q hq; exact (hF.conf t q hq).1
      · split
        · rename_i q hq; exact (hT.extern t q hq).2.2
        · cases t with
          | prim n => exact prim_documented h
          | name p b =>
            simp only [planShape]
            split
            · exact abs_name _ _
            · exact abs_unresolved _ _ _
          | ptr e => exact Or.inl ⟨h, fun r hr => by obtain ⟨q, m, s'⟩ := r; exact hr⟩
          | slice e => exact solid_planElem ..
          | arr n e => exact solid_planElem ..
          | map k v =>
            simp only [planShape]
            split
            · exact Or.inr (abs_map _ _)
            · intro h; cases h
          | lit => intro h; cases h
          | fld l a r =>
            simp only [planShape]
            split
            · split
              · exact Or.inr (abs_map _ _)
              · intro h; cases h
            · intro r hr; obtain ⟨q, m, s'⟩ := r; exact hr

theorem solid_decl_fin (key : Ty) (r : Ans) (h : r.1 ≠ .absent) : (finDecl key r).1 ≠ .absent := h

theorem solid_planDecl {c : Ctx} (hF : FitTable c) (s key) {d : Decl} (h : d.solid) :
    PlanSolid (planDecl c s key d) := by
  unfold planDecl
  dsimp only
  split
  · intro h; cases h
  · split
    · intro h; cases h
    · split
      · rename_i q hq; exact hF.extGen _ q hq
      · cases d with
        | struct pkg b => exact solid_decl_fin key
        | iface => intro h; cases h
        | alias pkg u => exact Or.inl ⟨solid_qualify h, solid_decl_fin key⟩
        | other pkg u =>
          cases u with
          | none => intro h; cases h
          | some u => exact Or.inl ⟨solid_qualify h, solid_decl_fin key⟩

theorem solidAt {c : Ctx} (hT : PlainTable c) (hF : FitTable c) (f : Nat) :
    (∀ s t r, Solid t → mapGo c f s t = some r → r.1 ≠ .absent) ∧
    (∀ p r, PlanSolid p → run c f p = some r → r.1 ≠ .absent) := by
  induction f with
  | zero => constructor <;> intros <;> simp_all [mapGo, run]
  | succ f ih =>
    obtain ⟨i1, i2⟩ := ih
    constructor
    · intro s t r ht h
      rw [mapGo] at h
      exact i2 _ _ (solid_planGo hT hF s ht) h
    · intro p r hp h
      cases p with
      | done q => simp only [run, Option.some.injEq] at h; subst h; exact hp
      | go s t fin =>
        simp only [run, Option.map_eq_some_iff] at h
        obtain ⟨x, hx, rfl⟩ := h
        rcases hp with ⟨h1, h2⟩ | h1
        · exact h2 x (i1 _ _ _ h1 hx)
        · exact h1 x
      | lit s t fin =>
        simp only [run, Option.map_eq_some_iff] at h
        obtain ⟨x, hx, rfl⟩ := h
        exact hp x (lit_ne c _ _ _ _ _ _ (by intro h; cases h) hx)
      | decl s key d fin =>
        simp only [run, Option.map_eq_some_iff] at h
        obtain ⟨x, hx, rfl⟩ := h
        exact hp x
      | body s pkg b fin =>
        simp only [run, Option.map_eq_some_iff] at h
        obtain ⟨x, hx, rfl⟩ := h
        exact hp x (body_ne c _ _ _ _ _ _ _ (by intro h; cases h) hx)

/-! ## Promotion -/

/-- A name that is documented in place is not promoted to a component. -/
theorem inPlace_shape {c : Ctx} (hF : FitTable c) {f s p b a} (hx : InPlace c (.name p b))
    (h : mapGo c f s (.name p b) = some a) : primShaped a.1 = true := by
  have hi : inlineExt c (.name p b) = true := (inlineExt_iff c _).2 hx
  have hc : c.conf (.name p b) = none := by
    cases hq : c.conf (.name p b) with
    | none => rfl
    | some q => exact absurd hx (hF.conf _ q hq).2
  cases f with
  | zero => cases h
  | succ f =>
    rw [mapGo] at h
    simp only [planGo, derive, hi, Bool.not_true, Bool.and_false, Bool.false_eq_true, if_false,
      hc] at h
    have : ∃ q, c.extern (.name p b) = some q ∧ primShaped q = true := by
      rcases hx with ⟨k, e⟩ | ⟨i, e⟩
      · exact ⟨_, e, rfl⟩
      · exact ⟨_, e, rfl⟩
    obtain ⟨q, e, hq⟩ := this
    rw [e] at h
    cases f with
    | zero => cases h
    | succ f =>
      simp only [run, Option.some.injEq] at h
      subst h; exact hq

/-- Only names that may be components are promoted. -/
theorem promoted_name {c : Ctx} (hT : PlainTable c) (hF : FitTable c) {f s r a} (hp : Plain r)
    (h : mapGo c f s r = some a) (hpr : promote r a.1 = true) :
    KeyOk c r ∧ RefOk c (derive r) := by
  obtain ⟨_, hnr, hcr, hns⟩ := promote_ne hpr
  have hname : ∀ {p b f s a}, refable b = true → mapGo c f s (.name p b) = some a →
      primShaped a.1 = false → RefOk c (.name p b) := by
    intro p b f s a hr h hs
    refine ⟨p, b, rfl, (refable_iff b).1 hr, fun hx => ?_⟩
    rw [inPlace_shape hF hx h] at hs; cases hs
  cases r with
  | ptr e =>
    obtain ⟨h2, h3⟩ := conf_none hT (t := .ptr e) (by intro p b h; cases h) (by intro n h; cases h)
    cases f with
    | zero => simp [mapGo] at h
    | succ f =>
      rw [mapGo] at h
      have hgo : ∀ {f}, run c f (.go { s with vis := .ptr e :: s.vis } e
          (gather (ownComps c (.ptr e)))) = some a →
          ∃ f' r', mapGo c f' { s with vis := .ptr e :: s.vis } e = some r' ∧
            a = gather (ownComps c (.ptr e)) r' := by
        intro f h
        cases f with
        | zero => simp [run] at h
        | succ f =>
          simp only [run, Option.map_eq_some_iff] at h
          obtain ⟨x, hx, rfl⟩ := h
          exact ⟨_, _, hx, rfl⟩
      cases e with
      | ptr x => exact absurd rfl (hp.1 x)
      | name p b =>
        generalize hP : planGo c s (.ptr (.name p b)) = P at h
        unfold planGo at hP
        dsimp only at hP
        have done_ : ∀ {f x}, run c f (.done x) = some a → x = a := by
          intro f x h
          cases f with
          | zero => simp [run] at h
          | succ f => simpa [run] using h
        split at hP
        · subst hP
          have := done_ h
          subst this
          cases hnr
        · split at hP
          · subst hP
            have := done_ h
            subst this
            cases hnr
          · rw [h2, h3] at hP
            dsimp only [planShape] at hP
            subst hP
            obtain ⟨f', ⟨q, more, s'⟩, h4, rfl⟩ := hgo h
            have hr : refable b = true := by
              simp only [canAddRef, core, Bool.and_eq_true] at hcr
              exact hcr.2
            have hro := hname hr h4 hns
            obtain ⟨_, _, _, _, hx⟩ := id hro
            exact ⟨Or.inr (Or.inr ⟨p, b, rfl, (refable_iff b).1 hr, hx⟩), hro⟩
      | slice x =>
        have h1 : canAddRef (derive (.ptr (.slice x))) = false := by
          simp [derive, canAddRef, isSlice]
        rw [planGo_shape h1 h2 h3] at h
        obtain ⟨f', ⟨q, more, s'⟩, h4, rfl⟩ := hgo h
        have := slice_shape hT h4
        rw [show primShaped q = false from hns] at this; cases this
      | arr n x =>
        obtain ⟨m, rfl⟩ := hp.2
        simp [canAddRef, isPrim, derive, isPrimName] at hcr
      | _ => simp [canAddRef, isPrim, derive, isSlice, hasMap, hasLit] at hcr
  | name p b =>
    rw [canAddRef_name] at hcr
    exact ⟨Or.inr (Or.inl ⟨p, b, rfl, Or.inl ((refable_iff b).1 hcr)⟩), hname hcr h hns⟩
  | arr n x =>
    obtain ⟨m, rfl⟩ := hp
    simp [canAddRef, isPrim, derive, isPrimName] at hcr
  | _ => simp [canAddRef, isPrim, derive, isSlice, hasMap, hasLit] at hcr

/-! ## The invariant -/

def PlanFit (c : Ctx) : Plan → Prop
  | .done r => FitA c r
  | .go s t fin => FitL c s.used ∧ Plain t ∧ Tame t ∧
      ∀ f r, mapGo c f s t = some r → FitA c r → FitA c (fin r)
  | .lit s t fin => FitL c s.used ∧ Plain t ∧ Tame t ∧ ∀ r, FitA c r → FitA c (fin r)
  | .decl s key d fin => FitL c s.used ∧ (∃ p b, key = .name p b ∧ (Nameable b ∨ c.find p b = none)) ∧
      ¬ InPlace c key ∧
      (∀ t ∈ d.types, Plain t ∧ Tame t) ∧ d.keysOk ∧ d.undeclared c ∧ d.solid ∧
      ∀ r : Ans, r.1 ≠ .absent → FitA c r → FitA c (fin r)
  | .body s _ b fin => FitL c s.used ∧ (∀ t ∈ b.types, Plain t ∧ Tame t) ∧ b.keysOk ∧
      b.undeclared c ∧
      ∀ r : Ans, r.1 ≠ .absent → FitA c r → FitA c (fin r)

theorem fit_gather {c : Ctx} {out : Comps} {a : Ans} (ho : FitL c out) (h : FitA c a) :
    FitA c (gather out a) := by
  obtain ⟨q, more, s⟩ := a
  exact ⟨h.q, fit_copy ho h.out, h.used⟩

theorem fit_elem {c : Ctx} (hT : PlainTable c) (hF : FitTable c) {f s r out a} (hp : Plain r)
    (ho : FitL c out) (h : mapGo c f s r = some a) (ha : FitA c a) : FitA c (finElem r out a) := by
  obtain ⟨q, more, s'⟩ := a
  unfold finElem
  dsimp only
  split
  · rename_i hpr
    obtain ⟨hk, hr⟩ := promoted_name hT hF hp h hpr
    refine ⟨?_, fit_mset (fit_copy ho ha.out) ⟨hk, (promote_ne hpr).1, ha.q⟩, ha.used⟩
    intro x hx
    simp only [Schema.refs, addRef, List.mem_singleton] at hx
    subst hx; exact hr
  · exact ⟨ha.q, fit_copy ho ha.out, ha.used⟩

theorem fit_map {c : Ctx} (hT : PlainTable c) (hF : FitTable c) {f s r out a} (hp : Plain r)
    (ho : FitL c out) (h : mapGo c f s r = some a) (ha : FitA c a) : FitA c (finMap r out a) := by
  obtain ⟨q, more, s'⟩ := a
  unfold finMap
  dsimp only
  split
  · rename_i hpr
    obtain ⟨hk, hr⟩ := promoted_name hT hF hp h hpr
    refine ⟨?_, fit_mset (fit_copy ho ha.out) ⟨hk, (promote_ne hpr).1, ha.q⟩, ha.used⟩
    intro x hx
    simp only [Schema.refs, addRef, List.mem_singleton] at hx
    subst hx; exact hr
  · exact ⟨ha.q, fit_copy ho ha.out, ha.used⟩

theorem fit_planElem {c : Ctx} (hT : PlainTable c) (hF : FitTable c) {s : St} {fixed : Bool}
    {e : Ty} {out : Comps} (hs : FitL c s.used) (ho : FitL c out) (hp : Plain e) (ht : Tame e) :
    PlanFit c (planElem c s fixed e out) := by
  have hpr : Plain ((resolve c e).getD e) := plain_resolve hp
  have htr : Tame ((resolve c e).getD e) := tame_resolve hF ht
  have hgo : PlanFit c (.go s ((resolve c e).getD e) (finElem ((resolve c e).getD e) out)) :=
    ⟨hs, hpr, htr, fun f r h ha => fit_elem hT hF hpr ho h ha⟩
  unfold planElem
  dsimp only
  split
  · exact ⟨by simp [Schema.refs], ho, hs⟩
  · rename_i hb
    split
    · exact hgo
    · rename_i hg
      simp only [Bool.or_eq_true, not_or, Bool.not_eq_true] at hg
      split
      · exact hgo
      · rename_i hu
        exact absurd rfl (hs _ (mem_of_mget hu)).ne
      · rename_i q hqne hu
        have hent := hs _ (mem_of_mget hu)
        -- the element is a name or a pointer to one, and so is what it resolves to
        have hkr : KeyOk c ((resolve c e).getD e) ∧ RefOk c (derive ((resolve c e).getD e)) := by
          have halias : ∀ i : Ident, Tame i.ty → isPrim i.ty = false → ∃ n, i.ty = .name "" n ∧ Nameable n := by
            intro i hi hnp
            cases i with
            | builtin n => simp [isPrim, derive] at hnp
            | declared n => exact ⟨n, rfl, hi⟩
          rcases hent.key with ⟨n, rfl⟩ | ⟨p, b, rfl, _⟩ | ⟨p, b, rfl, _, hx⟩
          · have : resolve c (.prim n) = none := by simp [resolve, aliasOf, isPrim, derive]
            rw [this] at hg
            simp [isPrim, derive] at hg
          · cases hr : resolve c (.name p b) with
            | none =>
              exact ⟨Or.inr (Or.inl ⟨p, b, rfl, Or.inl ht⟩), p, b, rfl, ht,
                (inlineExt_false c _).1 hg.2⟩
            | some u =>
              rw [hr] at hg htr
              simp only [Option.getD_some] at hg htr ⊢
              have : ∃ i : Ident, u = i.ty := by
                simp only [resolve] at hr
                obtain ⟨p', b', pkg, i, -, rfl⟩ := aliasOf_some hr
                exact ⟨i, rfl⟩
              obtain ⟨i, rfl⟩ := this
              obtain ⟨n, hn, hnn⟩ := halias i htr hg.1
              rw [hn]
              exact ⟨Or.inr (Or.inl ⟨"", n, rfl, Or.inl hnn⟩), "", n, rfl, hnn, hF.bare n⟩
          · cases hr : resolve c (.ptr (.name p b)) with
            | none =>
              exact ⟨Or.inr (Or.inr ⟨p, b, rfl, ht, hx⟩), p, b, rfl, ht, hx⟩
            | some u =>
              rw [hr] at hg htr
              simp only [Option.getD_some] at hg htr ⊢
              have : ∃ i : Ident, u = .ptr i.ty := by
                simp only [resolve, Option.map_eq_some_iff] at hr
                obtain ⟨v, hv, rfl⟩ := hr
                obtain ⟨p', b', pkg, i, -, rfl⟩ := aliasOf_some hv
                exact ⟨i, rfl⟩
              obtain ⟨i, rfl⟩ := this
              have hnp : isPrim i.ty = false := by
                cases i with
                | builtin n => simp [isPrim, derive] at hg
                | declared n => rfl
              obtain ⟨n, hn, hnn⟩ := halias i htr hnp
              rw [hn]
              exact ⟨Or.inr (Or.inr ⟨"", n, rfl, hnn, hF.bare n⟩), "", n, rfl, hnn, hF.bare n⟩
        refine ⟨?_, ?_, fit_mark hs ⟨hkr.1, hent.ne, hent.refs⟩⟩
        · intro x hx
          simp only [finStored, Schema.refs, addRef, List.mem_singleton] at hx
          subst hx; exact hkr.2
        · exact fit_copy ho (fit_nil c)

theorem fit_unresolved {c : Ctx} {s : St} {p b : String} {out : Comps} (hs : FitL c s.used)
    (ho : FitL c out) (hn : Nameable b) (hx : ¬ InPlace c (.name p b)) :
    FitA c (unresolved (.name p b) out s) := by
  refine ⟨?_, ?_, hs⟩
  · intro x hx'
    simp only [unresolved, Schema.refs, addRef, derive, List.mem_singleton] at hx'
    subst hx'; exact ⟨p, b, rfl, hn, hx⟩
  · unfold unresolved
    dsimp only
    split
    · exact ho
    · exact fit_mset ho ⟨Or.inr (Or.inl ⟨p, b, rfl, Or.inl hn⟩), fun h => (by cases h),
        by simp [Schema.refs]⟩

theorem fit_name {c : Ctx} {p b : String} {out : Comps} {a : Ans} (ho : FitL c out)
    (hn : Nameable b)
    (hx : ¬ InPlace c (.name p b)) (hne : a.1 ≠ .absent) (ha : FitA c a) :
    FitA c (finName (.name p b) out a) := by
  obtain ⟨q, more, s⟩ := a
  unfold finName
  dsimp only
  have hk : KeyOk c (.name p b) := Or.inr (Or.inl ⟨p, b, rfl, Or.inl hn⟩)
  rw [if_neg hne]
  split
  · rename_i hc
    rw [canAddRef_name] at hc
    have hr : ∀ r ∈ (addRef (.name p b)).refs, RefOk c r := by
      intro x hx'
      simp only [Schema.refs, addRef, derive, List.mem_singleton] at hx'
      subst hx'; exact ⟨p, b, rfl, (refable_iff b).1 hc, hx⟩
    exact ⟨hr, fit_copy (fit_mset ho ⟨hk, hne, ha.q⟩) ha.out,
      fit_mark ha.used ⟨hk, (by intro h; cases h), hr⟩⟩
  · exact ⟨ha.q, fit_copy ho ha.out, fit_mark ha.used ⟨hk, hne, ha.q⟩⟩

theorem not_inPlace {c : Ctx} {t : Ty} (h : c.extern t = none) : ¬ InPlace c t := by
  rintro (⟨k, e⟩ | ⟨i, e⟩) <;> rw [h] at e <;> cases e

theorem fit_planGo {c : Ctx} (hT : PlainTable c) (hF : FitTable c) {s : St} {t : Ty}
    (hs : FitL c s.used) (hp : Plain t) (ht : Tame t) : PlanFit c (planGo c s t) := by
  obtain ⟨hpd, hnd⟩ := derive_plain hp
  have href : canAddRef (derive t) = true → inlineExt c (derive t) = false →
      RefOk c (derive t) := by
    intro h1 h2
    obtain ⟨p, b, e, hr⟩ := name_of_canAddRef hpd hnd h1
    exact ⟨p, b, e, (refable_iff b).1 hr, (inlineExt_false c _).1 h2⟩
  unfold planGo
  dsimp only
  split
  · rename_i hg
    simp only [Bool.and_eq_true, Bool.not_eq_true'] at hg
    refine ⟨?_, fit_nil c, hs⟩
    intro x hx
    simp only [Schema.refs, addRef, List.mem_singleton] at hx
    subst hx; exact href hg.1.2 hg.2
  · split
    · rename_i hg
      simp only [Bool.and_eq_true, Bool.not_eq_true'] at hg
      refine ⟨?_, fit_nil c, hs⟩
      intro x hx
      simp only [Schema.refs, addRef, List.mem_singleton, derive_derive hnd] at hx
      subst hx; exact href hg.1.2 hg.2
    · split
      · rename_i q hq
        obtain ⟨hnm, hrefs⟩ := hT.conf t q hq
        have hk : KeyOk c t := by
          rcases hnm with ⟨p, b, rfl⟩ | ⟨n, e⟩
          · exact Or.inr (Or.inl ⟨p, b, rfl, Or.inl ht⟩)
          · exact Or.inl ⟨n, e⟩
        have hr : ∀ r ∈ q.refs, RefOk c r := by rw [hrefs]; simp
        refine ⟨hr, fit_nil c, ?_⟩
        dsimp only
        split
        · exact hs
        · exact fit_mark hs ⟨hk, (hF.conf t q hq).1, hr⟩
      · split
        · rename_i q hq
          obtain ⟨hnm, hrefs, hne⟩ := hT.extern t q hq
          have hk : KeyOk c t := by
            rcases hnm with ⟨p, b, rfl⟩ | ⟨n, e⟩
            · exact Or.inr (Or.inl ⟨p, b, rfl, Or.inl ht⟩)
            · exact Or.inl ⟨n, e⟩
          have hr : ∀ r ∈ q.refs, RefOk c r := by rw [hrefs]; simp
          refine ⟨hr, fit_own hT ht, ?_⟩
          dsimp only
          split
          · exact fit_mark hs ⟨hk, hne, hr⟩
          · exact hs
        · rename_i hx
          have ho := fit_own hT ht
          cases t with
          | prim n =>
            refine ⟨?_, ho, hs⟩
            intro r hr
            have : (primSchema n).refs = [] := by
              unfold primSchema
              repeat' split
              all_goals rfl
            rw [this] at hr; cases hr
          | name p b =>
            simp only [planShape]
            split
            · rename_i d hd
              exact ⟨hs, ⟨p, b, rfl, Or.inl ht⟩, not_inPlace hx, fun t ht => ⟨hT.types p b d hd t ht,
                hF.types p b d hd t ht⟩, hT.keys p b d hd, hF.subs p b d hd, hF.solid p b d hd,
                fun r h1 h2 => fit_name ho ht (not_inPlace hx) h1 h2⟩
            · exact fit_unresolved hs ho ht (not_inPlace hx)
          | ptr e => exact ⟨hs, hp.2, ht, fun f r _ h => fit_gather ho h⟩
          | slice e => exact fit_planElem hT hF hs ho hp ht
          | arr n e =>
            refine fit_planElem hT hF hs ho ?_ ht
            obtain ⟨m, rfl⟩ := hp; exact trivial
          | map k v =>
            simp only [planShape]
            split
            · exact ⟨hs, plain_resolve (show Plain v from hp), tame_resolve hF (show Tame v from ht),
                fun f a h ha => fit_map hT hF (plain_resolve (show Plain v from hp)) ho h ha⟩
            · exact ⟨by simp [Schema.refs], ho, hs⟩
          | lit => exact ⟨by simp [Schema.refs], ho, hs⟩
          | fld l a r =>
            simp only [planShape]
            split
            · rename_i k g hg
              have hpg := (plain_scan hp hg).1
              split
              · exact ⟨hs, hpg, tame_scan ht hg, fun f a h ha => fit_map hT hF hpg ho h ha⟩
              · exact ⟨by simp [Schema.refs], ho, hs⟩
            · exact ⟨hs, hp, ht, fun r h => fit_gather ho h⟩

theorem fit_decl {c : Ctx} {p b : String} {a : Ans} (hn : Nameable b ∨ c.find p b = none)
    (hne : a.1 ≠ .absent) (h : FitA c a) :
    FitA c (finDecl (.name p b) a) := by
  obtain ⟨q, out, s⟩ := a
  exact ⟨h.q, h.out, fit_mark h.used ⟨Or.inr (Or.inl ⟨p, b, rfl, hn⟩), hne, h.q⟩⟩

theorem fit_planDecl {c : Ctx} (hT : PlainTable c) (hF : FitTable c) {s : St} {p b : String}
    {d : Decl} (hs : FitL c s.used) (hn : Nameable b ∨ c.find p b = none)
    (hx : canAddRef (.name p b) = true → ¬ InPlace c (.name p b))
    (ht : ∀ t ∈ d.types, Plain t ∧ Tame t) (hk : d.keysOk)
    (hu : d.undeclared c) (hd : d.solid) :
    PlanFit c (planDecl c s (.name p b) d) := by
  have href : canAddRef (.name p b) = true → ∀ r ∈ (addRef (.name p b)).refs, RefOk c r := by
    intro h r hr
    simp only [Schema.refs, addRef, derive, List.mem_singleton] at hr
    subst hr
    have hx' := hx h
    rw [canAddRef_name] at h
    exact ⟨p, b, rfl, (refable_iff b).1 h, hx'⟩
  unfold planDecl
  dsimp only
  split
  · rename_i h
    simp only [Bool.and_eq_true] at h
    exact ⟨href h.2, fit_nil c, hs⟩
  · split
    · rename_i h
      simp only [Bool.and_eq_true] at h
      obtain ⟨hu, hc⟩ := h
      have hu' : usedSome s (.name p b) = true := hu
      obtain ⟨q, hq, hqne⟩ : ∃ q, mget s.used (.name p b) = some q ∧ q ≠ .absent := by
        unfold usedSome at hu'
        split at hu'
        · rename_i q hq; exact ⟨q, hq, by simpa using hu'⟩
        · cases hu'
      rw [hq]
      refine ⟨href hc, ?_, hs⟩
      intro x hx'
      simp only [Option.getD_some, List.mem_singleton] at hx'
      subst hx'
      exact hs _ (mem_of_mget hq)
    · split
      · rename_i q hq
        have hr : ∀ r ∈ q.refs, RefOk c r := by rw [hT.extGen _ q hq]; simp
        exact ⟨hr, fit_nil c, fit_mark (s := { s with gen := _ }) hs
          ⟨Or.inr (Or.inl ⟨p, b, rfl, hn⟩), hF.extGen _ q hq, hr⟩⟩
      · cases d with
        | struct pkg bd => exact ⟨hs, ht, hk, hu, fun r h1 h2 => fit_decl hn h1 h2⟩
        | iface =>
          exact fit_decl hn (by intro h; cases h) ⟨by simp [Schema.refs], fit_nil c, hs⟩
        | alias pkg u =>
          have hu := ht u.ty (by simp [Decl.types])
          exact ⟨hs, plain_qualify hu.1, tame_qualify hu.2, fun f r h ha =>
            fit_decl hn ((solidAt hT hF f).1 _ _ _ (solid_qualify hd) h) ha⟩
        | other pkg u =>
          cases u with
          | none =>
            exact fit_decl hn (by intro h; cases h) ⟨by simp [Schema.refs], fit_nil c, hs⟩
          | some u =>
            have hu := ht u (by simp [Decl.types])
            exact ⟨hs, plain_qualify hu.1, tame_qualify hu.2, fun f r h ha =>
              fit_decl hn ((solidAt hT hF f).1 _ _ _ (solid_qualify hd) h) ha⟩

theorem fit_planField {c : Ctx} (hT : PlainTable c) (hF : FitTable c) {s : St} {pkg : String}
    {t : Ty} {out : Comps} (hs : FitL c s.used) (ho : FitL c out) (hp : Plain t) (ht : Tame t) :
    PlanFit c (planField c s pkg t out) := by
  have hpf : Plain (fieldType c pkg t) := plain_field hp
  have htf : Tame (fieldType c pkg t) := tame_field hF ht
  obtain ⟨hpd, hnd⟩ := derive_plain hpf
  have hdd := derive_derive hnd
  have hgo : PlanFit c (.go s (derive (fieldType c pkg t))
      (finField (derive (fieldType c pkg t)) out)) := by
    refine ⟨hs, hpd, tame_derive htf, ?_⟩
    rintro f ⟨q, more, s'⟩ h ha
    unfold finField
    dsimp only
    split
    · rename_i hpr
      obtain ⟨hk, hr⟩ := promoted_name hT hF hpd h hpr
      refine ⟨?_, fit_copy (fit_mset ho ⟨hk, (promote_ne hpr).1, ha.q⟩) ha.out, ha.used⟩
      intro x hx
      simp only [Schema.refs, addRef, List.mem_singleton] at hx
      subst hx; exact hr
    · exact ⟨ha.q, fit_copy ho ha.out, ha.used⟩
  unfold planField
  dsimp only
  split
  · exact hgo
  · rename_i hg
    simp only [Bool.or_eq_true, not_or, Bool.not_eq_true] at hg
    split
    · exact hgo
    · rename_i hu
      exact absurd rfl (hs _ (mem_of_mget hu)).ne
    · rename_i q _ hu
      have hent := hs _ (mem_of_mget hu)
      have hk : KeyOk c (derive (fieldType c pkg t)) := hent.key
      have hr : RefOk c (derive (fieldType c pkg t)) := by
        rcases hent.key with ⟨n, e⟩ | ⟨p, b, e, _⟩ | ⟨p, b, e, _⟩
        · have e' : derive (fieldType c pkg t) = .prim n := e
          have := hg.1
          unfold isPrim at this
          rw [e'] at this
          cases this
        · have e' : derive (fieldType c pkg t) = .name p b := e
          have hn : Nameable b := by
            have := tame_derive htf
            rw [e'] at this; exact this
          exact ⟨p, b, e', hn, (inlineExt_false c _).1 hg.2⟩
        · exact absurd e (hnd _)
      refine ⟨?_, ?_, fit_mark hs hent⟩
      · intro x hx
        simp only [finUsed, Schema.refs, addRef, hdd, List.mem_singleton] at hx
        subst hx; exact hr
      · exact fit_mset (fit_copy ho (fit_nil c)) hent

structure FitAt (c : Ctx) (f : Nat) : Prop where
  go : ∀ s t r, FitL c s.used → Plain t → Tame t → mapGo c f s t = some r → FitA c r
  run : ∀ p r, PlanFit c p → run c f p = some r → FitA c r
  lit : ∀ s t o out r, FitL c s.used → Plain t → Tame t → FitL c out →
    (∀ x ∈ o.refs, RefOk c x) → mapLit c f s t o out = some r → FitA c r
  body : ∀ s pkg b o out r, FitL c s.used → (∀ t ∈ b.types, Plain t ∧ Tame t) → b.keysOk → b.undeclared c →
    FitL c out → (∀ x ∈ o.refs, RefOk c x) → mapBody c f s pkg b o out = some r → FitA c r

theorem fitAt {c : Ctx} (hT : PlainTable c) (hF : FitTable c) (f : Nat) : FitAt c f := by
  induction f with
  | zero => constructor <;> intros <;> simp_all [mapGo, run, mapLit, mapBody]
  | succ f ih =>
    constructor
    · intro s t r hs hp ht h
      rw [mapGo] at h
      exact ih.run _ r (fit_planGo hT hF hs hp ht) h
    · intro p r hp h
      cases p with
      | done q => simp only [run, Option.some.injEq] at h; subst h; exact hp
      | go s t fin =>
        simp only [run, Option.map_eq_some_iff] at h
        obtain ⟨x, hx, rfl⟩ := h
        obtain ⟨h1, h2, h3, h4⟩ := hp
        exact h4 f x hx (ih.go s t x h1 h2 h3 hx)
      | lit s t fin =>
        simp only [run, Option.map_eq_some_iff] at h
        obtain ⟨x, hx, rfl⟩ := h
        obtain ⟨h1, h2, h3, h4⟩ := hp
        exact h4 x (ih.lit s t _ _ x h1 h2 h3 (fit_nil c) (by simp [Schema.refs]) hx)
      | decl s key d fin =>
        simp only [run, Option.map_eq_some_iff] at h
        obtain ⟨x, hx, rfl⟩ := h
        obtain ⟨h1, ⟨p, b, rfl, h0⟩, h2, h3, h4, h4', h5, h6⟩ := hp
        exact h6 x ((solidAt hT hF f).2 _ x (solid_planDecl hF _ _ h5) hx)
          (ih.run _ x (fit_planDecl hT hF h1 h0 (fun _ => h2) h3 h4 h4' h5) hx)
      | body s pkg b fin =>
        simp only [run, Option.map_eq_some_iff] at h
        obtain ⟨x, hx, rfl⟩ := h
        obtain ⟨h1, h2, h3, h3', h4⟩ := hp
        exact h4 x (body_ne c _ _ _ _ _ _ _ (by intro h; cases h) hx)
          (ih.body s pkg b _ _ x h1 h2 h3 h3' (fit_nil c) (by simp [Schema.refs]) hx)
    · intro s t o out r hs hp ht ho hq h
      have hstop : mapLit c (f+1) s t o out = some (o, out, s) → FitA c r := by
        intro h'
        rw [h'] at h
        obtain rfl := Option.some.inj h
        exact ⟨hq, ho, hs⟩
      cases t with
      | fld l a rest =>
        rw [mapLit] at h
        split at h
        · cases h
        · rename_i q more s1 hx
          have ha := ih.go s a _ hs hp.1 ht.1 hx
          refine ih.lit s1 rest _ _ r ha.used hp.2 ht.2 (fit_copy ho ha.out) ?_ h
          intro x hx'
          rcases refs_setProp hx' with hx' | hx'
          · exact hq x hx'
          · exact ha.q x hx'
      | _ => exact hstop rfl
    · intro s pkg b o out r hs hp hkeys hund ho hq h
      cases b with
      | done =>
        rw [mapBody] at h
        obtain rfl := Option.some.inj h
        exact ⟨hq, ho, hs⟩
      | field l a rest =>
        rw [mapBody] at h
        split at h
        · cases h
        · rename_i q out1 s1 hx
          obtain ⟨hpa, hta⟩ := hp a (by simp [Body.types])
          have ha := ih.run _ _ (fit_planField hT hF (pkg := pkg) hs ho hpa hta) hx
          refine ih.body s1 pkg rest _ _ r ha.used
            (fun t h => hp t (by simp [Body.types, h])) hkeys hund ha.out ?_ h
          intro x hx'
          rcases refs_setProp hx' with hx' | hx'
          · exact hq x hx'
          · exact ha.q x hx'
      | sub l key inner rest =>
        rw [mapBody] at h
        split at h
        · cases h
        · rename_i q more s1 hx
          obtain ⟨hk1, hk2, hk3⟩ := hkeys
          obtain ⟨hu1, hu2, hu3⟩ := hund
          have hnr : canAddRef (.name "" key) = false := by
            rw [canAddRef_name]
            exact Bool.eq_false_iff.2 fun h => hk1 ((refable_iff _).1 h)
          have ha := ih.run _ _ (fit_planDecl hT hF (p := "") (b := key)
            (d := .struct pkg inner) hs (Or.inr hu1) (fun h => by rw [hnr] at h; cases h)
            (fun t h => hp t (by simp [Body.types]; exact Or.inl h)) hk2 hu2 trivial) hx
          refine ih.body s1 pkg rest _ _ r ha.used
            (fun t h => hp t (by simp [Body.types, h])) hk3 hu3 (fit_copy ho ha.out) ?_ h
          intro x hx'
          rcases refs_setProp hx' with hx' | hx'
          · exact hq x hx'
          · exact ha.q x hx'

end Verif.SchemaGen
