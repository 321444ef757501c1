import Verif.SchemaGenModel

/-!
# C44: schema generation terminates

The recursion over a type table is cut by the set of types already visited, but
the cut only applies to types that may become components.  It therefore ends for
every finite table in which the declarations mention only such types — and does
not end at all when a declaration mentions itself under a name that ends in
`_nested`.
-/

namespace Verif.SchemaGen

open Verif.Common

/-! ## Specification -/

/-- The names occurring in a type. -/
def Ty.names : Ty → List (String × String)
  | .prim _ => []
  | .name p b => [(p, b)]
  | .ptr e => e.names
  | .slice e => e.names
  | .arr _ e => e.names
  | .map k v => k.names ++ v.names
  | .lit => []
  | .fld _ t r => t.names ++ r.names

/-- The types a struct declaration mentions, inline structs included. -/
def Body.types : Body → List Ty
  | .done => []
  | .field _ t r => t :: r.types
  | .sub _ _ i r => i.types ++ r.types

/-- The types a declaration mentions. -/
def Decl.types : Decl → List Ty
  | .struct _ b => b.types
  | .iface => []
  | .alias _ u => [u.ty]
  | .other _ u => u.toList

/-- The package a declaration belongs to. -/
def Decl.pkgs : Decl → List String
  | .struct p _ => [p]
  | .iface => []
  | .alias p _ => [p]
  | .other p _ => [p]

/-- Every name of the type is one of finitely many. -/
def Over (P B : List String) (t : Ty) : Prop :=
  ∀ n ∈ t.names, n.1 ∈ P ∧ n.2 ∈ B

/-- A finite type table: its declarations belong to finitely many packages and
mention finitely many names, and no declared name starts with a dot. -/
structure FiniteTable (c : Ctx) (P B : List String) : Prop where
  blank : "" ∈ P
  pkgs : ∀ p b d, c.find p b = some d → ∀ q ∈ d.pkgs, q ∈ P
  types : ∀ p b d, c.find p b = some d → ∀ t ∈ d.types, Over P B t
  nodot : ∀ p b, c.find p ("." ++ b) = none

/-- A name that may stand for a component: it does not end in `_nested` and does not
contain the tag of the synthetic names given to anonymous structs. -/
def Nameable (b : String) : Prop :=
  (¬ ∃ l, b.toList = l ++ "_nested".toList) ∧
  ¬ ∃ l r, b.toList = l ++ "_apispec_anonstruct_".toList ++ r

/-- Every name a declaration mentions may stand for a component. -/
def NamesOk (c : Ctx) : Prop :=
  ∀ p b d, c.find p b = some d → ∀ t ∈ d.types, ∀ n ∈ t.names, Nameable n.2

/-! ## The names that may stand for a component -/

theorem isInfix_iff (p l : List Char) : isInfix p l = true ↔ ∃ a b, l = a ++ p ++ b := by
  induction l with
  | nil =>
    simp only [isInfix, List.isEmpty_iff]
    constructor
    · rintro rfl; exact ⟨[], [], rfl⟩
    · rintro ⟨a, b, h⟩
      have := congrArg List.length h
      simp only [List.length_nil, List.length_append] at this
      exact List.eq_nil_of_length_eq_zero (by omega)
  | cons c cs ih =>
    simp only [isInfix, Bool.or_eq_true, ih, List.isPrefixOf_iff_prefix]
    constructor
    · rintro (⟨b, h⟩ | ⟨a, b, h⟩)
      · exact ⟨[], b, by simpa using h.symm⟩
      · exact ⟨c :: a, b, by simp [h]⟩
    · rintro ⟨a, b, h⟩
      cases a with
      | nil => exact Or.inl ⟨b, by simpa using h.symm⟩
      | cons x a =>
        simp only [List.cons_append, List.cons.injEq] at h
        exact Or.inr ⟨a, b, h.2⟩

theorem refable_iff (b : String) : refable b = true ↔ Nameable b := by
  unfold refable Nameable
  simp only [Bool.and_eq_true, Bool.not_eq_true', ← Bool.not_eq_true, isInfix_iff,
    List.isSuffixOf_iff_suffix]
  have : ("_nested".toList <:+ b.toList) ↔ ∃ l, b.toList = l ++ "_nested".toList := by
    constructor
    · rintro ⟨l, h⟩; exact ⟨l, h.symm⟩
    · rintro ⟨l, h⟩; exact ⟨l, h.symm⟩
  rw [this]

/-! ## More fuel does no harm -/

structure MonoAt (c : Ctx) (f : Nat) : Prop where
  go : ∀ s t r, mapGo c f s t = some r → mapGo c (f+1) s t = some r
  run : ∀ p r, run c f p = some r → run c (f+1) p = some r
  lit : ∀ s t o l r, mapLit c f s t o l = some r → mapLit c (f+1) s t o l = some r
  body : ∀ s p b o l r, mapBody c f s p b o l = some r → mapBody c (f+1) s p b o l = some r

theorem monoAt (c : Ctx) (f : Nat) : MonoAt c f := by
  induction f with
  | zero => constructor <;> intros <;> simp_all [mapGo, run, mapLit, mapBody]
  | succ f ih =>
    obtain ⟨i1, i2, i3, i4⟩ := ih
    constructor
    · intro s t r h
      rw [mapGo] at h ⊢
      exact i2 _ _ h
    · intro p r h
      cases p with
      | done q => simpa [run] using h
      | go s t fin =>
        simp only [run, Option.map_eq_some_iff] at h ⊢
        obtain ⟨x, hx, rfl⟩ := h
        exact ⟨x, i1 _ _ _ hx, rfl⟩
      | lit s t fin =>
        simp only [run, Option.map_eq_some_iff] at h ⊢
        obtain ⟨x, hx, rfl⟩ := h
        exact ⟨x, i3 _ _ _ _ _ hx, rfl⟩
      | decl s key d fin =>
        simp only [run, Option.map_eq_some_iff] at h ⊢
        obtain ⟨x, hx, rfl⟩ := h
        exact ⟨x, i2 _ _ hx, rfl⟩
      | body s pkg b fin =>
        simp only [run, Option.map_eq_some_iff] at h ⊢
        obtain ⟨x, hx, rfl⟩ := h
        exact ⟨x, i4 _ _ _ _ _ _ hx, rfl⟩
    · intro s t o l r h
      cases t <;> simp only [mapLit] at h ⊢ <;> grind
    · intro s p b o l r h
      cases b <;> simp only [mapBody] at h ⊢ <;> grind

theorem go_le (c : Ctx) {f g : Nat} (hle : f ≤ g) {s t r} (h : mapGo c f s t = some r) :
    mapGo c g s t = some r := by
  induction hle with
  | refl => exact h
  | step _ ih => exact (monoAt c _).go _ _ _ ih

theorem run_le (c : Ctx) {f g : Nat} (hle : f ≤ g) {p r} (h : run c f p = some r) :
    run c g p = some r := by
  induction hle with
  | refl => exact h
  | step _ ih => exact (monoAt c _).run _ _ ih

theorem lit_le (c : Ctx) {f g : Nat} (hle : f ≤ g) {s t o l r} (h : mapLit c f s t o l = some r) :
    mapLit c g s t o l = some r := by
  induction hle with
  | refl => exact h
  | step _ ih => exact (monoAt c _).lit _ _ _ _ _ ih

theorem body_le (c : Ctx) {f g : Nat} (hle : f ≤ g) {s p b o l r}
    (h : mapBody c f s p b o l = some r) : mapBody c g s p b o l = some r := by
  induction hle with
  | refl => exact h
  | step _ ih => exact (monoAt c _).body _ _ _ _ _ _ ih

/-! ## The visited set only grows -/

theorem mark_vis (s : St) (t : Ty) (q : Schema) : (mark s t q).vis = s.vis := by
  unfold mark; split
  · rfl
  · cases t <;> simp only <;> split <;> rfl

theorem mark_gen (s : St) (t : Ty) (q : Schema) : (mark s t q).gen = s.gen := by
  unfold mark; split
  · rfl
  · cases t <;> simp only <;> split <;> rfl

/-- The state a plan passes on. -/
def Plan.st : Plan → St
  | .done r => r.2.2
  | .go s _ _ => s
  | .lit s _ _ => s
  | .decl s _ _ _ => s
  | .body s _ _ _ => s

/-- Putting an answer together leaves the visited sets alone. -/
def Keeps (fin : Ans → Ans) : Prop :=
  ∀ a, (fin a).2.2.vis = a.2.2.vis ∧ (fin a).2.2.gen = a.2.2.gen

def Plan.keeps : Plan → Prop
  | .done _ => True
  | .go _ _ fin => Keeps fin
  | .lit _ _ fin => Keeps fin
  | .decl _ _ _ fin => Keeps fin
  | .body _ _ _ fin => Keeps fin

theorem keeps_gather (o) : Keeps (gather o) := fun _ => ⟨rfl, rfl⟩
theorem keeps_stored (r o) : Keeps (finStored r o) := fun _ => ⟨mark_vis .., mark_gen ..⟩
theorem keeps_elem (r o) : Keeps (finElem r o) := by
  rintro ⟨q, m, s⟩; unfold finElem; dsimp only; split <;> exact ⟨rfl, rfl⟩
theorem keeps_map (r o) : Keeps (finMap r o) := by
  rintro ⟨q, m, s⟩; unfold finMap; dsimp only; split <;> exact ⟨rfl, rfl⟩
theorem keeps_name (t o) : Keeps (finName t o) := by
  rintro ⟨q, m, s⟩
  unfold finName unresolved
  dsimp only
  split
  · exact ⟨rfl, rfl⟩
  · split <;> exact ⟨mark_vis .., mark_gen ..⟩
theorem keeps_decl (k) : Keeps (finDecl k) := fun _ => ⟨mark_vis .., mark_gen ..⟩
theorem keeps_used (d o) : Keeps (finUsed d o) := fun _ => ⟨mark_vis .., mark_gen ..⟩
theorem keeps_field (d o) : Keeps (finField d o) := by
  rintro ⟨q, m, s⟩; unfold finField; dsimp only; split <;> exact ⟨rfl, rfl⟩

theorem planElem_facts (c s fixed e out) :
    (planElem c s fixed e out).st.vis = s.vis ∧ (planElem c s fixed e out).keeps := by
  unfold planElem
  dsimp only
  split
  · exact ⟨rfl, trivial⟩
  · split
    · exact ⟨rfl, keeps_elem _ _⟩
    · split
      · exact ⟨rfl, keeps_elem _ _⟩
      · exact ⟨rfl, keeps_stored _ _⟩
      · exact ⟨mark_vis .., trivial⟩

theorem planShape_facts (c s out t) :
    (planShape c s out t).st.vis = s.vis ∧ (planShape c s out t).keeps := by
  cases t with
  | prim n => exact ⟨rfl, trivial⟩
  | name p b =>
    simp only [planShape]
    split
    · exact ⟨rfl, keeps_name _ _⟩
    · exact ⟨rfl, trivial⟩
  | ptr e => exact ⟨rfl, keeps_gather _⟩
  | slice e => exact planElem_facts ..
  | arr n e => exact planElem_facts ..
  | map k v =>
    simp only [planShape]
    split
    · exact ⟨rfl, keeps_map _ _⟩
    · exact ⟨rfl, trivial⟩
  | lit => exact ⟨rfl, trivial⟩
  | fld l t r =>
    simp only [planShape]
    split
    · split
      · exact ⟨rfl, keeps_map _ _⟩
      · exact ⟨rfl, trivial⟩
    · exact ⟨rfl, keeps_gather _⟩

theorem planGo_facts (c s t) :
    s.vis ⊆ (planGo c s t).st.vis ∧ (planGo c s t).keeps := by
  have hsub : s.vis ⊆ t :: s.vis := fun _ h => List.mem_cons_of_mem _ h
  unfold planGo
  dsimp only
  split
  · exact ⟨fun _ h => h, trivial⟩
  · split
    · exact ⟨hsub, trivial⟩
    · split
      · refine ⟨?_, trivial⟩
        simp only [Plan.st]
        split
        · exact hsub
        · rw [mark_vis]; exact hsub
      · split
        · refine ⟨?_, trivial⟩
          simp only [Plan.st]
          split
          · rw [mark_vis]; exact hsub
          · exact hsub
        · obtain ⟨h1, h2⟩ := planShape_facts c { s with vis := t :: s.vis } (ownComps c t) t
          exact ⟨by rw [h1]; exact hsub, h2⟩

theorem planDecl_facts (c s key d) :
    (planDecl c s key d).st.vis = s.vis ∧ (planDecl c s key d).keeps := by
  unfold planDecl
  dsimp only
  split
  · exact ⟨rfl, trivial⟩
  · split
    · exact ⟨rfl, trivial⟩
    · split
      · exact ⟨mark_vis .., trivial⟩
      · split
        · exact ⟨rfl, keeps_decl _⟩
        · exact ⟨mark_vis .., trivial⟩
        · exact ⟨rfl, keeps_decl _⟩
        · exact ⟨rfl, keeps_decl _⟩
        · exact ⟨mark_vis .., trivial⟩

theorem planField_facts (c s pkg t out) :
    (planField c s pkg t out).st.vis = s.vis ∧ (planField c s pkg t out).keeps := by
  unfold planField
  dsimp only
  split
  · exact ⟨rfl, keeps_field _ _⟩
  · split
    · exact ⟨rfl, keeps_field _ _⟩
    · exact ⟨rfl, keeps_used _ _⟩
    · exact ⟨mark_vis .., trivial⟩

structure GrowsAt (c : Ctx) (f : Nat) : Prop where
  go : ∀ s t r, mapGo c f s t = some r → s.vis ⊆ r.2.2.vis
  run : ∀ p r, p.keeps → run c f p = some r → p.st.vis ⊆ r.2.2.vis
  lit : ∀ s t o l r, mapLit c f s t o l = some r → s.vis ⊆ r.2.2.vis
  body : ∀ s p b o l r, mapBody c f s p b o l = some r → s.vis ⊆ r.2.2.vis

theorem growsAt (c : Ctx) (f : Nat) : GrowsAt c f := by
  induction f with
  | zero => constructor <;> intros <;> simp_all [mapGo, run, mapLit, mapBody]
  | succ f ih =>
    obtain ⟨i1, i2, i3, i4⟩ := ih
    constructor
    · intro s t r h
      rw [mapGo] at h
      obtain ⟨h1, h2⟩ := planGo_facts c s t
      exact fun x hx => i2 _ _ h2 h (h1 hx)
    · intro p r hk h
      cases p with
      | done q => simp only [run, Option.some.injEq] at h; subst h; exact fun _ h => h
      | go s t fin =>
        simp only [run, Option.map_eq_some_iff] at h
        obtain ⟨x, hx, rfl⟩ := h
        rw [(hk x).1]; exact i1 _ _ _ hx
      | lit s t fin =>
        simp only [run, Option.map_eq_some_iff] at h
        obtain ⟨x, hx, rfl⟩ := h
        rw [(hk x).1]; exact i3 _ _ _ _ _ hx
      | decl s key d fin =>
        simp only [run, Option.map_eq_some_iff] at h
        obtain ⟨x, hx, rfl⟩ := h
        rw [(hk x).1]
        obtain ⟨h1, h2⟩ := planDecl_facts c s key d
        have := i2 _ _ h2 hx
        rw [h1] at this
        exact this
      | body s pkg b fin =>
        simp only [run, Option.map_eq_some_iff] at h
        obtain ⟨x, hx, rfl⟩ := h
        rw [(hk x).1]; exact i4 _ _ _ _ _ _ hx
    · intro s t o l r h
      cases t with
      | fld label t rest =>
        simp only [mapLit] at h
        split at h
        · cases h
        · rename_i q more s' hx
          exact fun x hx' => i3 _ _ _ _ _ h (i1 _ _ _ hx hx')
      | _ => simp only [mapLit, Option.some.injEq] at h; subst h; exact fun _ h => h
    · intro s p b o l r h
      cases b with
      | done => simp only [mapBody, Option.some.injEq] at h; subst h; exact fun _ h => h
      | field label t rest =>
        simp only [mapBody] at h
        split at h
        · cases h
        · rename_i q more s' hx
          obtain ⟨h1, h2⟩ := planField_facts c s p t l
          have := i2 _ _ h2 hx
          rw [h1] at this
          exact fun x hx' => i4 _ _ _ _ _ _ h (this hx')
      | sub label key inner rest =>
        simp only [mapBody] at h
        split at h
        · cases h
        · rename_i q more s' hx
          obtain ⟨h1, h2⟩ := planDecl_facts c s (.name "" key) (.struct p inner)
          have := i2 _ _ h2 hx
          rw [h1] at this
          exact fun x hx' => i4 _ _ _ _ _ _ h (this hx')

/-! ## Termination -/

def TermGo (c : Ctx) (s : St) (t : Ty) : Prop := ∃ f r, mapGo c f s t = some r
def TermP (c : Ctx) (p : Plan) : Prop := ∃ f r, run c f p = some r

theorem termGo_of (c s t) (h : TermP c (planGo c s t)) : TermGo c s t := by
  obtain ⟨f, r, h⟩ := h
  exact ⟨f + 1, r, by rw [mapGo]; exact h⟩

theorem termP_done (c r) : TermP c (.done r) := ⟨1, r, rfl⟩

theorem termP_go (c s t fin) (h : TermGo c s t) : TermP c (.go s t fin) := by
  obtain ⟨f, r, h⟩ := h
  exact ⟨f + 1, fin r, by simp [run, h]⟩

theorem termP_decl (c s k d fin) (h : TermP c (planDecl c s k d)) : TermP c (.decl s k d fin) := by
  obtain ⟨f, r, h⟩ := h
  exact ⟨f + 1, fin r, by simp [run, h]⟩

theorem termP_lit (c s t fin) (h : ∃ f r, mapLit c f s t .obj [] = some r) :
    TermP c (.lit s t fin) := by
  obtain ⟨f, r, h⟩ := h
  exact ⟨f + 1, fin r, by simp [run, h]⟩

theorem termP_body (c s p b fin) (h : ∃ f r, mapBody c f s p b .obj [] = some r) :
    TermP c (.body s p b fin) := by
  obtain ⟨f, r, h⟩ := h
  exact ⟨f + 1, fin r, by simp [run, h]⟩

/-- How many of the names are still unvisited. -/
def left (U : List (String × String)) (s : St) : Nat :=
  (U.filter fun n => !s.vis.contains (.name n.1 n.2)).length

theorem left_mono (U : List (String × String)) (s s' : St) (h : s.vis ⊆ s'.vis) :
    left U s' ≤ left U s := by
  unfold left
  induction U with
  | nil => exact Nat.le_refl _
  | cons n U ih =>
    simp only [List.contains_eq_mem] at ih
    simp only [List.filter_cons]
    by_cases h1 : Ty.name n.1 n.2 ∈ s.vis
    · simp only [List.contains_eq_mem, h1, h h1, decide_true, Bool.not_true, Bool.false_eq_true,
        if_false]
      exact ih
    · by_cases h2 : Ty.name n.1 n.2 ∈ s'.vis
      · simp only [List.contains_eq_mem, h1, h2, decide_true, decide_false, Bool.not_true,
          Bool.not_false, Bool.false_eq_true, if_false, if_true, List.length_cons]
        exact Nat.le_succ_of_le ih
      · simp only [List.contains_eq_mem, h1, h2, decide_false,
          Bool.not_false, if_true, List.length_cons]
        exact Nat.succ_le_succ ih

theorem left_lt (U : List (String × String)) (s : St) (n : String × String) (hn : n ∈ U)
    (hv : Ty.name n.1 n.2 ∉ s.vis) (u g) :
    left U { used := u, vis := Ty.name n.1 n.2 :: s.vis, gen := g } < left U s := by
  induction U with
  | nil => cases hn
  | cons m U ih =>
    have hle := left_mono U s { used := u, vis := Ty.name n.1 n.2 :: s.vis, gen := g }
      (fun _ h => List.mem_cons_of_mem _ h)
    unfold left at ih hle ⊢
    simp only [List.filter_cons]
    by_cases hm : m = n
    · subst hm
      simp only [List.contains_eq_mem, hv, List.mem_cons, true_or, decide_true, decide_false,
        Bool.not_true, Bool.not_false, if_true, List.length_cons]
      simp only [List.contains_eq_mem, List.mem_cons] at hle
      exact Nat.lt_succ_of_le hle
    · have hn' : n ∈ U := by
        rcases List.mem_cons.1 hn with h | h
        · exact absurd h.symm hm
        · exact h
      have hne : Ty.name m.1 m.2 ≠ Ty.name n.1 n.2 := by
        intro h
        injection h with h1 h2
        exact hm (Prod.ext h1 h2)
      have := ih hn'
      by_cases h1 : Ty.name m.1 m.2 ∈ s.vis
      · simp only [List.contains_eq_mem, List.mem_cons, h1, hne, false_or, decide_true,
          Bool.not_true] at this ⊢
        exact this
      · simp only [List.contains_eq_mem, List.mem_cons, h1, hne, false_or, decide_false,
          Bool.not_false, if_true, List.length_cons] at this ⊢
        exact Nat.succ_lt_succ this

/-- A name is fit. -/
def NameFit (K : String → String → Prop) : Ty → Prop
  | .name p b => K p b
  | _ => True

/-- Every name of the type, and every name its text surgery makes, is fit. -/
def Good (K : String → String → Prop) : Ty → Prop
  | .prim _ => True
  | .name p b => K p b
  | .ptr e => Good K e
  | .slice e => Good K e
  | .arr _ e => Good K e
  | .map _ v => Good K v ∧ NameFit K (glue v)
  | .lit => True
  | .fld _ t r => Good K t ∧ Good K r

def size : Ty → Nat
  | .prim _ => 1
  | .name _ _ => 1
  | .ptr e => size e + 1
  | .slice e => size e + 1
  | .arr _ e => size e + 1
  | .map k v => size k + size v + 1
  | .lit => 1
  | .fld _ t r => size t + size r + 1

theorem good_glue {K} (t : Ty) : Good K (glue t) ↔ NameFit K (glue t) := by
  unfold glue
  split
  · exact Iff.rfl
  · split <;> exact Iff.rfl
  · exact Iff.rfl

theorem size_pos (t : Ty) : 0 < size t := by cases t <;> simp [size]

theorem size_ident (u : Ident) : size u.ty = 1 := by cases u <;> rfl

/-- What an alias resolves to is fit. -/
def GoodAliases (c : Ctx) (K : String → String → Prop) : Prop :=
  ∀ p b pkg u, c.find p b = some (.alias pkg u) → Good K u.ty ∧ Good K (glue u.ty)

theorem aliasOf_some {c t u} (h : aliasOf c t = some u) :
    ∃ p b pkg i, c.find p b = some (.alias pkg i) ∧ u = i.ty := by
  unfold aliasOf at h
  split at h
  · cases h
  · split at h
    · split at h
      · rename_i hf
        exact ⟨_, _, _, _, hf, by simpa using h.symm⟩
      · cases h
    · cases h

theorem aliasOfMap_some {c t u} (h : aliasOfMap c t = some u) :
    ∃ p b pkg i, c.find p b = some (.alias pkg i) ∧ u = i.ty := by
  unfold aliasOfMap at h
  split at h
  · split at h
    · cases h
    · split at h
      · rename_i hf
        exact ⟨_, _, _, _, hf, by simpa using h.symm⟩
      · cases h
  · cases h

/-- The resolved form is an alias target under at most one constructor, and not
larger than the type. -/
theorem resolve_some {c t r} (h : resolve c t = some r) :
    ∃ p b pkg i, c.find p b = some (.alias pkg i) ∧
      (r = .slice i.ty ∨ r = .map i.ty i.ty ∨ r = .ptr i.ty ∨ r = i.ty) ∧ size r ≤ size t := by
  have aux : ∀ (x : Option Ty) (k : Ty → Ty), x.map k = some r → ∃ u, x = some u ∧ r = k u := by
    intro x k hx
    cases x with
    | none => cases hx
    | some u => exact ⟨u, rfl, by simpa using hx.symm⟩
  unfold resolve at h
  split at h
  · obtain ⟨u, hu, rfl⟩ := aux _ _ h
    obtain ⟨p, b, pkg, i, hf, rfl⟩ := aliasOfMap_some hu
    exact ⟨p, b, pkg, i, hf, Or.inl rfl, by simp only [size, size_ident]; omega⟩
  · rename_i k v
    obtain ⟨u, hu, rfl⟩ := aux _ _ h
    obtain ⟨p, b, pkg, i, hf, rfl⟩ := aliasOfMap_some hu
    exact ⟨p, b, pkg, i, hf, Or.inr (Or.inl rfl), by
      have := size_pos k; have := size_pos v; simp only [size, size_ident]; omega⟩
  · obtain ⟨u, hu, rfl⟩ := aux _ _ h
    obtain ⟨p, b, pkg, i, hf, rfl⟩ := aliasOf_some hu
    exact ⟨p, b, pkg, i, hf, Or.inl rfl, by simp only [size, size_ident]; omega⟩
  · obtain ⟨u, hu, rfl⟩ := aux _ _ h
    obtain ⟨p, b, pkg, i, hf, rfl⟩ := aliasOf_some hu
    exact ⟨p, b, pkg, i, hf, Or.inl rfl, by simp only [size, size_ident]; omega⟩
  · obtain ⟨u, hu, rfl⟩ := aux _ _ h
    obtain ⟨p, b, pkg, i, hf, rfl⟩ := aliasOf_some hu
    exact ⟨p, b, pkg, i, hf, Or.inl rfl, by simp only [size, size_ident]; omega⟩
  · obtain ⟨u, hu, rfl⟩ := aux _ _ h
    obtain ⟨p, b, pkg, i, hf, rfl⟩ := aliasOf_some hu
    exact ⟨p, b, pkg, i, hf, Or.inl rfl, by
      rename_i e _ _ _ _; have := size_pos e; simp only [size, size_ident]; omega⟩
  · rename_i e
    obtain ⟨u, hu, rfl⟩ := aux _ _ h
    obtain ⟨p, b, pkg, i, hf, rfl⟩ := aliasOf_some hu
    exact ⟨p, b, pkg, i, hf, Or.inr (Or.inr (Or.inl rfl)), by
      have := size_pos e; simp only [size, size_ident]; omega⟩
  · obtain ⟨p, b, pkg, i, hf, rfl⟩ := aliasOf_some h
    exact ⟨p, b, pkg, i, hf, Or.inr (Or.inr (Or.inr rfl)), by
      have := size_pos t; simp only [size_ident]; omega⟩

theorem good_resolve {c K} (ha : GoodAliases c K) {e : Ty} (he : Good K e) :
    Good K ((resolve c e).getD e) ∧ size ((resolve c e).getD e) ≤ size e := by
  cases h : resolve c e with
  | none => exact ⟨he, Nat.le_refl _⟩
  | some r =>
    obtain ⟨p, b, pkg, i, hf, hr, hs⟩ := resolve_some h
    refine ⟨?_, hs⟩
    have hg := ha p b pkg i hf
    rcases hr with h | h | h | h <;> subst h
    · show Good K i.ty
      exact hg.1
    · show Good K i.ty ∧ NameFit K (glue i.ty)
      exact ⟨hg.1, (good_glue _).1 hg.2⟩
    · show Good K i.ty
      exact hg.1
    · exact hg.1

theorem good_scan {K} {t k g : Ty} (ht : Good K t) (h : scan t = .found k g) :
    Good K g ∧ size g < size t := by
  induction t generalizing g with
  | prim n => simp [scan] at h
  | name p b => simp [scan] at h
  | ptr e ih =>
    simp only [scan] at h
    split at h
    · rename_i k' g' he
      injection h with h1 h2
      subst h1 h2
      obtain ⟨h3, h4⟩ := ih (show Good K e from ht) he
      exact ⟨(show Good K g' from h3), by simp only [size]; omega⟩
    · rename_i hne; exact absurd h (hne k g)
  | slice e _ => simp [scan] at h
  | arr n e _ => simp [scan] at h
  | map k' v _ _ =>
    simp only [scan, Scan.found.injEq] at h
    obtain ⟨rfl, rfl⟩ := h
    refine ⟨(good_glue _).2 ht.2, ?_⟩
    have := size_pos k'; have := size_pos v
    have : size (glue v) = 1 := by unfold glue; split <;> (try split) <;> rfl
    simp only [size]; omega
  | lit => simp [scan] at h
  | fld l a r iha ihr =>
    simp only [scan] at h
    split at h
    · split at h
      · rename_i k' g' hr'
        injection h with h1 h2
        subst h1 h2
        obtain ⟨h3, h4⟩ := ihr ht.2 hr'
        exact ⟨⟨ht.1, h3⟩, by simp only [size]; omega⟩
      · rename_i hne; exact absurd h (hne k g)
    · cases h
    · rename_i k' g' ha'
      injection h with h1 h2
      subst h1 h2
      obtain ⟨h3, h4⟩ := iha ht.1 ha'
      exact ⟨⟨h3, ht.2⟩, by simp only [size]; omega⟩

theorem termP_elem (c : Ctx) (s fixed e out) (h : TermGo c s ((resolve c e).getD e)) :
    TermP c (planElem c s fixed e out) := by
  unfold planElem
  dsimp only
  split
  · exact termP_done ..
  · split
    · exact termP_go _ _ _ _ h
    · split
      · exact termP_go _ _ _ _ h
      · exact termP_go _ _ _ _ h
      · exact termP_done ..

/-- An anonymous struct is mapped once each of its fields is. -/
theorem term_lit (c : Ctx) (U : List (String × String)) (K : String → String → Prop) (M : Nat) :
    ∀ (t : Ty) (n : Nat), size t ≤ n + 1 → Good K t →
    (∀ e, size e ≤ n → Good K e → ∀ s, left U s ≤ M → TermGo c s e) →
    ∀ s, left U s ≤ M → ∀ o out, ∃ f r, mapLit c f s t o out = some r := by
  intro t
  induction t with
  | fld l a r _ ihr =>
    intro n hn hg hmap s hs o out
    simp only [size] at hn
    have := size_pos a
    have := size_pos r
    obtain ⟨f1, ⟨q, more, s1⟩, h1⟩ := hmap a (by omega) hg.1 s hs
    have hs1 : left U s1 ≤ M := Nat.le_trans (left_mono U s s1 ((growsAt c f1).go _ _ _ h1)) hs
    obtain ⟨f2, r2, h2⟩ := ihr n (by omega) hg.2 hmap s1 hs1 (setProp o l q) (copy out more)
    refine ⟨max f1 f2 + 1, r2, ?_⟩
    rw [mapLit, go_le c (Nat.le_max_left f1 f2) h1]
    exact lit_le c (Nat.le_max_right f1 f2) h2
  | _ => intro n _ _ _ s _ o out; exact ⟨1, (o, out, s), rfl⟩

/-- The dispatch on the shape ends, once smaller types do. -/
theorem term_shape (c : Ctx) (U : List (String × String)) (K : String → String → Prop)
    (ha : GoodAliases c K) (M n : Nat)
    (ih : ∀ e, size e ≤ n → Good K e → ∀ s, left U s ≤ M → TermGo c s e)
    (t : Ty) (ht : size t ≤ n + 1) (hg : Good K t) (hnm : ¬ ∃ p b, t = .name p b)
    (s' : St) (hs' : left U s' ≤ M) (out : Comps) : TermP c (planShape c s' out t) := by
  cases t with
  | prim m => exact termP_done ..
  | name p b => exact absurd ⟨p, b, rfl⟩ hnm
  | ptr e =>
    exact termP_go _ _ _ _ (ih e (by simp only [size] at ht; omega) hg _ hs')
  | slice e =>
    obtain ⟨h1, h2⟩ := good_resolve ha (show Good K e from hg)
    exact termP_elem _ _ _ _ _ (ih _ (by simp only [size] at ht; omega) h1 _ hs')
  | arr m e =>
    obtain ⟨h1, h2⟩ := good_resolve ha (show Good K e from hg)
    exact termP_elem _ _ _ _ _ (ih _ (by simp only [size] at ht; omega) h1 _ hs')
  | map k v =>
    obtain ⟨h1, h2⟩ := good_resolve ha hg.1
    simp only [planShape]
    split
    · exact termP_go _ _ _ _ (ih _ (by simp only [size] at ht; omega) h1 _ hs')
    · exact termP_done ..
  | lit => exact termP_done ..
  | fld l a r =>
    simp only [planShape]
    split
    · rename_i k g hsc
      obtain ⟨h1, h2⟩ := good_scan hg hsc
      split
      · exact termP_go _ _ _ _ (ih _ (by omega) h1 _ hs')
      · exact termP_done ..
    · exact termP_lit _ _ _ _ (term_lit c U K M _ n ht hg ih _ hs' _ _)

/-- If mapping a fit name ends, mapping every type built from fit names does. -/
theorem term_core (c : Ctx) (U : List (String × String)) (K : String → String → Prop)
    (ha : GoodAliases c K) (M : Nat)
    (hname : ∀ s p b, left U s ≤ M → K p b → TermGo c s (.name p b)) :
    ∀ n t, size t ≤ n → Good K t → ∀ s, left U s ≤ M → TermGo c s t := by
  intro n
  induction n with
  | zero => intro t ht; have := size_pos t; omega
  | succ n ih =>
    intro t ht hg s hs
    by_cases hnm : ∃ p b, t = .name p b
    · obtain ⟨p, b, rfl⟩ := hnm
      exact hname s p b hs hg
    have hs' : left U { s with vis := t :: s.vis } ≤ M :=
      Nat.le_trans (left_mono U s _ (fun _ h => List.mem_cons_of_mem _ h)) hs
    apply termGo_of
    unfold planGo
    dsimp only
    split
    · exact termP_done ..
    · split
      · exact termP_done ..
      · split
        · exact termP_done ..
        · split
          · exact termP_done ..
          · exact term_shape c U K ha M n ih t ht hg hnm _ hs' _

/-! ### Declarations -/

theorem over_qualify {P B} {pkg : String} {t : Ty} (hp : pkg ∈ P) (h : Over P B t) :
    Over P B (qualify pkg t) := by
  induction t with
  | name p b =>
    simp only [qualify]
    split
    · intro n hn
      simp only [Ty.names, List.mem_singleton] at hn
      subst hn
      exact ⟨hp, (h (p, b) (by simp [Ty.names])).2⟩
    · exact h
  | ptr e ih => exact ih h
  | slice e ih => exact ih h
  | arr n e ih => exact ih h
  | map k v _ ih =>
    intro n hn
    simp only [qualify, Ty.names, List.mem_append] at hn
    rcases hn with hn | hn
    · exact h n (by simp [Ty.names, hn])
    · exact ih (fun m hm => h m (by simp [Ty.names, hm])) n hn
  | _ => exact h

theorem bases_qualify (pkg : String) (t : Ty) :
    ∀ n ∈ (qualify pkg t).names, ∃ m ∈ t.names, m.2 = n.2 := by
  induction t with
  | name p b =>
    simp only [qualify]
    split
    · intro n hn
      simp only [Ty.names, List.mem_singleton] at hn
      subst hn
      exact ⟨(p, b), by simp [Ty.names], rfl⟩
    · exact fun n hn => ⟨n, hn, rfl⟩
  | ptr e ih => exact ih
  | slice e ih => exact ih
  | arr n e ih => exact ih
  | map k v _ ih =>
    intro n hn
    simp only [qualify, Ty.names, List.mem_append] at hn
    rcases hn with hn | hn
    · exact ⟨n, by simp [Ty.names, hn], rfl⟩
    · obtain ⟨m, hm, e⟩ := ih n hn
      exact ⟨m, by simp [Ty.names, hm], e⟩
  | _ => exact fun n hn => ⟨n, hn, rfl⟩

/-- The names that may be visited. -/
def universe_ (P B : List String) : List (String × String) :=
  P.flatMap fun p => B.flatMap fun b => [(p, b), ("." ++ p, b)]

theorem mem_universe {P B : List String} {p b : String} (hp : p ∈ P) (hb : b ∈ B) :
    (p, b) ∈ universe_ P B ∧ ("." ++ p, b) ∈ universe_ P B := by
  constructor <;>
  · refine List.mem_flatMap.2 ⟨p, hp, List.mem_flatMap.2 ⟨b, hb, ?_⟩⟩
    simp

/-- A type over the finite table consists of fit names, whatever being fit means as
long as it covers the universe and undeclared names. -/
theorem good_of_over {c : Ctx} {P B : List String} {K : String → String → Prop}
    (hT : FiniteTable c P B) (R : String → Prop)
    (hK : ∀ p b, (p, b) ∈ universe_ P B → R b → K p b)
    (hU : ∀ p b, c.find p b = none → K p b)
    (t : Ty) (ho : Over P B t) (hr : ∀ n ∈ t.names, R n.2) :
    Good K t ∧ Good K (glue t) := by
  induction t with
  | prim n => exact ⟨trivial, hU _ _ (hT.nodot _ _)⟩
  | name p b =>
    have hm := ho (p, b) (by simp [Ty.names])
    have hR := hr (p, b) (by simp [Ty.names])
    refine ⟨hK p b (mem_universe hm.1 hm.2).1 hR, ?_⟩
    unfold glue
    dsimp only
    split
    · exact hU _ _ (hT.nodot _ _)
    · exact hK _ _ (mem_universe hm.1 hm.2).2 hR
  | ptr e ih => exact ⟨(ih ho hr).1, hU _ _ (hT.nodot "" "")⟩
  | slice e ih => exact ⟨(ih ho hr).1, hU _ _ (hT.nodot "" "")⟩
  | arr n e ih => exact ⟨(ih ho hr).1, hU _ _ (hT.nodot "" "")⟩
  | map k v _ ih =>
    have hv := ih (fun n hn => ho n (by simp [Ty.names, hn]))
      (fun n hn => hr n (by simp [Ty.names, hn]))
    exact ⟨⟨hv.1, (good_glue _).1 hv.2⟩, hU _ _ (hT.nodot "" "")⟩
  | lit => exact ⟨trivial, hU _ _ (hT.nodot "" "")⟩
  | fld l a r iha ihr =>
    exact ⟨⟨(iha (fun n hn => ho n (by simp [Ty.names, hn]))
        (fun n hn => hr n (by simp [Ty.names, hn]))).1,
      (ihr (fun n hn => ho n (by simp [Ty.names, hn]))
        (fun n hn => hr n (by simp [Ty.names, hn]))).1⟩, hU _ _ (hT.nodot "" "")⟩

/-- The names that are guarded, or have nothing to expand. -/
def Fit (c : Ctx) (P B : List String) (p b : String) : Prop :=
  ((p, b) ∈ universe_ P B ∧ refable b = true) ∨ c.find p b = none

theorem good_fit {c : Ctx} {P B : List String} (hT : FiniteTable c P B) (t : Ty)
    (ho : Over P B t) (hr : ∀ n ∈ t.names, refable n.2 = true) :
    Good (Fit c P B) t ∧ Good (Fit c P B) (glue t) :=
  good_of_over hT (fun b => refable b = true) (fun _ _ h1 h2 => Or.inl ⟨h1, h2⟩)
    (fun _ _ h => Or.inr h) t ho hr

theorem good_aliases {c : Ctx} {P B : List String} (hT : FiniteTable c P B) (hN : NamesOk c) :
    GoodAliases c (Fit c P B) := by
  intro p b pkg u hf
  refine good_fit hT u.ty (hT.types p b _ hf _ (by simp [Decl.types])) ?_
  intro n hn
  exact (refable_iff _).2 (hN p b _ hf _ (by simp [Decl.types]) n hn)

/-- The type of a field, as it is mapped, consists of fit names. -/
theorem good_field {c : Ctx} {P B : List String} (hT : FiniteTable c P B) (hN : NamesOk c)
    {pkg : String} (hp : pkg ∈ P) {t : Ty} (ho : Over P B t)
    (hr : ∀ n ∈ t.names, refable n.2 = true) :
    Good (Fit c P B) (fieldType c pkg t) := by
  have hq : ∀ u, Over P B u → (∀ n ∈ u.names, refable n.2 = true) →
      Good (Fit c P B) (if isPrim u then u else qualify pkg u) := by
    intro u h1 h2
    split
    · exact (good_fit hT u h1 h2).1
    · refine (good_fit hT _ (over_qualify hp h1) ?_).1
      intro n hn
      obtain ⟨m, hm, e⟩ := bases_qualify pkg u n hn
      rw [← e]; exact h2 m hm
  unfold fieldType
  dsimp only
  split
  · exact hq _ ho hr
  · cases h : resolve c t with
    | none => exact hq _ ho hr
    | some r =>
      obtain ⟨p, b, pk, i, hf, hr', _⟩ := resolve_some h
      have o1 : Over P B i.ty := hT.types p b _ hf _ (by simp [Decl.types])
      have r1 : ∀ n ∈ i.ty.names, refable n.2 = true := fun n hn =>
        (refable_iff _).2 (hN p b _ hf _ (by simp [Decl.types]) n hn)
      have hmem : ∀ n ∈ r.names, n ∈ i.ty.names := by
        intro n hn
        rcases hr' with e | e | e | e <;> subst e
        · exact hn
        · simp only [Ty.names, List.mem_append, or_self] at hn; exact hn
        · exact hn
        · exact hn
      exact hq _ (fun n hn => o1 n (hmem n hn)) (fun n hn => r1 n (hmem n hn))

theorem good_derive {K} {t : Ty} (h : Good K t) : Good K (derive t) := by
  cases t <;> exact h

theorem termP_field (c : Ctx) (s pkg t out)
    (h : ∀ u, u = fieldType c pkg t ∨ u = derive (fieldType c pkg t) → TermGo c s u) :
    TermP c (planField c s pkg t out) := by
  unfold planField
  dsimp only
  split
  · exact termP_go _ _ _ _ (h _ (Or.inr rfl))
  · split
    · exact termP_go _ _ _ _ (h _ (Or.inr rfl))
    · exact termP_go _ _ _ _ (h _ (Or.inl rfl))
    · exact termP_done ..

/-- A struct is mapped once all the types it mentions are. -/
theorem term_body {c : Ctx} {P B : List String} (hT : FiniteTable c P B) (hN : NamesOk c)
    (U : List (String × String)) (M : Nat)
    (hmap : ∀ t, Good (Fit c P B) t → ∀ s, left U s ≤ M → TermGo c s t)
    {pkg : String} (hp : pkg ∈ P) :
    ∀ (b : Body), (∀ t ∈ b.types, Over P B t) →
    (∀ t ∈ b.types, ∀ n ∈ t.names, refable n.2 = true) →
    ∀ s, left U s ≤ M → ∀ o out, ∃ f r, mapBody c f s pkg b o out = some r := by
  intro b
  induction b with
  | done => intro _ _ s _ o out; exact ⟨1, (o, out, s), rfl⟩
  | field l t rest ih =>
    intro ho hr s hs o out
    have hg := good_field hT hN hp (ho t (by simp [Body.types])) (hr t (by simp [Body.types]))
    obtain ⟨f1, ⟨q, out1, s1⟩, h1⟩ := termP_field c s pkg t out (by
      rintro u (rfl | rfl)
      · exact hmap _ hg s hs
      · exact hmap _ (good_derive hg) s hs)
    have hs1 : left U s1 ≤ M := by
      obtain ⟨g1, g2⟩ := planField_facts c s pkg t out
      have := (growsAt c f1).run _ _ g2 h1
      rw [g1] at this
      exact Nat.le_trans (left_mono U s s1 this) hs
    obtain ⟨f2, r2, h2⟩ := ih (fun t h => ho t (by simp [Body.types, h]))
      (fun t h => hr t (by simp [Body.types, h])) s1 hs1 (setProp o l q) out1
    refine ⟨max f1 f2 + 1, r2, ?_⟩
    rw [mapBody, run_le c (Nat.le_max_left f1 f2) h1]
    exact body_le c (Nat.le_max_right f1 f2) h2
  | sub l key inner rest ihi ihr =>
    intro ho hr s hs o out
    have hd : TermP c (planDecl c s (.name "" key) (.struct pkg inner)) := by
      unfold planDecl
      dsimp only
      split
      · exact termP_done ..
      · split
        · exact termP_done ..
        · split
          · exact termP_done ..
          · exact termP_body _ _ _ _ _ (ihi (fun t h => ho t (by simp [Body.types, h]))
              (fun t h => hr t (by simp [Body.types, h])) _ (by exact hs) _ _)
    obtain ⟨f1, ⟨q, more, s1⟩, h1⟩ := hd
    have hs1 : left U s1 ≤ M := by
      obtain ⟨g1, g2⟩ := planDecl_facts c s (.name "" key) (.struct pkg inner)
      have := (growsAt c f1).run _ _ g2 h1
      rw [g1] at this
      exact Nat.le_trans (left_mono U s s1 this) hs
    obtain ⟨f2, r2, h2⟩ := ihr (fun t h => ho t (by simp [Body.types, h]))
      (fun t h => hr t (by simp [Body.types, h])) s1 hs1 (setProp o l q) (copy out more)
    refine ⟨max f1 f2 + 1, r2, ?_⟩
    rw [mapBody, run_le c (Nat.le_max_left f1 f2) h1]
    exact body_le c (Nat.le_max_right f1 f2) h2

/-- A declaration is mapped once all the types it mentions are. -/
theorem term_decl {c : Ctx} {P B : List String} (hT : FiniteTable c P B) (hN : NamesOk c)
    (U : List (String × String)) (M : Nat)
    (hmap : ∀ t, Good (Fit c P B) t → ∀ s, left U s ≤ M → TermGo c s t)
    {p b : String} {d : Decl} (hf : c.find p b = some d) (key : Ty) (s : St)
    (hs : left U s ≤ M) : TermP c (planDecl c s key d) := by
  have hq : ∀ pkg u, pkg ∈ d.pkgs → u ∈ d.types → Good (Fit c P B) (qualify pkg u) := by
    intro pkg u hp hu
    refine (good_fit hT _ (over_qualify (hT.pkgs _ _ _ hf _ hp) (hT.types _ _ _ hf _ hu)) ?_).1
    intro n hn
    obtain ⟨m, hm, e⟩ := bases_qualify pkg u n hn
    rw [← e]; exact (refable_iff _).2 (hN _ _ _ hf _ hu m hm)
  unfold planDecl
  dsimp only
  split
  · exact termP_done ..
  · split
    · exact termP_done ..
    · split
      · exact termP_done ..
      · cases d with
        | struct pkg bd =>
          exact termP_body _ _ _ _ _ (term_body hT hN U M hmap
            (hT.pkgs _ _ _ hf pkg (by simp [Decl.pkgs])) bd
            (fun t ht => hT.types _ _ _ hf t ht)
            (fun t ht n hn => (refable_iff _).2 (hN _ _ _ hf t ht n hn)) _ (by exact hs) _ _)
        | iface => exact termP_done ..
        | alias pkg u =>
          exact termP_go _ _ _ _ (hmap _ (hq pkg u.ty (by simp [Decl.pkgs])
            (by simp [Decl.types])) _ (by exact hs))
        | other pkg u =>
          cases u with
          | none => exact termP_done ..
          | some u =>
            exact termP_go _ _ _ _ (hmap _ (hq pkg u (by simp [Decl.pkgs])
              (by simp [Decl.types])) _ (by exact hs))

/-- Mapping a name ends if mapping its declaration does in the state the name's call
leaves; a name that may stand for a component only gets that far when it was not
visited. -/
theorem term_name (c : Ctx) (s : St) (p b : String)
    (h : ∀ d, c.find p b = some d → (refable b = true → Ty.name p b ∉ s.vis) →
      TermP c (planDecl c { s with vis := .name p b :: s.vis } (.name p b) d)) :
    TermGo c s (.name p b) := by
  apply termGo_of
  unfold planGo
  dsimp only
  split
  · exact termP_done ..
  · rename_i hg
    split
    · exact termP_done ..
    · split
      · exact termP_done ..
      · split
        · exact termP_done ..
        · rename_i hx
          simp only [planShape]
          split
          · rename_i d hf
            refine termP_decl _ _ _ _ _ (h d hf ?_)
            intro hr hv
            apply hg
            have : inlineExt c (.name p b) = false := by simp [inlineExt, hx]
            simp [derive, hv, this, canAddRef, isPrim, isSlice, hasMap, hasLit, core, hr]
          · exact termP_done ..

theorem term_fit {c : Ctx} {P B : List String} (hT : FiniteTable c P B) (hN : NamesOk c) :
    ∀ M t, Good (Fit c P B) t → ∀ s, left (universe_ P B) s ≤ M → TermGo c s t := by
  intro M
  induction M with
  | zero =>
    intro t hg s hs
    refine term_core c (universe_ P B) (Fit c P B) (good_aliases hT hN) 0 ?_ (size t) t
      (Nat.le_refl _) hg s hs
    intro s p b hs hk
    refine term_name c s p b ?_
    intro d hf hv
    rcases hk with ⟨hu, hr⟩ | hn
    · have := left_lt (universe_ P B) s (p, b) hu (hv hr) s.used s.gen
      omega
    · rw [hn] at hf; cases hf
  | succ M ih =>
    intro t hg s hs
    refine term_core c (universe_ P B) (Fit c P B) (good_aliases hT hN) (M + 1) ?_ (size t) t
      (Nat.le_refl _) hg s hs
    intro s p b hs hk
    refine term_name c s p b ?_
    intro d hf hv
    rcases hk with ⟨hu, hr⟩ | hn
    · have := left_lt (universe_ P B) s (p, b) hu (hv hr) s.used s.gen
      exact term_decl hT hN (universe_ P B) M ih hf _ _
        (Nat.le_of_lt_succ (Nat.lt_of_lt_of_le this hs))
    · rw [hn] at hf; cases hf

/-- **C44 (termination).**  For every finite type table whose declarations mention
only names that may stand for a component, mapping any type over that table ends,
whatever was used or visited before — and with the same answer whenever there is
enough room for the calls.  The type itself may be any name, such as the synthetic
name of an anonymous struct. -/
theorem C44_terminates {c : Ctx} {P B : List String} (hT : FiniteTable c P B)
    (hN : NamesOk c) (t : Ty) (ht : Over P B t) (s : St) :
    ∃ f r, ∀ g, f ≤ g → mapGo c g s t = some r := by
  have h : TermGo c s t := by
    let K : String → String → Prop := fun p b => (p, b) ∈ universe_ P B ∨ c.find p b = none
    have hgood : ∀ u, Over P B u → Good K u ∧ Good K (glue u) := fun u hu =>
      good_of_over hT (fun _ => True) (fun _ _ h _ => Or.inl h) (fun _ _ h => Or.inr h) u hu
        (fun _ _ => trivial)
    refine term_core c (universe_ P B) K ?_ (left (universe_ P B) s) ?_ (size t) t
      (Nat.le_refl _) (hgood t ht).1 s (Nat.le_refl _)
    · intro p b pkg u hf
      exact hgood _ (hT.types p b _ hf _ (by simp [Decl.types]))
    · intro s' p b _ _
      refine term_name c s' p b ?_
      intro d hf _
      exact term_decl hT hN (universe_ P B) (left (universe_ P B) s') (fun t hg s'' hs'' =>
        term_fit hT hN _ t hg s'' hs'') hf _ _ (left_mono _ _ _ (fun _ h => List.mem_cons_of_mem _ h))
  obtain ⟨f, r, h⟩ := h
  exact ⟨f, r, fun g hg => go_le c hg h⟩

/-- One round of the component generation ends. -/
theorem term_emit {c : Ctx} {P B : List String} (hT : FiniteTable c P B) (hN : NamesOk c)
    (st : List (Ty × Schema) × Comps) (key : Ty) :
    ∃ f r, ∀ g, f ≤ g → emit c g st key = some r := by
  obtain ⟨used, comps⟩ := st
  unfold emit
  dsimp only
  split
  · exact ⟨0, _, fun _ _ => rfl⟩
  · split
    · exact ⟨0, _, fun _ _ => rfl⟩
    · split
      · exact ⟨0, _, fun _ _ => rfl⟩
      · rename_i d hd
        have hf : ∃ p b, c.find p b = some d := by
          unfold emit.lookup at hd
          split at hd
          · cases hd
          · split at hd
            · exact ⟨_, _, hd⟩
            · cases hd
        obtain ⟨p, b, hf⟩ := hf
        obtain ⟨f, r, h⟩ := term_decl hT hN (universe_ P B) _ (fun t hg s hs =>
          term_fit hT hN _ t hg s hs) hf key { used := used } (Nat.le_refl _)
        unfold mapDecl
        refine ⟨f, (r.2.2.used, copy (if r.1 = .absent then emit.asked c key comps
          else mset (emit.asked c key comps) key r.1) r.2.1), ?_⟩
        intro g hg
        rw [run_le c hg h]

/-- **C44 (termination), the whole pass.**  Generating the components ends for every
finite table of that kind, from any used types, in any order. -/
theorem C44_generate_terminates {c : Ctx} {P B : List String} (hT : FiniteTable c P B)
    (hN : NamesOk c) (used : List (Ty × Schema)) (order : List Ty) (comps : Comps) :
    ∃ f r, ∀ g, f ≤ g → generate c g used order comps = some r := by
  have h : ∀ st, ∃ f r, ∀ g, f ≤ g →
      order.foldl (fun st key => st.bind fun st => emit c g st key) (some st) = some r := by
    induction order with
    | nil => intro st; exact ⟨0, st, fun _ _ => rfl⟩
    | cons k ks ih =>
      intro st
      obtain ⟨f1, r1, h1⟩ := term_emit hT hN st k
      obtain ⟨f2, r2, h2⟩ := ih r1
      refine ⟨max f1 f2, r2, ?_⟩
      intro g hg
      rw [List.foldl_cons, Option.bind_some, h1 g (by omega)]
      exact h2 g (by omega)
  obtain ⟨f, r, h⟩ := h (used, comps)
  exact ⟨f, r.2, fun g hg => by unfold generate; rw [h g hg]; rfl⟩

/-! ### The hypotheses are met, and are needed -/

/-- `type Node struct { Next *Node; Kids []*Node; Tree Forest }`,
`type Forest map[string]Node`, `type Kind string`. -/
@[reducible] def exTree : Ctx where
  find _ b :=
    if b = "Node" then
      some (.struct "p" (.field "next" (.ptr (.name "" "Node"))
        (.field "kids" (.slice (.ptr (.name "" "Node")))
          (.sub "meta" "Meta_nested" (.field "kind" (.name "" "Kind") .done)
            (.field "tree" (.name "" "Forest") .done)))))
    else if b = "Forest" then some (.other "p" (some (.map (.prim "string") (.name "" "Node"))))
    else if b = "Kind" then some (.alias "p" (.builtin "string"))
    else none

theorem exTree_finite : FiniteTable exTree ["", "p"] ["Node", "Forest", "Kind"] where
  blank := by decide
  pkgs := by
    intro p b d h q hq
    simp only at h
    split at h
    · obtain rfl := Option.some.inj h; simp [Decl.pkgs] at hq; simp [hq]
    · split at h
      · obtain rfl := Option.some.inj h; simp [Decl.pkgs] at hq; simp [hq]
      · split at h
        · obtain rfl := Option.some.inj h; simp [Decl.pkgs] at hq; simp [hq]
        · cases h
  types := by
    intro p b d h t ht n hn
    simp only at h
    split at h
    · obtain rfl := Option.some.inj h
      simp only [Decl.types, Body.types, List.cons_append, List.nil_append, List.mem_cons,
        List.not_mem_nil, or_false] at ht
      rcases ht with rfl | rfl | rfl | rfl <;>
        simp only [Ty.names, List.mem_singleton] at hn <;> subst hn <;> simp
    · split at h
      · obtain rfl := Option.some.inj h
        simp only [Decl.types, Option.toList, List.mem_singleton] at ht
        subst ht
        simp only [Ty.names, List.nil_append, List.mem_singleton] at hn
        subst hn; simp
      · split at h
        · obtain rfl := Option.some.inj h
          simp only [Decl.types, List.mem_singleton] at ht
          subst ht
          simp [Ty.names] at hn
        · cases h
  nodot := by
    intro p b
    have h : ∀ x : String, x.toList.head? ≠ some '.' → ("." ++ b) ≠ x := by
      rintro x hx rfl
      apply hx
      simp
    simp [h "Node" (by decide), h "Forest" (by decide), h "Kind" (by decide)]

theorem exTree_names : NamesOk exTree := by
  intro p b d h t ht n hn
  have hB := (exTree_finite.types p b d h t ht n hn).2
  rw [← refable_iff]
  simp only [List.mem_cons, List.not_mem_nil, or_false] at hB
  rcases hB with e | e | e <;> rw [e] <;> decide

example : ∃ f r, ∀ g, f ≤ g → mapGo exTree g {} (.slice (.name "p" "Node")) = some r :=
  C44_terminates exTree_finite exTree_names _ (by
    intro n hn
    simp only [Ty.names, List.mem_singleton] at hn
    subst hn; simp) _

/-- `type Foo_nested struct { Next *Foo_nested }`. -/
@[reducible] def exNested : Ctx where
  find _ b :=
    if b = "Foo_nested" then
      some (.struct "p" (.field "next" (.ptr (.name "" "Foo_nested")) .done))
    else none

/-- **C44, the failure.**  A struct that refers to itself and whose name ends in
`_nested` is never cut: no call depth is enough. -/
theorem C44_nested_suffix_diverges :
    ∀ f s, s.used = [] → mapGo exNested f s (.name "p" "Foo_nested") = none := by
  have href : canAddRef (.name "p" "Foo_nested") = false := by decide
  have hfind : exNested.find "p" "Foo_nested" =
      some (.struct "p" (.field "next" (.ptr (.name "" "Foo_nested")) .done)) := by decide
  have hft : fieldType exNested "p" (.ptr (.name "" "Foo_nested")) =
      .ptr (.name "p" "Foo_nested") := by decide
  intro f
  induction f using Nat.strongRecOn with
  | _ f ih =>
    intro s hs
    have hplan : planGo exNested s (.name "p" "Foo_nested") =
        .decl { s with vis := .name "p" "Foo_nested" :: s.vis } (.name "p" "Foo_nested")
          (.struct "p" (.field "next" (.ptr (.name "" "Foo_nested")) .done))
          (finName (.name "p" "Foo_nested") []) := by
      have hfin : ∀ s' : St, planShape exNested s' [] (.name "p" "Foo_nested") =
          .decl s' (.name "p" "Foo_nested")
          (.struct "p" (.field "next" (.ptr (.name "" "Foo_nested")) .done))
          (finName (.name "p" "Foo_nested") []) := by
        intro s'; rw [planShape, hfind]
      simp only [planGo, derive, href, Bool.and_false, Bool.false_and, Bool.false_eq_true, if_false]
      exact hfin _
    match f with
    | 0 => rfl
    | 1 => simp [mapGo, run]
    | 2 => simp [mapGo, hplan, run]
    | 3 =>
      simp only [mapGo, hplan, run, planDecl, href, Bool.and_false, Bool.false_eq_true, if_false]
      rfl
    | 4 =>
      simp only [mapGo, hplan, run, planDecl, href, Bool.and_false, Bool.false_eq_true, if_false]
      rfl
    | f + 5 =>
      simp only [mapGo, hplan, run, planDecl, href, Bool.and_false, Bool.false_eq_true, if_false,
        mapBody, planField, hft, derive, hs, mget]
      have : inlineExt exNested (.name "p" "Foo_nested") = false := rfl
      rw [this]
      have hp : isPrim (.ptr (.name "p" "Foo_nested")) = false := by decide
      rw [hp]
      simp only [Bool.or_self, Bool.false_eq_true, if_false, run]
      rw [ih f (by omega) _ rfl]
      rfl

end Verif.SchemaGen
