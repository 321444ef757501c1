import Verif.SchemaTermProps

/-!
# C44: every reference is to a type that is scheduled

A schema made for a route refers to components by name.  The components come from
the route's used types, so every reference must be to a used type.
-/

namespace Verif.SchemaGen

open Verif.Common

/-! ## Specification -/

/-- The types a schema refers to. -/
def Schema.refs : Schema → List Ty
  | .ref t => [t]
  | .prop _ s r => s.refs ++ r.refs
  | .array i => i.refs
  | .mapOf v => v.refs
  | _ => []

/-- The types an association list has an entry for. -/
def keys (l : List (Ty × Schema)) : List Ty := l.map Prod.fst

/-- Every reference in a listed schema is to a listed type, and with a pointer its
target is listed. -/
structure Closed (l : List (Ty × Schema)) : Prop where
  refs : ∀ k q, (k, q) ∈ l → ∀ r ∈ q.refs, r ∈ keys l
  ptrs : ∀ e, .ptr e ∈ keys l → e ∈ keys l

/-- No array but of builtin types, and no pointer to a pointer. -/
def Plain : Ty → Prop
  | .prim _ => True
  | .name _ _ => True
  | .ptr e => (∀ x, e ≠ .ptr x) ∧ Plain e
  | .slice e => Plain e
  | .arr _ e => ∃ n, e = .prim n
  | .map _ v => Plain v
  | .lit => True
  | .fld _ t r => Plain t ∧ Plain r

/-- The synthetic names of inline structs are not names of components. -/
def Body.keysOk : Body → Prop
  | .done => True
  | .field _ _ r => r.keysOk
  | .sub _ key i r => ¬ Nameable key ∧ i.keysOk ∧ r.keysOk

def Decl.keysOk : Decl → Prop
  | .struct _ b => b.keysOk
  | _ => True

/-- A name, declared or builtin. -/
def Named (t : Ty) : Prop := (∃ p b, t = .name p b) ∨ ∃ n, t = .prim n

/-- A type table and a configuration that keep to the rules the generator relies on:

* declarations mention plain types only;
* mapped and known external types are names, and what they are mapped to has no
  references;
* a `typeMapping` of a declared name is not to a scalar or an array. -/
structure PlainTable (c : Ctx) : Prop where
  types : ∀ p b d, c.find p b = some d → ∀ t ∈ d.types, Plain t
  keys : ∀ p b d, c.find p b = some d → d.keysOk
  conf : ∀ t q, c.conf t = some q → Named t ∧ q.refs = []
  confName : ∀ p b q, c.conf (.name p b) = some q → (∀ k, q ≠ .scalar k) ∧ ∀ i, q ≠ .array i
  extern : ∀ t q, c.extern t = some q → Named t ∧ q.refs = [] ∧ q ≠ .absent
  extMap : ∀ t q, c.extMap t = some q → (∃ p b, t = .name p b) ∧ q.refs = [] ∧ q ≠ .absent
  extGen : ∀ t q, c.extGen t = some q → q.refs = []

/-! ## Lists -/

theorem mem_mset_kv {m : List (Ty × Schema)} {k : Ty} {v : Schema} {x : Ty × Schema}
    (h : x ∈ mset m k v) : x = (k, v) ∨ x ∈ m := by
  induction m with
  | nil => simpa [mset] using h
  | cons y r ih =>
    simp only [mset] at h
    split at h
    · rcases List.mem_cons.1 h with h | h
      · exact Or.inl h
      · exact Or.inr (List.mem_cons_of_mem _ h)
    · rcases List.mem_cons.1 h with h | h
      · exact Or.inr (h ▸ List.mem_cons_self)
      · rcases ih h with h | h
        · exact Or.inl h
        · exact Or.inr (List.mem_cons_of_mem _ h)

theorem mem_keys_mset {m : List (Ty × Schema)} {k k' : Ty} {v : Schema} :
    k' ∈ keys (mset m k v) ↔ k' = k ∨ k' ∈ keys m := keys_mset m k v k'

theorem mem_copy {dst src : Comps} {x : Ty × Schema} (h : x ∈ copy dst src) :
    x ∈ dst ∨ x ∈ src := by
  induction src generalizing dst with
  | nil => exact Or.inl h
  | cons y r ih =>
    simp only [copy, List.foldl_cons] at h
    rcases ih h with h | h
    · rcases mem_mset_kv h with h | h
      · exact Or.inr (h ▸ List.mem_cons_self)
      · exact Or.inl h
    · exact Or.inr (List.mem_cons_of_mem _ h)

theorem mem_keys_copy {dst src : Comps} {k : Ty} :
    k ∈ keys (copy dst src) ↔ k ∈ keys dst ∨ k ∈ keys src := by
  induction src generalizing dst with
  | nil => simp [copy, keys]
  | cons y r ih =>
    have := @ih (mset dst y.1 y.2)
    simp only [copy, List.foldl_cons] at this ⊢
    rw [this, mem_keys_mset]
    simp only [keys, List.map_cons, List.mem_cons]
    constructor
    · rintro ((h | h) | h)
      · exact Or.inr (Or.inl h)
      · exact Or.inl h
      · exact Or.inr (Or.inr h)
    · rintro (h | h | h)
      · exact Or.inl (Or.inr h)
      · exact Or.inl (Or.inl h)
      · exact Or.inr h

theorem key_of_mem {l : List (Ty × Schema)} {x : Ty × Schema} (h : x ∈ l) : x.1 ∈ keys l :=
  List.mem_map.2 ⟨x, h, rfl⟩

theorem key_of_mget {l : List (Ty × Schema)} {k : Ty} {q : Schema} (h : mget l k = some q) :
    k ∈ keys l := key_of_mem (mem_of_mget h)

theorem key_of_usedSome {s : St} {t : Ty} (h : usedSome s t = true) : t ∈ keys s.used := by
  unfold usedSome at h
  split at h
  · rename_i q hq; exact key_of_mget hq
  · cases h

theorem refs_setProp {o q : Schema} {l : String} {r : Ty} (h : r ∈ (setProp o l q).refs) :
    r ∈ o.refs ∨ r ∈ q.refs := by
  induction o with
  | prop l' s r' _ ih =>
    simp only [setProp] at h
    split at h
    · simp only [Schema.refs, List.mem_append] at h ⊢
      rcases h with h | h
      · exact Or.inr h
      · exact Or.inl (Or.inr h)
    · simp only [Schema.refs, List.mem_append] at h ⊢
      rcases h with h | h
      · exact Or.inl (Or.inl h)
      · rcases ih h with h | h
        · exact Or.inl (Or.inr h)
        · exact Or.inr h
  | _ =>
    simp only [setProp, Schema.refs, List.mem_append, List.not_mem_nil, or_false, false_or] at h ⊢
    first
      | exact h
      | exact Or.inr h
      | (rcases h with h | h
         · exact Or.inr h
         · exact Or.inl h)

/-! ## Plain types -/

theorem derive_plain {t : Ty} (h : Plain t) : Plain (derive t) ∧ ∀ x, derive t ≠ .ptr x := by
  cases t with
  | ptr e => exact ⟨h.2, h.1⟩
  | _ => exact ⟨h, by intro x hx; cases hx⟩

theorem derive_derive {t : Ty} (h : ∀ x, t ≠ .ptr x) : derive t = t := by
  cases t with
  | ptr e => exact absurd rfl (h e)
  | _ => rfl

/-- A plain type that may become a component and is no pointer is a name. -/
theorem name_of_canAddRef {t : Ty} (hp : Plain t) (hn : ∀ x, t ≠ .ptr x)
    (h : canAddRef t = true) : ∃ p b, t = .name p b ∧ refable b = true := by
  cases t with
  | name p b =>
    refine ⟨p, b, rfl, ?_⟩
    simp only [canAddRef, core, Bool.and_eq_true] at h
    exact h.2
  | ptr e => exact absurd rfl (hn e)
  | arr n e =>
    obtain ⟨m, rfl⟩ := hp
    simp [canAddRef, isPrim, derive, isPrimName] at h
  | _ => simp [canAddRef, isPrim, derive, isSlice, hasMap, hasLit] at h

theorem canAddRef_name {p b : String} : canAddRef (.name p b) = refable b := by
  simp [canAddRef, isPrim, derive, isSlice, hasMap, hasLit, core]

theorem plain_qualify {pkg : String} {t : Ty} (h : Plain t) : Plain (qualify pkg t) := by
  have hp : ∀ t, (∀ x, t ≠ .ptr x) → ∀ x, qualify pkg t ≠ .ptr x := by
    intro t ht x hx
    cases t with
    | ptr e => exact ht e rfl
    | name p b => simp only [qualify] at hx; split at hx <;> cases hx
    | _ => simp only [qualify] at hx; cases hx
  induction t with
  | name p b => simp only [qualify]; split <;> exact trivial
  | ptr e ih => exact ⟨hp e h.1, ih h.2⟩
  | slice e ih => exact ih h
  | arr n e _ => obtain ⟨m, rfl⟩ := h; exact ⟨m, rfl⟩
  | map k v _ ih => exact ih h
  | _ => exact h

theorem plain_ident (u : Ident) : Plain u.ty := by cases u <;> exact trivial

theorem plain_resolve {c : Ctx} {t : Ty} (h : Plain t) : Plain ((resolve c t).getD t) := by
  cases hr : resolve c t with
  | none => exact h
  | some r =>
    obtain ⟨p, b, pkg, i, _, hr', _⟩ := resolve_some hr
    have hi := plain_ident i
    rcases hr' with e | e | e | e <;> subst e
    · exact hi
    · exact hi
    · refine ⟨fun x hx => ?_, hi⟩
      cases i <;> cases hx
    · exact hi

theorem plain_glue (t : Ty) : Plain (glue t) ∧ ∀ x, glue t ≠ .ptr x := by
  unfold glue
  split
  · exact ⟨trivial, fun x h => by cases h⟩
  · split <;> exact ⟨trivial, fun x h => by cases h⟩
  · exact ⟨trivial, fun x h => by cases h⟩

theorem plain_scan {t k g : Ty} (ht : Plain t) (h : scan t = .found k g) :
    Plain g ∧ ((∀ x, t ≠ .ptr x) → ∀ x, g ≠ .ptr x) := by
  induction t generalizing g with
  | prim n => simp [scan] at h
  | name p b => simp [scan] at h
  | ptr e ih =>
    simp only [scan] at h
    split at h
    · rename_i k' g' he
      injection h with h1 h2
      subst h1 h2
      obtain ⟨h3, h4⟩ := ih ht.2 he
      exact ⟨⟨h4 ht.1, h3⟩, fun hn => absurd rfl (hn e)⟩
    · rename_i hne; exact absurd h (hne k g)
  | slice e _ => simp [scan] at h
  | arr n e _ => simp [scan] at h
  | map k' v _ _ =>
    simp only [scan, Scan.found.injEq] at h
    obtain ⟨rfl, rfl⟩ := h
    exact ⟨(plain_glue v).1, fun _ => (plain_glue v).2⟩
  | lit => simp [scan] at h
  | fld l a r iha ihr =>
    simp only [scan] at h
    split at h
    · split at h
      · rename_i k' g' hr'
        injection h with h1 h2
        subst h1 h2
        exact ⟨⟨ht.1, (ihr ht.2 hr').1⟩, fun _ x hx => by cases hx⟩
      · rename_i hne; exact absurd h (hne k g)
    · cases h
    · rename_i k' g' ha'
      injection h with h1 h2
      subst h1 h2
      exact ⟨⟨(iha ht.1 ha').1, ht.2⟩, fun _ x hx => by cases hx⟩

theorem plain_field {c : Ctx} {pkg : String} {t : Ty} (h : Plain t) : Plain (fieldType c pkg t) := by
  unfold fieldType
  dsimp only
  have h1 : Plain (if (isSlice t || hasMap t) = true then t else (resolve c t).getD t) := by
    split
    · exact h
    · exact plain_resolve h
  generalize (if (isSlice t || hasMap t) = true then t else (resolve c t).getD t) = u at h1
  split
  · exact h1
  · exact plain_qualify h1

/-! ## The invariant -/

/-- Listed, or promised by a caller. -/
def Known (D : Ty → Prop) (s : St) (t : Ty) : Prop := D t ∨ t ∈ keys s.used

/-- The promises together with the components found. -/
def with_ (D : Ty → Prop) (out : Comps) (t : Ty) : Prop := D t ∨ t ∈ keys out

structure Inv (c : Ctx) (D : Ty → Prop) (s : St) : Prop where
  vis : ∀ t ∈ s.vis, ∀ p b, derive t = .name p b → refable b = true →
    inlineExt c (.name p b) = false → Known D s (.name p b)
  gen : ∀ t ∈ s.gen, canAddRef t = true → Known D s (derive t)
  refs : ∀ x ∈ s.used, ∀ r ∈ x.2.refs, Known D s r
  ptrs : ∀ k ∈ keys s.used, Known D s (derive k)

structure Post (c : Ctx) (D : Ty → Prop) (s0 : St) (a : Ans) : Prop where
  inv : Inv c (with_ D a.2.1) a.2.2
  q : ∀ r ∈ a.1.refs, Known (with_ D a.2.1) a.2.2 r
  out : ∀ x ∈ a.2.1, ∀ r ∈ x.2.refs, Known (with_ D a.2.1) a.2.2 r
  na : ∀ x ∈ a.2.1, x.2 = .absent → x.1 ∈ keys a.2.2.used
  ptrs : ∀ k ∈ keys a.2.1, Known (with_ D a.2.1) a.2.2 (derive k)
  grow : ∀ k ∈ keys s0.used, k ∈ keys a.2.2.used

theorem known_mono {D D' : Ty → Prop} {s s' : St} {t : Ty}
    (h1 : ∀ t, D t → Known D' s' t) (h2 : ∀ k ∈ keys s.used, k ∈ keys s'.used)
    (h : Known D s t) : Known D' s' t := by
  rcases h with h | h
  · exact h1 t h
  · exact Or.inr (h2 t h)

theorem inv_mono {c : Ctx} {D D' : Ty → Prop} {s : St} (h1 : ∀ t, D t → Known D' s t)
    (h : Inv c D s) : Inv c D' s where
  vis t ht p b e hr hi := known_mono h1 (fun _ h => h) (h.vis t ht p b e hr hi)
  gen t ht hc := known_mono h1 (fun _ h => h) (h.gen t ht hc)
  refs x hx r hr := known_mono h1 (fun _ h => h) (h.refs x hx r hr)
  ptrs k hk := known_mono h1 (fun _ h => h) (h.ptrs k hk)

theorem inv_used {c : Ctx} {D : Ty → Prop} {s s' : St} (h : Inv c D s)
    (hu : s'.used = s.used)
    (hv : ∀ t ∈ s'.vis, t ∈ s.vis ∨ ∀ p b, derive t = .name p b → refable b = true →
      inlineExt c (.name p b) = false → Known D s (.name p b))
    (hg : ∀ t ∈ s'.gen, t ∈ s.gen ∨ (canAddRef t = true → Known D s (derive t))) : Inv c D s' := by
  have hk : ∀ t, Known D s t → Known D s' t := by
    intro t h; unfold Known at h ⊢; rw [hu]; exact h
  constructor
  · intro t ht p b e hr hi
    rcases hv t ht with h' | h'
    · exact hk _ (h.vis t h' p b e hr hi)
    · exact hk _ (h' p b e hr hi)
  · intro t ht hc
    rcases hg t ht with h' | h'
    · exact hk _ (h.gen t h' hc)
    · exact hk _ (h' hc)
  · intro x hx r hr
    rw [hu] at hx
    exact hk _ (h.refs x hx r hr)
  · intro k hk'
    rw [hu] at hk'
    exact hk _ (h.ptrs k hk')

theorem mark_grow (s : St) (t : Ty) (q : Schema) : ∀ k ∈ keys s.used, k ∈ keys (mark s t q).used := by
  intro k hk
  unfold mark
  split
  · exact hk
  · dsimp only
    split
    · split
      · exact mem_keys_mset.2 (Or.inr hk)
      · exact mem_keys_mset.2 (Or.inr (mem_keys_mset.2 (Or.inr hk)))
    · exact mem_keys_mset.2 (Or.inr hk)

theorem mark_has (s : St) (t : Ty) (q : Schema) : t ∈ keys (mark s t q).used := by
  unfold mark
  split
  · rename_i h; exact key_of_usedSome h
  · dsimp only
    split
    · split
      · exact mem_keys_mset.2 (Or.inl rfl)
      · exact mem_keys_mset.2 (Or.inr (mem_keys_mset.2 (Or.inl rfl)))
    · exact mem_keys_mset.2 (Or.inl rfl)

theorem mark_mem (s : St) (t : Ty) (q : Schema) (x : Ty × Schema) (h : x ∈ (mark s t q).used) :
    x ∈ s.used ∨ x.2 = q := by
  unfold mark at h
  split at h
  · exact Or.inl h
  · dsimp only at h
    split at h
    · split at h
      · rcases mem_mset_kv h with rfl | h
        · exact Or.inr rfl
        · exact Or.inl h
      · rcases mem_mset_kv h with rfl | h
        · exact Or.inr rfl
        · rcases mem_mset_kv h with rfl | h
          · exact Or.inr rfl
          · exact Or.inl h
    · rcases mem_mset_kv h with rfl | h
      · exact Or.inr rfl
      · exact Or.inl h

theorem mark_ptr (s : St) (t : Ty) (q : Schema) (k : Ty) (h : k ∈ keys (mark s t q).used) :
    k ∈ keys s.used ∨ derive k ∈ keys (mark s t q).used ∨
      (∃ e, t = .ptr e ∧ k = e) := by
  unfold mark at h ⊢
  split at h
  · exact Or.inl h
  · rename_i hu
    rw [if_neg hu]
    dsimp only at h ⊢
    split at h
    · rename_i e
      split at h
      · rename_i he
        rw [if_pos he]
        rcases mem_keys_mset.1 h with rfl | h
        · exact Or.inr (Or.inl (key_of_usedSome he))
        · exact Or.inl h
      · rename_i he
        rw [if_neg he]
        rcases mem_keys_mset.1 h with rfl | h
        · exact Or.inr (Or.inr ⟨_, rfl, rfl⟩)
        · rcases mem_keys_mset.1 h with rfl | h
          · exact Or.inr (Or.inl (mem_keys_mset.2 (Or.inl rfl)))
          · exact Or.inl h
    · rename_i hne
      rcases mem_keys_mset.1 h with rfl | h
      · refine Or.inr (Or.inl ?_)
        rw [derive_derive (fun x hx => hne x hx)]
        exact mem_keys_mset.2 (Or.inl rfl)
      · exact Or.inl h

theorem inv_mark {c : Ctx} {D : Ty → Prop} {s : St} {t : Ty} {q : Schema} (h : Inv c D s)
    (ht : ∀ e, t = .ptr e → ∀ x, e ≠ .ptr x) (hq : ∀ r ∈ q.refs, Known D s r) :
    Inv c D (mark s t q) := by
  have hg := mark_grow s t q
  have hm : ∀ {u}, Known D s u → Known D (mark s t q) u :=
    fun hu => known_mono (fun _ h => Or.inl h) hg hu
  constructor
  · intro u hu p b e hr hi
    rw [mark_vis] at hu
    exact hm (h.vis u hu p b e hr hi)
  · intro u hu hc
    rw [mark_gen] at hu
    exact hm (h.gen u hu hc)
  · intro x hx r hr
    rcases mark_mem s t q x hx with h' | h'
    · exact hm (h.refs x h' r hr)
    · exact hm (hq r (h' ▸ hr))
  · intro k hk
    rcases mark_ptr s t q k hk with h' | h' | ⟨e, rfl, rfl⟩
    · exact hm (h.ptrs k h')
    · exact Or.inr h'
    · rw [derive_derive (ht _ rfl)]; exact Or.inr hk

theorem known_mark {c : Ctx} {D : Ty → Prop} {s : St} {t : Ty} {q : Schema} (h : Inv c D s)
    (ht : ∀ e, t = .ptr e → ∀ x, e ≠ .ptr x) (hq : ∀ r ∈ q.refs, Known D s r) :
    Known D (mark s t q) (derive t) :=
  (inv_mark h ht hq).ptrs t (mark_has s t q)

/-- The components found so far are in order. -/
structure OutOk (D : Ty → Prop) (s : St) (out : Comps) : Prop where
  refs : ∀ x ∈ out, ∀ r ∈ x.2.refs, Known (with_ D out) s r
  na : ∀ x ∈ out, x.2 = .absent → x.1 ∈ keys s.used
  ptrs : ∀ k ∈ keys out, Known (with_ D out) s (derive k)

theorem outOk_nil (D : Ty → Prop) (s : St) : OutOk D s [] :=
  ⟨by simp, by simp, by simp [keys]⟩

theorem Post.outOk {c D s0 a} (h : Post c D s0 a) : OutOk D a.2.2 a.2.1 := ⟨h.out, h.na, h.ptrs⟩

theorem post_of {c : Ctx} {D : Ty → Prop} {s0 s : St} {q : Schema} {out : Comps}
    (hi : Inv c (with_ D out) s) (hq : ∀ r ∈ q.refs, Known (with_ D out) s r)
    (ho : OutOk D s out) (hg : ∀ k ∈ keys s0.used, k ∈ keys s.used) :
    Post c D s0 (q, out, s) :=
  ⟨hi, hq, ho.refs, ho.na, ho.ptrs, hg⟩

theorem inv_with {c : Ctx} {D : Ty → Prop} {s : St} {out : Comps} (h : Inv c D s) :
    Inv c (with_ D out) s := inv_mono (fun _ h => Or.inl (Or.inl h)) h

theorem known_with {D : Ty → Prop} {s : St} {out : Comps} {t : Ty} (h : Known D s t) :
    Known (with_ D out) s t := known_mono (fun _ h => Or.inl (Or.inl h)) (fun _ h => h) h

theorem post_copy {c : Ctx} {D : Ty → Prop} {s0 s : St} {out : Comps} {a : Ans}
    (ho : OutOk D s out) (hg : ∀ k ∈ keys s0.used, k ∈ keys s.used)
    (h : Post c (with_ D out) s a) : Post c D s0 (gather out a) := by
  obtain ⟨q, more, s'⟩ := a
  have hw : ∀ t, with_ (with_ D out) more t → Known (with_ D (copy out more)) s' t := by
    rintro t ((h | h) | h)
    · exact Or.inl (Or.inl h)
    · exact Or.inl (Or.inr (mem_keys_copy.2 (Or.inl h)))
    · exact Or.inl (Or.inr (mem_keys_copy.2 (Or.inr h)))
  have hk : ∀ {t}, Known (with_ (with_ D out) more) s' t → Known (with_ D (copy out more)) s' t :=
    fun h => known_mono hw (fun _ h => h) h
  have hk0 : ∀ {t}, Known (with_ D out) s t → Known (with_ D (copy out more)) s' t := by
    intro t h'
    refine known_mono ?_ h.grow h'
    intro t h''
    exact hw t (Or.inl h'')
  constructor
  · exact inv_mono hw h.inv
  · exact fun r hr => hk (h.q r hr)
  · intro x hx r hr
    rcases mem_copy hx with hx | hx
    · exact hk0 (ho.refs x hx r hr)
    · exact hk (h.out x hx r hr)
  · intro x hx hna
    rcases mem_copy hx with hx | hx
    · exact h.grow _ (ho.na x hx hna)
    · exact h.na x hx hna
  · intro k hk'
    rcases mem_keys_copy.1 hk' with hx | hx
    · exact hk0 (ho.ptrs k hx)
    · exact hk (h.ptrs k hx)
  · exact fun k hk' => h.grow k (hg k hk')

/-- Registering a schema as a component and referring to it. -/
theorem post_add {c : Ctx} {D : Ty → Prop} {s0 s : St} {q q' : Schema} {out : Comps} {k : Ty}
    (h : Post c D s0 (q, out, s)) (hq : q ≠ .absent)
    (hk : Known (with_ D (mset out k q)) s (derive k)) (hq' : ∀ r ∈ q'.refs, r = derive k) :
    Post c D s0 (q', mset out k q, s) := by
  have hw : ∀ t, with_ D out t → Known (with_ D (mset out k q)) s t := by
    rintro t (h | h)
    · exact Or.inl (Or.inl h)
    · exact Or.inl (Or.inr (mem_keys_mset.2 (Or.inr h)))
  have hm : ∀ {t}, Known (with_ D out) s t → Known (with_ D (mset out k q)) s t :=
    fun h => known_mono hw (fun _ h => h) h
  constructor
  · exact inv_mono hw h.inv
  · intro r hr; rw [hq' r hr]; exact hk
  · intro x hx r hr
    rcases mem_mset_kv hx with rfl | hx
    · exact hm (h.q r hr)
    · exact hm (h.out x hx r hr)
  · intro x hx hna
    rcases mem_mset_kv hx with rfl | hx
    · exact absurd hna hq
    · exact h.na x hx hna
  · intro u hu
    rcases mem_keys_mset.1 hu with rfl | hu
    · exact hk
    · exact hm (h.ptrs u hu)
  · exact h.grow

/-- Recording a type as used. -/
theorem post_mark {c : Ctx} {D : Ty → Prop} {s0 s : St} {q q' : Schema} {out : Comps} {k : Ty}
    (h : Post c D s0 (q, out, s)) (hk : ∀ e, k = .ptr e → ∀ x, e ≠ .ptr x)
    (hq' : ∀ r ∈ q'.refs, r = derive k ∨ r ∈ q.refs) :
    Post c D s0 (q', out, mark s k q) := by
  have hg := mark_grow s k q
  have hm : ∀ {u}, Known (with_ D out) s u → Known (with_ D out) (mark s k q) u :=
    fun hu => known_mono (fun _ h => Or.inl h) hg hu
  constructor
  · exact inv_mark h.inv hk h.q
  · intro r hr
    rcases hq' r hr with rfl | hr
    · exact known_mark h.inv hk h.q
    · exact hm (h.q r hr)
  · exact fun x hx r hr => hm (h.out x hx r hr)
  · exact fun x hx hna => hg _ (h.na x hx hna)
  · exact fun k hk => hm (h.ptrs k hk)
  · exact fun k hk => hg _ (h.grow k hk)

/-! ## What a type without a schema leaves behind -/

def PlanAbs : Plan → Prop
  | .done r => r.1 = .absent → r.2.1 = []
  | .go _ _ fin => ∀ r, (r.1 = .absent → r.2.1 = []) → (fin r).1 = .absent → (fin r).2.1 = []
  | .decl _ _ _ fin => ∀ r, (r.1 = .absent → r.2.1 = []) → (fin r).1 = .absent → (fin r).2.1 = []
  | .lit _ _ fin => ∀ r, r.1 ≠ .absent → (fin r).1 ≠ .absent
  | .body _ _ _ fin => ∀ r, r.1 ≠ .absent → (fin r).1 ≠ .absent

theorem setProp_ne (o : Schema) (l q) : setProp o l q ≠ .absent := by
  unfold setProp
  split
  · split <;> exact fun h => by cases h
  · exact fun h => by cases h

theorem lit_ne (c : Ctx) : ∀ f s t o out r, o ≠ .absent → mapLit c f s t o out = some r →
    r.1 ≠ .absent := by
  intro f
  induction f with
  | zero => intro s t o out r _ h; simp [mapLit] at h
  | succ f ih =>
    intro s t o out r ho h
    cases t with
    | fld l a rest =>
      rw [mapLit] at h
      split at h
      · cases h
      · exact ih _ _ _ _ _ (setProp_ne _ _ _) h
    | _ => simp only [mapLit, Option.some.injEq] at h; subst h; exact ho

theorem body_ne (c : Ctx) : ∀ f s pkg b o out r, o ≠ .absent → mapBody c f s pkg b o out = some r →
    r.1 ≠ .absent := by
  intro f
  induction f with
  | zero => intro s pkg b o out r _ h; simp [mapBody] at h
  | succ f ih =>
    intro s pkg b o out r ho h
    cases b with
    | done => simp only [mapBody, Option.some.injEq] at h; subst h; exact ho
    | sub l key i rest =>
      rw [mapBody] at h
      split at h
      · cases h
      · exact ih _ _ _ _ _ _ (setProp_ne _ _ _) h
    | field l a rest =>
      rw [mapBody] at h
      split at h
      · cases h
      · exact ih _ _ _ _ _ _ (setProp_ne _ _ _) h

theorem abs_array {out : Comps} {i : Schema} {s : St} :
    ((Schema.array i, out, s) : Ans).1 = .absent → out = [] := by intro h; cases h

theorem abs_stored (r out) (x : Ans) : (finStored r out x).1 ≠ .absent := by
  obtain ⟨q, more, s⟩ := x; intro h; cases h

theorem abs_elem (r out) (x : Ans) : (finElem r out x).1 ≠ .absent := by
  obtain ⟨q, more, s⟩ := x
  unfold finElem
  dsimp only
  split <;> exact fun h => by cases h

theorem abs_map (r out) (x : Ans) : (finMap r out x).1 ≠ .absent := by
  obtain ⟨q, more, s⟩ := x
  unfold finMap
  dsimp only
  split <;> exact fun h => by cases h

theorem abs_unresolved (t out s) : (unresolved t out s).1 ≠ .absent := by
  intro h; cases h

theorem abs_name (t out) (x : Ans) : (finName t out x).1 ≠ .absent := by
  obtain ⟨q, more, s⟩ := x
  unfold finName
  dsimp only
  split
  · exact abs_unresolved _ _ _
  · rename_i h
    split
    · exact fun h => by cases h
    · exact h

theorem own_nil {c : Ctx} (hT : PlainTable c) {t : Ty} (h : ∀ p b, t ≠ .name p b) :
    ownComps c t = [] := by
  unfold ownComps
  split
  · rename_i q hq
    obtain ⟨⟨p, b, e⟩, _⟩ := hT.extMap t q hq
    exact absurd e (h p b)
  · rfl

theorem abs_planElem (c s fixed e out) : PlanAbs (planElem c s fixed e out) := by
  unfold planElem
  dsimp only
  split
  · intro h; cases h
  · split
    · exact fun r _ h => absurd h (abs_elem _ _ r)
    · split
      · exact fun r _ h => absurd h (abs_elem _ _ r)
      · exact fun r _ h => absurd h (abs_stored _ _ r)
      · exact fun h => absurd h (abs_stored _ _ _)

theorem abs_planGo {c : Ctx} (hT : PlainTable c) (s : St) (t : Ty) : PlanAbs (planGo c s t) := by
  unfold planGo
  dsimp only
  split
  · exact fun _ => rfl
  · split
    · exact fun _ => rfl
    · split
      · exact fun _ => rfl
      · split
        · rename_i q hq
          exact fun h => absurd h (hT.extern t q hq).2.2
        · cases t with
          | prim n =>
            rw [own_nil hT (by intro p b h; cases h)]
            exact fun _ => rfl
          | name p b =>
            simp only [planShape]
            split
            · exact fun r _ h => absurd h (abs_name _ _ r)
            · exact fun h => absurd h (abs_unresolved _ _ _)
          | ptr e =>
            rw [own_nil hT (by intro p b h; cases h)]
            intro r hr h
            obtain ⟨q, more, s'⟩ := r
            simp only [gather] at h ⊢
            have hm : more = [] := hr h
            rw [hm]; rfl
          | slice e => exact abs_planElem ..
          | arr n e => exact abs_planElem ..
          | map k v =>
            simp only [planShape]
            split
            · exact fun r _ h => absurd h (abs_map _ _ r)
            · exact fun h => by cases h
          | lit => exact fun h => by cases h
          | fld l a r =>
            simp only [planShape]
            split
            · split
              · exact fun r _ h => absurd h (abs_map _ _ r)
              · exact fun h => by cases h
            · exact fun r h => h

theorem abs_planDecl (c s key d) : PlanAbs (planDecl c s key d) := by
  unfold planDecl
  dsimp only
  split
  · exact fun _ => rfl
  · split
    · exact fun h => by cases h
    · split
      · exact fun _ => rfl
      · cases d with
        | struct pkg b => exact fun r h => h
        | iface => exact fun h => by cases h
        | alias pkg u => exact fun r hr h => hr h
        | other pkg u =>
          cases u with
          | none => exact fun h => by cases h
          | some u => exact fun r hr h => hr h

theorem absAt {c : Ctx} (hT : PlainTable c) (f : Nat) :
    (∀ s t r, mapGo c f s t = some r → r.1 = .absent → r.2.1 = []) ∧
    (∀ p r, PlanAbs p → run c f p = some r → r.1 = .absent → r.2.1 = []) := by
  induction f with
  | zero => constructor <;> intros <;> simp_all [mapGo, run]
  | succ f ih =>
    obtain ⟨i1, i2⟩ := ih
    constructor
    · intro s t r h
      rw [mapGo] at h
      exact i2 _ _ (abs_planGo hT s t) h
    · intro p r hp h
      cases p with
      | done q => simp only [run, Option.some.injEq] at h; subst h; exact hp
      | go s t fin =>
        simp only [run, Option.map_eq_some_iff] at h
        obtain ⟨x, hx, rfl⟩ := h
        exact hp x (i1 _ _ _ hx)
      | lit s t fin =>
        simp only [run, Option.map_eq_some_iff] at h
        obtain ⟨x, hx, rfl⟩ := h
        exact fun h => absurd h (hp x (lit_ne c _ _ _ _ _ _ (by intro h; cases h) hx))
      | decl s key d fin =>
        simp only [run, Option.map_eq_some_iff] at h
        obtain ⟨x, hx, rfl⟩ := h
        exact hp x (i2 _ _ (abs_planDecl ..) hx)
      | body s pkg b fin =>
        simp only [run, Option.map_eq_some_iff] at h
        obtain ⟨x, hx, rfl⟩ := h
        exact fun h => absurd h (hp x (body_ne c _ _ _ _ _ _ _ (by intro h; cases h) hx))

/-! ## Keeping the invariant -/

/-- A plan all of whose outcomes keep the promises. -/
def PlanOk (c : Ctx) (D : Ty → Prop) (s0 : St) : Plan → Prop
  | .done r => Post c D s0 r
  | .go s t fin => ∃ D', Inv c D' s ∧ Plain t ∧
      ∀ f r, mapGo c f s t = some r → Post c D' s r → Post c D s0 (fin r)
  | .lit s t fin => ∃ D', Inv c D' s ∧ Plain t ∧ ∀ r, Post c D' s r → Post c D s0 (fin r)
  | .decl s key d fin => ∃ D', Inv c D' s ∧ (∃ p b, key = .name p b) ∧
      (canAddRef key = true → Known D' s key) ∧ (∀ t ∈ d.types, Plain t) ∧ d.keysOk ∧
      ∀ r, (r.1 = .absent → r.2.1 = []) → Post c D' s r → Post c D s0 (fin r)
  | .body s _ b fin => ∃ D', Inv c D' s ∧ (∀ t ∈ b.types, Plain t) ∧ b.keysOk ∧
      ∀ r, Post c D' s r → Post c D s0 (fin r)

/-- What mapping a name that may be a component leaves behind. -/
theorem name_left {c : Ctx} (hT : PlainTable c) {f s p b r} (hr : refable b = true)
    (h : mapGo c f s (.name p b) = some r) :
    (Ty.name p b ∈ s.vis ∧ r.1 = .ref (.name p b)) ∨ .name p b ∈ keys r.2.1 ∨
      .name p b ∈ keys r.2.2.used ∨ (inlineExt c (.name p b) = true ∧ primShaped r.1 = true) := by
  have done_ : ∀ {f a}, run c f (.done a) = some r → a = r := by
    intro f a h
    cases f with
    | zero => simp [run] at h
    | succ f => simpa [run] using h
  cases f with
  | zero => simp [mapGo] at h
  | succ f =>
    rw [mapGo] at h
    generalize hP : planGo c s (.name p b) = P at h
    unfold planGo at hP
    dsimp only at hP
    split at hP
    · rename_i hg
      subst hP
      have := done_ h
      subst this
      simp only [derive, Bool.and_eq_true, Bool.or_self, List.contains_eq_mem, decide_eq_true_eq] at hg
      exact Or.inl ⟨hg.1.1, rfl⟩
    · split at hP
      · rename_i hu
        subst hP
        have := done_ h
        subst this
        simp only [derive, Bool.and_eq_true] at hu
        exact Or.inr (Or.inr (Or.inl (key_of_usedSome hu.1.1)))
      · split at hP
        · rename_i q hq
          subst hP
          have := done_ h
          subst this
          have hs : primShaped q = false := by
            obtain ⟨h1, h2⟩ := hT.confName p b q hq
            cases q with
            | scalar k => exact absurd rfl (h1 k)
            | array i => exact absurd rfl (h2 i)
            | _ => rfl
          simp only [hs, Bool.false_eq_true, if_false]
          exact Or.inr (Or.inr (Or.inl (mark_has ..)))
        · split at hP
          · rename_i q hq
            subst hP
            have := done_ h
            subst this
            by_cases hs : primShaped q = true
            · exact Or.inr (Or.inr (Or.inr ⟨by simp [inlineExt, hq, hs], hs⟩))
            · refine Or.inr (Or.inr (Or.inl ?_))
              have hne := (hT.extern _ q hq).2.2
              have : (q != .absent && !primShaped q) = true := by
                simp [hne, hs]
              simp only [this, if_true]
              exact mark_has ..
          · simp only [planShape] at hP
            split at hP
            · subst hP
              cases f with
              | zero => simp [run] at h
              | succ f =>
                simp only [run, Option.map_eq_some_iff] at h
                obtain ⟨⟨q, more, s'⟩, _, rfl⟩ := h
                refine Or.inr (Or.inl ?_)
                unfold finName
                dsimp only
                split
                · unfold unresolved
                  dsimp only
                  split
                  · rename_i h; exact (mget_isSome_iff _ _).1 h
                  · exact mem_keys_mset.2 (Or.inl rfl)
                · rw [if_pos (by rw [canAddRef_name]; exact hr)]
                  exact mem_keys_copy.2 (Or.inl (mem_keys_mset.2 (Or.inl rfl)))
            · subst hP
              have := done_ h
              subst this
              refine Or.inr (Or.inl ?_)
              unfold unresolved
              dsimp only
              split
              · rename_i h; exact (mget_isSome_iff _ _).1 h
              · exact mem_keys_mset.2 (Or.inl rfl)

theorem conf_none {c : Ctx} (hT : PlainTable c) {t : Ty} (h1 : ∀ p b, t ≠ .name p b)
    (h2 : ∀ n, t ≠ .prim n) : c.conf t = none ∧ c.extern t = none := by
  constructor
  · cases h : c.conf t with
    | none => rfl
    | some q =>
      rcases (hT.conf t q h).1 with ⟨p, b, e⟩ | ⟨n, e⟩
      · exact absurd e (h1 p b)
      · exact absurd e (h2 n)
  · cases h : c.extern t with
    | none => rfl
    | some q =>
      rcases (hT.extern t q h).1 with ⟨p, b, e⟩ | ⟨n, e⟩
      · exact absurd e (h1 p b)
      · exact absurd e (h2 n)

theorem planGo_shape {c : Ctx} {s : St} {t : Ty} (h1 : canAddRef (derive t) = false)
    (h2 : c.conf t = none) (h3 : c.extern t = none) :
    planGo c s t = planShape c { s with vis := t :: s.vis } (ownComps c t) t := by
  simp only [planGo, h1, Bool.and_false, Bool.false_and, Bool.false_eq_true, if_false, h2, h3]

theorem shape_elem (r out) (x : Ans) : primShaped (finElem r out x).1 = true := by
  obtain ⟨q, more, s⟩ := x
  unfold finElem
  dsimp only
  split <;> rfl

theorem slice_shape {c : Ctx} (hT : PlainTable c) {f s e r}
    (h : mapGo c f s (.slice e) = some r) : primShaped r.1 = true := by
  obtain ⟨h2, h3⟩ := conf_none hT (t := .slice e) (by intro p b h; cases h) (by intro n h; cases h)
  have h1 : canAddRef (derive (.slice e)) = false := by simp [derive, canAddRef, isSlice]
  cases f with
  | zero => simp [mapGo] at h
  | succ f =>
    rw [mapGo, planGo_shape h1 h2 h3] at h
    simp only [planShape] at h
    generalize hP : planElem c { s with vis := .slice e :: s.vis } false e
      (ownComps c (.slice e)) = P at h
    cases f with
    | zero => simp [run] at h
    | succ f =>
      unfold planElem at hP
      dsimp only at hP
      split at hP
      · subst hP; simp only [run, Option.some.injEq] at h; subst h; rfl
      · split at hP
        · subst hP; simp only [run, Option.map_eq_some_iff] at h
          obtain ⟨x, _, rfl⟩ := h; exact shape_elem ..
        · split at hP
          · subst hP; simp only [run, Option.map_eq_some_iff] at h
            obtain ⟨x, _, rfl⟩ := h; exact shape_elem ..
          · subst hP; simp only [run, Option.map_eq_some_iff] at h
            obtain ⟨x, _, rfl⟩ := h; rfl
          · subst hP; simp only [run, Option.some.injEq] at h; subst h; rfl

theorem promote_ne {r : Ty} {q : Schema} (h : promote r q = true) :
    q ≠ .absent ∧ isRef q = false ∧ canAddRef r = true ∧ primShaped q = false := by
  simp only [promote, Bool.and_eq_true, bne_iff_ne, ne_eq, Bool.not_eq_true'] at h
  exact ⟨h.1.1.1, h.1.1.2, h.1.2, h.2⟩

/-- The type behind a promoted one is known. -/
theorem promoted_known {c : Ctx} (hT : PlainTable c) {f s r a} (hp : Plain r)
    (h : mapGo c f s r = some a) (hpr : promote r a.1 = true) :
    derive r = r ∨ derive r ∈ keys a.2.1 ∨ derive r ∈ keys a.2.2.used := by
  obtain ⟨_, hnr, hcr, hns⟩ := promote_ne hpr
  cases r with
  | ptr e =>
    refine Or.inr ?_
    show e ∈ _ ∨ e ∈ _
    obtain ⟨h2, h3⟩ := conf_none hT (t := .ptr e) (by intro p b h; cases h) (by intro n h; cases h)
    cases f with
    | zero => simp [mapGo] at h
    | succ f =>
      rw [mapGo] at h
      have hgo : ∀ {f}, run c f (.go { s with vis := .ptr e :: s.vis } e
          (gather (ownComps c (.ptr e)))) = some a →
          ∃ f' r', mapGo c f' { s with vis := .ptr e :: s.vis } e = some r' ∧
            a = gather (ownComps c (.ptr e)) r' := by
        intro f h
        cases f with
        | zero => simp [run] at h
        | succ f =>
          simp only [run, Option.map_eq_some_iff] at h
          obtain ⟨x, hx, rfl⟩ := h
          exact ⟨_, _, hx, rfl⟩
      cases e with
      | ptr x => exact absurd rfl (hp.1 x)
      | name p b =>
        generalize hP : planGo c s (.ptr (.name p b)) = P at h
        unfold planGo at hP
        dsimp only at hP
        have done_ : ∀ {f x}, run c f (.done x) = some a → x = a := by
          intro f x h
          cases f with
          | zero => simp [run] at h
          | succ f => simpa [run] using h
        split at hP
        · subst hP
          have := done_ h
          subst this
          cases hnr
        · split at hP
          · subst hP
            have := done_ h
            subst this
            cases hnr
          · rw [h2, h3] at hP
            dsimp only [planShape] at hP
            subst hP
            obtain ⟨f', ⟨q, more, s'⟩, h4, rfl⟩ := hgo h
            have hr : refable b = true := by
              simp only [canAddRef, core, Bool.and_eq_true] at hcr
              exact hcr.2
            rcases name_left hT hr h4 with h5 | h5 | h5 | h5
            · have h6 : q = .ref (.name p b) := h5.2
              subst h6; cases hnr
            · exact Or.inl (mem_keys_copy.2 (Or.inr h5))
            · exact Or.inr h5
            · have : primShaped q = true := h5.2
              rw [show primShaped q = false from hns] at this; cases this
      | slice x =>
        have h1 : canAddRef (derive (.ptr (.slice x))) = false := by
          simp [derive, canAddRef, isSlice]
        rw [planGo_shape h1 h2 h3] at h
        obtain ⟨f', ⟨q, more, s'⟩, h4, rfl⟩ := hgo h
        have := slice_shape hT h4
        rw [show primShaped q = false from hns] at this; cases this
      | arr n x =>
        obtain ⟨m, rfl⟩ := hp.2
        simp [canAddRef, isPrim, derive, isPrimName] at hcr
      | _ => simp [canAddRef, isPrim, derive, isSlice, hasMap, hasLit] at hcr
  | _ => exact Or.inl rfl

theorem known_promoted {c : Ctx} (hT : PlainTable c) {f s r a} (hp : Plain r)
    (h : mapGo c f s r = some a) (hpr : promote r a.1 = true) (D : Ty → Prop) (l : Comps)
    (hl : ∀ k ∈ keys a.2.1, k ∈ keys l) (hr : r ∈ keys l) :
    Known (with_ D l) a.2.2 (derive r) := by
  rcases promoted_known hT hp h hpr with e | e | e
  · rw [e]; exact Or.inl (Or.inr hr)
  · exact Or.inl (Or.inr (hl _ e))
  · exact Or.inr e

theorem post_elem {c : Ctx} (hT : PlainTable c) {D : Ty → Prop} {s0 s : St} {out : Comps}
    {r : Ty} {f : Nat} {a : Ans} (hp : Plain r) (ho : OutOk D s out)
    (hg : ∀ k ∈ keys s0.used, k ∈ keys s.used) (h : mapGo c f s r = some a)
    (hpost : Post c (with_ D out) s a) : Post c D s0 (finElem r out a) := by
  have hc := post_copy ho hg hpost
  obtain ⟨q, more, s'⟩ := a
  unfold finElem
  dsimp only
  split
  · rename_i hpr
    refine post_add hc (promote_ne hpr).1 ?_ ?_
    · exact known_promoted hT hp h hpr D _
        (fun k hk => mem_keys_mset.2 (Or.inr (mem_keys_copy.2 (Or.inr hk))))
        (mem_keys_mset.2 (Or.inl rfl))
    · intro x hx; simpa [Schema.refs, addRef] using hx
  · exact ⟨hc.inv, hc.q, hc.out, hc.na, hc.ptrs, hc.grow⟩

theorem post_map {c : Ctx} (hT : PlainTable c) {D : Ty → Prop} {s0 s : St} {out : Comps}
    {r : Ty} {f : Nat} {a : Ans} (hp : Plain r) (ho : OutOk D s out)
    (hg : ∀ k ∈ keys s0.used, k ∈ keys s.used) (h : mapGo c f s r = some a)
    (hpost : Post c (with_ D out) s a) : Post c D s0 (finMap r out a) := by
  have hc := post_copy ho hg hpost
  obtain ⟨q, more, s'⟩ := a
  unfold finMap
  dsimp only
  split
  · rename_i hpr
    refine post_add hc (promote_ne hpr).1 ?_ ?_
    · exact known_promoted hT hp h hpr D _
        (fun k hk => mem_keys_mset.2 (Or.inr (mem_keys_copy.2 (Or.inr hk))))
        (mem_keys_mset.2 (Or.inl rfl))
    · intro x hx; simpa [Schema.refs, addRef] using hx
  · exact ⟨hc.inv, hc.q, hc.out, hc.na, hc.ptrs, hc.grow⟩

theorem noPtrPtr {r : Ty} (hp : Plain r) : ∀ e, r = .ptr e → ∀ x, e ≠ .ptr x := by
  rintro e rfl; exact hp.1

theorem post_stored {c : Ctx} {D : Ty → Prop} {s0 s : St} {out : Comps}
    {r : Ty} {a : Ans} (hp : Plain r) (ho : OutOk D s out)
    (hg : ∀ k ∈ keys s0.used, k ∈ keys s.used)
    (hpost : Post c (with_ D out) s a) : Post c D s0 (finStored r out a) := by
  have hc := post_copy ho hg hpost
  obtain ⟨q, more, s'⟩ := a
  refine post_mark hc (noPtrPtr hp) ?_
  intro x hx
  exact Or.inl (by simpa [Schema.refs, addRef] using hx)

theorem planElem_ok {c : Ctx} (hT : PlainTable c) {D : Ty → Prop} {s0 s : St} {out : Comps}
    {fixed : Bool} {e : Ty} (hp : Plain e) (hi : Inv c D s) (ho : OutOk D s out)
    (hg : ∀ k ∈ keys s0.used, k ∈ keys s.used) :
    PlanOk c D s0 (planElem c s fixed e out) := by
  have hr := plain_resolve (c := c) hp
  unfold planElem
  dsimp only
  split
  · exact post_of (inv_with hi) (by simp [Schema.refs]) ho hg
  · split
    · exact ⟨with_ D out, inv_with hi, hr, fun f a h hpost => post_elem hT hr ho hg h hpost⟩
    · split
      · exact ⟨with_ D out, inv_with hi, hr, fun f a h hpost => post_elem hT hr ho hg h hpost⟩
      · exact ⟨with_ D out, inv_with hi, hr, fun f a h hpost => post_stored hr ho hg hpost⟩
      · rename_i q _ hq
        refine post_stored (a := (_, [], s)) hr ho hg ?_
        refine post_of (inv_with (inv_with hi)) ?_ (outOk_nil _ _) (fun _ h => h)
        intro r hr'
        exact known_with (known_with (hi.refs _ (mem_of_mget hq) r hr'))

theorem own_ok {c : Ctx} (hT : PlainTable c) (D : Ty → Prop) (s : St) (t : Ty) :
    OutOk D s (ownComps c t) := by
  unfold ownComps
  split
  · rename_i q hq
    obtain ⟨⟨p, b, rfl⟩, h2, h3⟩ := hT.extMap t q hq
    refine ⟨?_, ?_, ?_⟩
    · intro x hx r hr
      simp only [List.mem_singleton] at hx
      subst hx
      rw [show (Ty.name p b, q).2.refs = [] from h2] at hr
      cases hr
    · intro x hx hna
      simp only [List.mem_singleton] at hx
      subst hx
      exact absurd hna h3
    · intro k hk
      simp only [keys, List.map_cons, List.map_nil, List.mem_singleton] at hk
      subst hk
      exact Or.inl (Or.inr (by simp [keys, derive]))
  · exact outOk_nil _ _

/-- A placeholder and the reference to it. -/
theorem post_unresolved {c : Ctx} {D : Ty → Prop} {s0 s : St} {out : Comps} {p b : String}
    (hi : Inv c (fun x => with_ D out x ∨ x = .name p b) s) (ho : OutOk D s out)
    (hg : ∀ k ∈ keys s0.used, k ∈ keys s.used) :
    Post c D s0 (unresolved (.name p b) out s) := by
  unfold unresolved
  by_cases h : (mget out (.name p b)).isSome = true
  · rw [if_pos h]
    have hk : Ty.name p b ∈ keys out := (mget_isSome_iff _ _).1 h
    refine post_of (inv_mono ?_ hi) ?_ ho hg
    · rintro t (h | rfl)
      · exact Or.inl h
      · exact Or.inl (Or.inr hk)
    · intro r hr
      simp only [Schema.refs, addRef, derive, List.mem_singleton] at hr
      subst hr; exact Or.inl (Or.inr hk)
  · rw [if_neg h]
    have hk : Ty.name p b ∈ keys (mset out (.name p b) (.hole (.name p b))) :=
      mem_keys_mset.2 (Or.inl rfl)
    have hw : ∀ {t}, Known (with_ D out) s t →
        Known (with_ D (mset out (.name p b) (.hole (.name p b)))) s t := by
      intro t h
      refine known_mono ?_ (fun _ h => h) h
      rintro t (h | h)
      · exact Or.inl (Or.inl h)
      · exact Or.inl (Or.inr (mem_keys_mset.2 (Or.inr h)))
    refine post_of (inv_mono ?_ hi) ?_ ⟨?_, ?_, ?_⟩ hg
    · rintro t (h | rfl)
      · exact hw (Or.inl h)
      · exact Or.inl (Or.inr hk)
    · intro r hr
      simp only [Schema.refs, addRef, derive, List.mem_singleton] at hr
      subst hr; exact Or.inl (Or.inr hk)
    · intro x hx r hr
      rcases mem_mset_kv hx with rfl | hx
      · cases hr
      · exact hw (ho.refs x hx r hr)
    · intro x hx hna
      rcases mem_mset_kv hx with rfl | hx
      · cases hna
      · exact ho.na x hx hna
    · intro k hk'
      rcases mem_keys_mset.1 hk' with rfl | hk'
      · exact Or.inl (Or.inr hk)
      · exact hw (ho.ptrs k hk')

theorem post_name {c : Ctx} {D : Ty → Prop} {s0 s : St} {out : Comps} {p b : String} {a : Ans}
    (ho : OutOk D s out) (hg : ∀ k ∈ keys s0.used, k ∈ keys s.used)
    (habs : a.1 = .absent → a.2.1 = [])
    (h : Post c (fun x => with_ D out x ∨ (x = .name p b ∧ refable b = true)) s a) :
    Post c D s0 (finName (.name p b) out a) := by
  obtain ⟨q, more, s'⟩ := a
  unfold finName
  dsimp only
  have hgr : ∀ k ∈ keys s0.used, k ∈ keys s'.used := fun k hk => h.grow k (hg k hk)
  by_cases hq : q = .absent
  · rw [if_pos hq]
    have hm : more = [] := habs hq
    subst hm
    refine post_unresolved ?_ ?_ hgr
    · refine inv_mono ?_ h.inv
      rintro t ((h | h) | h)
      · exact Or.inl (Or.inl h)
      · exact Or.inl (Or.inr h.1)
      · cases h
    · exact ⟨fun x hx r hr => known_mono (fun _ h => Or.inl h) h.grow (ho.refs x hx r hr),
        fun x hx hna => h.grow _ (ho.na x hx hna),
        fun k hk => known_mono (fun _ h => Or.inl h) h.grow (ho.ptrs k hk)⟩
  · rw [if_neg hq]
    by_cases hr : canAddRef (.name p b) = true
    · rw [if_pos hr]
      have hkey : ∀ {x}, x = .name p b ∨ x ∈ keys out ∨ x ∈ keys more →
          x ∈ keys (copy (mset out (.name p b) q) more) := by
        rintro x (hx | hx | hx)
        · exact mem_keys_copy.2 (Or.inl (mem_keys_mset.2 (Or.inl hx)))
        · exact mem_keys_copy.2 (Or.inl (mem_keys_mset.2 (Or.inr hx)))
        · exact mem_keys_copy.2 (Or.inr hx)
      have hw : ∀ t, with_ (fun x => with_ D out x ∨ (x = .name p b ∧ refable b = true)) more t →
          Known (with_ D (copy (mset out (.name p b) q) more)) s' t := by
        rintro t (((h | h) | h) | h)
        · exact Or.inl (Or.inl h)
        · exact Or.inl (Or.inr (hkey (Or.inr (Or.inl h))))
        · exact Or.inl (Or.inr (hkey (Or.inl h.1)))
        · exact Or.inl (Or.inr (hkey (Or.inr (Or.inr h))))
      have hk0 : ∀ {t}, Known (with_ D out) s t →
          Known (with_ D (copy (mset out (.name p b) q) more)) s' t := by
        intro t h'
        refine known_mono ?_ h.grow h'
        exact fun t h'' => hw t (Or.inl (Or.inl h''))
      have hk : ∀ {t}, Known (with_ (fun x => with_ D out x ∨ (x = .name p b ∧ refable b = true))
          more) s' t → Known (with_ D (copy (mset out (.name p b) q) more)) s' t :=
        fun h => known_mono hw (fun _ h => h) h
      have hbase : Post c D s0 (addRef (.name p b), copy (mset out (.name p b) q) more, s') := by
        refine post_of (inv_mono hw h.inv) ?_ ⟨?_, ?_, ?_⟩ hgr
        · intro r hr
          simp only [Schema.refs, addRef, derive, List.mem_singleton] at hr
          subst hr
          exact Or.inl (Or.inr (hkey (Or.inl rfl)))
        · intro x hx r hr
          rcases mem_copy hx with hx | hx
          · rcases mem_mset_kv hx with rfl | hx
            · exact hk (h.q r hr)
            · exact hk0 (ho.refs x hx r hr)
          · exact hk (h.out x hx r hr)
        · intro x hx hna
          rcases mem_copy hx with hx | hx
          · rcases mem_mset_kv hx with rfl | hx
            · exact absurd hna hq
            · exact h.grow _ (ho.na x hx hna)
          · exact h.na x hx hna
        · intro k hk'
          rcases mem_keys_copy.1 hk' with hx | hx
          · rcases mem_keys_mset.1 hx with rfl | hx
            · exact Or.inl (Or.inr (hkey (Or.inl rfl)))
            · exact hk0 (ho.ptrs k hx)
          · exact hk (h.ptrs k hx)
      exact post_mark hbase (by intro e he; cases he) (fun r hr => Or.inr hr)
    · rw [if_neg hr]
      have hnr : refable b = false := by
        rw [canAddRef_name] at hr; exact Bool.eq_false_iff.2 hr
      have h' : Post c (with_ D out) s (q, more, s') := by
        have hw : ∀ t, with_ (fun x => with_ D out x ∨ (x = .name p b ∧ refable b = true)) more t →
            Known (with_ (with_ D out) more) s' t := by
          rintro t ((h | h) | h)
          · exact Or.inl (Or.inl h)
          · rw [hnr] at h; cases h.2
          · exact Or.inl (Or.inr h)
        have hk : ∀ {t}, Known (with_ (fun x => with_ D out x ∨ (x = .name p b ∧ refable b = true))
            more) s' t → Known (with_ (with_ D out) more) s' t :=
          fun h => known_mono hw (fun _ h => h) h
        exact ⟨inv_mono hw h.inv, fun r hr => hk (h.q r hr), fun x hx r hr => hk (h.out x hx r hr),
          h.na, fun k hk' => hk (h.ptrs k hk'), h.grow⟩
      exact post_mark (post_copy ho hg h') (by intro e he; cases he) (fun r hr => Or.inr hr)

theorem post_trans {c D s0 s a} (hg : ∀ k ∈ keys s0.used, k ∈ keys s.used) (h : Post c D s a) :
    Post c D s0 a :=
  ⟨h.inv, h.q, h.out, h.na, h.ptrs, fun k hk => h.grow k (hg k hk)⟩

theorem planShape_ok {c : Ctx} (hT : PlainTable c) {D : Ty → Prop} {s : St} {t : Ty}
    (hp : Plain t) (hi : Inv c D s)
    (hv : (t ∈ s.vis ∨ derive t ∈ s.vis) → canAddRef (derive t) = true →
      inlineExt c (derive t) = true) :
    PlanOk c D s (planShape c { s with vis := t :: s.vis } (ownComps c t) t) := by
  -- A type that is not a name promises nothing.
  have hquiet : (∀ p b, derive t ≠ .name p b) → Inv c D { s with vis := t :: s.vis } := by
    intro hd
    refine inv_used hi rfl ?_ (fun u hu => Or.inl hu)
    intro u hu
    rcases List.mem_cons.1 hu with rfl | hu
    · exact Or.inr (fun p b e => absurd e (hd p b))
    · exact Or.inl hu
  cases t with
  | prim n =>
    rw [own_nil hT (by intro p b h; cases h)]
    have hi' := hquiet (by intro p b h; cases h)
    refine post_of (inv_with hi') ?_ (outOk_nil _ _) (fun _ h => h)
    intro r hr
    have : (primSchema n).refs = [] := by
      unfold primSchema
      repeat' split
      all_goals rfl
    rw [this] at hr; cases hr
  | name p b =>
    have ho : OutOk D { s with vis := .name p b :: s.vis } (ownComps c (.name p b)) :=
      own_ok hT D _ _
    have hi' : Inv c (fun x => with_ D (ownComps c (.name p b)) x ∨
        (x = .name p b ∧ refable b = true)) { s with vis := .name p b :: s.vis } := by
      refine inv_used (inv_mono (D := D) ?_ hi) rfl ?_ (fun u hu => Or.inl hu)
      · exact fun t h => Or.inl (Or.inl (Or.inl h))
      · intro u hu
        rcases List.mem_cons.1 hu with rfl | hu
        · refine Or.inr (fun p' b' e hr _ => ?_)
          simp only [derive, Ty.name.injEq] at e
          obtain ⟨rfl, rfl⟩ := e
          exact Or.inl (Or.inr ⟨rfl, hr⟩)
        · exact Or.inl hu
    simp only [planShape]
    split
    · rename_i d hd
      refine ⟨_, hi', ⟨p, b, rfl⟩, ?_, hT.types p b d hd, hT.keys p b d hd, ?_⟩
      · intro hc
        rw [canAddRef_name] at hc
        exact Or.inl (Or.inr ⟨rfl, hc⟩)
      · exact fun r habs hpost => post_name ho (fun _ h => h) habs hpost
    · refine post_unresolved (inv_mono ?_ hi') ho (fun _ h => h)
      rintro t (h | h)
      · exact Or.inl (Or.inl h)
      · exact Or.inl (Or.inr h.1)
  | ptr e =>
    rw [own_nil hT (by intro p b h; cases h)]
    by_cases hn : ∃ p b, e = .name p b ∧ refable b = true ∧ inlineExt c (.name p b) = false
    · obtain ⟨p, b, rfl, hr, hx⟩ := hn
      have hnv : Ty.name p b ∉ s.vis ∧ Ty.ptr (.name p b) ∉ s.vis := by
        constructor
        · intro h
          have := hv (Or.inr h) (by rw [derive, canAddRef_name]; exact hr)
          rw [derive, hx] at this; cases this
        · intro h
          have := hv (Or.inl h) (by rw [derive, canAddRef_name]; exact hr)
          rw [derive, hx] at this; cases this
      refine ⟨fun x => D x ∨ x = .name p b, ?_, trivial, ?_⟩
      · refine inv_used (inv_mono (D := D) ?_ hi) rfl ?_ (fun u hu => Or.inl hu)
        · exact fun t h => Or.inl (Or.inl h)
        · intro u hu
          rcases List.mem_cons.1 hu with rfl | hu
          · refine Or.inr (fun p' b' e _ _ => ?_)
            simp only [derive, Ty.name.injEq] at e
            obtain ⟨rfl, rfl⟩ := e
            exact Or.inl (Or.inr rfl)
          · exact Or.inl hu
      · rintro f ⟨q, more, s'⟩ hgo hpost
        have hk : Ty.name p b ∈ keys more ∨ Ty.name p b ∈ keys s'.used := by
          rcases name_left hT hr hgo with h | h | h | h
          · exfalso
            rcases List.mem_cons.1 h.1 with h | h
            · cases h
            · exact hnv.1 h
          · exact Or.inl h
          · exact Or.inr h
          · rw [hx] at h; cases h.1
        refine post_copy (D := D) (s := s) (outOk_nil _ _) (fun _ h => h) ?_
        have hw : ∀ t, with_ (fun x => D x ∨ x = .name p b) more t →
            Known (with_ (with_ D []) more) s' t := by
          rintro t ((h | rfl) | h)
          · exact Or.inl (Or.inl (Or.inl h))
          · rcases hk with h | h
            · exact Or.inl (Or.inr h)
            · exact Or.inr h
          · exact Or.inl (Or.inr h)
        have hkn : ∀ {t}, Known (with_ (fun x => D x ∨ x = .name p b) more) s' t →
            Known (with_ (with_ D []) more) s' t :=
          fun h => known_mono hw (fun _ h => h) h
        exact ⟨inv_mono hw hpost.inv, fun r hr => hkn (hpost.q r hr),
          fun x hx r hr => hkn (hpost.out x hx r hr), hpost.na, fun k hk' => hkn (hpost.ptrs k hk'),
          hpost.grow⟩
    · refine ⟨with_ D [], ?_, hp.2, ?_⟩
      · refine inv_with (inv_used hi rfl ?_ (fun u hu => Or.inl hu))
        intro u hu
        rcases List.mem_cons.1 hu with rfl | hu
        · refine Or.inr (fun p b e' hr hx => absurd ?_ hn)
          exact ⟨p, b, e', hr, hx⟩
        · exact Or.inl hu
      · exact fun f r _ hpost => post_trans (s := { s with vis := .ptr e :: s.vis }) (fun _ h => h)
          (post_copy (outOk_nil _ _) (fun _ h => h) hpost)
  | slice e =>
    exact planElem_ok hT hp (hquiet (by intro p b h; cases h)) (own_ok hT _ _ _) (fun _ h => h)
  | arr n e =>
    refine planElem_ok hT ?_ (hquiet (by intro p b h; cases h)) (own_ok hT _ _ _) (fun _ h => h)
    obtain ⟨m, rfl⟩ := hp; exact trivial
  | map k v =>
    have hi' := hquiet (by intro p b h; cases h)
    simp only [planShape]
    split
    · exact ⟨with_ D (ownComps c (.map k v)), inv_with hi', plain_resolve (show Plain v from hp),
        fun f a h hpost => post_trans (s := { s with vis := .map k v :: s.vis }) (fun _ h => h)
          (post_map hT (plain_resolve (show Plain v from hp)) (own_ok hT _ _ _)
            (fun _ h => h) h hpost)⟩
    · exact post_of (inv_with hi') (by simp [Schema.refs]) (own_ok hT _ _ _) (fun _ h => h)
  | lit =>
    exact post_of (inv_with (hquiet (by intro p b h; cases h))) (by simp [Schema.refs])
      (own_ok hT _ _ _) (fun _ h => h)
  | fld l a r =>
    have hi' := hquiet (by intro p b h; cases h)
    simp only [planShape]
    split
    · rename_i k g hs
      have hpg := (plain_scan hp hs).1
      split
      · exact ⟨with_ D (ownComps c (.fld l a r)), inv_with hi', hpg,
          fun f a' h hpost => post_trans (s := { s with vis := .fld l a r :: s.vis }) (fun _ h => h)
            (post_map hT hpg (own_ok hT _ _ _) (fun _ h => h) h hpost)⟩
      · exact post_of (inv_with hi') (by simp [Schema.refs]) (own_ok hT _ _ _) (fun _ h => h)
    · exact ⟨with_ D (ownComps c (.fld l a r)), inv_with hi', hp,
        fun a' hpost => post_trans (s := { s with vis := .fld l a r :: s.vis }) (fun _ h => h)
          (post_copy (own_ok hT _ _ _) (fun _ h => h) hpost)⟩

theorem planGo_ok {c : Ctx} (hT : PlainTable c) {D : Ty → Prop} {s : St} {t : Ty}
    (hp : Plain t) (hi : Inv c D s) : PlanOk c D s (planGo c s t) := by
  obtain ⟨hpd, hnd⟩ := derive_plain hp
  unfold planGo
  dsimp only
  split
  · rename_i hg
    simp only [Bool.and_eq_true, Bool.or_eq_true, List.contains_eq_mem, decide_eq_true_eq,
      Bool.not_eq_true'] at hg
    obtain ⟨⟨hv, hc⟩, hx⟩ := hg
    obtain ⟨p, b, e, hr⟩ := name_of_canAddRef hpd hnd hc
    rw [e] at hx
    refine post_of (inv_with hi) ?_ (outOk_nil _ _) (fun _ h => h)
    intro r hr'
    simp only [Schema.refs, addRef, List.mem_singleton] at hr'
    subst hr'
    rw [e]
    refine known_with ?_
    rcases hv with hv | hv
    · exact hi.vis t hv p b e hr hx
    · exact hi.vis _ hv p b (by rw [e]; rfl) hr hx
  · rename_i hg
    have hv : (t ∈ s.vis ∨ derive t ∈ s.vis) → canAddRef (derive t) = true →
        inlineExt c (derive t) = true := by
      intro h1 h2
      refine Classical.byContradiction fun h3 => hg ?_
      simp only [Bool.and_eq_true, Bool.or_eq_true, List.contains_eq_mem, decide_eq_true_eq,
        Bool.not_eq_true']
      exact ⟨⟨h1, h2⟩, Bool.eq_false_iff.2 h3⟩
    -- once the type is used, or promises nothing, the state is in order
    have hinv : ∀ D' : Ty → Prop, ∀ s' : St, s'.vis = t :: s.vis → s'.gen = s.gen →
        Inv c D' { s' with vis := s.vis } →
        (∀ p b, derive t = .name p b → refable b = true → inlineExt c (.name p b) = false →
          Known D' s' (.name p b)) → Inv c D' s' := by
      intro D' s' hvis hgen hi' hk
      refine inv_used hi' rfl ?_ ?_
      · intro u hu
        rw [hvis] at hu
        rcases List.mem_cons.1 hu with rfl | hu
        · exact Or.inr hk
        · exact Or.inl hu
      · exact fun u hu => Or.inl hu
    split
    · rename_i hu
      simp only [Bool.and_eq_true, Bool.not_eq_true'] at hu
      obtain ⟨⟨hus, hc⟩, hx⟩ := hu
      have hk : derive t ∈ keys s.used := key_of_usedSome (s := s) hus
      refine post_of (inv_with (hinv D _ rfl rfl hi ?_)) ?_ (outOk_nil _ _) (fun _ h => h)
      · intro p b e _ _; rw [← e]; exact Or.inr hk
      · intro r hr
        simp only [Schema.refs, addRef, List.mem_singleton, derive_derive hnd] at hr
        subst hr; exact Or.inr hk
    · split
      · rename_i q hq
        obtain ⟨hnm, hrefs⟩ := hT.conf t q hq
        have hnp : ∀ e, t ≠ .ptr e := by
          rintro e rfl
          rcases hnm with ⟨_, _, h⟩ | ⟨_, h⟩ <;> cases h
        have hq0 : ∀ r ∈ q.refs, Known (with_ D []) s r := by rw [hrefs]; simp
        by_cases hs : primShaped q = true
        · rw [if_pos hs]
          refine post_of (inv_with (hinv D _ rfl rfl hi ?_)) ?_ (outOk_nil _ _) (fun _ h => h)
          · intro p b e _ _
            rw [derive_derive hnp] at e
            subst e
            obtain ⟨h1, h2⟩ := hT.confName p b q hq
            cases q with
            | scalar k => exact absurd rfl (h1 k)
            | array i => exact absurd rfl (h2 i)
            | _ => cases hs
          · rw [hrefs]; simp
        · rw [if_neg hs]
          have hi1 : Inv c (with_ D []) (mark s t q) :=
            inv_mark (inv_with hi) (fun e he => absurd he (hnp e)) hq0
          refine post_of (hinv _ _ (mark_vis ..) (mark_gen ..) ?_ ?_) ?_ (outOk_nil _ _) ?_
          · have : { mark { s with vis := t :: s.vis } t q with vis := s.vis } = mark s t q := by
              have := mark_vis s t q
              have := mark_gen s t q
              unfold mark usedSome
              dsimp only
              split
              · rfl
              · cases t with
                | ptr e => exact absurd rfl (hnp e)
                | _ => rfl
            rw [this]; exact hi1
          · intro p b e _ _
            rw [derive_derive hnp] at e
            subst e
            exact Or.inr (mark_has ..)
          · rw [hrefs]; simp
          · exact fun k hk => mark_grow _ _ _ k hk
      · split
        · rename_i q hq
          obtain ⟨hnm, hrefs, hne⟩ := hT.extern t q hq
          have hnp : ∀ e, t ≠ .ptr e := by
            rintro e rfl
            rcases hnm with ⟨_, _, h⟩ | ⟨_, h⟩ <;> cases h
          have ho := own_ok hT D s t
          have hq0 : ∀ r ∈ q.refs, Known (with_ D (ownComps c t)) s r := by rw [hrefs]; simp
          by_cases hs : primShaped q = true
          · have : (q != .absent && !primShaped q) = false := by simp [hs]
            rw [this, if_neg (by simp)]
            refine post_of (inv_with (hinv D _ rfl rfl hi ?_)) ?_ (own_ok hT _ _ _) (fun _ h => h)
            · intro p b e _ hx
              rw [derive_derive hnp] at e
              subst e
              simp [inlineExt, hq, hs] at hx
            · rw [hrefs]; simp
          · have : (q != .absent && !primShaped q) = true := by simp [hs, hne]
            rw [this, if_pos rfl]
            have hi1 : Inv c (with_ D (ownComps c t)) (mark s t q) :=
              inv_mark (inv_with hi) (fun e he => absurd he (hnp e)) hq0
            refine post_of (hinv _ _ (mark_vis ..) (mark_gen ..) ?_ ?_) ?_ (own_ok hT _ _ _) ?_
            · have : { mark { s with vis := t :: s.vis } t q with vis := s.vis } = mark s t q := by
                have := mark_vis s t q
                have := mark_gen s t q
                unfold mark usedSome
                dsimp only
                split
                · rfl
                · cases t with
                  | ptr e => exact absurd rfl (hnp e)
                  | _ => rfl
              rw [this]; exact hi1
            · intro p b e _ _
              rw [derive_derive hnp] at e
              subst e
              exact Or.inr (mark_has ..)
            · rw [hrefs]; simp
            · exact fun k hk => mark_grow _ _ _ k hk
        · exact planShape_ok hT hp hi hv

theorem post_decl {c : Ctx} {D : Ty → Prop} {s0 : St} {p b : String} {a : Ans}
    (h : Post c D s0 a) : Post c D s0 (finDecl (.name p b) a) := by
  obtain ⟨q, out, s⟩ := a
  exact post_mark h (by intro e he; cases he) (fun r hr => Or.inr hr)

theorem planDecl_ok {c : Ctx} (hT : PlainTable c) {D : Ty → Prop} {s : St} {p b : String}
    {d : Decl} (hi : Inv c D s) (hk : canAddRef (.name p b) = true → Known D s (.name p b))
    (ht : ∀ t ∈ d.types, Plain t) (hkeys : d.keysOk) :
    PlanOk c D s (planDecl c s (.name p b) d) := by
  have hi' : Inv c D { s with gen := .name p b :: s.gen } := by
    refine inv_used hi rfl (fun u hu => Or.inl hu) ?_
    intro u hu
    rcases List.mem_cons.1 hu with rfl | hu
    · exact Or.inr hk
    · exact Or.inl hu
  unfold planDecl
  dsimp only
  split
  · rename_i h
    simp only [Bool.and_eq_true] at h
    refine post_of (inv_with hi) ?_ (outOk_nil _ _) (fun _ h => h)
    intro r hr
    simp only [Schema.refs, addRef, derive, List.mem_singleton] at hr
    subst hr; exact known_with (hk h.2)
  · split
    · rename_i h
      simp only [Bool.and_eq_true] at h
      obtain ⟨hu, hc⟩ := h
      have hu' : usedSome s (.name p b) = true := hu
      obtain ⟨q, hq, hqne⟩ : ∃ q, mget s.used (.name p b) = some q ∧ q ≠ .absent := by
        unfold usedSome at hu'
        split at hu'
        · rename_i q hq; exact ⟨q, hq, by simpa using hu'⟩
        · cases hu'
      rw [hq]
      refine post_of (inv_with hi') ?_ ⟨?_, ?_, ?_⟩ (fun _ h => h)
      · intro r hr
        simp only [Schema.refs, addRef, derive, List.mem_singleton] at hr
        subst hr; exact known_with (hk hc)
      · intro x hx r hr
        simp only [Option.getD_some, List.mem_singleton] at hx
        subst hx
        exact known_with (hi.refs _ (mem_of_mget hq) r hr)
      · intro x hx hna
        simp only [Option.getD_some, List.mem_singleton] at hx
        subst hx
        exact absurd hna hqne
      · intro k hk'
        simp only [keys, List.map_cons, List.map_nil, List.mem_singleton] at hk'
        subst hk'
        exact known_with (hk hc)
    · split
      · rename_i q hq
        have hrefs := hT.extGen _ q hq
        refine post_mark (q' := q) (post_of (inv_with hi') ?_ (outOk_nil _ _) (fun _ h => h))
          (by intro e he; cases he) (fun r hr => Or.inr hr)
        rw [hrefs]; simp
      · cases d with
        | struct pkg bd => exact ⟨D, hi', ht, hkeys, fun r h => post_trans
            (s := { s with gen := .name p b :: s.gen }) (fun _ h => h) (post_decl h)⟩
        | iface =>
          exact post_decl (post_of (inv_with hi') (by simp [Schema.refs]) (outOk_nil _ _)
            (fun _ h => h))
        | alias pkg u =>
          exact ⟨D, hi', plain_qualify (ht _ (by simp [Decl.types])), 
            fun f r _ h => post_trans
            (s := { s with gen := .name p b :: s.gen }) (fun _ h => h) (post_decl h)⟩
        | other pkg u =>
          cases u with
          | none =>
            exact post_decl (post_of (inv_with hi') (by simp [Schema.refs]) (outOk_nil _ _)
              (fun _ h => h))
          | some u =>
            exact ⟨D, hi', plain_qualify (ht _ (by simp [Decl.types])), 
            fun f r _ h => post_trans
            (s := { s with gen := .name p b :: s.gen }) (fun _ h => h) (post_decl h)⟩

theorem planField_ok {c : Ctx} {D : Ty → Prop} {s : St} {pkg : String}
    {t : Ty} {out : Comps} (hp : Plain t) (hi : Inv c (with_ D out) s) (ho : OutOk D s out) :
    PlanOk c D s (planField c s pkg t out) := by
  have hpf : Plain (fieldType c pkg t) := plain_field hp
  obtain ⟨hpd, hnd⟩ := derive_plain hpf
  have hdd := derive_derive hnd
  have hfield : ∀ f a, mapGo c f s (derive (fieldType c pkg t)) = some a →
      Post c (with_ D out) s a → Post c D s (finField (derive (fieldType c pkg t)) out a) := by
    rintro f a h hpost
    have hc := post_copy ho (fun _ h => h) hpost
    obtain ⟨q, more, s'⟩ := a
    unfold finField
    dsimp only
    split
    · rename_i hpr
      generalize hd : derive (fieldType c pkg t) = d at *
      have hkey : ∀ {x}, x = d ∨ x ∈ keys out ∨ x ∈ keys more → x ∈ keys (copy (mset out d q) more) := by
        rintro x (hx | hx | hx)
        · exact mem_keys_copy.2 (Or.inl (mem_keys_mset.2 (Or.inl hx)))
        · exact mem_keys_copy.2 (Or.inl (mem_keys_mset.2 (Or.inr hx)))
        · exact mem_keys_copy.2 (Or.inr hx)
      have hw : ∀ t, with_ D (copy out more) t → Known (with_ D (copy (mset out d q) more)) s' t := by
        rintro t (h | h)
        · exact Or.inl (Or.inl h)
        · rcases mem_keys_copy.1 h with h | h
          · exact Or.inl (Or.inr (hkey (Or.inr (Or.inl h))))
          · exact Or.inl (Or.inr (hkey (Or.inr (Or.inr h))))
      have hk : ∀ {t}, Known (with_ D (copy out more)) s' t →
          Known (with_ D (copy (mset out d q) more)) s' t :=
        fun h => known_mono hw (fun _ h => h) h
      have hk0 : ∀ {t}, Known (with_ D out) s t →
          Known (with_ D (copy (mset out d q) more)) s' t := by
        intro t h'
        refine hk (known_mono ?_ hpost.grow h')
        rintro t (h | h)
        · exact Or.inl (Or.inl h)
        · exact Or.inl (Or.inr (mem_keys_copy.2 (Or.inl h)))
      have hkm : ∀ {t}, Known (with_ (with_ D out) more) s' t →
          Known (with_ D (copy (mset out d q) more)) s' t := by
        intro t h'
        refine hk (known_mono ?_ (fun _ h => h) h')
        rintro t ((h | h) | h)
        · exact Or.inl (Or.inl h)
        · exact Or.inl (Or.inr (mem_keys_copy.2 (Or.inl h)))
        · exact Or.inl (Or.inr (mem_keys_copy.2 (Or.inr h)))
      refine post_of (inv_mono hw hc.inv) ?_ ⟨?_, ?_, ?_⟩ hc.grow
      · intro r hr
        simp only [Schema.refs, addRef, hdd, List.mem_singleton] at hr
        exact Or.inl (Or.inr (hkey (Or.inl hr)))
      · intro x hx r hr
        rcases mem_copy hx with hx | hx
        · rcases mem_mset_kv hx with rfl | hx
          · exact hkm (hpost.q r hr)
          · exact hk0 (ho.refs x hx r hr)
        · exact hkm (hpost.out x hx r hr)
      · intro x hx hna
        rcases mem_copy hx with hx | hx
        · rcases mem_mset_kv hx with rfl | hx
          · exact absurd hna (promote_ne hpr).1
          · exact hpost.grow _ (ho.na x hx hna)
        · exact hpost.na x hx hna
      · intro k hk'
        rcases mem_keys_copy.1 hk' with hx | hx
        · rcases mem_keys_mset.1 hx with rfl | hx
          · rw [hdd]; exact Or.inl (Or.inr (hkey (Or.inl rfl)))
          · exact hk0 (ho.ptrs k hx)
        · exact hkm (hpost.ptrs k hx)
    · exact hc
  have hused : ∀ a, Post c (with_ D out) s a →
      Post c D s (finUsed (derive (fieldType c pkg t)) out a) := by
    rintro a hpost
    have hc := post_copy ho (fun _ h => h) hpost
    obtain ⟨q, more, s'⟩ := a
    generalize hd : derive (fieldType c pkg t) = d at *
    have hm := post_mark (q' := q) hc (noPtrPtr hpd) (fun r hr => Or.inr hr)
    -- the component is registered under the type, which is used
    have hkd : d ∈ keys (mark s' d q).used := mark_has ..
    have hw : ∀ t, with_ D (copy out more) t →
        Known (with_ D (mset (copy out more) d q)) (mark s' d q) t := by
      rintro t (h | h)
      · exact Or.inl (Or.inl h)
      · exact Or.inl (Or.inr (mem_keys_mset.2 (Or.inr h)))
    have hk : ∀ {t}, Known (with_ D (copy out more)) (mark s' d q) t →
        Known (with_ D (mset (copy out more) d q)) (mark s' d q) t :=
      fun h => known_mono hw (fun _ h => h) h
    refine post_of (inv_mono hw hm.inv) ?_ ⟨?_, ?_, ?_⟩ hm.grow
    · intro r hr
      simp only [Schema.refs, addRef, hdd, List.mem_singleton] at hr
      subst hr; exact Or.inr hkd
    · intro x hx r hr
      rcases mem_mset_kv hx with rfl | hx
      · exact hk (hm.q r hr)
      · exact hk (hm.out x hx r hr)
    · intro x hx hna
      rcases mem_mset_kv hx with rfl | hx
      · exact hkd
      · exact hm.na x hx hna
    · intro k hk'
      rcases mem_keys_mset.1 hk' with rfl | hk'
      · rw [hdd]; exact Or.inr hkd
      · exact hk (hm.ptrs k hk')
  unfold planField
  dsimp only
  split
  · exact ⟨with_ D out, hi, hpd, fun f a h hpost => hfield f a h hpost⟩
  · split
    · exact ⟨with_ D out, hi, hpd, fun f a h hpost => hfield f a h hpost⟩
    · exact ⟨with_ D out, hi, hpf, fun f a _ hpost => hused a hpost⟩
    · rename_i q _ hq
      refine hused (_, [], s) ?_
      refine post_of (inv_with hi) ?_ (outOk_nil _ _) (fun _ h => h)
      exact fun r hr => known_with (hi.refs _ (mem_of_mget hq) r hr)

/-- A field keeps the components of the fields before it. -/
theorem field_keeps {c : Ctx} {f : Nat} {s s' : St} {pkg : String} {t : Ty} {out out' : Comps}
    {q : Schema} (h : run c f (planField c s pkg t out) = some (q, out', s')) :
    ∀ k ∈ keys out, k ∈ keys out' := by
  have hfield : ∀ d a, finField d out a = (q, out', s') → ∀ k ∈ keys out, k ∈ keys out' := by
    rintro d ⟨q1, more, s1⟩ he k hk
    unfold finField at he
    dsimp only at he
    split at he <;> (simp only [Prod.mk.injEq] at he; obtain ⟨-, rfl, -⟩ := he)
    · exact mem_keys_copy.2 (Or.inl (mem_keys_mset.2 (Or.inr hk)))
    · exact mem_keys_copy.2 (Or.inl hk)
  have hused : ∀ d a, finUsed d out a = (q, out', s') → ∀ k ∈ keys out, k ∈ keys out' := by
    rintro d ⟨q1, more, s1⟩ he k hk
    simp only [finUsed, Prod.mk.injEq] at he
    obtain ⟨-, rfl, -⟩ := he
    exact mem_keys_mset.2 (Or.inr (mem_keys_copy.2 (Or.inl hk)))
  cases f with
  | zero => cases h
  | succ f =>
    generalize hP : planField c s pkg t out = P at h
    unfold planField at hP
    dsimp only at hP
    split at hP
    · subst hP
      simp only [run, Option.map_eq_some_iff] at h
      obtain ⟨x, -, h⟩ := h
      exact hfield _ x h
    · split at hP
      · subst hP
        simp only [run, Option.map_eq_some_iff] at h
        obtain ⟨x, -, h⟩ := h
        exact hfield _ x h
      · subst hP
        simp only [run, Option.map_eq_some_iff] at h
        obtain ⟨x, -, h⟩ := h
        exact hused _ x h
      · subst hP
        simp only [run, Option.some.injEq] at h
        exact hused _ _ h

/-- The four functions keep the promises. -/
structure RefsAt (c : Ctx) (f : Nat) : Prop where
  go : ∀ D s t r, Plain t → Inv c D s → mapGo c f s t = some r → Post c D s r
  run : ∀ D s0 p r, PlanOk c D s0 p → run c f p = some r → Post c D s0 r
  lit : ∀ D s t o out r, Plain t → Inv c (with_ D out) s → OutOk D s out →
    (∀ x ∈ o.refs, Known (with_ D out) s x) → mapLit c f s t o out = some r → Post c D s r
  body : ∀ D s pkg b o out r, (∀ t ∈ b.types, Plain t) → b.keysOk → Inv c (with_ D out) s →
    OutOk D s out → (∀ x ∈ o.refs, Known (with_ D out) s x) →
    mapBody c f s pkg b o out = some r → Post c D s r

theorem keys_sub_copy {out more : Comps} {D : Ty → Prop} {s s' : St} {t : Ty}
    (hg : ∀ k ∈ keys s.used, k ∈ keys s'.used)
    (h : Known (with_ D out) s t) : Known (with_ D (copy out more)) s' t := by
  refine known_mono ?_ hg h
  rintro t (h | h)
  · exact Or.inl (Or.inl h)
  · exact Or.inl (Or.inr (mem_keys_copy.2 (Or.inl h)))

theorem refsAt {c : Ctx} (hT : PlainTable c) (f : Nat) : RefsAt c f := by
  induction f with
  | zero => constructor <;> intros <;> simp_all [mapGo, run, mapLit, mapBody]
  | succ f ih =>
    constructor
    · intro D s t r hp hi h
      rw [mapGo] at h
      exact ih.run D s _ r (planGo_ok hT hp hi) h
    · intro D s0 p r hp h
      cases p with
      | done q => simp only [run, Option.some.injEq] at h; subst h; exact hp
      | go s t fin =>
        simp only [run, Option.map_eq_some_iff] at h
        obtain ⟨x, hx, rfl⟩ := h
        obtain ⟨D', h1, h2, h3⟩ := hp
        exact h3 f x hx (ih.go D' s t x h2 h1 hx)
      | lit s t fin =>
        simp only [run, Option.map_eq_some_iff] at h
        obtain ⟨x, hx, rfl⟩ := h
        obtain ⟨D', h1, h2, h3⟩ := hp
        exact h3 x (ih.lit D' s t _ _ x h2 (inv_with h1) (outOk_nil _ _) (by simp [Schema.refs]) hx)
      | decl s key d fin =>
        simp only [run, Option.map_eq_some_iff] at h
        obtain ⟨x, hx, rfl⟩ := h
        obtain ⟨D', h1, ⟨p, b, rfl⟩, h2, h3, h4, h5⟩ := hp
        exact h5 x ((absAt hT f).2 _ x (abs_planDecl ..) hx)
          (ih.run D' s _ x (planDecl_ok hT h1 h2 h3 h4) hx)
      | body s pkg b fin =>
        simp only [run, Option.map_eq_some_iff] at h
        obtain ⟨x, hx, rfl⟩ := h
        obtain ⟨D', h1, h2, h3, h4⟩ := hp
        exact h4 x (ih.body D' s pkg b _ _ x h2 h3 (inv_with h1) (outOk_nil _ _)
          (by simp [Schema.refs]) hx)
    · intro D s t o out r hp hi ho hq h
      have hstop : mapLit c (f+1) s t o out = some (o, out, s) → Post c D s r := by
        intro h'
        rw [h'] at h
        obtain rfl := Option.some.inj h
        exact post_of hi hq ho (fun _ h => h)
      cases t with
      | fld l a rest =>
        rw [mapLit] at h
        split at h
        · cases h
        · rename_i q more s1 hx
          have hpost := ih.go (with_ D out) s a _ hp.1 hi hx
          have hc : Post c D s (q, copy out more, s1) := post_copy ho (fun _ h => h) hpost
          refine post_trans hc.grow (ih.lit D s1 rest _ _ r hp.2 hc.inv hc.outOk ?_ h)
          intro x hx'
          rcases refs_setProp hx' with hx' | hx'
          · exact keys_sub_copy hc.grow (hq x hx')
          · exact hc.q x hx'
      | _ => exact hstop rfl
    · intro D s pkg b o out r hp hkeys hi ho hq h
      cases b with
      | done =>
        rw [mapBody] at h
        obtain rfl := Option.some.inj h
        exact post_of hi hq ho (fun _ h => h)
      | field l a rest =>
        rw [mapBody] at h
        split at h
        · cases h
        · rename_i q out1 s1 hx
          have hc := ih.run D s _ _ (planField_ok (pkg := pkg) (hp a (by simp [Body.types])) hi ho) hx
          refine post_trans hc.grow (ih.body D s1 pkg rest _ _ r
            (fun t h => hp t (by simp [Body.types, h])) hkeys hc.inv hc.outOk ?_ h)
          intro x hx'
          rcases refs_setProp hx' with hx' | hx'
          · refine known_mono ?_ hc.grow (hq x hx')
            rintro t (h | h)
            · exact Or.inl (Or.inl h)
            · exact Or.inl (Or.inr (field_keeps hx t h))
          · exact hc.q x hx'
      | sub l key inner rest =>
        rw [mapBody] at h
        split at h
        · cases h
        · rename_i q more s1 hx
          obtain ⟨hk1, hk2, hk3⟩ := hkeys
          have hnr : canAddRef (.name "" key) = false := by
            rw [canAddRef_name]
            exact Bool.eq_false_iff.2 fun h => hk1 ((refable_iff _).1 h)
          have hpost := ih.run (with_ D out) s _ _ (planDecl_ok hT (p := "") (b := key)
            (d := .struct pkg inner) hi (fun h => by rw [hnr] at h; cases h)
            (fun t h => hp t (by simp [Body.types]; exact Or.inl h)) hk2) hx
          have hc : Post c D s (q, copy out more, s1) := post_copy ho (fun _ h => h) hpost
          refine post_trans hc.grow (ih.body D s1 pkg rest _ _ r
            (fun t h => hp t (by simp [Body.types, h])) hk3 hc.inv hc.outOk ?_ h)
          intro x hx'
          rcases refs_setProp hx' with hx' | hx'
          · exact keys_sub_copy hc.grow (hq x hx')
          · exact hc.q x hx'

/-! ## The theorem -/

theorem note_keys (used : List (Ty × Schema)) (kv : Ty × Schema) :
    (∀ k ∈ keys used, k ∈ keys (forRoute.note used kv)) ∧
    (kv.2 ≠ .absent → kv.1 ∈ keys (forRoute.note used kv)) ∧
    (∀ x ∈ forRoute.note used kv, x ∈ used ∨ x = kv) ∧
    (∀ k ∈ keys (forRoute.note used kv), k ∈ keys used ∨ k = kv.1) := by
  unfold forRoute.note
  by_cases h : kv.2 = .absent
  · rw [if_pos h]
    exact ⟨fun _ h => h, fun h' => absurd h h', fun _ h => Or.inl h, fun _ h => Or.inl h⟩
  · rw [if_neg h]
    have hset : (∀ k ∈ keys used, k ∈ keys (mset used kv.1 kv.2)) ∧
        (kv.2 ≠ .absent → kv.1 ∈ keys (mset used kv.1 kv.2)) ∧
        (∀ x ∈ mset used kv.1 kv.2, x ∈ used ∨ x = kv) ∧
        (∀ k ∈ keys (mset used kv.1 kv.2), k ∈ keys used ∨ k = kv.1) :=
      ⟨fun k hk => mem_keys_mset.2 (Or.inr hk), fun _ => mem_keys_mset.2 (Or.inl rfl),
        fun x hx => (mem_mset_kv hx).symm, fun k hk => (mem_keys_mset.1 hk).symm⟩
    split
    · exact hset
    · rename_i hm
      exact ⟨fun _ h => h, fun _ => key_of_mget hm, fun _ h => Or.inl h, fun _ h => Or.inl h⟩
    · exact hset

theorem notes_keys (out used : List (Ty × Schema)) :
    (∀ k ∈ keys used, k ∈ keys (out.foldl forRoute.note used)) ∧
    (∀ x ∈ out, x.2 ≠ .absent → x.1 ∈ keys (out.foldl forRoute.note used)) ∧
    (∀ x ∈ out.foldl forRoute.note used, x ∈ used ∨ x ∈ out) ∧
    (∀ k ∈ keys (out.foldl forRoute.note used), k ∈ keys used ∨ k ∈ keys out) := by
  induction out generalizing used with
  | nil => exact ⟨fun _ h => h, by simp, fun _ h => Or.inl h, fun _ h => Or.inl h⟩
  | cons y r ih =>
    obtain ⟨h1, h2, h3, h4⟩ := ih (forRoute.note used y)
    obtain ⟨n1, n2, n3, n4⟩ := note_keys used y
    refine ⟨fun k hk => h1 k (n1 k hk), ?_, ?_, ?_⟩
    · intro x hx hne
      rcases List.mem_cons.1 hx with rfl | hx
      · exact h1 _ (n2 hne)
      · exact h2 x hx hne
    · intro x hx
      rcases h3 x hx with h | h
      · rcases n3 x h with h | rfl
        · exact Or.inl h
        · exact Or.inr List.mem_cons_self
      · exact Or.inr (List.mem_cons_of_mem _ h)
    · intro k hk
      rcases h4 k hk with h | h
      · rcases n4 k h with h | rfl
        · exact Or.inl h
        · exact Or.inr (by simp [keys])
      · exact Or.inr (List.mem_cons_of_mem _ h)

/-- **C44 (references), one mapping.**  Mapping a type for a route: every reference in
the schema is to a type the route uses, and the route's used types refer only to one
another — for every table of plain types, whatever the recursion between them. -/
theorem C44_route_refs {c : Ctx} (hT : PlainTable c) {t : Ty} (ht : Plain t)
    {used : List (Ty × Schema)} (hu : Closed used) {f : Nat} {q : Schema}
    {used' : List (Ty × Schema)} (h : forRoute c f used t = some (q, used')) :
    (∀ r ∈ q.refs, r ∈ keys used') ∧ Closed used' := by
  unfold forRoute at h
  split at h
  · cases h
  · rename_i q' out s hm
    simp only [Option.some.injEq, Prod.mk.injEq] at h
    obtain ⟨rfl, rfl⟩ := h
    have hi : Inv c (fun _ => False) { used := used } := by
      refine ⟨by simp, by simp, fun x hx r hr => Or.inr (hu.refs x.1 x.2 hx r hr), ?_⟩
      intro k hk
      cases k with
      | ptr e => exact Or.inr (hu.ptrs e hk)
      | _ => exact Or.inr hk
    have hp := (refsAt hT f).go _ _ _ _ ht hi hm
    obtain ⟨n1, n2, n3, n4⟩ := notes_keys out s.used
    have hk : ∀ {r}, Known (with_ (fun _ => False) out) s r → r ∈ keys (out.foldl forRoute.note s.used) := by
      rintro r ((h | h) | h)
      · exact h.elim
      · obtain ⟨x, hx, rfl⟩ := List.mem_map.1 h
        by_cases ha : x.2 = .absent
        · exact n1 _ (hp.na x hx ha)
        · exact n2 x hx ha
      · exact n1 _ h
    refine ⟨fun r hr => hk (hp.q r hr), ?_, ?_⟩
    · intro k q hkq r hr
      rcases n3 _ hkq with h | h
      · exact hk (hp.inv.refs _ h r hr)
      · exact hk (hp.out _ h r hr)
    · intro e he
      rcases n4 _ he with h | h
      · exact hk (hp.inv.ptrs _ h)
      · exact hk (hp.ptrs _ h)

/-- Mapping several types for a route, one after another. -/
def forRouteAll (c : Ctx) (f : Nat) : List (Ty × Schema) → List Ty →
    Option (List Schema × List (Ty × Schema))
  | used, [] => some ([], used)
  | used, t :: ts =>
    match forRoute c f used t with
    | none => none
    | some (q, used) =>
      match forRouteAll c f used ts with
      | none => none
      | some (qs, used) => some (q :: qs, used)

theorem note_grow (c : Ctx) (f : Nat) (hT : PlainTable c) {t : Ty} (ht : Plain t)
    {used : List (Ty × Schema)} (hu : Closed used) {q : Schema}
    {used' : List (Ty × Schema)} (h : forRoute c f used t = some (q, used')) :
    ∀ k ∈ keys used, k ∈ keys used' := by
  unfold forRoute at h
  split at h
  · cases h
  · rename_i q' out s hm
    simp only [Option.some.injEq, Prod.mk.injEq] at h
    obtain ⟨rfl, rfl⟩ := h
    have hi : Inv c (fun _ => False) { used := used } := by
      refine ⟨by simp, by simp, fun x hx r hr => Or.inr (hu.refs x.1 x.2 hx r hr), ?_⟩
      intro k hk
      cases k with
      | ptr e => exact Or.inr (hu.ptrs e hk)
      | _ => exact Or.inr hk
    have hp := (refsAt hT f).go _ _ _ _ ht hi hm
    exact fun k hk => (notes_keys out s.used).1 k (hp.grow k hk)

/-- **C44 (references), a route.**  All the schemas of a route refer only to types the
route uses, and these only to one another. -/
theorem C44_routes_refs {c : Ctx} (hT : PlainTable c) {f : Nat} : ∀ {ts : List Ty}
    {used : List (Ty × Schema)}, (∀ t ∈ ts, Plain t) → Closed used →
    ∀ {qs used'}, forRouteAll c f used ts = some (qs, used') →
    (∀ q ∈ qs, ∀ r ∈ q.refs, r ∈ keys used') ∧ Closed used' ∧ ∀ k ∈ keys used, k ∈ keys used'
  | [], used, _, hu, qs, used', h => by
    simp only [forRouteAll, Option.some.injEq, Prod.mk.injEq] at h
    obtain ⟨rfl, rfl⟩ := h
    exact ⟨by simp, hu, fun _ h => h⟩
  | t :: ts, used, ht, hu, qs, used', h => by
    rw [forRouteAll] at h
    split at h
    · cases h
    · rename_i q used1 h1
      split at h
      · cases h
      · rename_i qs2 used2 h2
        simp only [Option.some.injEq, Prod.mk.injEq] at h
        obtain ⟨rfl, rfl⟩ := h
        obtain ⟨a1, a2⟩ := C44_route_refs hT (ht t (by simp)) hu h1
        obtain ⟨b1, b2, b3⟩ := C44_routes_refs hT (fun x hx => ht x (List.mem_cons_of_mem _ hx)) a2 h2
        refine ⟨?_, b2, fun k hk => b3 k (note_grow c f hT (ht t (by simp)) hu h1 k hk)⟩
        intro q' hq' r hr
        rcases List.mem_cons.1 hq' with rfl | hq'
        · exact b3 r (a1 r hr)
        · exact b1 q' hq' r hr

/-! ### The hypotheses are met -/

theorem exTree_plain : PlainTable exTree where
  types := by
    intro p b d h t ht
    simp only at h
    split at h
    · obtain rfl := Option.some.inj h
      simp only [Decl.types, Body.types, List.cons_append, List.nil_append, List.mem_cons,
        List.not_mem_nil, or_false] at ht
      rcases ht with rfl | rfl | rfl | rfl <;> simp [Plain]
    · split at h
      · obtain rfl := Option.some.inj h
        simp only [Decl.types, Option.toList, List.mem_singleton] at ht
        subst ht; simp [Plain]
      · split at h
        · obtain rfl := Option.some.inj h
          simp only [Decl.types, List.mem_singleton] at ht
          subst ht; simp [Plain]
        · cases h
  keys := by
    intro p b d h
    simp only at h
    split at h
    · obtain rfl := Option.some.inj h
      refine ⟨?_, trivial, trivial⟩
      rw [← refable_iff]; decide
    · split at h
      · obtain rfl := Option.some.inj h; trivial
      · split at h
        · obtain rfl := Option.some.inj h; trivial
        · cases h
  conf := by intro t q h; cases h
  confName := by intro p b q h; cases h
  extern := by intro t q h; cases h
  extMap := by intro t q h; cases h
  extGen := by intro t q h; cases h

example : (forRoute exTree 40 [] (.slice (.name "p" "Node"))).map (·.1) =
    some (.array (.ref (.name "p" "Node"))) := by decide

/-! ### Where the code falls short -/

/-- `type Grid struct { A [3]Row; B [3]Row }` with `type Row struct {}`. -/
@[reducible] def exArray : Ctx where
  find _ b :=
    if b = "Grid" then
      some (.struct "p" (.field "a" (.arr "3" (.name "" "Row"))
        (.field "b" (.arr "3" (.name "" "Row")) .done)))
    else if b = "Row" then some (.struct "p" .done)
    else none

/-- **C44, the failure for arrays.**  The second field of an array type is documented as
a reference to the array's text, which no route uses and no component defines. -/
theorem C44_array_ref_dangles :
    ∃ q used', forRoute exArray 40 [] (.name "p" "Grid") = some (q, used') ∧
      ∃ k v, (k, v) ∈ used' ∧ ∃ r ∈ v.refs, r ∉ keys used' := by
  refine ⟨.ref (.name "p" "Grid"), [(.name "p" "Row", .obj), (.name "p" "Grid",
    .prop "a" (.array (.ref (.name "p" "Row")))
      (.prop "b" (.ref (.arr "3" (.name "p" "Row"))) .obj))], by decide,
    .name "p" "Grid", _, List.mem_cons_of_mem _ List.mem_cons_self, ?_⟩
  exact ⟨.arr "3" (.name "p" "Row"), by decide, by decide⟩

/-- `type Bill struct { A, B Money }` with `Money` mapped to a number by the user's
`typeMapping`. -/
@[reducible] def exMapped : Ctx where
  find _ b :=
    if b = "Bill" then
      some (.struct "p" (.field "a" (.name "" "Money") (.field "b" (.name "" "Money") .done)))
    else none
  conf t := if t = .name "p" "Money" then some (.scalar "number") else none

/-- **C44, the failure for mapped types.**  The second field of a type the user mapped
to a number is a reference to nothing. -/
theorem C44_mapped_ref_dangles :
    ∃ q used', forRoute exMapped 40 [] (.name "p" "Bill") = some (q, used') ∧
      ∃ k v, (k, v) ∈ used' ∧ ∃ r ∈ v.refs, r ∉ keys used' := by
  refine ⟨.ref (.name "p" "Bill"), [(.name "p" "Bill", .prop "a" (.scalar "number")
    (.prop "b" (.ref (.name "p" "Money")) .obj))], by decide,
    .name "p" "Bill", _, List.mem_cons_self, ?_⟩
  exact ⟨.name "p" "Money", by decide, by decide⟩

end Verif.SchemaGen
