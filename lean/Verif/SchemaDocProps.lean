import Verif.SchemaFitProps
import Verif.SchemaCollectModel

/-!
# C44: the finished document

From the types mapped for the routes to the components: every reference has one.
-/

namespace Verif.SchemaGen

open Verif.Common

/-! ## One mapping -/

theorem fit_notes {c : Ctx} {out used : List (Ty × Schema)} (h1 : FitL c out) (h2 : FitL c used) :
    FitL c (out.foldl forRoute.note used) := by
  intro x hx
  rcases (notes_keys out used).2.2.1 x hx with h | h
  · exact h2 x h
  · exact h1 x h

theorem fit_forRoute {c : Ctx} (hT : PlainTable c) (hF : FitTable c) {f used t q used'}
    (hp : Plain t) (ht : Tame t) (hu : FitL c used) (h : forRoute c f used t = some (q, used')) :
    FitL c used' ∧ ∀ r ∈ q.refs, RefOk c r := by
  unfold forRoute at h
  split at h
  · cases h
  · rename_i q' out s hm
    simp only [Option.some.injEq, Prod.mk.injEq] at h
    obtain ⟨rfl, rfl⟩ := h
    have ha := (fitAt hT hF f).go { used := used } t _ hu hp ht hm
    exact ⟨fit_notes ha.out ha.used, ha.q⟩

theorem fit_forRouteAll {c : Ctx} (hT : PlainTable c) (hF : FitTable c) {f : Nat} :
    ∀ {ts : List Ty} {used qs used'}, (∀ t ∈ ts, Plain t) → (∀ t ∈ ts, Tame t) → FitL c used →
    forRouteAll c f used ts = some (qs, used') →
    FitL c used' ∧ ∀ q ∈ qs, ∀ r ∈ q.refs, RefOk c r
  | [], used, qs, used', _, _, hu, h => by
    simp only [forRouteAll, Option.some.injEq, Prod.mk.injEq] at h
    obtain ⟨rfl, rfl⟩ := h
    exact ⟨hu, by simp⟩
  | t :: ts, used, qs, used', hp, ht, hu, h => by
    rw [forRouteAll] at h
    split at h
    · cases h
    · rename_i q used1 h1
      split at h
      · cases h
      · rename_i qs2 used2 h2
        simp only [Option.some.injEq, Prod.mk.injEq] at h
        obtain ⟨rfl, rfl⟩ := h
        obtain ⟨a1, a2⟩ := fit_forRoute hT hF (hp t (by simp)) (ht t (by simp)) hu h1
        obtain ⟨b1, b2⟩ := fit_forRouteAll hT hF (fun x hx => hp x (List.mem_cons_of_mem _ hx))
          (fun x hx => ht x (List.mem_cons_of_mem _ hx)) a1 h2
        refine ⟨b1, ?_⟩
        intro q' hq'
        rcases List.mem_cons.1 hq' with rfl | hq'
        · exact a2
        · exact b2 q' hq'

/-! ## A body's type is used -/

/-- A name under pointers, slices and arrays. -/
def NamedInside : Ty → Prop
  | .name _ _ => True
  | .ptr e => NamedInside e
  | .slice e => NamedInside e
  | .arr _ e => NamedInside e
  | _ => False

/-- A body the generator copes with: named, a slice of a named type that is not an alias,
or a type with no name inside. -/
def BodyOk (c : Ctx) (t : Ty) : Prop :=
  (∃ p b, t = .name p b ∨ t = .ptr (.name p b)) ∨
  (∃ p b, (t = .slice (.name p b) ∨ t = .slice (.ptr (.name p b))) ∧
    ∀ pkg u, c.find p b ≠ some (.alias pkg u)) ∨
  ¬ NamedInside t

theorem run_go {c : Ctx} {f s t fin a} (h : run c f (.go s t fin) = some a) :
    ∃ f' r, mapGo c f' s t = some r ∧ a = fin r := by
  cases f with
  | zero => cases h
  | succ f =>
    simp only [run, Option.map_eq_some_iff] at h
    obtain ⟨x, hx, rfl⟩ := h
    exact ⟨f, x, hx, rfl⟩

theorem run_done {c : Ctx} {f x a} (h : run c f (.done x) = some a) : x = a := by
  cases f with
  | zero => cases h
  | succ f => simpa [run] using h

/-- Where a mapped name is, when none is being mapped already. -/
theorem ptr_left {c : Ctx} (hT : PlainTable c) {f s p b r} (hr : refable b = true)
    (hv : Ty.name p b ∉ s.vis) (hv' : Ty.ptr (.name p b) ∉ s.vis)
    (h : mapGo c f s (.ptr (.name p b)) = some r) :
    .name p b ∈ keys r.2.1 ∨ .name p b ∈ keys r.2.2.used ∨ InPlace c (.name p b) := by
  obtain ⟨h2, h3⟩ := conf_none hT (t := .ptr (.name p b)) (by intro p b h; cases h)
    (by intro n h; cases h)
  cases f with
  | zero => cases h
  | succ f =>
    rw [mapGo] at h
    generalize hP : planGo c s (.ptr (.name p b)) = P at h
    unfold planGo at hP
    dsimp only at hP
    split at hP
    · rename_i hg
      simp only [derive, Bool.and_eq_true, Bool.or_eq_true, List.contains_eq_mem,
        decide_eq_true_eq] at hg
      rcases hg.1.1 with h | h
      · exact absurd h hv'
      · exact absurd h hv
    · split at hP
      · rename_i hg
        simp only [Bool.and_eq_true] at hg
        have := key_of_usedSome (s := { s with vis := _ }) hg.1.1
        subst hP
        obtain rfl := run_done h
        exact Or.inr (Or.inl this)
      · rw [h2, h3] at hP
        dsimp only [planShape] at hP
        subst hP
        obtain ⟨f', ⟨q, more, s'⟩, h4, rfl⟩ := run_go h
        rcases name_left hT hr h4 with h5 | h5 | h5 | h5
        · rcases List.mem_cons.1 h5.1 with h6 | h6
          · cases h6
          · exact absurd h6 hv
        · exact Or.inl (mem_keys_copy.2 (Or.inr h5))
        · exact Or.inr (Or.inl h5)
        · exact Or.inr (Or.inr ((inlineExt_iff c _).1 h5.1))

theorem elem_left {c : Ctx} {f s e out r} {k : Ty} (hk : derive e = k)
    (hnp : isPrim e = false)
    (hres : resolve c e = none) (hcl : ∀ x, .ptr x ∈ keys s.used → x ∈ keys s.used)
    (hgo : ∀ f a, mapGo c f s e = some a →
      k ∈ keys a.2.1 ∨ k ∈ keys a.2.2.used ∨ InPlace c k)
    (hgrow : ∀ f a, mapGo c f s e = some a → ∀ x ∈ keys s.used, x ∈ keys a.2.2.used)
    (h : run c f (planElem c s false e out) = some r) :
    k ∈ keys r.2.1 ∨ k ∈ keys r.2.2.used ∨ InPlace c k := by
  have hd : e ∈ keys s.used → k ∈ keys s.used := by
    subst hk
    cases e with
    | ptr x => exact hcl x
    | _ => exact id
  have helem : ∀ {f}, run c f (.go s e (finElem e out)) = some r →
      k ∈ keys r.2.1 ∨ k ∈ keys r.2.2.used ∨ InPlace c k := by
    intro f h
    obtain ⟨f', ⟨q, more, s'⟩, h4, rfl⟩ := run_go h
    unfold finElem
    dsimp only
    rcases hgo f' _ h4 with h5 | h5 | h5
    · left
      split
      · exact mem_keys_mset.2 (Or.inr (mem_keys_copy.2 (Or.inr h5)))
      · exact mem_keys_copy.2 (Or.inr h5)
    · right; left
      split <;> exact h5
    · exact Or.inr (Or.inr h5)
  generalize hP : planElem c s false e out = P at h
  unfold planElem at hP
  rw [hres] at hP
  dsimp only [Option.getD_none] at hP
  split at hP
  · rename_i hb
    exfalso
    simp only [isByte, Bool.or_eq_true, beq_iff_eq] at hb
    rcases hb with hb | hb
    · subst hb; cases hnp
    · simp only [Bool.false_eq_true, if_false, beq_iff_eq] at hb
      subst hb; cases hnp
  · split at hP
    · subst hP; exact helem h
    · split at hP
      · subst hP; exact helem h
      · rename_i hu
        subst hP
        obtain ⟨f', ⟨q, more, s'⟩, h4, rfl⟩ := run_go h
        exact Or.inr (Or.inl (mark_grow _ _ _ _ (hgrow f' _ h4 _ (hd (key_of_mget hu)))))
      · rename_i q _ hu
        subst hP
        obtain rfl := run_done h
        exact Or.inr (Or.inl (mark_grow _ _ _ _ (hd (key_of_mget hu))))

/-- **C44, bodies.**  After a body of a named type, or a slice of one, has been mapped for
a route, the route uses the named type, unless it is documented in place. -/
theorem C44_body_used {c : Ctx} (hT : PlainTable c) {f : Nat} {t : Ty}
    {used used' : List (Ty × Schema)} {q : Schema} (hu : Closed used) (hb : BodyOk c t)
    {p b : String} (hn : Nameable b) (hk : bodyKey t = .name p b)
    (h : forRoute c f used t = some (q, used')) :
    .name p b ∈ keys used' ∨ InPlace c (.name p b) := by
  have hr := (refable_iff b).2 hn
  unfold forRoute at h
  split at h
  · cases h
  · rename_i q' out s hm
    simp only [Option.some.injEq, Prod.mk.injEq] at h
    obtain ⟨rfl, rfl⟩ := h
    have hpt : Plain t := by
      cases t with
      | slice e =>
        cases e with
        | ptr x =>
          simp only [bodyKey, derive] at hk
          subst hk
          exact ⟨by simp, trivial⟩
        | _ => simp only [bodyKey, derive] at hk <;> cases hk <;> trivial
      | ptr e =>
        simp only [bodyKey, derive] at hk
        subst hk
        exact ⟨by simp, trivial⟩
      | _ => simp only [bodyKey, derive] at hk <;> cases hk <;> trivial
    have hi : ∀ vis, (∀ u ∈ vis, ∀ p b, derive u ≠ .name p b) →
        Inv c (fun _ => False) { used := used, vis := vis } := by
      intro vis hvis
      refine ⟨fun u hu' p b e => absurd e (hvis u hu' p b), by simp,
        fun x hx r hr => Or.inr (hu.refs x.1 x.2 hx r hr), ?_⟩
      intro k hk
      cases k with
      | ptr e => exact Or.inr (hu.ptrs e hk)
      | _ => exact Or.inr hk
    have hpost := (refsAt hT f).go _ _ _ _ hpt (hi [] (by simp)) hm
    obtain ⟨n1, n2, _, _⟩ := notes_keys out s.used
    suffices hs : .name p b ∈ keys out ∨ .name p b ∈ keys s.used ∨ InPlace c (.name p b) by
      rcases hs with h | h | h
      · left
        obtain ⟨x, hx, he⟩ := List.mem_map.1 h
        by_cases ha : x.2 = .absent
        · rw [← he]; exact n1 _ (hpost.na x hx ha)
        · rw [← he]; exact n2 x hx ha
      · exact Or.inl (n1 _ h)
      · exact Or.inr h
    have hname : ∀ {f s a}, Ty.name p b ∉ s.vis → mapGo c f s (.name p b) = some a →
        .name p b ∈ keys a.2.1 ∨ .name p b ∈ keys a.2.2.used ∨ InPlace c (.name p b) := by
      intro f s a hv h
      rcases name_left hT hr h with h | h | h | h
      · exact absurd h.1 hv
      · exact Or.inl h
      · exact Or.inr (Or.inl h)
      · exact Or.inr (Or.inr ((inlineExt_iff c _).1 h.1))
    cases t with
    | name p' b' =>
      simp only [bodyKey, derive] at hk
      rw [hk] at hm
      exact hname (by simp) hm
    | ptr e =>
      simp only [bodyKey, derive] at hk
      subst hk
      exact ptr_left hT hr (by simp) (by simp) hm
    | slice e =>
      obtain ⟨h2, h3⟩ := conf_none hT (t := .slice e) (by intro p b h; cases h)
        (by intro n h; cases h)
      have h1 : canAddRef (derive (.slice e)) = false := by simp [derive, canAddRef, isSlice]
      simp only [bodyKey] at hk
      have hnal : ∀ pkg u, c.find p b ≠ some (.alias pkg u) := by
        rcases hb with ⟨p', b', h | h⟩ | ⟨p', b', h | h, h'⟩ | h
        · cases h
        · cases h
        · cases h; cases hk; exact h'
        · cases h; cases hk; exact h'
        · cases e with
          | ptr x =>
            simp only [derive] at hk
            subst hk; exact absurd trivial h
          | _ =>
            simp only [derive] at hk
            cases hk <;> exact absurd trivial h
      have hal : aliasOf c (.name p b) = none := by
        unfold aliasOf
        split
        · rfl
        · dsimp only [core]
          split
          · rename_i pkg u hf; exact absurd hf (hnal _ _)
          · rfl
      cases f with
      | zero => cases hm
      | succ f =>
        rw [mapGo, planGo_shape h1 h2 h3] at hm
        dsimp only [planShape] at hm
        have hgrow : ∀ f a, mapGo c f { used := used, vis := [.slice e] } e = some a →
            ∀ x ∈ keys used, x ∈ keys a.2.2.used := by
          intro f a h
          refine ((refsAt hT f).go _ _ _ _ (show Plain e from hpt) (hi _ ?_) h).grow
          intro u hu' p b he
          rw [List.mem_singleton.1 hu'] at he
          cases he
        refine elem_left (e := e) (k := .name p b) hk ?_ ?_ hu.ptrs ?_ hgrow hm
        · cases e with
          | ptr x => simp only [derive] at hk; subst hk; rfl
          | _ => simp only [derive] at hk <;> cases hk <;> rfl
        · cases e with
          | ptr x => simp only [derive] at hk; subst hk; simp [resolve, hal]
          | _ => simp only [derive] at hk <;> cases hk <;> simp [resolve, hal]
        · intro f a h
          cases e with
          | ptr x =>
            simp only [derive] at hk
            subst hk
            exact ptr_left hT hr (by simp) (by simp) h
          | _ => simp only [derive] at hk <;> cases hk <;> exact hname (by simp) h
    | _ => cases hk

/-! ## Collecting -/

/-- What collecting leaves: every entry is in order, or it is one of the bodies and has
no schema. -/
structure Gathered (c : Ctx) (B : Ty → Prop) (u : List (Ty × Schema)) : Prop where
  ent : ∀ x ∈ u, Ent c x ∨ (x.2 = .absent ∧ B x.1)
  refs : ∀ x ∈ u, ∀ r ∈ x.2.refs, r ∈ keys u
  ptrs : ∀ e, .ptr e ∈ keys u → e ∈ keys u
  nodup : (keys u).Nodup

/-- A type in use with a schema. -/
def HasSchema (u : List (Ty × Schema)) (k : Ty) : Prop := ∃ q, mget u k = some q ∧ q ≠ .absent

theorem usedSome_iff {s : St} {k : Ty} : usedSome s k = true ↔ HasSchema s.used k := by
  unfold usedSome HasSchema
  cases mget s.used k with
  | none => simp
  | some q => simp

theorem hasSchema_mset {u : List (Ty × Schema)} {k k' : Ty} {q : Schema} :
    HasSchema (mset u k q) k' ↔ (k' = k ∧ q ≠ .absent) ∨ (k' ≠ k ∧ HasSchema u k') := by
  unfold HasSchema
  rw [mget_mset]
  by_cases h : k' = k
  · subst h; simp
  · simp [h]

/-- Marking sets the schemas of the type and of a pointer's target, where there is none. -/
theorem mark_cases {s : St} {t : Ty} {q : Schema} (P : List (Ty × Schema) → Prop) (h0 : P s.used)
    (hset : ∀ u k, P u → (k = t ∨ t = .ptr k) → ¬ HasSchema u k → P (mset u k q)) :
    P (mark s t q).used := by
  unfold mark
  split
  · exact h0
  · rename_i hu
    have h1 : P (mset s.used t q) := hset _ _ h0 (Or.inl rfl) (fun h => hu (usedSome_iff.2 h))
    dsimp only
    split
    · split
      · exact h1
      · rename_i hu2
        exact hset _ _ h1 (Or.inr rfl) (fun h => hu2 (usedSome_iff.2 h))
    · exact h1

theorem mark_nodup {s : St} {t : Ty} {q : Schema} (h : (keys s.used).Nodup) :
    (keys (mark s t q).used).Nodup :=
  mark_cases (fun u => (keys u).Nodup) h (fun _ _ h _ _ => nodup_mset _ _ _ h)

/-- Marking never loses a schema. -/
theorem hasSchema_mark {s : St} {t k : Ty} {q : Schema} (h : HasSchema s.used k) :
    HasSchema (mark s t q).used k := by
  refine mark_cases (fun u => HasSchema u k) h ?_
  intro u k' h _ hn
  refine hasSchema_mset.2 (Or.inr ⟨?_, h⟩)
  rintro rfl; exact hn h

theorem ptr_ne (e : Ty) : Ty.ptr e ≠ e := by
  intro h
  have := congrArg sizeOf h
  simp at this

theorem hasSchema_marked {s : St} {t : Ty} {q : Schema} (h : q ≠ .absent) :
    HasSchema (mark s t q).used t := by
  unfold mark
  split
  · rename_i hu; exact usedSome_iff.1 hu
  · dsimp only
    have h1 : HasSchema (mset s.used t q) t := hasSchema_mset.2 (Or.inl ⟨rfl, h⟩)
    split
    · split
      · exact h1
      · exact hasSchema_mset.2 (Or.inr ⟨ptr_ne _, h1⟩)
    · exact h1

theorem mark_ptrs {s : St} {t : Ty} {q : Schema} (h : ∀ e, .ptr e ∈ keys s.used → e ∈ keys s.used)
    (ht : ∀ e, t = .ptr e → ∀ x, e ≠ .ptr x) :
    ∀ e, .ptr e ∈ keys (mark s t q).used → e ∈ keys (mark s t q).used := by
  intro e he
  rcases mark_ptr s t q _ he with h' | h' | ⟨e', rfl, h'⟩
  · exact mark_grow _ _ _ _ (h e h')
  · exact h'
  · exact absurd h'.symm (ht _ rfl e)

/-- Marking a body without a schema. -/
theorem gathered_body {c : Ctx} {B : Ty → Prop} {u : List (Ty × Schema)} {t : Ty}
    (h : Gathered c B u) (hB : B t) (hp : ∀ e, t ≠ .ptr e) :
    Gathered c B (mark { used := u } t .absent).used := by
  unfold mark
  split
  · exact h
  · dsimp only
    have hset : Gathered c B (mset u t .absent) := by
      refine ⟨?_, ?_, ?_, nodup_mset _ _ _ h.nodup⟩
      · intro x hx
        rcases mem_mset_kv hx with rfl | hx
        · exact Or.inr ⟨rfl, hB⟩
        · exact h.ent x hx
      · intro x hx r hr
        rcases mem_mset_kv hx with rfl | hx
        · cases hr
        · exact mem_keys_mset.2 (Or.inr (h.refs x hx r hr))
      · intro e he
        rcases mem_keys_mset.1 he with he | he
        · exact absurd he.symm (hp e)
        · exact mem_keys_mset.2 (Or.inr (h.ptrs e he))
    split
    · exact absurd rfl (hp _)
    · exact hset

theorem gathered_mono {c : Ctx} {B B' : Ty → Prop} {u : List (Ty × Schema)} (h : Gathered c B u)
    (hB : ∀ t, B t → B' t) : Gathered c B' u :=
  ⟨fun x hx => (h.ent x hx).imp id (fun h => ⟨h.1, hB _ h.2⟩), h.refs, h.ptrs, h.nodup⟩

theorem keyOk_ptr {c : Ctx} {k e : Ty} (h : KeyOk c k) (hk : k = .ptr e) :
    KeyOk c e ∧ ∀ x, e ≠ .ptr x := by
  rcases h with ⟨n, h⟩ | ⟨p, b, h, _⟩ | ⟨p, b, h, hn, _⟩
  · rw [h] at hk; cases hk
  · rw [h] at hk; cases hk
  · rw [h] at hk
    cases hk
    exact ⟨Or.inr (Or.inl ⟨p, b, rfl, Or.inl hn⟩), by simp⟩

/-- Marking the used types of a route keeps the entries in order, up to references
to those not marked yet. -/
theorem gathered_marks {c : Ctx} {B : Ty → Prop} (K : Ty → Prop) {l : List (Ty × Schema)}
    (hl : FitL c l) (hK : ∀ x ∈ l, ∀ r ∈ x.2.refs, K r) :
    ∀ {u : List (Ty × Schema)}, (∀ x ∈ u, Ent c x ∨ (x.2 = .absent ∧ B x.1)) →
    (∀ x ∈ u, ∀ r ∈ x.2.refs, r ∈ keys u ∨ K r) → (∀ e, .ptr e ∈ keys u → e ∈ keys u) →
    (keys u).Nodup →
    ∀ {u'}, u' = l.foldl (fun u kv => (mark { used := u } kv.1 kv.2).used) u →
    (∀ x ∈ u', Ent c x ∨ (x.2 = .absent ∧ B x.1)) ∧
    (∀ x ∈ u', ∀ r ∈ x.2.refs, r ∈ keys u' ∨ K r) ∧ (∀ e, .ptr e ∈ keys u' → e ∈ keys u') ∧
    (keys u').Nodup ∧ (∀ k ∈ keys u, k ∈ keys u') ∧ (∀ x ∈ l, x.1 ∈ keys u') ∧
    (∀ k, HasSchema u k → HasSchema u' k) ∧ (∀ x ∈ l, HasSchema u' x.1) := by
  induction l with
  | nil =>
    rintro u h1 h2 h3 h4 u' rfl
    exact ⟨h1, h2, h3, h4, fun _ h => h, by simp, fun _ h => h, by simp⟩
  | cons y r ih =>
    intro u h1 h2 h3 h4 u' hu'
    have hy := hl y List.mem_cons_self
    have hgrow := mark_grow { used := u } y.1 y.2
    have hhas := mark_has { used := u } y.1 y.2
    obtain ⟨a1, a2, a3, a4, a5, a6, a7, a8⟩ := ih
      (fun x hx => hl x (List.mem_cons_of_mem _ hx))
      (fun x hx => hK x (List.mem_cons_of_mem _ hx))
      (u := (mark { used := u } y.1 y.2).used) (by
        refine mark_cases (fun u => ∀ x ∈ u, Ent c x ∨ (x.2 = .absent ∧ B x.1)) h1 ?_
        intro u k hu hk _ x hx
        rcases mem_mset_kv hx with rfl | hx
        · refine Or.inl ⟨?_, hy.ne, hy.refs⟩
          rcases hk with rfl | hk
          · exact hy.key
          · exact (keyOk_ptr hy.key hk).1
        · exact hu x hx)
      (by
        intro x hx r' hr'
        rcases mark_mem _ _ _ _ hx with h | h
        · exact (h2 x h r' hr').imp (hgrow _) id
        · rw [h] at hr'
          exact Or.inr (hK y List.mem_cons_self r' hr'))
      (mark_ptrs h3 (fun e he => (keyOk_ptr hy.key he).2)) (mark_nodup h4) hu'
    refine ⟨a1, a2, a3, a4, fun k hk => a5 k (hgrow k hk), ?_, ?_, ?_⟩
    · intro x hx
      rcases List.mem_cons.1 hx with rfl | hx
      · exact a5 _ hhas
      · exact a6 x hx
    · exact fun k hk => a7 k (hasSchema_mark (s := { used := u }) hk)
    · intro x hx
      rcases List.mem_cons.1 hx with rfl | hx
      · exact a7 _ (hasSchema_marked hy.ne)
      · exact a8 x hx

theorem gathered_bodies {c : Ctx} {B : Ty → Prop} {l : List Ty} (hB : ∀ t ∈ l, B t)
    (hp : ∀ t ∈ l, ∀ e, t ≠ .ptr e) :
    ∀ {u}, Gathered c B u →
    ∀ {u'}, u' = l.foldl (fun u t => (mark { used := u } t .absent).used) u →
    Gathered c B u' ∧ (∀ k ∈ keys u, k ∈ keys u') ∧ (∀ k, HasSchema u k → HasSchema u' k) := by
  induction l with
  | nil => rintro u h u' rfl; exact ⟨h, fun _ h => h, fun _ h => h⟩
  | cons y r ih =>
    intro u h u' hu'
    obtain ⟨a1, a2, a3⟩ := ih (fun t ht => hB t (List.mem_cons_of_mem _ ht))
      (fun t ht => hp t (List.mem_cons_of_mem _ ht))
      (gathered_body h (hB y List.mem_cons_self) (hp y List.mem_cons_self)) hu'
    exact ⟨a1, fun k hk => a2 k (mark_grow { used := u } _ _ k hk),
      fun k hk => a3 k (hasSchema_mark (s := { used := u }) hk)⟩

/-- One route. -/
theorem gathered_route {c : Ctx} {B : Ty → Prop} {u : List (Ty × Schema)} {r : RouteTypes}
    (h : Gathered c B u) (hf : FitL c r.used) (hc : Closed r.used) (hB : ∀ t ∈ r.bodies, B t)
    (hp : ∀ t ∈ r.bodies, ∀ e, t ≠ .ptr e) {u' : List (Ty × Schema)} (hu' : u' = collectRoute u r) :
    Gathered c B u' ∧ (∀ k ∈ keys u, k ∈ keys u') ∧ (∀ k, HasSchema u k → HasSchema u' k) ∧
      ∀ k ∈ keys r.used, HasSchema u' k ∧ k ∈ keys u' := by
  obtain ⟨b1, b2, b3⟩ := gathered_bodies hB hp h rfl
  obtain ⟨a1, a2, a3, a4, a5, a6, a7, a8⟩ := gathered_marks (B := B) (fun t => t ∈ keys r.used) hf
    (fun x hx r hr => hc.refs x.1 x.2 hx r hr) b1.ent
    (fun x hx r hr => Or.inl (b1.refs x hx r hr)) b1.ptrs b1.nodup hu'
  have hk : ∀ k ∈ keys r.used, k ∈ keys u' := by
    intro k hk
    obtain ⟨x, hx, rfl⟩ := List.mem_map.1 hk
    exact a6 x hx
  refine ⟨⟨a1, ?_, a3, a4⟩, fun k h => a5 k (b2 k h), fun k h => a7 k (b3 k h), ?_⟩
  · intro x hx r hr
    rcases a2 x hx r hr with h | h
    · exact h
    · exact hk r h
  · intro k h
    refine ⟨?_, hk k h⟩
    obtain ⟨x, hx, rfl⟩ := List.mem_map.1 h
    exact a8 x hx

/-- All routes. -/
theorem gathered_collect {c : Ctx} {B : Ty → Prop} {routes : List RouteTypes} :
    (∀ r ∈ routes, FitL c r.used ∧ Closed r.used ∧ (∀ t ∈ r.bodies, B t) ∧
      ∀ t ∈ r.bodies, ∀ e, t ≠ .ptr e) →
    ∀ {u}, Gathered c B u → ∀ {u'}, u' = routes.foldl collectRoute u →
    Gathered c B u' ∧ (∀ k ∈ keys u, k ∈ keys u') ∧ (∀ k, HasSchema u k → HasSchema u' k) ∧
      ∀ r ∈ routes, ∀ k ∈ keys r.used, HasSchema u' k ∧ k ∈ keys u' := by
  induction routes with
  | nil => rintro _ u h u' rfl; exact ⟨h, fun _ h => h, fun _ h => h, by simp⟩
  | cons y r ih =>
    intro hr u h u' hu'
    obtain ⟨y1, y2, y3, y4⟩ := hr y List.mem_cons_self
    obtain ⟨b1, b2, b3, b4⟩ := gathered_route h y1 y2 y3 y4 rfl
    obtain ⟨a1, a2, a3, a4⟩ := ih (fun r h => hr r (List.mem_cons_of_mem _ h)) b1 hu'
    refine ⟨a1, fun k h => a2 k (b2 k h), fun k h => a3 k (b3 k h), ?_⟩
    intro x hx k hk
    rcases List.mem_cons.1 hx with rfl | hx
    · exact ⟨a3 k (b4 k hk).1, a2 k (b4 k hk).2⟩
    · exact a4 x hx k hk

/-! ## Writing the components -/

/-- A type without a schema that gets no component and needs none. -/
def Quiet (c : Ctx) (k : Ty) : Prop := ¬ NamedInside k ∨ InPlace c k

theorem core_named {t : Ty} {p b : String} (h : core t = .name p b) : NamedInside t := by
  induction t with
  | name => trivial
  | ptr e ih => exact ih h
  | slice e ih => exact ih h
  | arr n e ih => exact ih h
  | _ => cases h

/-- What the components refer to. -/
def CompsOk (c : Ctx) (U : List (Ty × Schema)) (comps : Comps) : Prop :=
  ∀ x ∈ comps, ∀ r ∈ x.2.refs, r ∈ keys U ∧ RefOk c r

theorem compsOk_mset {c U comps k q} (h : CompsOk c U comps)
    (hq : ∀ r ∈ q.refs, r ∈ keys U ∧ RefOk c r) : CompsOk c U (mset comps k q) := by
  intro x hx
  rcases mem_mset_kv hx with rfl | hx
  · exact hq
  · exact h x hx

theorem emit_step {c : Ctx} (hT : PlainTable c) {U : List (Ty × Schema)}
    (hU : Gathered c (Quiet c) U) {f : Nat} {comps : Comps} {key : Ty} (hkey : key ∈ keys U)
    (hc : CompsOk c U comps) {u' : List (Ty × Schema)} {comps' : Comps}
    (h : emit c f (U, comps) key = some (u', comps')) :
    u' = U ∧ CompsOk c U comps' ∧ (∀ k ∈ keys comps, k ∈ keys comps') ∧
      (RefOk c key → key ∈ keys comps') := by
  unfold emit at h
  dsimp only at h
  split at h
  · rename_i ha
    simp only [Option.some.injEq, Prod.mk.injEq] at h
    obtain ⟨rfl, rfl⟩ := h
    refine ⟨rfl, hc, fun _ h => h, ?_⟩
    rintro ⟨p, b, rfl, hn, _⟩
    exfalso
    simp only [emit.anonKey, leaf] at ha
    exact hn.2 ((isInfix_iff _ _).1 ha)
  · -- the user's external type first
    generalize hc1 : emit.asked c key comps = comps1 at h
    have h1 : CompsOk c U comps1 ∧ ∀ k ∈ keys comps, k ∈ keys comps1 := by
      subst hc1
      unfold emit.asked
      split
      · rename_i q hq
        refine ⟨compsOk_mset hc (by rw [hT.extGen _ q hq]; simp), ?_⟩
        exact fun k hk => mem_keys_mset.2 (Or.inr hk)
      · exact ⟨hc, fun _ h => h⟩
    obtain ⟨hc', hg'⟩ := h1
    split at h
    · rename_i q hq
      obtain ⟨_, hrefs, hne⟩ := hT.extern key q hq
      simp only [Option.some.injEq, Prod.mk.injEq] at h
      obtain ⟨rfl, rfl⟩ := h
      refine ⟨rfl, ?_⟩
      split
      · refine ⟨compsOk_mset hc' (by rw [hrefs]; simp),
          fun k hk => mem_keys_mset.2 (Or.inr (hg' k hk)), fun _ => mem_keys_mset.2 (Or.inl rfl)⟩
      · rename_i hs
        refine ⟨hc', hg', ?_⟩
        rintro ⟨p, b, rfl, _, hx⟩
        exfalso
        have := (inlineExt_false c _).2 hx
        simp only [inlineExt, hq] at this
        apply hs
        simp [this, hne]
    · rename_i hext
      have hnx : ¬ InPlace c key := not_inPlace hext
      split at h
      · rename_i hlk
        simp only [Option.some.injEq, Prod.mk.injEq] at h
        obtain ⟨rfl, rfl⟩ := h
        refine ⟨rfl, ?_⟩
        split
        · exact ⟨compsOk_mset hc' (by simp [Schema.refs]),
            fun k hk => mem_keys_mset.2 (Or.inr (hg' k hk)), fun _ => mem_keys_mset.2 (Or.inl rfl)⟩
        · rename_i hh
          refine ⟨hc', hg', ?_⟩
          rintro ⟨p, b, rfl, hn, _⟩
          rw [canAddRef_name, (refable_iff b).2 hn] at hh
          simp only [Bool.true_and, Option.isNone_iff_eq_none] at hh
          cases hm : mget comps1 (.name p b) with
          | none => exact absurd hm hh
          | some q => exact key_of_mget hm
      · rename_i d hlk
        have hnp : isPrim key = false ∧ ∃ p b, core key = .name p b ∧ c.find p b = some d := by
          unfold emit.lookup at hlk
          split at hlk
          · cases hlk
          · rename_i hp
            split at hlk
            · rename_i p b he
              exact ⟨Bool.eq_false_iff.2 hp, p, b, he, hlk⟩
            · cases hlk
        obtain ⟨hnp, p, b, hcore, hfind⟩ := hnp
        -- the type has a schema
        obtain ⟨x, hx, rfl⟩ := List.mem_map.1 hkey
        obtain ⟨k, v⟩ := x
        dsimp only at *
        have hent : Ent c (k, v) := by
          rcases hU.ent _ hx with h | ⟨_, h | h⟩
          · exact h
          · exact absurd (core_named hcore) h
          · exact absurd h hnx
        have hmget : mget U k = some v := mget_of_mem hU.nodup hx
        have hname : canAddRef k = true ∧ derive k = .name p b ∧ Nameable b ∧
            ¬ InPlace c (.name p b) := by
          rcases hent.key with ⟨n, e⟩ | ⟨p', b', e, hn⟩ | ⟨p', b', e, hn, hx'⟩
          · dsimp only at e; subst e; cases hnp
          · dsimp only at e
            subst e
            simp only [core, Ty.name.injEq] at hcore
            obtain ⟨rfl, rfl⟩ := hcore
            have hn : Nameable b' := by
              rcases hn with hn | hn
              · exact hn
              · rw [hn] at hfind; cases hfind
            exact ⟨by rw [canAddRef_name]; exact (refable_iff _).2 hn, rfl, hn, hnx⟩
          · dsimp only at e
            subst e
            simp only [core, Ty.name.injEq] at hcore
            obtain ⟨rfl, rfl⟩ := hcore
            refine ⟨?_, rfl, hn, hx'⟩
            simp [canAddRef, isPrim, derive, isSlice, hasMap, hasLit, core, (refable_iff b').2 hn]
        obtain ⟨hcan, hder, hn, hx'⟩ := hname
        have hplan : planDecl c { used := U } k d =
            .done (addRef k, [(k, v)], { used := U, gen := [k] }) := by
          unfold planDecl
          have hu : usedSome { used := U, gen := [k] } k = true :=
            usedSome_iff.2 ⟨v, hmget, hent.ne⟩
          simp [hu, hcan, hmget]
        unfold mapDecl at h
        rw [hplan] at h
        split at h
        · cases h
        · rename_i q out s hr
          have hr' := run_done hr
          simp only [Prod.mk.injEq] at hr'
          obtain ⟨rfl, rfl, rfl⟩ := hr'
          simp only [Option.some.injEq, Prod.mk.injEq] at h
          obtain ⟨rfl, rfl⟩ := h
          refine ⟨rfl, ?_, ?_, ?_⟩
          · have hne : addRef k ≠ .absent := by intro h; cases h
            rw [if_neg hne]
            refine compsOk_mset (compsOk_mset hc' ?_) ?_
            · intro r hr
              simp only [addRef, hder, Schema.refs, List.mem_singleton] at hr
              subst hr
              refine ⟨?_, p, b, rfl, hn, hx'⟩
              cases k with
              | ptr e => simp only [derive] at hder; subst hder; exact hU.ptrs _ hkey
              | _ => simp only [derive] at hder <;> rw [← hder] <;> exact hkey
            · exact fun r hr => ⟨hU.refs _ hx r hr, hent.refs r hr⟩
          · intro k' hk'
            have hne : addRef k ≠ .absent := by intro h; cases h
            rw [if_neg hne]
            exact mem_keys_copy.2 (Or.inl (mem_keys_mset.2 (Or.inr (hg' k' hk'))))
          · exact fun _ => mem_keys_copy.2 (Or.inr (by simp [keys]))

theorem emit_fold {c : Ctx} (hT : PlainTable c) {U : List (Ty × Schema)}
    (hU : Gathered c (Quiet c) U) {f : Nat} : ∀ {order : List Ty} {comps : Comps},
    (∀ k ∈ order, k ∈ keys U) → CompsOk c U comps →
    ∀ {r}, order.foldl (fun st key => st.bind fun st => emit c f st key) (some (U, comps)) =
      some r →
    CompsOk c U r.2 ∧ (∀ k ∈ keys comps, k ∈ keys r.2) ∧
      ∀ k ∈ order, RefOk c k → k ∈ keys r.2
  | [], comps, _, hc, r, h => by
    obtain rfl := Option.some.inj h
    exact ⟨hc, fun _ h => h, by simp⟩
  | k :: ks, comps, ho, hc, r, h => by
    rw [List.foldl_cons, Option.bind_some] at h
    cases he : emit c f (U, comps) k with
    | none =>
      rw [he] at h
      have : ∀ ks : List Ty, ks.foldl (fun st key => st.bind fun st => emit c f st key) none =
          none := by
        intro ks
        induction ks with
        | nil => rfl
        | cons _ _ ih => rw [List.foldl_cons]; exact ih
      rw [this] at h; cases h
    | some st =>
      obtain ⟨u', comps'⟩ := st
      rw [he] at h
      obtain ⟨rfl, a1, a2, a3⟩ := emit_step hT hU (ho k List.mem_cons_self) hc he
      obtain ⟨b1, b2, b3⟩ := emit_fold hT hU (fun x hx => ho x (List.mem_cons_of_mem _ hx)) a1 h
      refine ⟨b1, fun k hk => b2 k (a2 k hk), ?_⟩
      intro x hx hr
      rcases List.mem_cons.1 hx with rfl | hx
      · exact b2 _ (a3 hr)
      · exact b3 x hx hr

/-! ## The theorem -/

/-- A route as the generator sees it: the types mapped for it, and those among them that
are bodies. -/
structure RouteIn where
  types : List Ty
  bodies : List Ty

/-- Mapping the types of every route; `none` when the fuel runs out. -/
def mapRoutes (c : Ctx) (f : Nat) : List RouteIn → Option (List (List Schema × RouteTypes))
  | [] => some []
  | r :: rs =>
    match forRouteAll c f [] r.types with
    | none => none
    | some (qs, used) =>
      match mapRoutes c f rs with
      | none => none
      | some rest => some ((qs, { bodies := r.bodies.map bodyKey, used := used }) :: rest)

theorem forRouteAll_body {c : Ctx} (hT : PlainTable c) {f : Nat} :
    ∀ {ts : List Ty} {used qs used'}, (∀ t ∈ ts, Plain t) → Closed used →
    forRouteAll c f used ts = some (qs, used') → ∀ t ∈ ts, BodyOk c t → ∀ {p b}, Nameable b →
    bodyKey t = .name p b → .name p b ∈ keys used' ∨ InPlace c (.name p b)
  | [], used, qs, used', _, _, _, t, ht, _ => by cases ht
  | t :: ts, used, qs, used', hp, hu, h, x, hx, hb => by
    intro hn hk
    rw [forRouteAll] at h
    split at h
    · cases h
    · rename_i q used1 h1
      split at h
      · cases h
      · rename_i qs2 used2 h2
        simp only [Option.some.injEq, Prod.mk.injEq] at h
        obtain ⟨rfl, rfl⟩ := h
        have a := C44_route_refs hT (hp t (by simp)) hu h1
        have hp' : ∀ x ∈ ts, Plain x := fun x hx => hp x (List.mem_cons_of_mem _ hx)
        rcases List.mem_cons.1 hx with rfl | hx
        · rcases C44_body_used hT hu hb hn hk h1 with h | h
          · exact Or.inl ((C44_routes_refs hT hp' a.2 h2).2.2 _ h)
          · exact Or.inr h
        · exact forRouteAll_body hT hp' a.2 h2 x hx hb hn hk

theorem mapRoutes_mem {c : Ctx} {f : Nat} : ∀ {rs : List RouteIn} {out},
    mapRoutes c f rs = some out → ∀ x ∈ out, ∃ r ∈ rs, forRouteAll c f [] r.types =
      some (x.1, x.2.used) ∧ x.2.bodies = r.bodies.map bodyKey
  | [], out, h => by
    obtain rfl := Option.some.inj h
    simp
  | r :: rs, out, h => by
    rw [mapRoutes] at h
    split at h
    · cases h
    · rename_i qs used h1
      split at h
      · cases h
      · rename_i rest h2
        obtain rfl := Option.some.inj h
        intro x hx
        rcases List.mem_cons.1 hx with rfl | hx
        · exact ⟨r, List.mem_cons_self, h1, rfl⟩
        · obtain ⟨r', hr', h'⟩ := mapRoutes_mem h2 x hx
          exact ⟨r', List.mem_cons_of_mem _ hr', h'⟩

/-- What mapping and collecting leave. -/
theorem document_gathered {c : Ctx} (hT : PlainTable c) (hF : FitTable c)
    {rs : List RouteIn}
    (hrs : ∀ r ∈ rs, (∀ t ∈ r.types, Plain t ∧ Tame t) ∧ ∀ t ∈ r.bodies, t ∈ r.types ∧ BodyOk c t)
    {f : Nat} {routes : List (List Schema × RouteTypes)} (h1 : mapRoutes c f rs = some routes) :
    Gathered c (Quiet c) (collect (routes.map (·.2))) ∧
    (∀ x ∈ routes, FitL c x.2.used) ∧
    ∀ x ∈ routes, ∀ q ∈ x.1, ∀ r ∈ q.refs, r ∈ keys (collect (routes.map (·.2))) ∧ RefOk c r := by
  have hmem := mapRoutes_mem h1
  have hclosed0 : Closed [] := ⟨by simp, by simp [keys]⟩
  -- what each route leaves
  have hroute : ∀ x ∈ routes, FitL c x.2.used ∧ Closed x.2.used ∧
      (∀ q ∈ x.1, ∀ r ∈ q.refs, r ∈ keys x.2.used ∧ RefOk c r) ∧
      ∀ t ∈ x.2.bodies, (∀ e, t ≠ .ptr e) ∧ (Quiet c t ∨ t ∈ keys x.2.used) := by
    intro x hx
    obtain ⟨r, hr, h3, h4⟩ := hmem x hx
    obtain ⟨hty, hbo⟩ := hrs r hr
    obtain ⟨a1, a2⟩ := fit_forRouteAll hT hF (fun t ht => (hty t ht).1) (fun t ht => (hty t ht).2)
      (fit_nil c) h3
    obtain ⟨b1, b2, b3⟩ := C44_routes_refs hT (fun t ht => (hty t ht).1) hclosed0 h3
    refine ⟨a1, b2, fun q hq r hr => ⟨b1 q hq r hr, a2 q hq r hr⟩, ?_⟩
    intro k hk
    rw [h4] at hk
    obtain ⟨t, ht, rfl⟩ := List.mem_map.1 hk
    obtain ⟨hmt, hb⟩ := hbo t ht
    have hleft := fun {p b} (hn : Nameable b) (he : bodyKey t = .name p b) =>
      forRouteAll_body hT (fun t ht => (hty t ht).1) hclosed0 h3 t hmt hb hn he
    have htame := (hty t hmt).2
    have hplain := (hty t hmt).1
    have hnamed : ∀ {p b}, bodyKey t = .name p b → Nameable b →
        (∀ e, bodyKey t ≠ .ptr e) ∧ (Quiet c (bodyKey t) ∨ bodyKey t ∈ keys x.2.used) := by
      intro p b he hn
      rw [he]
      refine ⟨by simp, ?_⟩
      rcases hleft hn he with h | h
      · exact Or.inr h
      · exact Or.inl (Or.inr h)
    rcases hb with ⟨p, b, rfl | rfl⟩ | ⟨p, b, rfl | rfl, _⟩ | hb
    · exact hnamed rfl htame
    · exact hnamed rfl htame
    · exact hnamed rfl htame
    · exact hnamed rfl htame
    · constructor
      · intro e he
        cases t with
        | slice s' =>
          cases s' with
          | ptr y =>
            simp only [bodyKey, derive] at he
            subst he
            exact absurd rfl (hplain.1 e)
          | _ => cases he
        | ptr y =>
          simp only [bodyKey, derive] at he
          subst he
          exact absurd rfl (hplain.1 e)
        | _ => cases he
      · refine Or.inl (Or.inl fun h => hb ?_)
        cases t with
        | slice s' => cases s' <;> exact h
        | ptr y => exact h
        | _ => exact h
  -- what collecting leaves
  obtain ⟨g1, _, _, g4⟩ := gathered_collect (c := c)
    (B := fun k => Quiet c k ∨ ∃ x ∈ routes, k ∈ keys x.2.used) (routes := routes.map (·.2))
    (by
      intro r hr
      obtain ⟨x, hx, rfl⟩ := List.mem_map.1 hr
      obtain ⟨c1, c2, _, c4⟩ := hroute x hx
      exact ⟨c1, c2, fun t ht => (c4 t ht).2.imp id (fun h => ⟨x, hx, h⟩), fun t ht => (c4 t ht).1⟩)
    (u := []) ⟨by simp, by simp, by simp [keys], by simp [keys]⟩ rfl
  have hU : Gathered c (Quiet c) (collect (routes.map (·.2))) := by
    refine ⟨?_, g1.refs, g1.ptrs, g1.nodup⟩
    intro x hx
    rcases g1.ent x hx with h | ⟨h, h' | ⟨y, hy, hk⟩⟩
    · exact Or.inl h
    · exact Or.inr ⟨h, h'⟩
    · exfalso
      obtain ⟨q, hq, hne⟩ := (g4 y.2 (List.mem_map.2 ⟨y, hy, rfl⟩) x.1 hk).1
      have : mget (collect (routes.map (·.2))) x.1 = some x.2 := mget_of_mem g1.nodup hx
      unfold collect at this
      rw [hq] at this
      exact hne ((Option.some.inj this).trans h)
  refine ⟨hU, fun x hx => (hroute x hx).1, fun x hx q hq r hr => ?_⟩
  obtain ⟨k1, k2⟩ := (hroute x hx).2.2.1 q hq r hr
  exact ⟨(g4 x.2 (List.mem_map.2 ⟨x, hx, rfl⟩) r k1).2, k2⟩

/-- **C44 (references), the whole document.**  Map any types for any routes, collect what
they use and write the components, in any order.  Then every reference, in a route's
schema or in a component, is to a component that was written. -/
theorem C44_document_refs_partial {c : Ctx} (hT : PlainTable c) (hF : FitTable c)
    {rs : List RouteIn}
    (hrs : ∀ r ∈ rs, (∀ t ∈ r.types, Plain t ∧ Tame t) ∧ ∀ t ∈ r.bodies, t ∈ r.types ∧ BodyOk c t)
    {f g : Nat} {routes : List (List Schema × RouteTypes)} (h1 : mapRoutes c f rs = some routes)
    {order : List Ty} (ho : ∀ k, k ∈ order ↔ k ∈ keys (collect (routes.map (·.2))))
    {comps : Comps} (h2 : generate c g (collect (routes.map (·.2))) order [] = some comps) :
    (∀ x ∈ routes, ∀ q ∈ x.1, ∀ r ∈ q.refs, r ∈ keys comps) ∧
    ∀ k q, (k, q) ∈ comps → ∀ r ∈ q.refs, r ∈ keys comps := by
  obtain ⟨hU, _, hq⟩ := document_gathered hT hF hrs h1
  unfold generate at h2
  simp only [Option.map_eq_some_iff] at h2
  obtain ⟨r, hr, rfl⟩ := h2
  obtain ⟨e1, _, e3⟩ := emit_fold hT hU (fun k hk => (ho k).1 hk) (by intro x hx; cases hx) hr
  refine ⟨?_, ?_⟩
  · intro x hx q hq' r' hr'
    obtain ⟨k1, k2⟩ := hq x hx q hq' r' hr'
    exact e3 r' ((ho r').2 k1) k2
  · intro k q hkq r' hr'
    obtain ⟨k1, k2⟩ := e1 _ hkq r' hr'
    exact e3 r' ((ho r').2 k1) k2

theorem exTree_fit : FitTable exTree where
  types := by
    intro p b d h t ht
    simp only at h
    have hs : ∀ n, n ∈ ["Node", "Kind", "Forest", "string"] → Nameable n := by
      intro n hn
      simp only [List.mem_cons, List.not_mem_nil, or_false] at hn
      rcases hn with rfl | rfl | rfl | rfl <;> (rw [← refable_iff]; decide)
    split at h
    · obtain rfl := Option.some.inj h
      simp only [Decl.types, Body.types, List.cons_append, List.nil_append, List.mem_cons,
        List.not_mem_nil, or_false] at ht
      rcases ht with rfl | rfl | rfl | rfl <;> exact hs _ (by decide)
    · split at h
      · obtain rfl := Option.some.inj h
        simp only [Decl.types, Option.toList, List.mem_singleton] at ht
        subst ht; exact hs _ (by decide)
      · split at h
        · obtain rfl := Option.some.inj h
          simp only [Decl.types, List.mem_singleton] at ht
          subst ht; exact hs _ (by decide)
        · cases h
  solid := by
    intro p b d h
    simp only at h
    split at h
    · obtain rfl := Option.some.inj h; trivial
    · split at h
      · obtain rfl := Option.some.inj h; trivial
      · split at h
        · obtain rfl := Option.some.inj h
          simp [Decl.solid, Ident.ty, Solid, Documented]
        · cases h
  conf := by intro t q h; cases h
  extGen := by intro t q h; cases h
  bare := by
    rintro b (⟨k, h⟩ | ⟨k, h⟩) <;> cases h
  subs := by
    intro p b d h
    simp only at h
    split at h
    · obtain rfl := Option.some.inj h
      exact ⟨by decide, trivial, trivial⟩
    · split at h
      · obtain rfl := Option.some.inj h; trivial
      · split at h
        · obtain rfl := Option.some.inj h; trivial
        · cases h

/-- Two routes: one answers `[]Node` and takes a `Forest`, the other takes a `*Kind`. -/
@[reducible] def exRoutes : List RouteIn :=
  [⟨[.slice (.name "p" "Node"), .name "p" "Forest"], [.slice (.name "p" "Node")]⟩,
   ⟨[.ptr (.name "p" "Kind")], [.ptr (.name "p" "Kind")]⟩]

/-- The hypotheses of the theorem hold of them. -/
example : ∀ r ∈ exRoutes, (∀ t ∈ r.types, Plain t ∧ Tame t) ∧
    ∀ t ∈ r.bodies, t ∈ r.types ∧ BodyOk exTree t := by
  have hs : ∀ n, n ∈ ["Node", "Kind", "Forest", "string"] → Nameable n := by
    intro n hn
    simp only [List.mem_cons, List.not_mem_nil, or_false] at hn
    rcases hn with rfl | rfl | rfl | rfl <;> (rw [← refable_iff]; decide)
  intro r hr
  simp only [List.mem_cons, List.not_mem_nil, or_false] at hr
  rcases hr with rfl | rfl
  · refine ⟨?_, ?_⟩
    · intro t ht
      simp only [List.mem_cons, List.not_mem_nil, or_false] at ht
      rcases ht with rfl | rfl
      · exact ⟨by simp [Plain], hs _ (by decide)⟩
      · exact ⟨by simp [Plain], hs _ (by decide)⟩
    · intro t ht
      simp only [List.mem_singleton] at ht
      subst ht
      refine ⟨by decide, Or.inr (Or.inl ⟨_, _, Or.inl rfl, ?_⟩)⟩
      intro pkg u h
      have h : some _ = some _ := h
      simp at h
  · refine ⟨?_, ?_⟩
    · intro t ht
      simp only [List.mem_singleton] at ht
      subst ht
      exact ⟨by simp [Plain], hs _ (by decide)⟩
    · intro t ht
      simp only [List.mem_singleton] at ht
      subst ht
      exact ⟨by decide, Or.inl ⟨_, _, Or.inr rfl⟩⟩

example : ((mapRoutes exTree 60 exRoutes).bind fun r =>
    (generate exTree 60 (collect (r.map (·.2))) (keys (collect (r.map (·.2)))) []).map keys) =
    some [.name "p" "Node", .name "p" "Forest", .name "p" "Kind"] := by decide

/-! ### Where the code falls short -/

/-- **C44, the failure for overridden bodies.**  A body that the configuration's
`overrides` name, and that no route maps, is used without a schema.  When its type is
recursive, its component is a reference to itself and says nothing about the type. -/
theorem C44_override_refers_to_itself :
    ∃ comps, generate exTree 60 [(.name "p" "Node", .absent)] [.name "p" "Node"] [] = some comps ∧
      mget comps (.name "p" "Node") = some (.ref (.name "p" "Node")) :=
  ⟨[(.name "p" "Node", .ref (.name "p" "Node")),
    (.name "p" "Forest", .mapOf (.ref (.name "p" "Node")))], by decide, by decide⟩

/-- `type User struct { Name string }`. -/
@[reducible] def exFlat : Ctx where
  find _ b := if b = "User" then some (.struct "p" (.field "name" (.prim "string") .done)) else none

/-- **C44, the failure for nested slices.**  A body of type `[][]User` leaves a component
named after `[]User` that describes a single `User`. -/
theorem C44_slice_component :
    ∃ r comps, mapRoutes exFlat 60 [⟨[.slice (.slice (.name "p" "User"))],
        [.slice (.slice (.name "p" "User"))]⟩] = some r ∧
      generate exFlat 60 (collect (r.map (·.2))) (keys (collect (r.map (·.2)))) [] = some comps ∧
      mget comps (.slice (.name "p" "User")) = some (.prop "name" (.scalar "string") .obj) :=
  ⟨[([.array (.array (.ref (.name "p" "User")))],
      { bodies := [.slice (.name "p" "User")]
        used := [(.name "p" "User", .prop "name" (.scalar "string") .obj)] })],
    [(.slice (.name "p" "User"), .prop "name" (.scalar "string") .obj),
     (.name "p" "User", .prop "name" (.scalar "string") .obj)],
    by decide, by decide, by decide⟩

end Verif.SchemaGen
