import Verif.RefsSpec
/-! # Lemmas relating the walk to the specification -/

namespace Verif.Refs
open Verif.Common

theorem nodup_lt_length_le : ∀ (n : Nat) (l : List Nat), l.Nodup → (∀ x ∈ l, x < n) → l.length ≤ n := by
  intro n
  induction n with
  | zero => intro l _ h; cases l with
    | nil => simp
    | cons a t => exact absurd (h a (by simp)) (by omega)
  | succ n ih =>
    intro l hn h
    by_cases hm : n ∈ l
    · have hn' := hn.erase n
      have := ih (l.erase n) hn' (by
        intro x hx
        have h1 := h x (List.mem_of_mem_erase hx)
        have h2 : x ≠ n := by
          intro e; subst e
          exact hn.not_mem_erase hx
        omega)
      have := List.length_erase_of_mem hm
      omega
    · have := ih l hn (by
        intro x hx
        have h1 := h x hx
        have h2 : x ≠ n := by intro e; subst e; exact hm hx
        omega)
      omega

theorem mem_kids (s : Schema) (p : Ptr) : p ∈ kids s ↔ Holds s p := by
  simp only [kids, Holds, List.mem_append, List.mem_map, Prod.exists, List.mem_cons, List.not_mem_nil,
    or_false, exists_eq_right, eq_comm (a := p)]
  grind

theorem fields_perm_kids (s : Schema) : (fields s).Perm (kids s) := by
  rw [List.perm_iff_count]
  intro a
  simp only [fields, kids, List.count_append, List.count_cons, List.count_nil]
  omega

theorem toList_ofList (l : List Char) : (String.ofList l).toList = l := by simp

/-- `componentSchemaName` for an arbitrary prefix. -/
def stripName (pre ref : List Char) : Option String :=
  if ref = [] ∨ ¬ (pre.isPrefixOf ref) then none
  else
    let name := ref.drop pre.length
    if name = [] then none else some (String.ofList name)

theorem stripName_iff (pre ref : List Char) (name : String) :
    stripName pre ref = some name ↔ name ≠ "" ∧ ref = pre ++ name.toList := by
  unfold stripName
  constructor
  · intro h
    split at h
    · simp at h
    · rename_i h1
      simp only [not_or, Decidable.not_not] at h1
      obtain ⟨h1, h2⟩ := h1
      obtain ⟨t, ht⟩ := List.isPrefixOf_iff_prefix.mp h2
      subst ht
      simp only [List.drop_left'] at h
      split at h
      · simp at h
      · rename_i h3
        simp only [Option.some.injEq] at h
        subst h
        refine ⟨?_, ?_⟩
        · intro e
          have := congrArg String.toList e
          simp at this
          simp_all
        · simp
  · rintro ⟨h1, h2⟩
    have hne : name.toList ≠ [] := by
      intro e; apply h1; apply String.toList_inj.mp; rw [e]; rfl
    subst h2
    have hp : pre.isPrefixOf (pre ++ name.toList) = true :=
      List.isPrefixOf_iff_prefix.mpr ⟨_, rfl⟩
    rw [if_neg (by rw [hp]; simp [hne])]
    simp [hne]

theorem componentSchemaName_iff (ref : List Char) (name : String) :
    componentSchemaName ref = some name ↔ IsRefTo ref name :=
  stripName_iff refPrefix ref name

theorem stripName_toList (pre ref : List Char) (n : Nat) (hn : pre.length = n) :
    (stripName pre ref).toList =
      if pre.isPrefixOf ref ∧ ref.length > n then [String.ofList (ref.drop n)] else [] := by
  unfold stripName
  by_cases hp : pre.isPrefixOf ref = true
  · obtain ⟨t, ht⟩ := List.isPrefixOf_iff_prefix.mp hp
    have hlen : ref.length = n + t.length := by rw [← ht]; simp [hn]
    have hd : ref.drop n = t := by rw [← ht]; exact List.drop_left' hn
    rw [hn, hd]
    cases t with
    | nil => simp at hlen; simp [hlen]
    | cons a t =>
      have h1 : ref.length > n := by rw [hlen]; simp
      have h2 : ref ≠ [] := by intro e; simp [e] at h1
      simp [hp, h1, h2]
  · simp [hp]

theorem componentSchemaName_toList (ref : List Char) :
    (componentSchemaName ref).toList = nameOf ref :=
  stripName_toList refPrefix ref 21 (by decide)

/-! ## Completeness of the walk on possibly cyclic heaps -/

/-- A path all of whose cells avoid `P`. -/
inductive PathAvoid (h : Heap) (P : List Nat) : Nat → Nat → Prop
  | refl {a} : a ∉ P → PathAvoid h P a a
  | step {a b c} : a ∉ P → Edge h a b → PathAvoid h P b c → PathAvoid h P a c

theorem PathAvoid.start {h P a b} (p : PathAvoid h P a b) : a ∉ P := by cases p <;> assumption

theorem PathAvoid.of_reach {h a b} (r : Reach h a b) : PathAvoid h [] a b := by
  induction r with
  | refl a => exact .refl (by simp)
  | step e _ ih => exact .step (by simp) e ih

/-- Cut a path at its last visit of `x`. -/
theorem PathAvoid.cut {h P c b} (x : Nat) (hb : b ≠ x) (p : PathAvoid h P c b) :
    PathAvoid h (x :: P) c b ∨ ∃ k, Edge h x k ∧ PathAvoid h (x :: P) k b := by
  induction p with
  | refl hP => left; exact .refl (by simp [hb, hP])
  | @step a b' c' hP e _ ih =>
    rcases ih hb with ih | ih
    · by_cases hc : a = x
      · subst hc; right; exact ⟨_, e, ih⟩
      · left; exact .step (by simp [hc, hP]) e ih
    · right; exact ih

theorem walk_complete_aux (h : Heap) (n : String) : ∀ (fuel : Nat) (P : List Nat) (a b : Nat) (s : Schema),
    P.Nodup → (∀ x ∈ P, x < h.length) → P.length + fuel > h.length →
    PathAvoid h P a b → h[b]? = some s → n ∈ ownName s → n ∈ walk h fuel P (some a) := by
  intro fuel
  induction fuel with
  | zero =>
    intro P a b s hn hlt hf
    have := nodup_lt_length_le _ _ hn hlt
    omega
  | succ fuel ih =>
    intro P a b s hn hlt hf hp hb hs
    have ha := hp.start
    unfold walk
    simp only [ha, if_false]
    by_cases e : b = a
    · subst e
      rw [hb]; simp [hs]
    · rcases hp.cut a e with hp' | ⟨k, ⟨sa, hsa, hk⟩, hp'⟩
      · exact absurd hp'.start (by simp)
      · rw [hsa]
        simp only [List.mem_append, List.mem_flatMap]
        right
        refine ⟨some k, (mem_kids _ _).mpr hk, ?_⟩
        have halt : a < h.length := by
          rw [List.getElem?_eq_some_iff] at hsa; exact hsa.1
        exact ih (a :: P) k b s (List.nodup_cons.mpr ⟨ha, hn⟩)
          (by intro x hx; rcases List.mem_cons.mp hx with e | hx
              · rw [e]; exact halt
              · exact hlt x hx)
          (by simp; omega) hp' hb hs

theorem walk_sound (h : Heap) (n : String) : ∀ (fuel : Nat) (P : List Nat) (p : Ptr),
    n ∈ walk h fuel P p → ∃ a b s, p = some a ∧ Reach h a b ∧ h[b]? = some s ∧ n ∈ ownName s := by
  intro fuel
  induction fuel with
  | zero => intro P p hm; simp [walk] at hm
  | succ fuel ih =>
    intro P p hm
    unfold walk at hm
    cases p with
    | none => simp at hm
    | some a =>
      simp only at hm
      split at hm
      · simp at hm
      · split at hm
        · simp at hm
        · rename_i s hs
          rcases List.mem_append.mp hm with hm | hm
          · exact ⟨a, a, s, rfl, .refl a, hs, hm⟩
          · obtain ⟨k, hk, hm⟩ := List.mem_flatMap.mp hm
            obtain ⟨a', b, s', e, hr, hb, ho⟩ := ih _ _ hm
            subst e
            exact ⟨a, b, s', rfl, .step ⟨s, hs, (mem_kids _ _).mp hk⟩ hr, hb, ho⟩

theorem mem_ownName (s : Schema) (n : String) : n ∈ ownName s ↔ IsRefTo s.ref n := by
  rw [← componentSchemaName_iff]; simp [ownName]

/-- The walk from a pointer visits exactly the names of the schemas reachable from it. -/
theorem mem_walkTop (h : Heap) (p : Ptr) (n : String) :
    n ∈ walkTop h p ↔ ∃ a b s, p = some a ∧ Reach h a b ∧ h[b]? = some s ∧ IsRefTo s.ref n := by
  constructor
  · intro hm
    obtain ⟨a, b, s, e, hr, hb, ho⟩ := walk_sound _ _ _ _ _ hm
    exact ⟨a, b, s, e, hr, hb, (mem_ownName _ _).mp ho⟩
  · rintro ⟨a, b, s, rfl, hr, hb, ho⟩
    exact walk_complete_aux h n _ [] a b s List.nodup_nil (by simp) (by simp) (PathAvoid.of_reach hr) hb
      ((mem_ownName _ _).mpr ho)

/-- Names reachable from a pointer. -/
def NameFrom (h : Heap) (p : Ptr) (n : String) : Prop :=
  ∃ a b s, p = some a ∧ Reach h a b ∧ h[b]? = some s ∧ IsRefTo s.ref n

theorem mem_walkContent (h : Heap) (c : List (String × MediaType)) (n : String) :
    n ∈ walkContent h c ↔ ∃ k m, (k, m) ∈ c ∧ NameFrom h m.schema n := by
  simp only [walkContent, List.mem_flatMap, mem_walkTop, NameFrom, Prod.exists]

theorem mem_walkResponse (h : Heap) (r : Response) (n : String) :
    n ∈ walkResponse h r ↔ ∃ p, ResponseHolds r p ∧ NameFrom h p n := by
  simp only [walkResponse, List.mem_append, mem_walkContent, List.mem_flatMap, mem_walkTop, Prod.exists,
    ResponseHolds]
  constructor
  · rintro (⟨k, m, h1, h2⟩ | ⟨k, m, h1, h2⟩)
    · exact ⟨_, Or.inl ⟨k, m, h1, rfl⟩, h2⟩
    · exact ⟨_, Or.inr ⟨k, m, h1, rfl⟩, h2⟩
  · rintro ⟨p, (⟨k, m, h1, rfl⟩ | ⟨k, m, h1, rfl⟩), h2⟩
    · exact Or.inl ⟨k, m, h1, h2⟩
    · exact Or.inr ⟨k, m, h1, h2⟩

theorem mem_walkParams (h : Heap) (ps : List Parameter) (n : String) :
    n ∈ walkParams h ps ↔ ∃ q ∈ ps, IsRefTo q.ref n ∨ NameFrom h q.schema n := by
  simp only [walkParams, List.mem_flatMap, List.mem_append, mem_walkTop, NameFrom, Option.mem_toList,
    componentSchemaName_iff]

theorem mem_walkOperation (h : Heap) (op : Operation) (n : String) :
    n ∈ walkOperation h op ↔
      (∃ q ∈ op.parameters, IsRefTo q.ref n ∨ NameFrom h q.schema n) ∨
      (∃ b p, op.requestBody = some b ∧ BodyHolds b p ∧ NameFrom h p n) ∨
      (∃ st r p, (st, r) ∈ op.responses ∧ ResponseHolds r p ∧ NameFrom h p n) := by
  simp only [walkOperation, List.mem_append, mem_walkParams, walkResponses, List.mem_flatMap,
    mem_walkResponse, Prod.exists, or_assoc]
  have : (n ∈ onSome (fun rb => walkContent h rb.content) op.requestBody) ↔
      ∃ b p, op.requestBody = some b ∧ BodyHolds b p ∧ NameFrom h p n := by
    cases op.requestBody with
    | none => simp [onSome]
    | some b =>
      simp only [onSome, mem_walkContent, BodyHolds, Option.some.injEq]
      constructor
      · rintro ⟨k, m, h1, h2⟩; exact ⟨b, _, rfl, ⟨k, m, h1, rfl⟩, h2⟩
      · rintro ⟨b', p, rfl, ⟨k, m, h1, rfl⟩, h2⟩; exact ⟨k, m, h1, h2⟩
  rw [this]
  apply or_congr Iff.rfl
  apply or_congr Iff.rfl
  constructor
  · rintro ⟨a, b, h1, p, h2, h3⟩; exact ⟨a, b, p, h1, h2, h3⟩
  · rintro ⟨a, b, p, h1, h2, h3⟩; exact ⟨a, b, h1, p, h2, h3⟩

theorem mem_operations (i : PathItem) (op : Operation) : some op ∈ operations i ↔ ItemOp i op := by
  simp only [operations, ItemOp, List.mem_cons, List.not_mem_nil, or_false, eq_comm (a := some op)]
  grind

theorem itemParam_iff (i : PathItem) (q : Parameter) :
    ItemParam i q ↔ q ∈ i.parameters ∨ ∃ op, ItemOp i op ∧ q ∈ op.parameters := by
  unfold ItemParam ItemOp
  grind

theorem mem_walkPathItem (h : Heap) (i : PathItem) (n : String) :
    n ∈ walkPathItem h i ↔
      (∃ q, ItemParam i q ∧ (IsRefTo q.ref n ∨ NameFrom h q.schema n)) ∨
      (∃ op b p, ItemOp i op ∧ op.requestBody = some b ∧ BodyHolds b p ∧ NameFrom h p n) ∨
      (∃ op st r p, ItemOp i op ∧ (st, r) ∈ op.responses ∧ ResponseHolds r p ∧ NameFrom h p n) := by
  have key : (n ∈ (operations i).flatMap (onSome (walkOperation h))) ↔
      ∃ op, ItemOp i op ∧ n ∈ walkOperation h op := by
    simp only [List.mem_flatMap]
    constructor
    · rintro ⟨o, ho, hn⟩
      cases o with
      | none => simp [onSome] at hn
      | some op => exact ⟨op, (mem_operations _ _).mp ho, hn⟩
    · rintro ⟨op, ho, hn⟩; exact ⟨some op, (mem_operations _ _).mpr ho, hn⟩
  unfold walkPathItem
  rw [List.mem_append, key]
  simp only [mem_walkOperation, mem_walkParams, itemParam_iff]
  constructor
  · rintro (⟨q, h1, h2⟩ | ⟨op, ho, (⟨q, h1, h2⟩ | ⟨b, p, h1, h2, h3⟩ | ⟨st, r, p, h1, h2, h3⟩)⟩)
    · exact Or.inl ⟨q, Or.inl h1, h2⟩
    · exact Or.inl ⟨q, Or.inr ⟨op, ho, h1⟩, h2⟩
    · exact Or.inr (Or.inl ⟨op, b, p, ho, h1, h2, h3⟩)
    · exact Or.inr (Or.inr ⟨op, st, r, p, ho, h1, h2, h3⟩)
  · rintro (⟨q, (h1 | ⟨op, ho, h1⟩), h2⟩ | ⟨op, b, p, ho, h1, h2, h3⟩ | ⟨op, st, r, p, ho, h1, h2, h3⟩)
    · exact Or.inl ⟨q, h1, h2⟩
    · exact Or.inr ⟨op, ho, Or.inl ⟨q, h1, h2⟩⟩
    · exact Or.inr ⟨op, ho, Or.inr (Or.inl ⟨b, p, h1, h2, h3⟩)⟩
    · exact Or.inr ⟨op, ho, Or.inr (Or.inr ⟨st, r, p, h1, h2, h3⟩)⟩

/-- The component part of `Root`. -/
def CompRoot (c : Components) (p : Ptr) : Prop :=
  (∃ k, (k, p) ∈ c.schemas) ∨
  (∃ k q, (k, some q) ∈ c.parameters ∧ q.schema = p) ∨
  (∃ k b, (k, some b) ∈ c.requestBodies ∧ BodyHolds b p) ∨
  (∃ k r, (k, some r) ∈ c.responses ∧ ResponseHolds r p) ∨
  (∃ k x, (k, some x) ∈ c.headers ∧ x.schema = p)

theorem mem_flatMap_opt {α : Type} (l : List (String × Option α)) (f : α → List String) (n : String) :
    (n ∈ l.flatMap fun x => onSome f x.2) ↔ ∃ k x, (k, some x) ∈ l ∧ n ∈ f x := by
  simp only [List.mem_flatMap]
  constructor
  · rintro ⟨⟨k, o⟩, hm, hn⟩
    cases o with
    | none => simp [onSome] at hn
    | some x => exact ⟨k, x, hm, hn⟩
  · rintro ⟨k, x, hm, hn⟩; exact ⟨(k, some x), hm, hn⟩

theorem mem_walkComponents (h : Heap) (c : Components) (n : String) :
    n ∈ walkComponents h c ↔ ∃ p, CompRoot c p ∧ NameFrom h p n := by
  unfold walkComponents
  simp only [List.mem_append, mem_flatMap_opt, mem_walkContent, mem_walkResponse, CompRoot, or_assoc]
  simp only [List.mem_flatMap, mem_walkTop, Prod.exists]
  constructor
  · rintro (⟨k, p, h1, h2⟩ | ⟨k, q, h1, h2⟩ | ⟨k, b, h1, ky, m, h2, h3⟩ | ⟨k, r, h1, p, h2, h3⟩ | ⟨k, x, h1, h2⟩)
    · exact ⟨p, Or.inl ⟨k, h1⟩, h2⟩
    · exact ⟨_, Or.inr (Or.inl ⟨k, q, h1, rfl⟩), h2⟩
    · exact ⟨_, Or.inr (Or.inr (Or.inl ⟨k, b, h1, ky, m, h2, rfl⟩)), h3⟩
    · exact ⟨_, Or.inr (Or.inr (Or.inr (Or.inl ⟨k, r, h1, h2⟩))), h3⟩
    · exact ⟨_, Or.inr (Or.inr (Or.inr (Or.inr ⟨k, x, h1, rfl⟩))), h2⟩
  · rintro ⟨p, (⟨k, h1⟩ | ⟨k, q, h1, rfl⟩ | ⟨k, b, h1, ky, m, h2, rfl⟩ | ⟨k, r, h1, h2⟩ | ⟨k, x, h1, rfl⟩), h3⟩
    · exact Or.inl ⟨k, p, h1, h3⟩
    · exact Or.inr (Or.inl ⟨k, q, h1, h3⟩)
    · exact Or.inr (Or.inr (Or.inl ⟨k, b, h1, ky, m, h2, h3⟩))
    · exact Or.inr (Or.inr (Or.inr (Or.inl ⟨k, r, h1, p, h2, h3⟩)))
    · exact Or.inr (Or.inr (Or.inr (Or.inr ⟨k, x, h1, h3⟩)))

/-- The walk visits exactly the names the document refers to. -/
theorem mem_refNames (d : Doc) (n : String) : n ∈ refNames d ↔ RefersTo d n := by
  have hc : (n ∈ onSome (walkComponents d.heap) d.components) ↔
      ∃ c p, d.components = some c ∧ CompRoot c p ∧ NameFrom d.heap p n := by
    cases d.components with
    | none => simp [onSome]
    | some c => simp [onSome, mem_walkComponents]
  unfold refNames
  rw [List.mem_append]
  rw [hc]
  simp only [List.mem_flatMap, mem_walkPathItem, Prod.exists]
  unfold RefersTo Root
  constructor
  · rintro (⟨path, i, hi, (⟨q, h1, (h2 | ⟨a, b, s, e, h2⟩)⟩ | ⟨op, b, p, h1, h2, h3, a, b', s, e, h4⟩ |
        ⟨op, st, r, p, h1, h2, h3, a, b', s, e, h4⟩)⟩ | ⟨c, p, h1, h2, a, b, s, e, h3⟩)
    · exact Or.inr ⟨path, i, q, hi, h1, h2⟩
    · exact Or.inl ⟨a, b, s, Or.inl ⟨path, i, q, hi, h1, e⟩, h2⟩
    · subst e
      exact Or.inl ⟨a, b', s, Or.inr (Or.inl ⟨path, i, op, b, hi, h1, h2, h3⟩), h4⟩
    · subst e
      exact Or.inl ⟨a, b', s, Or.inr (Or.inr (Or.inl ⟨path, i, op, st, r, hi, h1, h2, h3⟩)), h4⟩
    · subst e
      exact Or.inl ⟨a, b, s, Or.inr (Or.inr (Or.inr ⟨c, h1, h2⟩)), h3⟩
  · rintro (⟨a, b, s, (⟨path, i, q, hi, h1, e⟩ | ⟨path, i, op, rb, hi, h1, h2, h3⟩ |
        ⟨path, i, op, st, r, hi, h1, h2, h3⟩ | ⟨c, h1, h2⟩), h4⟩ | ⟨path, i, q, hi, h1, h2⟩)
    · exact Or.inl ⟨path, i, hi, Or.inl ⟨q, h1, Or.inr ⟨a, b, s, e, h4⟩⟩⟩
    · exact Or.inl ⟨path, i, hi, Or.inr (Or.inl ⟨op, rb, _, h1, h2, h3, a, b, s, rfl, h4⟩)⟩
    · exact Or.inl ⟨path, i, hi, Or.inr (Or.inr ⟨op, st, r, _, h1, h2, h3, a, b, s, rfl, h4⟩)⟩
    · exact Or.inr ⟨c, _, h1, h2, a, b, s, rfl, h4⟩
    · exact Or.inl ⟨path, i, hi, Or.inl ⟨q, h1, Or.inl h2⟩⟩

theorem mem_definedNames (d : Doc) (n : String) : n ∈ definedNames d ↔ Defines d n := by
  unfold definedNames Defines
  cases d.components with
  | none => simp
  | some c => simp

theorem mem_missingNames (d : Doc) (n : String) :
    n ∈ missingNames d ↔ RefersTo d n ∧ ¬ Defines d n := by
  simp [missingNames, mem_refNames, mem_definedNames]

theorem missingNames_nodup (d : Doc) : (missingNames d).Nodup :=
  (isort_perm _ _).nodup_iff.mpr ((dedup_nodup _).filter _)

/-! ## The repaired document -/

theorem addPlaceholders_eq (g : String → String) : ∀ (ns : List String) (h : Heap) (cs : List (String × Ptr)),
    addPlaceholders g ns h cs =
      (h ++ ns.map (fun n => placeholder (described g n)),
       cs ++ (ns.zipIdx h.length).map (fun x => (x.1, some x.2))) := by
  intro ns
  induction ns with
  | nil => intro h cs; simp [addPlaceholders]
  | cons n ns ih =>
    intro h cs
    simp only [addPlaceholders, ih, List.map_cons, List.zipIdx_cons, List.append_assoc, List.length_append,
      List.length_singleton, List.cons_append, List.nil_append]

theorem repair_fst (g : String → String) (d : Doc) :
    (repair g d).1 = d ∧ missingNames d = [] ∨
    (repair g d).1 = { d with
      heap := d.heap ++ (missingNames d).map (fun n => placeholder (described g n))
      components := some { d.components.getD {} with
        schemas := (d.components.getD {}).schemas ++
          ((missingNames d).zipIdx d.heap.length).map (fun x => (x.1, some x.2)) } } := by
  unfold repair
  split
  · left
    rename_i h
    refine ⟨rfl, ?_⟩
    simp [missingNames, h, dedup, dedupBy, dedupGo, sortStrings, isort]
  · dsimp only
    split
    · left; rename_i h; exact ⟨rfl, h⟩
    · right
      simp only [addPlaceholders_eq]

end Verif.Refs

namespace Verif.Refs
open Verif.Common

theorem getElem?_append_lt {α} (h t : List α) (a : Nat) (s : α) (ha : a < h.length) :
    (h ++ t)[a]? = some s ↔ h[a]? = some s := by
  rw [List.getElem?_append_left ha]

/-- In a heap extended by cells without pointers, nothing new is reachable from old cells. -/
theorem reach_extend (h t : Heap) (hok : ∀ (a : Nat) (s : Schema) (p : Ptr), h[a]? = some s → Holds s p → PtrOk h p)
    {a b : Nat} (ha : a < h.length) (r : Reach (h ++ t) a b) : Reach h a b ∧ b < h.length := by
  induction r with
  | refl a => exact ⟨.refl a, ha⟩
  | step e _ ih =>
    obtain ⟨s, hs, hh⟩ := e
    rw [getElem?_append_lt _ _ _ _ ha] at hs
    have hb := hok _ _ _ hs hh _ rfl
    obtain ⟨h1, h2⟩ := ih hb
    exact ⟨.step ⟨s, hs, hh⟩ h1, h2⟩

theorem not_isRefTo_nil (n : String) : ¬ IsRefTo [] n := by
  rw [← componentSchemaName_iff]
  simp [componentSchemaName]

/-- What the repaired document refers to was referred to before. -/
theorem refersTo_of_repaired (g : String → String) (d : Doc) (hw : WellFormed d) (n : String) (d' : Doc)
    (hd : d' = { d with
      heap := d.heap ++ (missingNames d).map (fun n => placeholder (described g n))
      components := some { d.components.getD {} with
        schemas := (d.components.getD {}).schemas ++
          ((missingNames d).zipIdx d.heap.length).map (fun x => (x.1, some x.2)) } })
    (hr : RefersTo d' n) : RefersTo d n := by
  subst hd
  rcases hr with ⟨a, b, s, hroot, hreach, hs, hn⟩ | h
  · -- either an old root or one of the new components
    have hcase : Root d (some a) ∨ d.heap.length ≤ a := by
      rcases hroot with h | h | h | ⟨c, hc, h⟩
      · exact Or.inl (Or.inl h)
      · exact Or.inl (Or.inr (Or.inl h))
      · exact Or.inl (Or.inr (Or.inr (Or.inl h)))
      · simp only [Option.some.injEq] at hc
        subst hc
        cases hdc : d.components with
        | none =>
          simp only [hdc, Option.getD_none] at h
          right
          simp only [List.nil_append, List.not_mem_nil, false_and, exists_false, or_false] at h
          obtain ⟨k, h⟩ := h
          obtain ⟨⟨x, i⟩, hx, he⟩ := List.mem_map.mp h
          simp only [Prod.mk.injEq, Option.some.injEq] at he
          have := List.le_snd_of_mem_zipIdx hx
          simp only at this; omega
        | some c =>
          simp only [hdc, Option.getD_some] at h
          rcases h with ⟨k, h⟩ | h
          · rcases List.mem_append.mp h with h | h
            · exact Or.inl (Or.inr (Or.inr (Or.inr ⟨c, hdc, Or.inl ⟨k, h⟩⟩)))
            · right
              obtain ⟨⟨x, i⟩, hx, he⟩ := List.mem_map.mp h
              simp only [Prod.mk.injEq, Option.some.injEq] at he
              have := List.le_snd_of_mem_zipIdx hx
              simp only at this; omega
          · exact Or.inl (Or.inr (Or.inr (Or.inr ⟨c, hdc, Or.inr h⟩)))
    rcases hcase with hroot | hge
    · have ha := hw.1 _ hroot _ rfl
      obtain ⟨h1, h2⟩ := reach_extend _ _ hw.2 ha hreach
      simp only at hs
      rw [getElem?_append_lt _ _ _ _ h2] at hs
      exact Or.inl ⟨a, b, s, hroot, h1, hs, hn⟩
    · exfalso
      have hcell : ∀ s', (d.heap ++ (missingNames d).map (fun n => placeholder (described g n)))[a]? = some s' →
          ∃ m, s' = placeholder m := by
        intro s' h
        rw [List.getElem?_append_right hge, List.getElem?_map] at h
        simp only [Option.map_eq_some_iff] at h
        obtain ⟨x, _, h⟩ := h
        exact ⟨_, h.symm⟩
      cases hreach with
      | refl =>
        obtain ⟨m, rfl⟩ := hcell _ hs
        exact not_isRefTo_nil n hn
      | step e _ =>
        obtain ⟨s', hs', hh⟩ := e
        obtain ⟨m, rfl⟩ := hcell _ hs'
        simp [Holds, placeholder] at hh
  · exact Or.inr h

/-! ## Counting -/

inductive Reach1 (h : Heap) : Nat → Nat → Prop
  | one {a b} : Edge h a b → Reach1 h a b
  | step {a b c} : Edge h a b → Reach1 h b c → Reach1 h a c

theorem Reach1.snoc {h a b c} (r : Reach1 h a b) (e : Edge h b c) : Reach1 h a c := by
  induction r with
  | one e1 => exact .step e1 (.one e)
  | step e1 _ ih => exact .step e1 (ih e)

theorem finite_edge {h : Heap} {n : Nat} {a b : Nat} (hf : finite h n (some a) = true) (e : Edge h a b) :
    ∃ m, n = m + 1 ∧ finite h m (some b) = true := by
  cases n with
  | zero => simp [finite] at hf
  | succ m =>
    refine ⟨m, rfl, ?_⟩
    obtain ⟨s, hs, hh⟩ := e
    simp only [finite, hs, List.all_eq_true] at hf
    exact hf _ ((fields_perm_kids s).mem_iff.mpr ((mem_kids _ _).mpr hh))

theorem finite_reach1 {h : Heap} {a b : Nat} (r : Reach1 h a b) :
    ∀ n, finite h n (some a) = true → ∃ m, m < n ∧ finite h m (some b) = true := by
  induction r with
  | one e => intro n hf; obtain ⟨m, rfl, h⟩ := finite_edge hf e; exact ⟨m, by omega, h⟩
  | step e _ ih =>
    intro n hf
    obtain ⟨m, rfl, h⟩ := finite_edge hf e
    obtain ⟨k, hk, h⟩ := ih m h
    exact ⟨k, by omega, h⟩

theorem finite_acyclic {h : Heap} {a : Nat} (r : Reach1 h a a) : ∀ n, finite h n (some a) = false := by
  intro n
  induction n using Nat.strongRecOn with
  | _ n ih =>
    cases hf : finite h n (some a) with
    | false => rfl
    | true =>
      obtain ⟨m, hm, hf'⟩ := finite_reach1 r n hf
      rw [ih m hm] at hf'
      exact hf'.symm

theorem count_flatMap_congr {α : Type} (l : List α) (f g : α → List String) (n : String)
    (h : ∀ x ∈ l, (f x).count n = (g x).count n) : (l.flatMap f).count n = (l.flatMap g).count n := by
  induction l with
  | nil => rfl
  | cons a l ih =>
    simp only [List.flatMap_cons, List.count_append]
    rw [h a (by simp), ih (fun x hx => h x (by simp [hx]))]

theorem count_flatMap_perm {α : Type} {l l' : List α} (hp : l.Perm l') (f : α → List String) (n : String) :
    (l.flatMap f).count n = (l'.flatMap f).count n := by
  exact (hp.flatMap_right f).count_eq n

/-- On a finite unfolding the guarded walk sees exactly the occurrences of the unguarded one. -/
theorem walk_count (h : Heap) (nm : String) : ∀ (n fuel : Nat) (P : List Nat) (p : Ptr),
    finite h n p = true → P.Nodup → (∀ x ∈ P, x < h.length) → P.length + fuel > h.length →
    (∀ x ∈ P, ∀ a, p = some a → Reach1 h x a) →
    (walk h fuel P p).count nm = (serial h n p).count nm := by
  intro n
  induction n with
  | zero =>
    intro fuel P p hf _ _ _ _
    cases p with
    | none => cases fuel <;> simp [walk, serial]
    | some a => simp [finite] at hf
  | succ n ih =>
    intro fuel P p hf hnd hlt hfu hr
    cases fuel with
    | zero =>
      have := nodup_lt_length_le _ _ hnd hlt
      omega
    | succ fuel =>
      cases p with
      | none => simp [walk, serial]
      | some a =>
        have ha : a ∉ P := by
          intro hm
          have := finite_acyclic (hr a hm a rfl) (n + 1)
          rw [this] at hf; cases hf
        simp only [walk, ha, if_false, serial]
        cases hs : h[a]? with
        | none => rfl
        | some s =>
          simp only
          have hown : ownName s = nameOf s.ref := componentSchemaName_toList s.ref
          rw [List.count_append, List.count_append, hown, count_flatMap_perm (fields_perm_kids s)]
          congr 1
          apply count_flatMap_congr
          intro k hk
          have halt : a < h.length := by
            rw [List.getElem?_eq_some_iff] at hs; exact hs.1
          simp only [finite, hs, List.all_eq_true] at hf
          apply ih
          · exact hf k ((fields_perm_kids s).mem_iff.mpr hk)
          · exact List.nodup_cons.mpr ⟨ha, hnd⟩
          · intro x hx
            rcases List.mem_cons.mp hx with e | hx
            · rw [e]; exact halt
            · exact hlt x hx
          · simp; omega
          · intro x hx b hb
            have hedge : Edge h a b := ⟨s, hs, by rw [← hb]; exact (mem_kids _ _).mp hk⟩
            rcases List.mem_cons.mp hx with e | hx
            · subst e; exact .one hedge
            · exact (hr x hx a rfl).snoc hedge

theorem walkTop_count (h : Heap) (nm : String) (n : Nat) (p : Ptr) (hf : finite h n p = true) :
    (walkTop h p).count nm = (serial h n p).count nm :=
  walk_count h nm n _ [] p hf List.nodup_nil (by simp) (by simp) (by simp)

theorem onSome_eq {α : Type} (f : α → List String) (o : Option α) : onSome f o = o.toList.flatMap f := by
  cases o <;> simp [onSome]

section
variable (h : Heap) (nm : String) (n : Nat)

theorem content_count (c : List (String × MediaType)) (hf : ∀ k m, (k, m) ∈ c → finite h n m.schema = true) :
    (walkContent h c).count nm = (contentNames h n c).count nm :=
  count_flatMap_congr _ _ _ _ fun x hx => walkTop_count h nm n _ (hf x.1 x.2 hx)

theorem params_count (ps : List Parameter) (hf : ∀ q ∈ ps, finite h n q.schema = true) :
    (walkParams h ps).count nm = (paramsNames h n ps).count nm := by
  apply count_flatMap_congr
  intro q hq
  rw [List.count_append, List.count_append, componentSchemaName_toList, walkTop_count h nm n _ (hf q hq)]

theorem response_count (r : Response) (hf : ∀ p, ResponseHolds r p → finite h n p = true) :
    (walkResponse h r).count nm = (responseNames h n r).count nm := by
  unfold walkResponse responseNames
  rw [List.count_append, List.count_append, content_count h nm n _ (fun k m hm => hf _ (Or.inl ⟨k, m, hm, rfl⟩)),
    count_flatMap_congr r.headers _ (fun x => serial h n x.2.schema) nm
      (fun x hx => walkTop_count h nm n _ (hf _ (Or.inr ⟨x.1, x.2, hx, rfl⟩)))]
  omega

theorem operation_count (op : Operation) (h1 : ∀ q ∈ op.parameters, finite h n q.schema = true)
    (h2 : ∀ b p, op.requestBody = some b → BodyHolds b p → finite h n p = true)
    (h3 : ∀ st r p, (st, r) ∈ op.responses → ResponseHolds r p → finite h n p = true) :
    (walkOperation h op).count nm = (operationNames h n (some op)).count nm := by
  unfold walkOperation operationNames
  simp only [Option.toList_some, List.flatMap_cons, List.flatMap_nil, List.append_nil, List.count_append,
    onSome_eq, walkResponses]
  rw [params_count h nm n _ h1,
    count_flatMap_congr op.requestBody.toList _ (fun b => contentNames h n b.content) nm
      (fun b hb => content_count h nm n _ (fun k m hm => h2 b _ (by simpa using hb) ⟨k, m, hm, rfl⟩)),
    count_flatMap_congr op.responses _ (fun r => responseNames h n r.2) nm
      (fun r hr => response_count h nm n _ (fun p hp => h3 r.1 r.2 p hr hp))]

end

theorem count_flatMap_opt {α : Type} (l : List (String × Option α)) (f g : α → List String) (nm : String)
    (hfg : ∀ k x, (k, some x) ∈ l → (f x).count nm = (g x).count nm) :
    (l.flatMap fun x => onSome f x.2).count nm = (l.flatMap fun e => e.2.toList.flatMap g).count nm := by
  apply count_flatMap_congr
  rintro ⟨k, o⟩ hm
  cases o with
  | none => simp [onSome]
  | some x => simp [onSome, hfg k x hm]

theorem refNames_count (d : Doc) (n : Nat) (nm : String)
    (hf : ∀ p, Root d p → finite d.heap n p = true) :
    (refNames d).count nm = (serialDoc d n).count nm := by
  unfold refNames serialDoc
  rw [List.count_append, List.count_append]
  congr 1
  · apply count_flatMap_congr
    rintro ⟨path, i⟩ hi
    have hop : ∀ slot : Option Operation, (∀ op, slot = some op → ItemOp i op) →
        (onSome (walkOperation d.heap) slot).count nm = (operationNames d.heap n slot).count nm := by
      intro slot hs
      cases slot with
      | none => simp [onSome, operationNames]
      | some op =>
        have ho := hs op rfl
        simp only [onSome]
        apply operation_count
        · intro q hq
          exact hf _ (Or.inl ⟨path, i, q, hi, (itemParam_iff _ _).mpr (Or.inr ⟨op, ho, hq⟩), rfl⟩)
        · intro b p hb hp
          exact hf _ (Or.inr (Or.inl ⟨path, i, op, b, hi, ho, hb, hp⟩))
        · intro st r p hr hp
          exact hf _ (Or.inr (Or.inr (Or.inl ⟨path, i, op, st, r, hi, ho, hr, hp⟩)))
    have hpar : (walkParams d.heap i.parameters).count nm = (paramsNames d.heap n i.parameters).count nm := by
      apply params_count
      intro q hq
      exact hf _ (Or.inl ⟨path, i, q, hi, Or.inl hq, rfl⟩)
    simp only [walkPathItem, operations, List.flatMap_cons, List.flatMap_nil, List.append_nil, List.count_append]
    rw [hpar, hop i.get (by simp_all [ItemOp]), hop i.post (by simp_all [ItemOp]), hop i.put (by simp_all [ItemOp]),
      hop i.delete (by simp_all [ItemOp]), hop i.patch (by simp_all [ItemOp]), hop i.head (by simp_all [ItemOp]),
      hop i.options (by simp_all [ItemOp])]
    omega
  · rw [onSome_eq]
    apply count_flatMap_congr
    intro c hc
    have hc : d.components = some c := by simpa using hc
    have hf' : ∀ p, CompRoot c p → finite d.heap n p = true :=
      fun p hp => hf p (Or.inr (Or.inr (Or.inr ⟨c, hc, hp⟩)))
    unfold walkComponents
    simp only [List.count_append]
    rw [count_flatMap_congr c.schemas _ (fun s => serial d.heap n s.2) nm
        (fun x hx => walkTop_count _ _ n _ (hf' _ (Or.inl ⟨x.1, hx⟩))),
      count_flatMap_opt c.parameters _ (fun x => serial d.heap n x.schema) nm
        (fun k x hx => walkTop_count _ _ n _ (hf' _ (Or.inr (Or.inl ⟨k, x, hx, rfl⟩)))),
      count_flatMap_opt c.requestBodies _ (fun x => contentNames d.heap n x.content) nm
        (fun k x hx => content_count _ _ n _ (fun ky m hm => hf' _ (Or.inr (Or.inr (Or.inl ⟨k, x, hx, ky, m, hm, rfl⟩))))),
      count_flatMap_opt c.responses _ (fun x => responseNames d.heap n x) nm
        (fun k x hx => response_count _ _ n _ (fun p hp => hf' _ (Or.inr (Or.inr (Or.inr (Or.inl ⟨k, x, hx, hp⟩)))))),
      count_flatMap_opt c.headers _ (fun x => serial d.heap n x.schema) nm
        (fun k x hx => walkTop_count _ _ n _ (hf' _ (Or.inr (Or.inr (Or.inr (Or.inr ⟨k, x, hx, rfl⟩))))))]
    omega

/-! ## goTypeByComponentName -/

/-- The first bare type with a given component name. -/
def firstFor (mangle : List Char → String) (bs : List (List Char)) (name : String) : Option (List Char) :=
  bs.find? (fun b => mangle b = name)

theorem lookup_cons_ite (k k' : String) (v : List Char) (l : List (String × List Char)) :
    ((k, v) :: l).lookup k' = if k' = k then some v else l.lookup k' := by
  by_cases h : k' = k
  · subst h; simp [List.lookup]
  · have : (k' == k) = false := by simpa using h
    simp [List.lookup, this, h]

def GoInv (mangle : List Char → String) (st : List (String × List Char) × List String)
    (bs : List (List Char)) : Prop :=
  ∀ name, st.1.lookup name = firstFor mangle bs name ∧
    (name ∈ st.2 ↔ ∃ b1, firstFor mangle bs name = some b1 ∧ ∃ b ∈ bs, mangle b = name ∧ b ≠ b1)

theorem goInv_step (mangle : List Char → String) (st : List (String × List Char) × List String)
    (bs : List (List Char)) (t : List Char) (hi : GoInv mangle st bs) :
    GoInv mangle (goTypeStep mangle st t) (bs ++ [bareType t]) := by
  have hff : ∀ nm, firstFor mangle (bs ++ [bareType t]) nm =
      ((firstFor mangle bs nm).or (if mangle (bareType t) = nm then some (bareType t) else none)) := by
    intro nm
    simp only [firstFor, List.find?_append]
    congr 1
    by_cases h : mangle (bareType t) = nm <;> simp [h]
  unfold goTypeStep
  intro name
  rw [hff]
  generalize hb : bareType t = bare at *
  simp only
  obtain ⟨ih1, ih2⟩ := hi (mangle bare)
  obtain ⟨j1, j2⟩ := hi name
  by_cases hnm : mangle bare = name
  · subst hnm
    split
    · rename_i prev hprev
      rw [ih1] at hprev
      have hpm : mangle prev = mangle bare := by
        have := List.find?_some hprev
        simpa using this
      simp only [hprev, if_true, Option.some_or, Option.some.injEq, exists_eq_left']
      by_cases hpb : prev = bare
      · simp only [hpb, ne_eq, not_true, if_false]
        subst hpb
        refine ⟨ih1.trans hprev, ?_⟩
        rw [ih2, hprev]
        simp only [Option.some.injEq, exists_eq_left', List.mem_append, List.mem_singleton]
        constructor
        · rintro ⟨b, h1, h2⟩; exact ⟨b, Or.inl h1, h2⟩
        · rintro ⟨b, (h1 | h1), h2⟩
          · exact ⟨b, h1, h2⟩
          · exact absurd h1 h2.2
      · simp only [ne_eq, hpb, not_false_eq_true, if_true]
        refine ⟨ih1.trans hprev, ?_⟩
        simp only [List.mem_cons, true_or, true_iff]
        exact ⟨bare, by simp, rfl, fun e => hpb e.symm⟩
    · rename_i hnone
      rw [ih1] at hnone
      rw [hnone]
      simp only [lookup_cons_ite, if_true, Option.none_or, Option.some.injEq, exists_eq_left', true_and]
      rw [ih2, hnone]
      simp only [reduceCtorEq, false_and, exists_false, false_iff]
      rintro ⟨b, h1, h2, h3⟩
      rcases List.mem_append.mp h1 with h1 | h1
      · have := List.find?_eq_none.mp hnone b h1
        simp [h2] at this
      · exact h3 (by simpa using h1)
  · simp only [hnm, if_false, Option.or_none]
    have hex : ∀ b1, (∃ b ∈ bs ++ [bare], mangle b = name ∧ b ≠ b1) ↔ (∃ b ∈ bs, mangle b = name ∧ b ≠ b1) := by
      intro b1
      constructor
      · rintro ⟨b, h1, h2, h3⟩
        rcases List.mem_append.mp h1 with h1 | h1
        · exact ⟨b, h1, h2, h3⟩
        · simp only [List.mem_singleton] at h1; subst h1; exact absurd h2 hnm
      · rintro ⟨b, h1, h2⟩; exact ⟨b, List.mem_append_left _ h1, h2⟩
    simp only [hex]
    have hnm' : name ≠ mangle bare := fun e => hnm e.symm
    split
    · split
      · exact ⟨j1, by simp only [List.mem_cons, hnm', false_or]; exact j2⟩
      · exact ⟨j1, j2⟩
    · exact ⟨by rw [lookup_cons_ite, if_neg hnm']; exact j1, j2⟩

theorem goInv_foldl (mangle : List Char → String) : ∀ (l : List (List Char))
    (st : List (String × List Char) × List String) (bs : List (List Char)), GoInv mangle st bs →
    GoInv mangle (l.foldl (goTypeStep mangle) st) (bs ++ l.map bareType)
  | [], st, bs, h => by simpa using h
  | t :: l, st, bs, h => by
    have := goInv_foldl mangle l _ _ (goInv_step mangle st bs t h)
    simpa using this

theorem goInv_all (mangle : List Char → String) (l : List (List Char)) :
    GoInv mangle (l.foldl (goTypeStep mangle) ([], [])) (l.map bareType) := by
  have := goInv_foldl mangle l ([], []) [] (by intro name; simp [firstFor])
  simpa using this

end Verif.Refs
