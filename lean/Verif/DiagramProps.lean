import Verif.DiagramDepthProps
/-!
# C39 (pages) and C65 (filters) of the diagram
-/

namespace Verif.DiagramProps
open Verif.Common Verif.DiagramModel

/-! ## Specification -/

/-- One of the terms occurs in the value, whatever the case. -/
def AnyTerm (x : Text) (terms : List String) (value : String) : Prop :=
  ∃ t ∈ terms, x.contains (x.lower value) (x.lower (x.trim t)) = true

/-- What a node must satisfy to pass the filters. -/
structure Wanted (x : Text) (f : Filters) (n : Node) : Prop where
  package : f.packages = [] ∨ ∃ p ∈ f.packages, x.contains n.pkg (x.trim p) = true
  function : f.functions = [] ∨ AnyTerm x (f.functions.filter (· ≠ "")) n.label
  file : f.files = [] ∨ (n.position ≠ "" ∧ AnyTerm x f.files n.position) ∨ ∃ p ∈ n.callPositions, AnyTerm x f.files p
  receiver : f.receivers = [] ∨ n.recv = "" ∨ AnyTerm x f.receivers n.recv
  signature : f.signatures = [] ∨ n.signature = "" ∨ AnyTerm x f.signatures n.signature
  generic : f.generics = [] ∨ n.generics = none ∨ ∃ gs, n.generics = some gs ∧ ∃ g ∈ gs, AnyTerm x f.generics g
  exported : f.scope ≠ "" → f.scope ≠ "all" → x.lower (x.trim f.scope) = "exported" → x.lower (x.trim n.scope) = "exported"
  unexported : f.scope ≠ "" → f.scope ≠ "all" → x.lower (x.trim f.scope) = "unexported" → x.lower (x.trim n.scope) = "unexported"

/-- The node belongs to the diagram that was asked for. -/
def Shown (x : Text) (kind : Kind) (all : Data) (depth : Nat) (f : Filters) (n : Node) : Prop :=
  n ∈ all.nodes ∧ (kind = .callGraph → Within all depth n.id) ∧ Wanted x f n

/-- Asking for pages one after the other. -/
def browse (x : Text) (kind : Kind) (size depth : Int) (f : Filters) : Data → List Nat → Option (List Page)
  | _, [] => some []
  | all, p :: ps =>
    match generate x kind all p size depth f with
    | none => none
    | some (all', page) => (browse x kind size depth f all' ps).map (page :: ·)

/-- At most one node is the node `node_0` or is labelled `main`. -/
def OneMain (nodes : List Node) : Prop :=
  ∀ a ∈ nodes, ∀ b ∈ nodes, (a.id = 0 ∨ a.label = "main") → (b.id = 0 ∨ b.label = "main") → a = b

/-! ## Filters -/

theorem matchesFunctionName_iff (x : Text) (n t : String) :
    matchesFunctionName x n t = true ↔ t ≠ "" ∧ x.contains (x.lower n) (x.lower (x.trim t)) = true := by
  simp only [matchesFunctionName]
  split <;> simp_all

/-- **C65** A node passes exactly when it meets every criterion spelled out in `Wanted`. -/
theorem C65_exact (x : Text) (f : Filters) (n : Node) : keeps x f n = true ↔ Wanted x f n := by
  have hscope : (f.scope = "" || f.scope = "all" ||
    (let s := x.lower (x.trim f.scope)
     let own := x.lower (x.trim n.scope)
     if s = "exported" then own = "exported" else if s = "unexported" then own = "unexported" else true)) = true ↔
      (f.scope ≠ "" → f.scope ≠ "all" → x.lower (x.trim f.scope) = "exported" → x.lower (x.trim n.scope) = "exported") ∧
      (f.scope ≠ "" → f.scope ≠ "all" → x.lower (x.trim f.scope) = "unexported" → x.lower (x.trim n.scope) = "unexported") := by
    by_cases h1 : f.scope = ""
    · simp [h1]
    · by_cases h2 : f.scope = "all"
      · simp [h2]
      · simp only [h1, h2, decide_false, Bool.false_or, ne_eq, not_false_eq_true, forall_const]
        by_cases h3 : x.lower (x.trim f.scope) = "exported"
        · simp [h3]
        · by_cases h4 : x.lower (x.trim f.scope) = "unexported"
          · simp [h4]
          · simp [h3, h4]
  have hgen : (f.generics.isEmpty || matchesGenerics x f.generics n.generics) = true ↔
      (f.generics = [] ∨ n.generics = none ∨ ∃ gs, n.generics = some gs ∧ ∃ g ∈ gs, AnyTerm x f.generics g) := by
    cases hg : n.generics with
    | none => simp [matchesGenerics]
    | some gs =>
      simp only [matchesGenerics, Bool.or_eq_true, List.isEmpty_iff, List.any_eq_true, hasTerm, AnyTerm, reduceCtorEq, false_or, Option.some.injEq, exists_eq_left']
      constructor
      · rintro (h | ⟨t, ht, g, hg, h⟩)
        · exact .inl h
        · exact .inr ⟨g, hg, t, ht, h⟩
      · rintro (h | ⟨g, hg, t, ht, h⟩)
        · exact .inl h
        · exact .inr ⟨t, ht, g, hg, h⟩
  simp only [keeps, matchesFilters, Bool.and_eq_true] at hscope hgen ⊢
  rw [hscope, hgen]
  simp only [Bool.or_eq_true, Bool.and_eq_true, List.isEmpty_iff, List.any_eq_true, decide_eq_true_eq, matchesFunctionName_iff, hasTerm]
  constructor
  · rintro ⟨h1, ⟨⟨⟨⟨h2, h3⟩, h4⟩, h5⟩, h6⟩, h7, h8⟩
    refine ⟨h1, ?_, ?_, ?_, ?_, h6, h7, h8⟩
    · rcases h2 with h | ⟨t, ht, hne, h⟩
      · exact .inl h
      · exact .inr ⟨t, by simp [ht, hne], h⟩
    · rcases h3 with (h | ⟨h, t, ht, h'⟩) | ⟨t, ht, p, hp, h⟩
      · exact .inl h
      · exact .inr (.inl ⟨h, t, ht, h'⟩)
      · exact .inr (.inr ⟨p, hp, t, ht, h⟩)
    · rcases h4 with (h | h) | ⟨t, ht, h⟩
      · exact .inl h
      · exact .inr (.inl h)
      · exact .inr (.inr ⟨t, ht, h⟩)
    · rcases h5 with (h | h) | ⟨t, ht, h⟩
      · exact .inl h
      · exact .inr (.inl h)
      · exact .inr (.inr ⟨t, ht, h⟩)
  · rintro ⟨h1, h2, h3, h4, h5, h6, h7, h8⟩
    refine ⟨h1, ⟨⟨⟨⟨?_, ?_⟩, ?_⟩, ?_⟩, h6⟩, h7, h8⟩
    · rcases h2 with h | ⟨t, ht, h⟩
      · exact .inl h
      · simp only [List.mem_filter, decide_eq_true_eq] at ht
        exact .inr ⟨t, ht.1, ht.2, h⟩
    · rcases h3 with h | ⟨h, t, ht, h'⟩ | ⟨p, hp, t, ht, h⟩
      · exact .inl (.inl h)
      · exact .inl (.inr ⟨h, t, ht, h'⟩)
      · exact .inr ⟨t, ht, p, hp, h⟩
    · rcases h4 with h | h | ⟨t, ht, h⟩
      · exact .inl (.inl h)
      · exact .inl (.inr h)
      · exact .inr ⟨t, ht, h⟩
    · rcases h5 with h | h | ⟨t, ht, h⟩
      · exact .inl (.inl h)
      · exact .inl (.inr h)
      · exact .inr ⟨t, ht, h⟩

/-- **C65** A method is shown by a receiver filter exactly when its receiver contains one of the terms (and the same
for signatures and type arguments). -/
theorem C65_receiver_partial (x : Text) (n : Node) (terms : List String) (hr : n.recv ≠ "") (ht : terms ≠ []) :
    keeps x { receivers := terms } n = true ↔ ∃ t ∈ terms, x.contains (x.lower n.recv) (x.lower (x.trim t)) = true := by
  rw [C65_exact]
  constructor
  · intro h
    rcases h.receiver with h | h | h
    · exact absurd h ht
    · exact absurd h hr
    · exact h
  · intro h
    exact ⟨.inl rfl, .inl rfl, .inl rfl, .inr (.inr h), .inl rfl, .inl rfl, fun h => absurd rfl h, fun h => absurd rfl h⟩

/-- **C65, what fails** Whatever receiver, signature or type argument is asked for, a plain function passes. -/
theorem C65_plain_function_passes (x : Text) (rs ss gs : List String) :
    keeps x { receivers := rs, signatures := ss, generics := gs } { id := 1, label := "plain" } = true := by
  rw [C65_exact]
  exact ⟨.inl rfl, .inl rfl, .inl rfl, .inr (.inl rfl), .inr (.inl rfl), .inr (.inl rfl), fun h => absurd rfl h, fun h => absurd rfl h⟩

/-- **C65** A scope that is none of the known words hides nothing. -/
theorem C65_unknown_scope (x : Text) (n : Node) (scope : String) (h1 : x.lower (x.trim scope) ≠ "exported")
    (h2 : x.lower (x.trim scope) ≠ "unexported") : keeps x { scope := scope } n = true := by
  rw [C65_exact]
  exact ⟨.inl rfl, .inl rfl, .inl rfl, .inl rfl, .inl rfl, .inl rfl, fun _ _ h => absurd h h1, fun _ _ h => absurd h h2⟩

/-- A simple text for the examples: nothing is trimmed or changed, and a term is contained when it is equal. -/
@[reducible] def plain : Text := ⟨id, id, fun a b => a == b⟩

example : keeps plain { receivers := ["S"], scope := "exported" } { id := 1, recv := "S", scope := "exported" } = true := by decide
example : keeps plain { receivers := ["S"], scope := "exported" } { id := 1, recv := "T", scope := "exported" } = false := by decide
example : keeps plain { functions := [""] } { id := 1, label := "" } = false := by decide

/-! ## Orders -/

theorem visit_mem {edges : List Edge} {f : Nat} {v : List Nat} {i : Nat} (h : i ∈ v) : visit edges f v i = v := by
  cases f with
  | zero => rfl
  | succ f => simp only [visit, List.contains_iff_mem.2 h, if_true]

theorem foldl_prefix {g : List Nat → Nat → List Nat} (hg : ∀ v i, v <+: g v i) : ∀ (l : List Nat) (v : List Nat), v <+: l.foldl g v := by
  intro l
  induction l with
  | nil => intro v; exact List.prefix_refl v
  | cons a l ih => intro v; exact (hg v a).trans (ih _)

theorem visit_prefix (edges : List Edge) : ∀ (f : Nat) (v : List Nat) (i : Nat), v <+: visit edges f v i := by
  intro f
  induction f with
  | zero => intro v i; exact List.prefix_refl v
  | succ f ih =>
    intro v i
    simp only [visit]
    split
    · exact List.prefix_refl v
    · exact (List.prefix_append v [i]).trans (foldl_prefix ih _ _)

theorem visit_new {edges : List Edge} {f : Nat} {v : List Nat} {i : Nat} (h : i ∉ v) : ∃ b, visit edges (f + 1) v i = v ++ i :: b := by
  have hc : v.contains i = false := by simpa using h
  simp only [visit, hc, if_neg, Bool.false_eq_true, not_false_eq_true]
  obtain ⟨b, hb⟩ := foldl_prefix (visit_prefix edges f) (next edges i) (v ++ [i])
  exact ⟨b, by rw [← hb]; simp⟩

theorem mem_visit {edges : List Edge} {f : Nat} {v : List Nat} {i : Nat} : i ∈ visit edges (f + 1) v i := by
  by_cases h : i ∈ v
  · rw [visit_mem h]; exact h
  · obtain ⟨b, hb⟩ := visit_new (edges := edges) (f := f) h
    rw [hb]; simp

theorem foldl_nodup {g : List Nat → Nat → List Nat} (hg : ∀ v i, v.Nodup → (g v i).Nodup) : ∀ (l : List Nat) (v : List Nat), v.Nodup → (l.foldl g v).Nodup := by
  intro l
  induction l with
  | nil => intro v h; exact h
  | cons a l ih => intro v h; exact ih _ (hg v a h)

theorem visit_nodup (edges : List Edge) : ∀ (f : Nat) (v : List Nat) (i : Nat), v.Nodup → (visit edges f v i).Nodup := by
  intro f
  induction f with
  | zero => intro v i h; exact h
  | succ f ih =>
    intro v i h
    simp only [visit]
    split
    · exact h
    · next hc =>
      refine foldl_nodup ih _ _ (List.nodup_append.2 ⟨h, by simp, ?_⟩)
      intro a ha b hb
      rw [List.mem_singleton] at hb
      subst hb
      intro e; subst e
      exact hc (List.contains_iff_mem.2 ha)

theorem fold_noop {edges : List Edge} {f : Nat} {v : List Nat} : ∀ (l : List Nat), (∀ i ∈ l, i ∈ v) → l.foldl (visit edges f) v = v := by
  intro l
  induction l with
  | nil => intro _; rfl
  | cons a l ih =>
    intro h
    rw [List.foldl_cons, visit_mem (h a (List.mem_cons_self ..))]
    exact ih fun i hi => h i (List.mem_cons_of_mem _ hi)

theorem mem_fold {edges : List Edge} {f : Nat} : ∀ (l : List Nat) (v : List Nat), ∀ i ∈ l, i ∈ l.foldl (visit edges (f + 1)) v := by
  intro l
  induction l with
  | nil => intro _ i hi; cases hi
  | cons a l ih =>
    intro v i hi
    rw [List.foldl_cons]
    rcases List.mem_cons.1 hi with e | hi
    · subst e
      exact (foldl_prefix (visit_prefix edges (f + 1)) l _).subset mem_visit
    · exact ih _ i hi

/-- Starting again from some of the nodes in the order they were visited, all starting points among them, changes
nothing. -/
theorem fold_filter {edges : List Edge} {f : Nat} {p : Nat → Bool} : ∀ (l : List Nat) (v a : List Nat),
    l.foldl (visit edges (f + 1)) v = v ++ a → (∀ r ∈ l, p r = true) → (a.filter p).foldl (visit edges (f + 1)) v = v ++ a := by
  intro l
  induction l with
  | nil =>
    intro v a h _
    have : a = [] := by simpa using h
    subst this; simp
  | cons r l ih =>
    intro v a h hp
    rw [List.foldl_cons] at h
    by_cases hr : r ∈ v
    · rw [visit_mem hr] at h
      exact ih v a h fun x hx => hp x (List.mem_cons_of_mem _ hx)
    · obtain ⟨b, hb⟩ := visit_new (edges := edges) (f := f) hr
      rw [hb] at h
      obtain ⟨a2, h2⟩ := foldl_prefix (visit_prefix edges (f + 1)) l (v ++ r :: b)
      have ha : a = r :: b ++ a2 := by
        rw [← h2, List.append_assoc] at h
        exact (List.append_cancel_left h).symm
      subst ha
      have hpr := hp r (List.mem_cons_self ..)
      rw [List.filter_append, List.filter_cons_of_pos hpr, List.foldl_append, List.foldl_cons, hb,
        fold_noop (b.filter p) (by intro i hi; have := (List.mem_filter.1 hi).1; simp [this]),
        ih (v ++ r :: b) a2 h2.symm fun x hx => hp x (List.mem_cons_of_mem _ hx)]
      simp

theorem refold {edges : List Edge} {f : Nat} {p : Nat → Bool} (ms os v : List Nat) (h : (ms ++ os).foldl (visit edges (f + 1)) [] = v)
    (hp : ∀ r ∈ os, p r = true) : (ms ++ v.filter p).foldl (visit edges (f + 1)) [] = v := by
  rw [List.foldl_append] at h
  obtain ⟨a, ha⟩ := foldl_prefix (visit_prefix edges (f + 1)) os (ms.foldl (visit edges (f + 1)) [])
  rw [h] at ha
  rw [List.foldl_append, ← ha, List.filter_append, List.foldl_append, fold_noop _ (fun i hi => (List.mem_filter.1 hi).1)]
  exact fold_filter os _ a (by rw [h, ha]) hp

theorem lookup_eq {nodes : List Node} (hn : (nodes.map (·.id)).Nodup) {i : Nat} {n : Node} : lookup nodes i = some n ↔ n ∈ nodes ∧ n.id = i := by
  simp only [lookup]
  constructor
  · intro h
    exact ⟨by simpa using List.mem_of_find?_eq_some h, by simpa using List.find?_some h⟩
  · rintro ⟨hm, hi⟩
    cases hf : nodes.reverse.find? fun n => n.id = i with
    | none => exact absurd hi (by simpa using List.find?_eq_none.1 hf n (by simpa using hm))
    | some m =>
      have h1 : m ∈ nodes := by simpa using List.mem_of_find?_eq_some hf
      have h2 : m.id = i := by simpa using List.find?_some hf
      rw [Option.some.injEq]
      obtain ⟨a, ha, rfl⟩ := List.getElem_of_mem h1
      obtain ⟨b, hb, rfl⟩ := List.getElem_of_mem hm
      have := (List.getElem_inj (i := a) (j := b) (h₀ := by simpa using ha) (h₁ := by simpa using hb) hn).1 (by simp [h2, hi])
      simp only [this]

theorem lookup_id {nodes : List Node} {i : Nat} {n : Node} (h : lookup nodes i = some n) : n.id = i := by
  simp only [lookup] at h
  simpa using List.find?_some h

theorem map_id_lookup {nodes : List Node} (v : List Nat) : (v.filterMap (lookup nodes)).map (·.id) = v.filter fun i => (lookup nodes i).isSome := by
  induction v with
  | nil => rfl
  | cons i v ih =>
    cases h : lookup nodes i with
    | none => rw [List.filterMap_cons_none h, List.filter_cons_of_neg (by simp [h]), ih]
    | some n => rw [List.filterMap_cons_some h, List.filter_cons_of_pos (by simp [h]), List.map_cons, ih, lookup_id h]

theorem filter_lookup {nodes : List Node} (q : Node → Bool) (v : List Nat) :
    ((v.filterMap (lookup nodes)).filter q).map (·.id) = v.filter fun i => ((lookup nodes i).map q).getD false := by
  induction v with
  | nil => rfl
  | cons i v ih =>
    cases h : lookup nodes i with
    | none => rw [List.filterMap_cons_none h, List.filter_cons_of_neg (by simp [h]), ih]
    | some n =>
      rw [List.filterMap_cons_some h]
      by_cases hq : q n = true
      · rw [List.filter_cons_of_pos hq, List.filter_cons_of_pos (by simp [h, hq]), List.map_cons, ih, lookup_id h]
      · rw [List.filter_cons_of_neg hq, List.filter_cons_of_neg (by simp [h, hq]), ih]

theorem nodup_of_map {α β : Type} (g : α → β) {l : List α} (h : (l.map g).Nodup) : l.Nodup :=
  (List.pairwise_map.1 h).imp fun hne e => hne (by rw [e])

/-- The order a visit gives. -/
def place (nodes : List Node) (v : List Nat) : List Node := v.filterMap (lookup nodes) ++ nodes.filter fun n => !v.contains n.id

theorem place_perm {nodes : List Node} (hn : (nodes.map (·.id)).Nodup) {v : List Nat} (hv : v.Nodup) : (place nodes v).Perm nodes := by
  have hN : nodes.Nodup := nodup_of_map _ hn
  have h1 : ((v.filterMap (lookup nodes)).map (·.id)).Nodup := by rw [map_id_lookup]; exact hv.sublist List.filter_sublist
  refine (List.perm_ext_iff_of_nodup (List.nodup_append.2 ⟨nodup_of_map _ h1, hN.sublist List.filter_sublist, ?_⟩) hN).2 ?_
  · intro a ha b hb e
    subst e
    obtain ⟨i, hi, hl⟩ := List.mem_filterMap.1 ha
    have := (List.mem_filter.1 hb).2
    rw [lookup_id hl] at this
    simp [hi] at this
  · intro n
    simp only [List.mem_append, List.mem_filterMap, List.mem_filter]
    constructor
    · rintro (⟨i, _, hl⟩ | h)
      · exact ((lookup_eq hn).1 hl).1
      · exact h.1
    · intro h
      by_cases hv : n.id ∈ v
      · exact .inl ⟨n.id, hv, (lookup_eq hn).2 ⟨h, rfl⟩⟩
      · exact .inr ⟨h, by simpa using hv⟩

theorem orderBy_perm (big : Nat) (edges : List Edge) (nodes : List Node) (hn : (nodes.map (·.id)).Nodup) : (orderBy big edges nodes).Perm nodes :=
  place_perm hn (foldl_nodup (visit_nodup edges _) _ _ List.nodup_nil)

theorem lookup_perm {a b : List Node} (hp : a.Perm b) (hn : (a.map (·.id)).Nodup) : lookup a = lookup b := by
  have hn' : (b.map (·.id)).Nodup := (hp.map _).nodup_iff.1 hn
  funext i
  apply Option.ext
  intro n
  have h1 := lookup_eq (i := i) (n := n) hn
  have h2 := lookup_eq (i := i) (n := n) hn'
  rw [h1, h2, hp.mem_iff]

theorem place_place {nodes : List Node} (hn : (nodes.map (·.id)).Nodup) {v : List Nat} (hv : v.Nodup) : place (place nodes v) v = place nodes v := by
  have hp := place_perm hn hv
  have hl := lookup_perm hp ((hp.map _).nodup_iff.2 hn)
  show v.filterMap (lookup (place nodes v)) ++ _ = _
  rw [hl]
  simp only [place, List.filter_append, List.filter_filter, Bool.and_self]
  congr 1
  rw [List.append_left_eq_self, List.filter_eq_nil_iff]
  intro n hm
  obtain ⟨i, hi, hl⟩ := List.mem_filterMap.1 hm
  rw [lookup_id hl]
  simpa using hi

/-- Root lists of the shape `ms ++ (nodes chosen by q)`, with every chosen node visited. -/
theorem roots_again {edges : List Edge} {f : Nat} {nodes : List Node} (hn : (nodes.map (·.id)).Nodup) (q : Node → Bool) (ms v : List Nat)
    (h : (ms ++ (nodes.filter q).map (·.id)).foldl (visit edges (f + 1)) [] = v) :
    (ms ++ ((place nodes v).filter q).map (·.id)).foldl (visit edges (f + 1)) [] = v := by
  have hrest : (nodes.filter fun n => !v.contains n.id).filter q = [] := by
    rw [List.filter_eq_nil_iff]
    intro n hm hq
    obtain ⟨h1, h2⟩ := List.mem_filter.1 hm
    have : n.id ∈ v := by
      rw [← h]
      exact mem_fold _ _ _ (List.mem_append_right _ (List.mem_map.2 ⟨n, List.mem_filter.2 ⟨h1, hq⟩, rfl⟩))
    simp [this] at h2
  rw [place, List.filter_append, hrest, List.append_nil, filter_lookup]
  refine refold ms _ v h ?_
  intro r hr
  obtain ⟨n, hm, rfl⟩ := List.mem_map.1 hr
  obtain ⟨h1, h2⟩ := List.mem_filter.1 hm
  rw [(lookup_eq hn).2 ⟨h1, rfl⟩]
  simpa using h2

theorem isMain_iff {n : Node} : isMain n = true ↔ n.id = 0 ∨ n.label = "main" := by simp [isMain]

theorem mainRoot_spec (edges : List Edge) (nodes : List Node) (m : Option Nat) :
    nodes.foldl (fun m n => if isRoot edges n && isMain n then some n.id else m) m =
      ((nodes.filter fun n => isRoot edges n && isMain n).getLast?.map (·.id)).or m := by
  induction nodes generalizing m with
  | nil => simp
  | cons n r ih =>
    rw [List.foldl_cons, ih]
    by_cases h : (isRoot edges n && isMain n) = true
    · rw [if_pos h, List.filter_cons_of_pos (p := fun n => isRoot edges n && isMain n) h]
      cases hr : r.filter fun n => isRoot edges n && isMain n with
      | nil => simp
      | cons a b => rw [List.getLast?_cons_cons]; simp [List.getLast?_cons]
    · rw [if_neg h, List.filter_cons_of_neg (p := fun n => isRoot edges n && isMain n) h]

/-- With one main, the nodes that are main and satisfy something are listed the same way in every order. -/
theorem one_main_filter {a b : List Node} (hp : a.Perm b) (hn : a.Nodup) (h : OneMain a) (q : Node → Bool) (hq : ∀ n, q n = true → isMain n = true) :
    a.filter q = b.filter q := by
  have h1 : (a.filter q).Perm (b.filter q) := hp.filter q
  have hd : (a.filter q).Nodup := hn.sublist List.filter_sublist
  cases ha : a.filter q with
  | nil => rw [ha] at h1; exact (List.nil_perm.1 h1).symm
  | cons x r =>
    have hr : r = [] := by
      cases r with
      | nil => rfl
      | cons y r =>
        have hx : x ∈ a.filter q := by rw [ha]; simp
        have hy : y ∈ a.filter q := by rw [ha]; simp
        obtain ⟨hx1, hx2⟩ := List.mem_filter.1 hx
        obtain ⟨hy1, hy2⟩ := List.mem_filter.1 hy
        have := h x hx1 y hy1 (isMain_iff.1 (hq x hx2)) (isMain_iff.1 (hq y hy2))
        subst this
        rw [ha] at hd
        simp at hd
    subst hr
    rw [ha] at h1
    exact (List.singleton_perm.1 h1).symm ▸ rfl

theorem minDepth_perm (big : Nat) {a b : List Node} (hp : a.Perm b) : minDepth big a = minDepth big b := by
  exact hp.foldl_eq' (by intro x _ y _ m; grind) big

theorem minDepth_le (big : Nat) (nodes : List Node) : minDepth big nodes ≤ big ∧ ∀ n ∈ nodes, minDepth big nodes ≤ n.depth := by
  unfold minDepth
  induction nodes generalizing big with
  | nil => exact ⟨Nat.le_refl _, fun n h => by cases h⟩
  | cons m l ih =>
    rw [List.foldl_cons]
    obtain ⟨h1, h2⟩ := ih (if m.depth < big then m.depth else big)
    have hb : (if m.depth < big then m.depth else big) ≤ big ∧ (if m.depth < big then m.depth else big) ≤ m.depth := by split <;> omega
    refine ⟨Nat.le_trans h1 hb.1, fun n hn => ?_⟩
    cases hn with
    | head => exact Nat.le_trans h1 hb.2
    | tail _ hn => exact h2 n hn

theorem minDepth_mem (big : Nat) (nodes : List Node) : minDepth big nodes = big ∨ ∃ n ∈ nodes, minDepth big nodes = n.depth := by
  unfold minDepth
  induction nodes generalizing big with
  | nil => exact .inl rfl
  | cons m l ih =>
    rw [List.foldl_cons]
    rcases ih (if m.depth < big then m.depth else big) with h | ⟨n, hn, h⟩
    · rw [h]
      split
      · exact .inr ⟨m, .head _, rfl⟩
      · exact .inl rfl
    · exact .inr ⟨n, .tail _ hn, h⟩

theorem fallback_spec (k : Nat) (nodes : List Node) (r : List Nat) :
    nodes.foldl (fun r n => if n.depth = k then (if isMain n then n.id :: r else r ++ [n.id]) else r) r =
      ((nodes.filter fun n => n.depth = k && isMain n).map (·.id)).reverse ++ r ++ (nodes.filter fun n => n.depth = k && !isMain n).map (·.id) := by
  induction nodes generalizing r with
  | nil => simp
  | cons n l ih =>
    rw [List.foldl_cons, ih]
    by_cases h1 : n.depth = k <;> by_cases h2 : isMain n = true <;> simp [h1, h2]

/-- The roots of both lists have one shape. -/
theorem roots_shape (big : Nat) (edges : List Edge) {a b : List Node} (hp : a.Perm b) (hn : a.Nodup) (h : OneMain a) :
    ∃ ms q, roots big edges a = ms ++ (a.filter q).map (·.id) ∧ roots big edges b = ms ++ (b.filter q).map (·.id) := by
  have hm : mainRoot edges a = mainRoot edges b := by
    simp only [mainRoot, mainRoot_spec, one_main_filter hp hn h (fun n => isRoot edges n && isMain n) (by intro n; simp)]
  cases hma : mainRoot edges a with
  | some m =>
    refine ⟨[m], fun n => isRoot edges n && !isMain n, ?_, ?_⟩
    · simp only [roots, hma, otherRoots, List.singleton_append]
    · simp only [roots, ← hm, hma, otherRoots, List.singleton_append]
  | none =>
    have hperm : (otherRoots edges a).Perm (otherRoots edges b) := (hp.filter _).map _
    by_cases he : (otherRoots edges a).isEmpty
    · have he' : (otherRoots edges b).isEmpty := by
        rw [List.isEmpty_iff] at he ⊢
        rw [he] at hperm
        exact List.nil_perm.1 hperm |>.symm ▸ rfl
      refine ⟨((a.filter fun n => n.depth = minDepth big a && isMain n).map (·.id)).reverse, fun n => n.depth = minDepth big a && !isMain n, ?_, ?_⟩
      · simp only [roots, hma, he, if_true, fallbackRoots, fallback_spec, List.append_nil]
      · simp only [roots, ← hm, hma, he', if_true, fallbackRoots, fallback_spec, List.append_nil, ← minDepth_perm big hp]
        rw [one_main_filter hp hn h _ (by intro n; simp)]
    · have he' : ¬ (otherRoots edges b).isEmpty := by
        rw [List.isEmpty_iff] at he ⊢
        intro e
        rw [e] at hperm
        exact he (List.perm_nil.1 hperm)
      refine ⟨[], fun n => isRoot edges n && !isMain n, ?_, ?_⟩
      · simp only [roots, hma]; rw [if_neg he]; rfl
      · simp only [roots, ← hm, hma]; rw [if_neg he']; rfl

theorem orderBy_head {big : Nat} {edges : List Edge} {nodes : List Node} {r : Nat} {rs : List Nat} (hr : roots big edges nodes = r :: rs)
    {n : Node} (hn : lookup nodes r = some n) : (orderBy big edges nodes).head? = some n := by
  have h1 : [r] <+: (roots big edges nodes).foldl (visit edges (nodes.length + edges.length + 1)) [] := by
    rw [hr, List.foldl_cons]
    refine List.IsPrefix.trans ?_ (foldl_prefix (visit_prefix edges _) rs _)
    unfold visit
    rw [if_neg (by simp)]
    exact foldl_prefix (visit_prefix edges _) _ _
  obtain ⟨t, ht⟩ := h1
  unfold orderBy
  simp only []
  rw [← ht, List.singleton_append, List.filterMap_cons, hn]
  rfl

/-- **C39.** The order of the nodes starts where the program does: with the last node called `main` (or numbered 0)
that nothing calls or that has depth 0; if there is none, with a node that nothing calls or of depth 0; and if there is
none either, with a node of the least depth. -/
theorem C39_order_starts (d : Data) (hn : (d.nodes.map (·.id)).Nodup) (hd : ∀ n ∈ d.nodes, n.depth < 999999) {n : Node}
    (h : (orderDepthFirst d).head? = some n) :
    let Root := fun n : Node => (∀ e ∈ d.edges, e.tgt ≠ n.id) ∨ n.depth = 0
    let Main := fun n : Node => n.id = 0 ∨ n.label = "main"
    ((∃ m ∈ d.nodes, Root m ∧ Main m) → Root n ∧ Main n) ∧
    ((∃ m ∈ d.nodes, Root m) → Root n) ∧
    ((∀ m ∈ d.nodes, ¬Root m) → ∀ m ∈ d.nodes, n.depth ≤ m.depth) := by
  intro Root Main
  have hR : ∀ m, isRoot d.edges m = true ↔ Root m := by
    intro m
    simp [isRoot, Root]
  have hM : ∀ m, isMain m = true ↔ Main m := by
    intro m
    simp [isMain, Main]
  have hlook : ∀ m ∈ d.nodes, lookup d.nodes m.id = some m := fun m hm => (lookup_eq hn).2 ⟨hm, rfl⟩
  have start : ∀ (m : Node) (rs : List Nat), m ∈ d.nodes → roots 999999 d.edges d.nodes = m.id :: rs → n = m := by
    intro m rs hm hr
    have := orderBy_head hr (hlook m hm)
    rw [show orderBy 999999 d.edges d.nodes = orderDepthFirst d from rfl, h] at this
    exact Option.some.inj this
  have other : ∀ m ∈ d.nodes, Root m → ¬Main m → m.id ∈ otherRoots d.edges d.nodes := by
    intro m hm h1 h2
    refine List.mem_map.2 ⟨m, List.mem_filter.2 ⟨hm, ?_⟩, rfl⟩
    rw [(hR m).2 h1, Bool.true_and, Bool.not_eq_true', ← Bool.not_eq_true, hM]
    exact h2
  cases hmr : mainRoot d.edges d.nodes with
  | some r =>
    obtain ⟨m, hm, he⟩ : ∃ m, (d.nodes.filter fun n => isRoot d.edges n && isMain n).getLast? = some m ∧ m.id = r := by
      unfold mainRoot at hmr
      rw [mainRoot_spec, Option.or_none] at hmr
      exact Option.map_eq_some_iff.1 hmr
    obtain ⟨h1, h2⟩ := List.mem_filter.1 (List.mem_of_getLast? hm)
    rw [Bool.and_eq_true, hR, hM] at h2
    have : n = m := start m _ h1 (by rw [roots, hmr, he])
    subst this
    exact ⟨fun _ => h2, fun _ => h2.1, fun hno => absurd h2.1 (hno n h1)⟩
  | none =>
    have none' : ¬∃ m ∈ d.nodes, Root m ∧ Main m := by
      rintro ⟨m, hm, h1, h2⟩
      unfold mainRoot at hmr
      rw [mainRoot_spec, Option.or_none, Option.map_eq_none_iff, List.getLast?_eq_none_iff, List.filter_eq_nil_iff] at hmr
      exact hmr m hm (by rw [(hR m).2 h1, (hM m).2 h2]; rfl)
    refine ⟨fun h => absurd h none', ?_, ?_⟩
    · rintro ⟨m, hm, h1⟩
      have hne := other m hm h1 fun h2 => none' ⟨m, hm, h1, h2⟩
      obtain ⟨r, rs, hrs⟩ : ∃ r rs, otherRoots d.edges d.nodes = r :: rs := List.exists_cons_of_ne_nil (List.ne_nil_of_mem hne)
      have hr : r ∈ otherRoots d.edges d.nodes := hrs ▸ List.mem_cons_self
      obtain ⟨m', hm', rfl⟩ := List.mem_map.1 hr
      obtain ⟨h3, h4⟩ := List.mem_filter.1 hm'
      have : n = m' := start m' rs h3 (by rw [roots, hmr, hrs]; rfl)
      subst this
      rw [Bool.and_eq_true, hR] at h4
      exact h4.1
    · intro hno
      have he : otherRoots d.edges d.nodes = [] := by
        rw [otherRoots, List.map_eq_nil_iff, List.filter_eq_nil_iff]
        intro m hm h
        rw [Bool.and_eq_true, hR] at h
        exact hno m hm h.1
      have hroots : roots 999999 d.edges d.nodes = fallbackRoots 999999 d.nodes := by rw [roots, hmr, he]; rfl
      have hmem : ∀ r ∈ fallbackRoots 999999 d.nodes, ∃ m ∈ d.nodes, m.id = r ∧ m.depth = minDepth 999999 d.nodes := by
        intro r hr
        rw [fallbackRoots, fallback_spec, List.append_nil, List.mem_append, List.mem_reverse, List.mem_map, List.mem_map] at hr
        rcases hr with ⟨m, hm, e⟩ | ⟨m, hm, e⟩
        · obtain ⟨h1, h2⟩ := List.mem_filter.1 hm
          exact ⟨m, h1, e, by simp at h2; exact h2.1⟩
        · obtain ⟨h1, h2⟩ := List.mem_filter.1 hm
          exact ⟨m, h1, e, by simp at h2; exact h2.1⟩
      intro m hm
      have hne : fallbackRoots 999999 d.nodes ≠ [] := by
        obtain ⟨k, hk, hkd⟩ : ∃ k ∈ d.nodes, minDepth 999999 d.nodes = k.depth := by
          rcases minDepth_mem 999999 d.nodes with h | h
          · have := (minDepth_le 999999 d.nodes).2 m hm
            have := hd m hm
            omega
          · exact h
        have : k.id ∈ fallbackRoots 999999 d.nodes := by
          rw [fallbackRoots, fallback_spec, List.append_nil, List.mem_append, List.mem_reverse, List.mem_map, List.mem_map]
          by_cases hkm : isMain k = true
          · exact .inl ⟨k, List.mem_filter.2 ⟨hk, by simp [hkd, hkm]⟩, rfl⟩
          · exact .inr ⟨k, List.mem_filter.2 ⟨hk, by simp [hkd, hkm]⟩, rfl⟩
        exact List.ne_nil_of_mem this
      obtain ⟨r, rs, hrs⟩ := List.exists_cons_of_ne_nil hne
      obtain ⟨k, hk, hki, hkd⟩ := hmem r (hrs ▸ List.mem_cons_self)
      have : n = k := start k rs hk (by rw [hroots, hrs, hki])
      subst this
      rw [hkd]
      exact (minDepth_le 999999 d.nodes).2 m hm

/-- Two functions that call each other, below a node that is not drawn. -/
example : ∃ n, (orderDepthFirst ⟨[{ id := 1, label := "a", depth := 2 }, { id := 2, label := "b", depth := 1 }],
    [{ src := 2, tgt := 1 }, { src := 1, tgt := 2 }]⟩).head? = some n ∧ n.label = "b" := ⟨_, rfl, by decide⟩


theorem orderBy_idem (big : Nat) (edges : List Edge) (nodes : List Node) (hn : (nodes.map (·.id)).Nodup) (h : OneMain nodes) :
    orderBy big edges (orderBy big edges nodes) = orderBy big edges nodes := by
  have hp := orderBy_perm big edges nodes hn
  obtain ⟨ms, q, h1, h2⟩ := roots_shape big edges hp.symm (nodup_of_map _ hn) h
  have hlen := hp.length_eq
  have hv : ((roots big edges nodes).foldl (visit edges (nodes.length + edges.length + 1)) []).Nodup :=
    foldl_nodup (visit_nodup edges _) _ _ List.nodup_nil
  have hagain : (roots big edges (orderBy big edges nodes)).foldl (visit edges (nodes.length + edges.length + 1)) [] =
      (roots big edges nodes).foldl (visit edges (nodes.length + edges.length + 1)) [] := by
    rw [h2]
    exact roots_again hn q ms _ (by rw [h1])
  show place (orderBy big edges nodes) ((roots big edges (orderBy big edges nodes)).foldl (visit edges ((orderBy big edges nodes).length + edges.length + 1)) []) = _
  rw [hlen, hagain]
  exact place_place hn hv

/-- **C39** Both orders list every node exactly once. -/
theorem C39_orders (d : Data) (hn : (d.nodes.map (·.id)).Nodup) : (orderDepthFirst d).Perm d.nodes ∧ (branchOrder d).Perm d.nodes :=
  ⟨orderBy_perm _ _ _ hn, orderBy_perm _ _ _ hn⟩

/-- **C39** With one main, asking again does not change the order that is stored. -/
theorem C39_order_stable_partial (d : Data) (hn : (d.nodes.map (·.id)).Nodup) (h : OneMain d.nodes) :
    orderDepthFirst ⟨orderDepthFirst d, d.edges⟩ = orderDepthFirst d := orderBy_idem _ _ _ hn h

/-! ## Slices -/

theorem wrap_small {n : Int} (h0 : 0 ≤ n) (h1 : n < 9223372036854775808) : wrap n = n := by
  simp only [wrap]
  rw [Int.emod_eq_of_lt h0 (by omega), if_pos h1]

theorem slice_eq (l : List α) (page size : Nat) (hp : 1 ≤ page) (hs : page * size < 9223372036854775808) (h1 : 1 ≤ size) :
    slice l page size = some ((l.drop ((page - 1) * size)).take size) := by
  obtain ⟨q, rfl⟩ : ∃ q, page = q + 1 := ⟨page - 1, by omega⟩
  simp only [Nat.add_sub_cancel]
  have hq : q * size + size = (q + 1) * size := by rw [Nat.add_mul, Nat.one_mul]
  have hq1 : q ≤ q * size := Nat.le_mul_of_pos_right q h1
  have e1 : wrap (((q + 1 : Nat) : Int) - 1) = (q : Int) := by
    rw [show ((q + 1 : Nat) : Int) - 1 = (q : Int) by omega]
    exact wrap_small (by omega) (by omega)
  have e2 : wrap ((q : Int) * (size : Int)) = ((q * size : Nat) : Int) := by
    rw [Int.natCast_mul]
    exact wrap_small (by rw [← Int.natCast_mul]; omega) (by rw [← Int.natCast_mul]; omega)
  have e3 : wrap (((q * size : Nat) : Int) + (size : Int)) = ((q * size + size : Nat) : Int) := by
    rw [Int.natCast_add]
    exact wrap_small (by omega) (by omega)
  simp only [slice, e1, e2, e3]
  generalize q * size = s at *
  split
  · next hlt =>
    split
    · next hend =>
      rw [if_pos ⟨by omega, by omega⟩]
      simp only [Int.toNat_natCast, List.take_length, Option.some.injEq]
      rw [List.take_of_length_le (by rw [List.length_drop]; omega)]
    · next hend =>
      rw [if_pos ⟨by omega, by omega⟩]
      simp only [Int.toNat_natCast, Option.some.injEq]
      rw [List.drop_take, show s + size - s = size by omega]
  · next hlt =>
    rw [List.drop_eq_nil_of_le (by omega), List.take_nil]

theorem pages_concat (l : List α) (size : Nat) : ∀ m, (List.range m).flatMap (fun i => (l.drop (i * size)).take size) = l.take (m * size) := by
  intro m
  induction m with
  | zero => simp
  | succ m ih => rw [List.range_succ, List.flatMap_append, ih, List.flatMap_singleton, Nat.add_mul, Nat.one_mul, List.take_add]

/-! ## Parents -/

/-- What the nodes added to a page are. -/
structure Extra (all own extra : List Node) : Prop where
  parents : ∀ e ∈ extra, e.isParent = true ∧ (∀ n ∈ own, n.id ≠ e.id) ∧ (∃ n ∈ own, n.parent = some e.id) ∧
    ∃ q ∈ all, q.id = e.id ∧ q.label = e.label ∧ q.func = e.func ∧ q.pkg = e.pkg
  complete : ∀ n ∈ own, ∀ p, n.parent = some p → (∃ q ∈ all, q.id = p) → ∃ m ∈ own ++ extra, m.id = p
  once : (extra.map (·.id)).Nodup

theorem lookup_mem {nodes : List Node} {i : Nat} {n : Node} (h : lookup nodes i = some n) : n ∈ nodes := by
  simp only [lookup] at h
  simpa using List.mem_of_find?_eq_some h

theorem lookup_none {nodes : List Node} {i : Nat} (h : lookup nodes i = none) : ¬ ∃ q ∈ nodes, q.id = i := by
  simp only [lookup] at h
  rintro ⟨q, hq, e⟩
  exact absurd e (by simpa using List.find?_eq_none.1 h q (by simpa using hq))

theorem addParents (all own : List Node) : ∀ (todo done extra : List Node) (ids : List Nat), done ++ todo = own →
    (∀ i, i ∈ ids ↔ i ∈ (own ++ extra).map (·.id)) →
    (∀ e ∈ extra, e.isParent = true ∧ (∀ n ∈ own, n.id ≠ e.id) ∧ (∃ n ∈ own, n.parent = some e.id) ∧ ∃ q ∈ all, q.id = e.id ∧ q.label = e.label ∧ q.func = e.func ∧ q.pkg = e.pkg) →
    (∀ n ∈ done, ∀ p, n.parent = some p → (∃ q ∈ all, q.id = p) → ∃ m ∈ own ++ extra, m.id = p) →
    (extra.map (·.id)).Nodup →
    ∃ extra', (todo.foldl (addParent all) (ids, own ++ extra)).2 = own ++ extra' ∧ Extra all own extra' := by
  intro todo
  induction todo with
  | nil =>
    intro done extra ids hd _ h1 h2 h3
    rw [List.append_nil] at hd
    subst hd
    exact ⟨extra, rfl, h1, h2, h3⟩
  | cons n todo ih =>
    intro done extra ids hd hi h1 h2 h3
    have hd' : (done ++ [n]) ++ todo = own := by rw [← hd]; simp
    have hno : n ∈ own := by rw [← hd]; simp
    rw [List.foldl_cons]
    have stay : (∀ p, n.parent = some p → (∃ q ∈ all, q.id = p) → ∃ m ∈ own ++ extra, m.id = p) →
        ∃ extra', (todo.foldl (addParent all) (ids, own ++ extra)).2 = own ++ extra' ∧ Extra all own extra' := by
      intro hn
      refine ih (done ++ [n]) extra ids hd' hi h1 ?_ h3
      intro m hm
      rcases List.mem_append.1 hm with hm | hm
      · exact h2 m hm
      · rw [List.mem_singleton] at hm; subst hm; exact hn
    cases hp : n.parent with
    | none =>
      simp only [addParent, hp]
      exact stay (by intro p h; rw [hp] at h; cases h)
    | some p =>
      simp only [addParent, hp]
      split
      · next hc =>
        refine stay ?_
        intro p' h _
        rw [hp] at h; cases h
        exact List.mem_map.1 ((hi p).1 (List.contains_iff_mem.1 hc))
      · next hc =>
        have hpn : p ∉ (own ++ extra).map (·.id) := fun h => hc (List.contains_iff_mem.2 ((hi p).2 h))
        split
        · next hl =>
          refine stay ?_
          intro p' h hq
          rw [hp] at h; cases h
          exact absurd hq (lookup_none hl)
        · next q hl =>
          have hqi := lookup_id hl
          rw [List.append_assoc]
          refine ih (done ++ [n]) (extra ++ [{ q with isParent := true }]) (p :: ids) hd' ?_ ?_ ?_ ?_
          · intro i
            rw [List.mem_cons, hi i]
            simp only [List.map_append, List.mem_append, List.map_cons, List.map_nil, List.mem_singleton, hqi]
            constructor
            · rintro (h | h | h)
              · exact .inr (.inr h)
              · exact .inl h
              · exact .inr (.inl h)
            · rintro (h | h | h)
              · exact .inr (.inl h)
              · exact .inr (.inr h)
              · exact .inl h
          · intro e he
            rcases List.mem_append.1 he with he | he
            · exact h1 e he
            · rw [List.mem_singleton] at he
              subst he
              refine ⟨rfl, ?_, ⟨n, hno, by rw [hp, hqi]⟩, q, lookup_mem hl, rfl, rfl, rfl, rfl⟩
              intro m hm e
              exact hpn (List.mem_map.2 ⟨m, List.mem_append_left _ hm, by rw [e]; exact hqi⟩)
          · intro m hm p' h hq
            rw [← List.append_assoc]
            rcases List.mem_append.1 hm with hm | hm
            · obtain ⟨m', h', e⟩ := h2 m hm p' h hq
              exact ⟨m', List.mem_append_left _ h', e⟩
            · rw [List.mem_singleton] at hm; subst hm
              rw [hp] at h; cases h
              exact ⟨_, List.mem_append_right _ (List.mem_singleton.2 rfl), hqi⟩
          · rw [List.map_append, List.nodup_append]
            refine ⟨h3, by simp, ?_⟩
            intro a ha b hb e
            simp only [List.map_cons, List.map_nil, List.mem_singleton] at hb
            subst e
            rw [hb, hqi] at ha
            exact hpn (by rw [List.map_append]; exact List.mem_append_right _ ha)

/-! ## Pages -/

theorem selected_spec (x : Text) (kind : Kind) (all : Data) (depth : Nat) (f : Filters) :
    ∃ d, selected x kind all depth f = some d ∧ d.nodes.Sublist all.nodes ∧ (∀ n, n ∈ d.nodes ↔ Shown x kind all depth f n) ∧
      d.edges.Sublist all.edges ∧ ∀ e, e ∈ d.edges ↔ e ∈ all.edges ∧ (∃ n ∈ d.nodes, n.id = e.src) ∧ ∃ n ∈ d.nodes, n.id = e.tgt := by
  have main : ∀ d0 : Data, (if kind = .callGraph then cutDepth all depth else some all) = some d0 → d0.nodes.Sublist all.nodes → d0.edges.Sublist all.edges →
      (∀ n, n ∈ d0.nodes ↔ n ∈ all.nodes ∧ (kind = .callGraph → Within all depth n.id)) →
      (∀ e ∈ all.edges, (∃ n ∈ d0.nodes, n.id = e.src) → (∃ n ∈ d0.nodes, n.id = e.tgt) → e ∈ d0.edges) →
      ∃ d, selected x kind all depth f = some d ∧ d.nodes.Sublist all.nodes ∧ (∀ n, n ∈ d.nodes ↔ Shown x kind all depth f n) ∧
        d.edges.Sublist all.edges ∧ ∀ e, e ∈ d.edges ↔ e ∈ all.edges ∧ (∃ n ∈ d.nodes, n.id = e.src) ∧ ∃ n ∈ d.nodes, n.id = e.tgt := by
    intro d0 h0 hs hse hn he
    refine ⟨⟨d0.nodes.filter (keeps x f), d0.edges.filter fun e => ((d0.nodes.filter (keeps x f)).map (·.id)).contains e.src && ((d0.nodes.filter (keeps x f)).map (·.id)).contains e.tgt⟩,
      by simp only [selected, h0], List.filter_sublist.trans hs, ?_, List.filter_sublist.trans hse, ?_⟩
    · intro n
      simp only [List.mem_filter, hn, C65_exact, Shown, and_assoc]
    · intro e
      simp only [List.mem_filter, Bool.and_eq_true, List.contains_iff_mem, List.mem_map]
      constructor
      · rintro ⟨h, ⟨a, ha, e1⟩, b, hb, e2⟩
        exact ⟨hse.subset h, ⟨a, ha, e1⟩, b, hb, e2⟩
      · rintro ⟨h, ⟨a, ha, e1⟩, b, hb, e2⟩
        exact ⟨he e h ⟨a, ha.1, e1⟩ ⟨b, hb.1, e2⟩, ⟨a, ha, e1⟩, b, hb, e2⟩
  cases kind with
  | callGraph =>
    obtain ⟨d0, h0, h1, h2, h3, h4⟩ := C63_depth all depth
    refine main d0 (by rw [if_pos rfl]; exact h0) h1 h2 (fun n => by rw [h3]; simp) ?_
    rintro e he ⟨a, ha, e1⟩ ⟨b, hb, e2⟩
    exact (h4 e).2 ⟨he, ⟨a, ((h3 a).1 ha).1, e1, ((h3 a).1 ha).2⟩, b, ((h3 b).1 hb).1, e2, ((h3 b).1 hb).2⟩
  | trackerTree =>
    refine main all (by simp) (List.Sublist.refl _) (List.Sublist.refl _) (fun n => by simp) (fun e he _ _ => he)

/-- What an answer to a page request must be, for a list `shown` of the nodes asked for. -/
structure GoodPage (all : Data) (shown : List Node) (page size : Nat) (p : Page) : Prop where
  nodes : ∃ extra, p.nodes = (shown.drop ((page - 1) * size)).take size ++ extra ∧ Extra all.nodes ((shown.drop ((page - 1) * size)).take size) extra
  edges : ∀ e, e ∈ p.edges ↔ e ∈ all.edges ∧ (∃ n ∈ (shown.drop ((page - 1) * size)).take size, n.id = e.src) ∧
    ∃ n ∈ (shown.drop ((page - 1) * size)).take size, n.id = e.tgt
  total : p.totalNodes = shown.length
  hasMore : p.hasMore = true ↔ p.nodes.length < shown.length

attribute [local irreducible] wrap slice in
theorem pageOf_some {kind : Kind} {all : List Node} {d : Data} {page size : Int} {own : List Node}
    (h : slice (if kind = .trackerTree then branchOrder d else d.nodes) page size = some own) :
    pageOf kind all d page size = some ⟨(own.foldl (addParent all) (own.map (·.id), own)).2,
      d.edges.filter fun e => (own.map (·.id)).contains e.src && (own.map (·.id)).contains e.tgt,
      d.nodes.length, d.edges.length, decide ((own.foldl (addParent all) (own.map (·.id), own)).2.length < d.nodes.length)⟩ := by
  unfold pageOf
  simp only [h]

attribute [local irreducible] wrap slice in
theorem pageOf_none {kind : Kind} {all : List Node} {d : Data} {page size : Int}
    (h : slice (if kind = .trackerTree then branchOrder d else d.nodes) page size = none) : pageOf kind all d page size = none := by
  unfold pageOf
  simp only [h]

attribute [local irreducible] wrap slice pageOf in
theorem generate_none {x : Text} {kind : Kind} {all d : Data} {page size depth : Int} {f : Filters}
    (h1 : selected x kind (if kind = .trackerTree then ⟨orderDepthFirst all, all.edges⟩ else all) depth f = some d)
    (h2 : pageOf kind (if kind = .trackerTree then ⟨orderDepthFirst all, all.edges⟩ else all : Data).nodes d page size = none) :
    generate x kind all page size depth f = none := by
  unfold generate
  simp only [h1, h2]

theorem pageOf_good (kind : Kind) (all : Data) (d : Data) (shown : List Node) (hs : shown = if kind = .trackerTree then branchOrder d else d.nodes)
    (hp : shown.Perm d.nodes)
    (he : ∀ e, e ∈ d.edges ↔ e ∈ all.edges ∧ (∃ n ∈ d.nodes, n.id = e.src) ∧ ∃ n ∈ d.nodes, n.id = e.tgt)
    (page size : Nat) (h1 : 1 ≤ page) (h2 : 1 ≤ size) (h3 : page * size < 9223372036854775808) :
    ∃ p, pageOf kind all.nodes d page size = some p ∧ GoodPage all shown page size p ∧ p.totalEdges = d.edges.length := by
  have hsl := slice_eq shown page size h1 h3 h2
  clear h3
  generalize hown : (shown.drop ((page - 1) * size)).take size = own at hsl
  have hsub : ∀ n ∈ own, n ∈ d.nodes := by
    intro n hn
    rw [← hown] at hn
    exact hp.mem_iff.1 (List.mem_of_mem_drop (List.mem_of_mem_take hn))
  obtain ⟨extra, hx, hx'⟩ := addParents all.nodes own own [] [] (own.map (·.id)) rfl (by simp) (by simp) (by simp) (by simp)
  simp only [List.append_nil] at hx
  refine ⟨⟨(own.foldl (addParent all.nodes) (own.map (·.id), own)).2, d.edges.filter fun e => (own.map (·.id)).contains e.src && (own.map (·.id)).contains e.tgt,
      d.nodes.length, d.edges.length, decide ((own.foldl (addParent all.nodes) (own.map (·.id), own)).2.length < d.nodes.length)⟩, ?_,
    ⟨⟨extra, by rw [hown]; exact hx, by rw [hown]; exact hx'⟩, ?_, hp.length_eq.symm, ?_⟩, rfl⟩
  · exact pageOf_some (by rw [← hs]; exact hsl)
  rotate_left
  · rw [decide_eq_true_eq, hp.length_eq]
  intro e
  rw [hown]
  simp only [List.mem_filter, Bool.and_eq_true, List.contains_iff_mem, List.mem_map, he]
  constructor
  · rintro ⟨⟨h, _⟩, h'⟩; exact ⟨h, h'⟩
  · rintro ⟨h, ⟨a, ha, e1⟩, b, hb, e2⟩
    exact ⟨⟨h, ⟨a, hsub a ha, e1⟩, b, hsub b hb, e2⟩, ⟨a, ha, e1⟩, b, hb, e2⟩

theorem shown_perm {x : Text} {kind : Kind} {a b : Data} (hn : a.nodes.Perm b.nodes) (he : a.edges = b.edges) {depth : Nat} {f : Filters} {n : Node} :
    Shown x kind a depth f n ↔ Shown x kind b depth f n := by
  have hw : ∀ i, Within a depth i ↔ Within b depth i := by
    intro i
    simp only [Within, Entry, he, hn.mem_iff]
  simp only [Shown, hn.mem_iff, hw]

/-- **C39** For every diagram, depth and filters there is one list of the nodes asked for, each of them once, and every
request for a page (whose last position is a machine integer) is answered from it: the page has the nodes at its
positions, followed by the missing parents of these nodes; it has the edges between nodes at its positions; and the
totals are those of the whole list.  For tracker trees the next request starts from the data this one stored. -/
theorem C39_page (x : Text) (kind : Kind) (all : Data) (depth : Nat) (f : Filters) (hn : (all.nodes.map (·.id)).Nodup) :
    ∃ (all' : Data) (shown : List Node) (edges : Nat), all'.nodes.Perm all.nodes ∧ all'.edges = all.edges ∧ (kind = .callGraph → all' = all) ∧
      shown.Nodup ∧ (∀ n, n ∈ shown ↔ Shown x kind all depth f n) ∧
      ∀ page size : Nat, 1 ≤ page → 1 ≤ size → page * size < 9223372036854775808 →
        ∃ p, generate x kind all page size depth f = some (all', p) ∧ GoodPage all shown page size p ∧ p.totalEdges = edges := by
  have main : ∀ all' : Data, (if kind = .trackerTree then ⟨orderDepthFirst all, all.edges⟩ else all) = all' → all'.nodes.Perm all.nodes → all'.edges = all.edges →
      ∃ (shown : List Node) (edges : Nat), shown.Nodup ∧ (∀ n, n ∈ shown ↔ Shown x kind all depth f n) ∧
        ∀ page size : Nat, 1 ≤ page → 1 ≤ size → page * size < 9223372036854775808 →
          ∃ p, generate x kind all page size depth f = some (all', p) ∧ GoodPage all shown page size p ∧ p.totalEdges = edges := by
    intro all' ha hp he
    obtain ⟨d, hd, hs, h1, _, h2⟩ := selected_spec x kind all' depth f
    have hn' : (all'.nodes.map (·.id)).Nodup := (hp.map _).nodup_iff.2 hn
    have hdn : (d.nodes.map (·.id)).Nodup := hn'.sublist (hs.map _)
    have hpd : (if kind = .trackerTree then branchOrder d else d.nodes).Perm d.nodes := by
      split
      · exact orderBy_perm _ _ _ hdn
      · exact List.Perm.refl _
    refine ⟨_, d.edges.length, hpd.nodup_iff.2 (nodup_of_map _ hdn), fun n => by rw [hpd.mem_iff, h1, shown_perm hp he], ?_⟩
    intro page size g1 g2 g3
    obtain ⟨p, hpg, hgood, hte⟩ := pageOf_good kind all' d _ rfl hpd h2 page size g1 g2 g3
    refine ⟨p, ?_, ⟨?_, ?_, hgood.total, hgood.hasMore⟩, hte⟩
    · simp only [generate, ha, hd, hpg]
    · obtain ⟨extra, e1, e2⟩ := hgood.nodes
      refine ⟨extra, e1, ?_, ?_, e2.once⟩
      · intro e hx
        obtain ⟨a, b, c, q, hq, r⟩ := e2.parents e hx
        exact ⟨a, b, c, q, hp.mem_iff.1 hq, r⟩
      · intro n hn p hp' hq
        obtain ⟨q, hq, r⟩ := hq
        exact e2.complete n hn p hp' ⟨q, hp.mem_iff.2 hq, r⟩
    · intro e; rw [hgood.edges, he]
  cases kind with
  | callGraph =>
    obtain ⟨shown, edges, h⟩ := main all (by simp) (List.Perm.refl _) rfl
    exact ⟨all, shown, edges, List.Perm.refl _, rfl, fun _ => rfl, h⟩
  | trackerTree =>
    obtain ⟨shown, edges, h⟩ := main ⟨orderDepthFirst all, all.edges⟩ (by simp) (C39_orders all hn).1 rfl
    exact ⟨⟨orderDepthFirst all, all.edges⟩, shown, edges, (C39_orders all hn).1, rfl, (fun h => by cases h), h⟩

/-- Asking again starts from the same data. -/
theorem generate_again (x : Text) (kind : Kind) (all all' : Data) (page page' size depth : Int) (f : Filters) (p : Page) (hn : (all.nodes.map (·.id)).Nodup)
    (hm : kind = .trackerTree → OneMain all.nodes) (h : generate x kind all page size depth f = some (all', p)) :
    generate x kind all' page' size depth f = generate x kind all page' size depth f := by
  have ha : all' = if kind = .trackerTree then ⟨orderDepthFirst all, all.edges⟩ else all := by
    simp only [generate] at h
    split at h
    · cases h
    · split at h
      · cases h
      · cases h; rfl
  cases kind with
  | callGraph => simp at ha; rw [ha]
  | trackerTree =>
    simp only [if_true] at ha
    subst ha
    simp only [generate, if_true, C39_order_stable_partial all hn (hm rfl)]

/-- **C39** Asking for the pages 1, 2, …, `m` shows every node asked for exactly once, if these pages are enough, no node
has a parent (call graphs: no function literals) and, for tracker trees, there is one `main`. -/
theorem C39_partition_partial (x : Text) (kind : Kind) (all : Data) (depth size m : Nat) (f : Filters) (hn : (all.nodes.map (·.id)).Nodup)
    (hm : kind = .trackerTree → OneMain all.nodes) (hpar : ∀ n ∈ all.nodes, n.parent = none) (hs : 1 ≤ size) (hw : m * size < 9223372036854775808)
    (hall : all.nodes.length ≤ m * size) :
    ∃ pages, browse x kind size depth f all ((List.range m).map (· + 1)) = some pages ∧ pages.length = m ∧
      ((pages.flatMap (·.nodes)).map (·.id)).Nodup ∧ ∀ n, n ∈ pages.flatMap (·.nodes) ↔ Shown x kind all depth f n := by
  obtain ⟨all', shown, edges, hp', he', _, hd, hsh, hgen⟩ := C39_page x kind all depth f hn
  have hsub : ∀ n ∈ shown, n ∈ all.nodes := fun n hn => ((hsh n).1 hn).1
  -- every page is its slice
  have hpage : ∀ page : Nat, 1 ≤ page → page ≤ m → ∃ p, generate x kind all page size depth f = some (all', p) ∧ p.nodes = (shown.drop ((page - 1) * size)).take size := by
    intro page h1 h2
    obtain ⟨p, hg, hgood, _⟩ := hgen page size h1 hs (Nat.lt_of_le_of_lt (Nat.mul_le_mul_right size h2) hw)
    obtain ⟨extra, e1, e2⟩ := hgood.nodes
    have hx : extra = [] := by
      cases extra with
      | nil => rfl
      | cons a r =>
        obtain ⟨_, _, ⟨n, hn, hpn⟩, _⟩ := e2.parents a (List.mem_cons_self ..)
        rw [hpar n (hsub n (List.mem_of_mem_drop (List.mem_of_mem_take hn)))] at hpn
        cases hpn
    rw [hx, List.append_nil] at e1
    exact ⟨p, hg, e1⟩
  have hbrowse : ∀ (l : List Nat) (a : Data), (∀ p : Nat, generate x kind a p size depth f = generate x kind all p size depth f) → (∀ i ∈ l, 1 ≤ i ∧ i ≤ m) →
      ∃ pages, browse x kind size depth f a l = some pages ∧ pages.length = l.length ∧ pages.flatMap (·.nodes) = l.flatMap fun i => (shown.drop ((i - 1) * size)).take size := by
    intro l
    induction l with
    | nil => intro a _ _; exact ⟨[], rfl, rfl, rfl⟩
    | cons i l ih =>
      intro a ha hl
      obtain ⟨h1, h2⟩ := hl i (List.mem_cons_self ..)
      obtain ⟨p, hg, hpn⟩ := hpage i h1 h2
      obtain ⟨pages, hb, hlen, hf⟩ := ih all' (fun q => generate_again x kind all all' i q size depth f p hn hm hg) fun j hj => hl j (List.mem_cons_of_mem _ hj)
      refine ⟨p :: pages, by simp only [browse, ha, hg, hb, Option.map_some], by simp [hlen], ?_⟩
      rw [List.flatMap_cons, List.flatMap_cons, hf, hpn]
  obtain ⟨pages, hb, hlen, hf⟩ := hbrowse ((List.range m).map (· + 1)) all (fun _ => rfl) (by
    intro i hi
    obtain ⟨j, hj, rfl⟩ := List.mem_map.1 hi
    have := List.mem_range.1 hj
    omega)
  have hshort : shown.length ≤ all.nodes.length := hd.length_le_of_subset hsub
  rw [List.flatMap_map] at hf
  simp only [Nat.add_sub_cancel] at hf
  rw [pages_concat, List.take_of_length_le (by omega)] at hf
  refine ⟨pages, hb, by simpa using hlen, ?_, by rw [hf]; exact hsh⟩
  rw [hf]
  have hinj : ∀ a ∈ shown, ∀ b ∈ shown, a.id = b.id → a = b := by
    intro a ha b hb e
    have h1 := (lookup_eq hn (i := a.id)).2 ⟨hsub a ha, rfl⟩
    have h2 := (lookup_eq hn (i := a.id)).2 ⟨hsub b hb, e.symm⟩
    rw [h1] at h2; exact Option.some.inj h2
  exact List.pairwise_map.2 (hd.imp_of_mem fun {a b} ha hb hne e => hne (hinj a ha b hb e))

example : (browse plain .trackerTree 2 0 {} ⟨[{ id := 3, label := "x", depth := 2 }, { id := 0, label := "main" }, { id := 2, label := "y", depth := 1 }], [{ src := 0, tgt := 2 }, { src := 2, tgt := 3 }]⟩ [1, 2]).map
    (fun l => l.map fun p => p.nodes.map (·.id)) = some [[0, 2], [3]] := by decide

/-- **C39** The first page says correctly whether there are more, if no parent was added to it. -/
theorem C39_has_more_first_partial (x : Text) (kind : Kind) (all : Data) (depth size : Nat) (f : Filters) (hn : (all.nodes.map (·.id)).Nodup)
    (hpar : ∀ n ∈ all.nodes, n.parent = none) (hs : 1 ≤ size) (hw : 2 * size < 9223372036854775808) :
    ∃ all' p1 p2, generate x kind all 1 size depth f = some (all', p1) ∧ generate x kind all 2 size depth f = some (all', p2) ∧
      (p1.hasMore = true ↔ p2.nodes ≠ []) := by
  obtain ⟨all', shown, edges, hp', he', _, hd, hsh, hgen⟩ := C39_page x kind all depth f hn
  obtain ⟨p1, g1, q1, _⟩ := hgen 1 size (by omega) hs (by omega)
  obtain ⟨p2, g2, q2, _⟩ := hgen 2 size (by omega) hs (by omega)
  have none' : ∀ page p, GoodPage all shown page size p → p.nodes = (shown.drop ((page - 1) * size)).take size := by
    intro page p h
    obtain ⟨extra, e1, e2⟩ := h.nodes
    cases extra with
    | nil => rw [e1, List.append_nil]
    | cons a r =>
      obtain ⟨_, _, ⟨n, hn, hpn⟩, _⟩ := e2.parents a (List.mem_cons_self ..)
      rw [hpar n ((hsh n).1 (List.mem_of_mem_drop (List.mem_of_mem_take hn))).1] at hpn
      cases hpn
  refine ⟨all', p1, p2, g1, g2, ?_⟩
  rw [q1.hasMore, none' 1 p1 q1, none' 2 p2 q2]
  simp only [Nat.sub_self, Nat.zero_mul, List.drop_zero, List.length_take]
  rw [← List.length_pos_iff, List.length_take, List.length_drop]
  omega

/-- **C39, what fails** Every page after the first says that there are more, also the last one and all pages after it,
unless parents were added to it. -/
theorem C39_has_more_wrong (x : Text) (kind : Kind) (all : Data) (depth page size : Nat) (f : Filters) (hn : (all.nodes.map (·.id)).Nodup)
    (hpar : ∀ n ∈ all.nodes, n.parent = none) (hp : 2 ≤ page) (hs : 1 ≤ size) (hw : page * size < 9223372036854775808)
    (hsome : ∃ n, Shown x kind all depth f n) :
    ∃ all' p, generate x kind all page size depth f = some (all', p) ∧ p.hasMore = true := by
  obtain ⟨all', shown, edges, hp', he', _, hd, hsh, hgen⟩ := C39_page x kind all depth f hn
  obtain ⟨p, g, q, _⟩ := hgen page size (by omega) hs hw
  refine ⟨all', p, g, q.hasMore.2 ?_⟩
  obtain ⟨extra, e1, e2⟩ := q.nodes
  have hx : extra = [] := by
    cases extra with
    | nil => rfl
    | cons a r =>
      obtain ⟨_, _, ⟨n, hn, hpn⟩, _⟩ := e2.parents a (List.mem_cons_self ..)
      rw [hpar n ((hsh n).1 (List.mem_of_mem_drop (List.mem_of_mem_take hn))).1] at hpn
      cases hpn
  rw [e1, hx, List.append_nil, List.length_take, List.length_drop]
  obtain ⟨n, hn⟩ := hsome
  have : 0 < shown.length := List.length_pos_of_mem ((hsh n).2 hn)
  have : 1 ≤ (page - 1) * size := Nat.mul_pos (by omega) hs
  omega

/-- The last of two pages: nothing comes after it. -/
example : ((generate plain .callGraph ⟨[{ id := 1 }, { id := 2 }], []⟩ 2 1 5 {}).map fun r => (r.2.nodes.map (·.id), r.2.hasMore)) = some ([2], true) ∧
    ((generate plain .callGraph ⟨[{ id := 1 }, { id := 2 }], []⟩ 3 1 5 {}).map fun r => (r.2.nodes.map (·.id), r.2.hasMore)) = some ([], true) := by decide

/-- **C39, what fails** The parent of a function literal is shown on a page and again on its own page; the first page
then says that nothing more follows although the second page has a node. -/
theorem C39_parent_repeated : ∃ (all : Data) (p1 p2 : Page),
    generate plain .callGraph all 1 1 5 {} = some (all, p1) ∧ generate plain .callGraph all 2 1 5 {} = some (all, p2) ∧
      p1.nodes.map (·.id) = [1, 2] ∧ p2.nodes.map (·.id) = [2] ∧ p1.hasMore = false := by
  refine ⟨⟨[{ id := 1, label := "FuncLit", parent := some 2 }, { id := 2, label := "f" }], []⟩, ?_⟩
  exact ⟨_, _, rfl, rfl, by decide, by decide, by decide⟩

/-- **C39, what fails** The parent on the page has no edges there: an edge is missing although both ends are on the
page. -/
theorem C39_parent_edge_missing : ∃ (all : Data) (p : Page) (e : Edge), generate plain .callGraph all 1 1 5 {} = some (all, p) ∧ e ∈ all.edges ∧
    e.src ∈ p.nodes.map (·.id) ∧ e.tgt ∈ p.nodes.map (·.id) ∧ e ∉ p.edges :=
  ⟨⟨[{ id := 1, label := "FuncLit", parent := some 2 }, { id := 2, label := "f" }], [{ src := 2, tgt := 1 }]⟩, _, { src := 2, tgt := 1 }, rfl, by decide, by decide, by decide, by decide⟩

/-- **C39, what fails** With two `main` functions at the top of a tracker tree the order changes with every request: the
two pages of size one show the same node and the other node is never shown. -/
theorem C39_order_flips : ∃ (all : Data) (p1 p2 : Page), (all.nodes.map (·.id)).Nodup ∧ all.nodes.map (·.id) = [1, 2] ∧
    browse plain .trackerTree 1 5 {} all [1, 2] = some [p1, p2] ∧ p1.nodes.map (·.id) = [1] ∧ p2.nodes.map (·.id) = [1] :=
  ⟨⟨[{ id := 1, label := "main" }, { id := 2, label := "main" }], []⟩, _, _, by decide, by decide, rfl, by decide, by decide⟩

/-- **C39, what fails** A page number as large as the parser returns for any number that is too large crashes the
server, whatever the call graph, if anything is to be shown (the page size is 50). -/
theorem C39_overflow_crash (x : Text) (all : Data) (depth : Nat) (f : Filters) :
    (∃ n, Shown x .callGraph all depth f n) → clampPage 9223372036854775807 = 9223372036854775807 ∧ clampSize 100 50 = 50 ∧
      generate x .callGraph all 9223372036854775807 50 depth f = none := by
  rintro ⟨n, hn⟩
  refine ⟨by decide, by decide, ?_⟩
  obtain ⟨d, hd, _, h1, _⟩ := selected_spec x .callGraph all depth f
  have hlen : 0 < d.nodes.length := List.length_pos_of_mem ((h1 n).2 hn)
  have hstart : wrap (wrap (9223372036854775807 - 1) * 50) = -100 := by decide
  have hstop : wrap (-100 + 50) = -50 := by decide
  have hsl : ∀ l : List Node, 0 < l.length → slice l 9223372036854775807 50 = none := by
    intro l hl
    unfold slice
    rw [hstart]
    dsimp only
    rw [hstop, if_pos (by omega), if_neg (by split <;> omega)]
  refine generate_none (d := d) ?_ (pageOf_none ?_)
  · rw [if_neg (by decide)]; exact hd
  · rw [if_neg (by decide)]; exact hsl _ hlen

/-- **C39** Page sizes are between 1 and 2000 and page numbers positive, whatever is asked for (if the configured size
is positive). -/
theorem C39_clamped (config page size : Int) (hc : 1 ≤ config) :
    1 ≤ clampPage page ∧ 1 ≤ clampSize config size ∧ clampSize config size ≤ 2000 ∧
      (1 ≤ page → clampPage page = page) ∧ (1 ≤ size → size ≤ 2000 → clampSize config size = size) := by
  simp only [clampPage, clampSize]
  grind

end Verif.DiagramProps
