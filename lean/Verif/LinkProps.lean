import Verif.LinkModel
/-!
# C119: which call a variable is linked to does not depend on the order of maps
-/

namespace Verif.Link

/-! ### Specification -/

/-- A link that an edge asks for. -/
inductive Asks (pr : Prog) (e : Edge) : Key → Lk → Prop
  /-- Called from main on a variable of main: the last assignment to the variable, and the call. -/
  | root (m : AMap) (as : List Asg) (a : Asg) : e.callerName = "main" → m ∈ pr.declared e.callerPkg "main" → (e.recv, as) ∈ m → as.getLast? = some a →
      Asks pr e ⟨e.recv, e.callerPkg, a.type, "main"⟩ ⟨a, e.id⟩
  /-- A variable passed on with the call, on which the callee calls something: that call. -/
  | inner (v : String) (as : List Asg) (a : Asg) (n : Nat) (pre post : List (Nat × String)) : (v, as) ∈ e.assigns → as.getLast? = some a →
      pr.callers e.callee = pre ++ (n, v) :: post → (∀ c ∈ pre, c.2 ≠ v) → Asks pr e ⟨v, a.pkg, a.type, a.func⟩ ⟨a, n⟩
  /-- One on which it calls nothing: the call itself. -/
  | outer (v : String) (as : List Asg) (a : Asg) : (v, as) ∈ e.assigns → as.getLast? = some a →
      (∀ c ∈ pr.callers e.callee, c.2 ≠ v) → Asks pr e ⟨v, a.pkg, a.type, a.func⟩ ⟨a, e.id⟩

/-- Two lists that are related one by one. -/
inductive Each {A : Type} (R : A → A → Prop) : List A → List A → Prop
  | nil : Each R [] []
  | cons (a b : A) (as bs : List A) : R a b → Each R as bs → Each R (a :: as) (b :: bs)

/-- One Go map in two orders. -/
def SameMap (m m' : AMap) : Prop := m.Perm m' ∧ (m.map (·.1)).Nodup

/-- One edge, its map in two orders. -/
def SameEdge (e e' : Edge) : Prop := SameMap e.assigns e'.assigns ∧ e' = { e with assigns := e'.assigns }

/-- One program, its maps in two orders. -/
structure SameProg (pr pr' : Prog) : Prop where
  edges : Each SameEdge pr.edges pr'.edges
  declared : ∀ p f, Each SameMap (pr.declared p f) (pr'.declared p f)
  callers : pr'.callers = pr.callers

/-- The map of links as one run walks over it: each link that is found, in some order. -/
structure Walks (pr : Prog) (es : List (Key × Lk)) : Prop where
  once : (es.map (·.1)).Nodup
  all : ∀ k l, (k, l) ∈ es ↔ linked pr k = some l

/-- A sort, not necessarily stable: it keeps the members, and none is after a greater one. -/
def Sorts {A : Type} (cmp : A → A → Ordering) (sort : List A → List A) : Prop :=
  ∀ l, (sort l).Perm l ∧ (sort l).Pairwise (fun a b => cmp a b ≠ .gt)

/-! ### Lemmas -/

theorem cmp_swap (idOf : Nat → String) (x y : Key × Lk) : cmpLinks idOf y x = (cmpLinks idOf x y).swap := by
  unfold cmpLinks
  have e : ∀ a b : String, compare b a = (compare a b).swap := fun a b => Std.OrientedCmp.eq_swap
  rw [e (idOf x.2.edge), e x.1.container, e x.1.pkg, e x.1.name, e x.1.type]
  simp only [Ordering.swap_then]

theorem cmp_eq (idOf : Nat → String) (x y : Key × Lk) (h : cmpLinks idOf x y = .eq) : x.1 = y.1 := by
  unfold cmpLinks at h
  simp only [Ordering.then_eq_eq] at h
  obtain ⟨_, h1, h2, h3, h4⟩ := h
  have e : ∀ a b : String, compare a b = .eq → a = b := fun a b => Std.LawfulEqCmp.eq_of_compare
  obtain ⟨⟨n, p, t, c⟩, l⟩ := x
  obtain ⟨⟨n', p', t', c'⟩, l'⟩ := y
  have h1 := e _ _ h1
  have h2 := e _ _ h2
  have h3 := e _ _ h3
  have h4 := e _ _ h4
  dsimp only at h1 h2 h3 h4 ⊢
  rw [h1, h2, h3, h4]

theorem nodup_of_keys (es : List (Key × Lk)) (h : (es.map (·.1)).Nodup) : es.Nodup := by
  induction es with
  | nil => exact List.nodup_nil
  | cons x es ih =>
    rw [List.map_cons, List.nodup_cons] at h
    exact List.nodup_cons.2 ⟨fun hm => h.1 (List.mem_map.2 ⟨x, hm, rfl⟩), ih h.2⟩

theorem write_eq (ws m : List (Key × Lk)) : write m ws = ws.reverse ++ m := by
  induction ws generalizing m with
  | nil => rfl
  | cons w ws ih => simp [write, ih]

theorem build_append (pr : Prog) (es es' : List Edge) (m : List (Key × Lk)) : build pr (es ++ es') m = build pr es' (build pr es m) := by
  induction es generalizing m with
  | nil => rfl
  | cons e es ih => simp [build, ih]

theorem lookup_append_or (xs ys : List (Key × Lk)) (k : Key) : (xs ++ ys).lookup k = (xs.lookup k).or (ys.lookup k) := by
  induction xs with
  | nil => simp
  | cons x xs ih =>
    obtain ⟨k', v⟩ := x
    rw [List.cons_append, List.lookup_cons, List.lookup_cons]
    cases (k == k') <;> simp [ih]

theorem lookup_mem (xs : List (Key × Lk)) (k : Key) (l : Lk) (h : xs.lookup k = some l) : (k, l) ∈ xs := by
  induction xs with
  | nil => cases h
  | cons x xs ih =>
    obtain ⟨k', v⟩ := x
    rw [List.lookup_cons] at h
    cases hk : (k == k') with
    | true =>
      rw [hk] at h
      have : k = k' := by simpa using hk
      cases h; subst this
      exact List.mem_cons_self
    | false => rw [hk] at h; exact List.mem_cons_of_mem _ (ih h)

theorem lookup_none (xs : List (Key × Lk)) (k : Key) (h : xs.lookup k = none) (l : Lk) : (k, l) ∉ xs := by
  induction xs with
  | nil => simp
  | cons x xs ih =>
    obtain ⟨k', v⟩ := x
    rw [List.lookup_cons] at h
    cases hk : (k == k') with
    | true => rw [hk] at h; cases h
    | false =>
      rw [hk] at h
      intro hm
      rcases List.mem_cons.1 hm with he | hm
      · cases he; simp at hk
      · exact ih h hm

/-- With one entry for a key, any order gives the entry. -/
theorem lookup_of (xs : List (Key × Lk)) (k : Key) (l : Lk) (hm : (k, l) ∈ xs) (hu : ∀ l', (k, l') ∈ xs → l' = l) : xs.lookup k = some l := by
  cases h : xs.lookup k with
  | none => exact absurd hm (lookup_none xs k h l)
  | some l' => rw [hu l' (lookup_mem xs k l' h)]

theorem lookup_same (xs ys : List (Key × Lk)) (k : Key) (hp : ∀ x, x ∈ xs ↔ x ∈ ys) (hu : ∀ l l', (k, l) ∈ xs → (k, l') ∈ xs → l = l') : xs.lookup k = ys.lookup k := by
  cases h : xs.lookup k with
  | none =>
    cases h' : ys.lookup k with
    | none => rfl
    | some l => exact absurd ((hp _).2 (lookup_mem ys k l h')) (lookup_none xs k h l)
  | some l =>
    have hm := lookup_mem xs k l h
    exact (lookup_of ys k l ((hp _).1 hm) (fun l' hl' => hu l' l ((hp _).2 hl') hm)).symm

theorem map_one (m : AMap) (hn : (m.map (·.1)).Nodup) (v : String) (as as' : List Asg) (h : (v, as) ∈ m) (h' : (v, as') ∈ m) : as = as' := by
  induction m with
  | nil => cases h
  | cons x m ih =>
    rw [List.map_cons, List.nodup_cons] at hn
    rcases List.mem_cons.1 h with h | h
    · rcases List.mem_cons.1 h' with h' | h'
      · rw [← h] at h'; cases h'; rfl
      · exact absurd (List.mem_map.2 ⟨_, h', by rw [← h]⟩) hn.1
    · rcases List.mem_cons.1 h' with h' | h'
      · exact absurd (List.mem_map.2 ⟨_, h, by rw [← h']⟩) hn.1
      · exact ih hn.2 h h'

/-- The links of one edge, in the order in which they are found. -/
def found (pr : Prog) (e : Edge) : List (Key × Lk) := (ownWrites pr e).reverse ++ (rootWrites pr e).reverse

theorem build_cons (pr : Prog) (e : Edge) (es : List Edge) (m : List (Key × Lk)) : build pr (e :: es) m = build pr es (found pr e ++ m) := by
  simp [build, write_eq, found]

theorem build_lookup (pr : Prog) (k : Key) : ∀ es m, (build pr es m).lookup k = ((build pr es []).lookup k).or (m.lookup k) := by
  intro es
  induction es with
  | nil => intro m; simp [build]
  | cons e es ih =>
    intro m
    rw [build_cons, build_cons, ih, ih (found pr e ++ []), lookup_append_or, lookup_append_or]
    cases (build pr es []).lookup k <;> simp

theorem own_mem (pr : Prog) (e : Edge) (k : Key) (l : Lk) : (k, l) ∈ ownWrites pr e ↔
    ∃ v as a, (v, as) ∈ e.assigns ∧ as.getLast? = some a ∧ k = ⟨v, a.pkg, a.type, a.func⟩ ∧ l = ⟨a, linkEdge pr e v⟩ := by
  unfold ownWrites
  simp only [List.mem_filterMap, Option.map_eq_some_iff, Prod.mk.injEq]
  constructor
  · rintro ⟨⟨v, as⟩, hm, a, ha, rfl, rfl⟩; exact ⟨v, as, a, hm, ha, rfl, rfl⟩
  · rintro ⟨v, as, a, hm, ha, rfl, rfl⟩; exact ⟨(v, as), hm, a, ha, rfl, rfl⟩

theorem root_mem (pr : Prog) (e : Edge) (k : Key) (l : Lk) : (k, l) ∈ rootWrites pr e ↔
    ∃ m as a, e.callerName = "main" ∧ m ∈ pr.declared e.callerPkg e.callerName ∧ (e.recv, as) ∈ m ∧ as.getLast? = some a ∧
      k = ⟨e.recv, e.callerPkg, a.type, e.callerName⟩ ∧ l = ⟨a, e.id⟩ := by
  unfold rootWrites
  split
  · next h =>
    simp only [List.mem_flatMap, List.mem_filterMap]
    constructor
    · rintro ⟨m, hm, ⟨v, as⟩, hv, hx⟩
      split at hx
      · cases hx
      · next he =>
        have he : e.recv = v := by simpa using he
        subst he
        obtain ⟨a, ha, hx⟩ := Option.map_eq_some_iff.1 hx
        cases hx
        exact ⟨m, as, a, h, hm, hv, ha, rfl, rfl⟩
    · rintro ⟨m, as, a, _, hm, hv, ha, rfl, rfl⟩
      exact ⟨m, hm, (e.recv, as), hv, by simp [ha]⟩
  · next h =>
    constructor
    · intro hx; cases hx
    · rintro ⟨_, _, _, h', _⟩; exact absurd h' h

theorem linkEdge_cases (pr : Prog) (e : Edge) (v : String) :
    (∃ n pre post, pr.callers e.callee = pre ++ (n, v) :: post ∧ (∀ c ∈ pre, c.2 ≠ v) ∧ linkEdge pr e v = n) ∨
    ((∀ c ∈ pr.callers e.callee, c.2 ≠ v) ∧ linkEdge pr e v = e.id) := by
  unfold linkEdge
  generalize pr.callers e.callee = cs
  induction cs with
  | nil => right; exact ⟨(fun c hc => by cases hc), rfl⟩
  | cons c cs ih =>
    by_cases h : c.2 = v
    · left; exact ⟨c.1, [], cs, by rw [← h]; rfl, (fun c hc => by cases hc), by simp [h]⟩
    · have hf : (c.2 == v) = false := by simpa using h
      rw [List.find?_cons, hf]
      dsimp only
      rcases ih with ⟨n, pre, post, h1, h2, h3⟩ | ⟨h1, h2⟩
      · left
        exact ⟨n, c :: pre, post, by rw [h1]; rfl, (fun x hx => by
          rcases List.mem_cons.1 hx with rfl | hx
          · exact h
          · exact h2 x hx), h3⟩
      · right
        exact ⟨(fun x hx => by
          rcases List.mem_cons.1 hx with rfl | hx
          · exact h
          · exact h1 x hx), h2⟩

theorem linkEdge_at (pr : Prog) (e : Edge) (v : String) (n : Nat) (pre post : List (Nat × String)) (h : pr.callers e.callee = pre ++ (n, v) :: post)
    (hp : ∀ c ∈ pre, c.2 ≠ v) : linkEdge pr e v = n := by
  unfold linkEdge
  rw [h, List.find?_append, List.find?_eq_none.2 (fun c hc => by simpa using hp c hc)]
  simp

theorem linkEdge_self (pr : Prog) (e : Edge) (v : String) (h : ∀ c ∈ pr.callers e.callee, c.2 ≠ v) : linkEdge pr e v = e.id := by
  unfold linkEdge
  rw [List.find?_eq_none.2 (fun c hc => by simpa using h c hc)]

theorem found_asks (pr : Prog) (e : Edge) (k : Key) (l : Lk) : (k, l) ∈ found pr e ↔ Asks pr e k l := by
  unfold found
  rw [List.mem_append, List.mem_reverse, List.mem_reverse, own_mem, root_mem]
  constructor
  · rintro (⟨v, as, a, hm, ha, rfl, rfl⟩ | ⟨m, as, a, hc, hm, hv, ha, rfl, rfl⟩)
    · rcases linkEdge_cases pr e v with ⟨n, pre, post, h1, h2, h3⟩ | ⟨h1, h2⟩
      · rw [h3]; exact .inner v as a n pre post hm ha h1 h2
      · rw [h2]; exact .outer v as a hm ha h1
    · rw [hc] at hm ⊢; exact .root m as a hc hm hv ha
  · intro h
    cases h with
    | root m as a hc hm hv ha => right; exact ⟨m, as, a, hc, hc.symm ▸ hm, hv, ha, by rw [hc], rfl⟩
    | inner v as a n pre post hm ha h1 h2 => left; exact ⟨v, as, a, hm, ha, rfl, by rw [linkEdge_at pr e v n pre post h1 h2]⟩
    | outer v as a hm ha h1 => left; exact ⟨v, as, a, hm, ha, rfl, by rw [linkEdge_self pr e v h1]⟩

theorem found_some (pr : Prog) (e : Edge) (k : Key) : (∃ l, (found pr e).lookup k = some l) ↔ ∃ l, Asks pr e k l := by
  constructor
  · rintro ⟨l, h⟩; exact ⟨l, (found_asks pr e k l).1 (lookup_mem _ k l h)⟩
  · rintro ⟨l, h⟩
    cases hl : (found pr e).lookup k with
    | none => exact absurd ((found_asks pr e k l).2 h) (lookup_none _ k hl l)
    | some l' => exact ⟨l', rfl⟩

theorem build_none (pr : Prog) (k : Key) : ∀ es, (∀ e ∈ es, ∀ l, ¬Asks pr e k l) → (build pr es []).lookup k = none := by
  intro es
  induction es with
  | nil => intro _; rfl
  | cons e es ih =>
    intro h
    rw [build_cons, build_lookup, ih (fun x hx => h x (List.mem_cons_of_mem _ hx)), List.append_nil]
    cases hf : (found pr e).lookup k with
    | none => rfl
    | some l => exact absurd ((found_asks pr e k l).1 (lookup_mem _ k l hf)) (h e List.mem_cons_self l)

theorem each_flat (v : String) (f : String × List Asg → Option (Key × Lk)) (hf : ∀ x, x.1 ≠ v → f x = none) : ∀ ms ms' : List AMap, Each SameMap ms ms' →
    ms.flatMap (fun m => m.filterMap f) = ms'.flatMap (fun m => m.filterMap f) := by
  intro ms ms' h
  induction h with
  | nil => rfl
  | cons m m' ms ms' hm _ ih =>
    rw [List.flatMap_cons, List.flatMap_cons, ih]
    congr 1
    obtain ⟨hp, hn⟩ := hm
    have small : ∀ m : AMap, (m.map (·.1)).Nodup → (m.filterMap f).length ≤ 1 := by
      intro m
      induction m with
      | nil => intro _; exact Nat.zero_le _
      | cons x m ih =>
        intro hn
        rw [List.map_cons, List.nodup_cons] at hn
        rw [List.filterMap_cons]
        cases hx : f x with
        | none => exact ih hn.2
        | some y =>
          have hv : x.1 = v := by
            by_cases h : x.1 = v
            · exact h
            · rw [hf x h] at hx; cases hx
          have : m.filterMap f = [] := by
            rw [List.filterMap_eq_nil_iff]
            intro z hz
            exact hf z (fun h => hn.1 (List.mem_map.2 ⟨z, hz, by rw [h, hv]⟩))
          simp [this]
    have hq := hp.filterMap f
    have hs := small m hn
    match hh : m.filterMap f, hs, hq with
    | [], _, hq => exact hq.nil_eq
    | [y], _, hq => exact (List.singleton_perm.1 hq)
    | _ :: _ :: _, hs, _ => simp at hs

theorem each_build (pr pr' : Prog) (hd : ∀ p f, Each SameMap (pr.declared p f) (pr'.declared p f)) (hc : pr'.callers = pr.callers) (k : Key) :
    ∀ es es', Each SameEdge es es' → (build pr es []).lookup k = (build pr' es' []).lookup k := by
  intro es es' h
  induction h with
  | nil => rfl
  | cons e e' es es' he _ ih =>
    rw [build_cons, build_cons, build_lookup, build_lookup pr' k es', ih, List.append_nil, List.append_nil]
    congr 1
    obtain ⟨⟨hp, hn⟩, he⟩ := he
    have hroot : rootWrites pr e = rootWrites pr' e' := by
      rw [he]
      unfold rootWrites
      split
      · exact each_flat e.recv _ (fun x hx => if_pos (fun h => hx h.symm)) _ _ (hd _ _)
      · rfl
    have hlink : ∀ v, linkEdge pr' e' v = linkEdge pr e v := by
      intro v
      rw [he]
      unfold linkEdge
      rw [hc]
    unfold found
    rw [lookup_append_or, lookup_append_or, hroot]
    congr 1
    refine lookup_same _ _ k (fun x => ?_) ?_
    · obtain ⟨k', l⟩ := x
      rw [List.mem_reverse, List.mem_reverse, own_mem, own_mem]
      constructor
      · rintro ⟨v, as, a, hm, h2⟩; exact ⟨v, as, a, hp.mem_iff.1 hm, by rw [hlink]; exact h2⟩
      · rintro ⟨v, as, a, hm, h2⟩; exact ⟨v, as, a, hp.mem_iff.2 hm, by rw [hlink] at h2; exact h2⟩
    · intro l l' h h'
      rw [List.mem_reverse, own_mem] at h h'
      obtain ⟨v, as, a, hm, ha, hk, hl⟩ := h
      obtain ⟨v', as', a', hm', ha', hk', hl'⟩ := h'
      rw [hk] at hk'
      injection hk' with hvv
      subst hvv
      have := map_one _ hn v as as' hm hm'
      subst this
      rw [ha] at ha'
      cases ha'
      rw [hl, hl']

/-! ### The properties -/

/-- Whatever the order of the maps, each variable is linked to the same call. -/
theorem C119_order (pr pr' : Prog) (h : SameProg pr pr') (k : Key) : linked pr k = linked pr' k :=
  each_build pr pr' h.declared h.callers k pr.edges pr'.edges h.edges

/-- What is found was asked for, by the last edge that asks for anything under the key. -/
theorem C119_found (pr : Prog) (k : Key) (l : Lk) (h : linked pr k = some l) :
    ∃ pre e post, pr.edges = pre ++ e :: post ∧ Asks pr e k l ∧ ∀ e' ∈ post, ∀ l', ¬Asks pr e' k l' := by
  unfold linked at h
  generalize pr.edges = es at h ⊢
  induction es with
  | nil => cases h
  | cons e es ih =>
    rw [build_cons, build_lookup, List.append_nil] at h
    cases hb : (build pr es []).lookup k with
    | some l' =>
      rw [hb] at h
      cases h
      obtain ⟨pre, e', post, h1, h2⟩ := ih hb
      exact ⟨e :: pre, e', post, by rw [h1]; rfl, h2⟩
    | none =>
      rw [hb] at h
      refine ⟨[], e, es, rfl, (found_asks pr e k l).1 (lookup_mem _ k l h), fun e' he' l' ha => ?_⟩
      obtain ⟨pre, post, hs⟩ := List.append_of_mem he'
      rw [hs, build_append, build_lookup] at hb
      rw [build_cons, build_lookup, List.append_nil] at hb
      obtain ⟨l'', hl''⟩ := (found_some pr e' k).2 ⟨l', ha⟩
      rw [hl''] at hb
      cases h3 : (build pr post []).lookup k <;> simp [h3] at hb

/-- Nothing that is asked for is lost: something is found under its key. -/
theorem C119_kept (pr : Prog) (e : Edge) (he : e ∈ pr.edges) (k : Key) (l : Lk) (ha : Asks pr e k l) : ∃ l', linked pr k = some l' := by
  unfold linked
  obtain ⟨pre, post, hs⟩ := List.append_of_mem he
  rw [hs, build_append, build_lookup, build_cons, build_lookup, List.append_nil]
  obtain ⟨l', hl'⟩ := (found_some pr e k).2 ⟨l, ha⟩
  rw [hl']
  cases (build pr post []).lookup k with
  | some l'' => exact ⟨l'', rfl⟩
  | none => exact ⟨l', rfl⟩

/-- If all that is asked for under a key is the same, that is found. -/
theorem C119_only (pr : Prog) (e : Edge) (he : e ∈ pr.edges) (k : Key) (l : Lk) (ha : Asks pr e k l) (hu : ∀ e' ∈ pr.edges, ∀ l', Asks pr e' k l' → l' = l) :
    linked pr k = some l := by
  obtain ⟨l', hl'⟩ := C119_kept pr e he k l ha
  obtain ⟨pre, e', post, h1, h2, _⟩ := C119_found pr k l' hl'
  rw [hl', hu e' (by rw [h1]; simp) l' h2]

/-- Whatever the order of the maps, that of links included, and whatever the sort does with equals: the links are handed
on in one order. -/
theorem C119_list (pr pr' : Prog) (h : SameProg pr pr') (idOf : Nat → String) (es es' : List (Key × Lk)) (hw : Walks pr es) (hw' : Walks pr' es')
    (sort sort' : List (Key × Lk) → List (Key × Lk)) (hs : Sorts (cmpLinks idOf) sort) (hs' : Sorts (cmpLinks idOf) sort') : sort es = sort' es' := by
  have hp : es.Perm es' := (List.perm_ext_iff_of_nodup (nodup_of_keys es hw.once) (nodup_of_keys es' hw'.once)).2 (by
    rintro ⟨k, l⟩
    rw [hw.all, hw'.all, C119_order pr pr' h])
  refine List.Perm.eq_of_pairwise (le := fun a b => cmpLinks idOf a b ≠ .gt) ?_ (hs es).2 (hs' es').2 ((hs es).1.trans (hp.trans (hs' es').1.symm))
  rintro ⟨k, l⟩ ⟨k', l'⟩ ha hb h1 h2
  rw [cmp_swap] at h2
  have he : cmpLinks idOf (k, l) (k', l') = .eq := by
    cases hc : cmpLinks idOf (k, l) (k', l') with
    | eq => rfl
    | gt => exact absurd hc h1
    | lt => rw [hc] at h2; exact absurd rfl h2
  have hk : k = k' := cmp_eq idOf _ _ he
  subst hk
  have m1 := (hw.all k l).1 ((hs es).1.mem_iff.1 ha)
  have m2 := (hw'.all k l').1 ((hs' es').1.mem_iff.1 hb)
  rw [← C119_order pr pr' h, m1] at m2
  cases m2
  rfl

/-! ### Instances and what does not hold -/

abbrev mux1 : Asg := ⟨"app", "*Mux", "main", 1⟩
abbrev mux2 : Asg := ⟨"app", "*Mux", "main", 2⟩

/-- A router of main that is passed to a function, which calls something on it. -/
abbrev demo : Prog :=
  ⟨[⟨0, "main", "app", "r", "Handle", []⟩, ⟨1, "main", "app", "", "routes", [("r", [mux1, mux2]), ("s", [mux1])]⟩],
   fun p f => if p = "app" ∧ f = "main" then [[("r", [mux1, mux2]), ("s", [mux1])]] else [],
   fun f => if f = "routes" then [(7, "x"), (8, "r"), (9, "r")] else []⟩

abbrev demo' : Prog :=
  ⟨[⟨0, "main", "app", "r", "Handle", []⟩, ⟨1, "main", "app", "", "routes", [("s", [mux1]), ("r", [mux1, mux2])]⟩],
   fun p f => if p = "app" ∧ f = "main" then [[("s", [mux1]), ("r", [mux1, mux2])]] else [], demo.callers⟩

example : linked demo ⟨"r", "app", "*Mux", "main"⟩ = some ⟨mux2, 8⟩ ∧ linked demo ⟨"s", "app", "*Mux", "main"⟩ = some ⟨mux1, 1⟩ ∧
    linked demo ⟨"x", "app", "*Mux", "main"⟩ = none := by decide

example : ∀ k, linked demo k = linked demo' k := by
  refine C119_order demo demo' ⟨.cons _ _ _ _ ⟨⟨.refl _, by decide⟩, rfl⟩ (.cons _ _ _ _ ⟨⟨.swap _ _ _, by decide⟩, rfl⟩ .nil), fun p f => ?_, rfl⟩
  dsimp only
  split
  · exact .cons _ _ _ _ ⟨.swap _ _ _, by decide⟩ .nil
  · exact .nil

example : Asks demo ⟨1, "main", "app", "", "routes", [("r", [mux1, mux2]), ("s", [mux1])]⟩ ⟨"r", "app", "*Mux", "main"⟩ ⟨mux2, 8⟩ :=
  .inner "r" _ mux2 8 [(7, "x")] [(9, "r")] List.mem_cons_self rfl rfl (by decide)

/-- Two links of one call, in either order. -/
example : Walks { demo with edges := [⟨1, "main", "app", "", "f", [("r", [mux1, mux2]), ("s", [mux1])]⟩] }
    [(⟨"s", "app", "*Mux", "main"⟩, ⟨mux1, 1⟩), (⟨"r", "app", "*Mux", "main"⟩, ⟨mux2, 1⟩)] := by
  refine ⟨by decide, fun k l => ?_⟩
  have hb : build { demo with edges := [⟨1, "main", "app", "", "f", [("r", [mux1, mux2]), ("s", [mux1])]⟩] } [⟨1, "main", "app", "", "f", [("r", [mux1, mux2]), ("s", [mux1])]⟩] [] =
      [(⟨"s", "app", "*Mux", "main"⟩, ⟨mux1, 1⟩), (⟨"r", "app", "*Mux", "main"⟩, ⟨mux2, 1⟩)] := by decide
  unfold linked
  rw [hb]
  constructor
  · intro hm
    rcases List.mem_cons.1 hm with h | h
    · cases h; decide
    · rcases List.mem_cons.1 h with h | h
      · cases h; decide
      · cases h
  · intro h; exact lookup_mem _ _ _ h

/-- There is such a sort. -/
example (idOf : Nat → String) : Sorts (cmpLinks idOf) (fun l => l.mergeSort (fun a b => (cmpLinks idOf a b).isLE)) := by
  have inst : Std.TransCmp (cmpLinks idOf) := by
    have : Std.TransCmp (compareLex (compareOn (fun x : Key × Lk => idOf x.2.edge)) (compareLex (compareOn (fun x : Key × Lk => x.1.container))
      (compareLex (compareOn (fun x : Key × Lk => x.1.pkg)) (compareLex (compareOn (fun x : Key × Lk => x.1.name)) (compareOn (fun x : Key × Lk => x.1.type)))))) := inferInstance
    exact this
  intro l
  refine ⟨List.mergeSort_perm l _, (List.pairwise_mergeSort ?_ ?_ l).imp ?_⟩
  · intro a b c h1 h2; exact Std.TransCmp.isLE_trans h1 h2
  · intro a b
    rw [cmp_swap idOf a b]
    cases cmpLinks idOf a b <;> decide
  · intro a b h hg
    rw [hg] at h
    cases h

/-- Links of one call in one function: the name decides. -/
example (idOf : Nat → String) : cmpLinks idOf (⟨"r", "app", "*Mux", "main"⟩, ⟨mux2, 1⟩) (⟨"s", "app", "*Mux", "main"⟩, ⟨mux1, 1⟩) = .lt := by
  have h : compare (idOf 1) (idOf 1) = .eq := Std.ReflCmp.compare_self
  simp only [cmpLinks, h]
  decide

/-- Of two calls on one variable of main, only the later in the call graph is found: they are under one key. -/
theorem C119_second_call :
    let e : Nat → Edge := fun i => ⟨i, "main", "app", "r", "Handle", []⟩
    (∃ l, Asks { demo with edges := [e 3, e 4] } (e 3) ⟨"r", "app", "*Mux", "main"⟩ l ∧ l.edge = 3) ∧
    linked { demo with edges := [e 3, e 4] } ⟨"r", "app", "*Mux", "main"⟩ = some ⟨mux2, 4⟩ := by
  refine ⟨⟨⟨mux2, 3⟩, ?_, rfl⟩, by decide⟩
  exact .root [("r", [mux1, mux2]), ("s", [mux1])] [mux1, mux2] mux2 rfl (by decide) List.mem_cons_self rfl

end Verif.Link
