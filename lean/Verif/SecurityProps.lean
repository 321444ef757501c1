import Verif.SecuritySpec
/-! # Properties C13-C18 -/

namespace Verif.Security
open Verif.Common

theorem matchesRef_iff (rx : String → String → Bool) (m : Mapping) (r : Ref) :
    m.matchesRef rx r = true ↔ Recognises rx m r := by
  unfold Mapping.matchesRef Recognises
  simp only [Bool.and_eq_true, Bool.or_eq_true, beq_iff_eq, and_assoc]
  constructor
  · rintro ⟨a, b, c⟩; exact ⟨a.resolve_left, b.resolve_left, c.resolve_left⟩
  · rintro ⟨a, b, c⟩
    have h : ∀ (p q : Prop), (¬ p → q) → p ∨ q := fun p q h => (Classical.em p).imp id h
    exact ⟨h _ _ a, h _ _ b, h _ _ c⟩

/-- The mappings that act, in the order they are applied. -/
def acting (rx : String → String → Bool) (refs : List Ref) (ms : List Mapping) : List Mapping :=
  refs.flatMap fun r => ms.filter fun m => m.matchesRef rx r && !m.skip

theorem mem_acting (rx : String → String → Bool) (refs : List Ref) (ms : List Mapping) (m : Mapping) :
    m ∈ acting rx refs ms ↔ ∃ r ∈ refs, Active rx ms r m := by
  unfold acting Active
  simp only [List.mem_flatMap, List.mem_filter, Bool.and_eq_true, matchesRef_iff, Bool.not_eq_true']

theorem mergeReqs_append (acc : SecReq) (a b : List SecReq) : mergeReqs acc (a ++ b) = mergeReqs (mergeReqs acc a) b := by
  unfold mergeReqs; rw [List.foldl_append]

theorem applyMapping_fold (l : List Mapping) : ∀ st : ResState,
    l.foldl applyMapping st =
      { combined := mergeReqs st.combined ((l.filter fun m => !m.skip).flatMap Mapping.schemes)
        alternatives := st.alternatives ++ ((l.filter fun m => !m.skip).flatMap fun m => (m.anyOf.map (mergeReqs [])).filter fun alt => !alt.isEmpty)
        isPublic := st.isPublic || (l.filter fun m => !m.skip).any Mapping.isPublic
        unresolved := st.unresolved } := by
  induction l with
  | nil => intro st; simp [mergeReqs]
  | cons m l ih =>
    intro st
    rw [List.foldl_cons, ih]
    unfold applyMapping
    cases hs : m.skip with
    | true => simp [hs]
    | false => simp [hs, mergeReqs_append, List.append_assoc, Bool.or_assoc]

theorem resolve_fold (rx : String → String → Bool) (ms : List Mapping) (refs : List Ref) : ∀ st : ResState,
    refs.foldl (resolveStep rx ms) st =
      { combined := mergeReqs st.combined ((acting rx refs ms).flatMap Mapping.schemes)
        alternatives := st.alternatives ++ ((acting rx refs ms).flatMap fun m => (m.anyOf.map (mergeReqs [])).filter fun alt => !alt.isEmpty)
        isPublic := st.isPublic || (acting rx refs ms).any Mapping.isPublic
        unresolved := st.unresolved ++ refs.filter fun r => !anyMatches rx ms r } := by
  induction refs with
  | nil => intro st; simp [acting, mergeReqs]
  | cons r refs ih =>
    intro st
    rw [List.foldl_cons, ih]
    have hact : acting rx (r :: refs) ms = (ms.filter fun m => m.matchesRef rx r && !m.skip) ++ acting rx refs ms := rfl
    have hff : (ms.filter fun m => m.matchesRef rx r && !m.skip) = (ms.filter fun m => m.matchesRef rx r).filter fun m => !m.skip := by
      rw [List.filter_filter]; congr 1; funext m; rw [Bool.and_comm]
    unfold resolveStep
    dsimp only
    by_cases he : (ms.filter fun m => m.matchesRef rx r) = []
    · have hn : anyMatches rx ms r = false := by
        unfold anyMatches
        rw [List.any_eq_false]
        intro m hm h
        have : m ∈ ms.filter fun m => m.matchesRef rx r := List.mem_filter.2 ⟨hm, h⟩
        rw [he] at this; simp at this
      rw [hact, hff, he]
      simp [hn]
    · have hn : anyMatches rx ms r = true := by
        unfold anyMatches
        obtain ⟨m, hm⟩ := List.exists_mem_of_ne_nil _ he
        rw [List.any_eq_true]
        exact ⟨m, (List.mem_filter.1 hm).1, (List.mem_filter.1 hm).2⟩
      have he' : (ms.filter fun m => m.matchesRef rx r).isEmpty = false := by
        cases h : ms.filter fun m => m.matchesRef rx r with
        | nil => exact absurd h he
        | cons => rfl
      rw [he', hact, hff]
      simp only [Bool.false_eq_true, if_false]
      rw [applyMapping_fold]
      simp [hn, mergeReqs_append, List.flatMap_append, List.append_assoc, Bool.or_assoc]

theorem mergeReqs_ne_nil (l : List SecReq) : ∀ acc : SecReq, mergeReqs acc l ≠ [] ↔ acc ≠ [] ∨ ∃ o ∈ l, o ≠ [] := by
  have mset_ne : ∀ (m : SecReq) k v, mset m k v ≠ [] := by
    intro m k v h
    have := mget_mset_self m k v
    rw [h] at this; cases this
  have inner : ∀ (o : SecReq) (acc : SecReq), o.foldl (fun acc kv => mset acc kv.1 kv.2) acc ≠ [] ↔ acc ≠ [] ∨ o ≠ [] := by
    intro o
    induction o with
    | nil => intro acc; simp
    | cons x o ih => intro acc; rw [List.foldl_cons, ih]; simp [mset_ne]
  induction l with
  | nil => intro acc; simp [mergeReqs]
  | cons o l ih =>
    intro acc
    show mergeReqs (o.foldl (fun acc kv => mset acc kv.1 kv.2) acc) l ≠ [] ↔ _
    rw [ih, inner]
    simp [or_assoc]

theorem dedupReqs_eq_nil (l : List SecReq) : dedupReqs l = [] ↔ l = [] := by
  constructor
  · intro h
    cases l with
    | nil => rfl
    | cons x l =>
      have := (mem_map_dedupBy reqKey (x :: l) (reqKey x)).2 (by simp)
      unfold dedupReqs at h
      rw [h] at this; simp at this
  · rintro rfl; rfl

theorem resolve_public (rx : String → String → Bool) (refs : List Ref) (ms : List Mapping) :
    (resolveSecurity rx refs ms).2.1 = true ↔ ∃ r ∈ refs, ∃ m, Active rx ms r m ∧ m.isPublic = true := by
  unfold resolveSecurity
  dsimp only
  rw [resolve_fold]
  simp only [Bool.false_or, List.any_eq_true, mem_acting]
  constructor
  · rintro ⟨m, ⟨r, hr, ha⟩, hp⟩; exact ⟨r, hr, m, ha, hp⟩
  · rintro ⟨r, hr, m, ha, hp⟩; exact ⟨m, ⟨r, hr, ha⟩, hp⟩

theorem resolve_reqs (rx : String → String → Bool) (refs : List Ref) (ms : List Mapping) :
    (resolveSecurity rx refs ms).1 =
      dedupReqs ((if (mergeReqs [] ((acting rx refs ms).flatMap Mapping.schemes)).isEmpty then [] else
          [mergeReqs [] ((acting rx refs ms).flatMap Mapping.schemes)]) ++
        ((acting rx refs ms).flatMap fun m => (m.anyOf.map (mergeReqs [])).filter fun alt => !alt.isEmpty)) := by
  unfold resolveSecurity
  dsimp only
  rw [resolve_fold]
  rfl

theorem resolve_unresolved (rx : String → String → Bool) (refs : List Ref) (ms : List Mapping) :
    (resolveSecurity rx refs ms).2.2 = refs.filter fun r => !anyMatches rx ms r := by
  unfold resolveSecurity
  dsimp only
  rw [resolve_fold]
  rfl

theorem isEmpty_false_iff {α} (l : List α) : (!l.isEmpty) = true ↔ l ≠ [] := by cases l <;> simp

theorem resolve_nonempty (rx : String → String → Bool) (refs : List Ref) (ms : List Mapping) :
    (resolveSecurity rx refs ms).1 ≠ [] ↔ ∃ r ∈ refs, ∃ m, Active rx ms r m ∧ NamesScheme m := by
  rw [resolve_reqs, Ne, dedupReqs_eq_nil, List.append_eq_nil_iff, Classical.not_and_iff_not_or_not]
  have h1 : ¬ ((if (mergeReqs [] ((acting rx refs ms).flatMap Mapping.schemes)).isEmpty then ([] : List SecReq) else
          [mergeReqs [] ((acting rx refs ms).flatMap Mapping.schemes)]) = []) ↔
      ∃ m ∈ acting rx refs ms, ∃ o ∈ m.schemes, o ≠ [] := by
    have := mergeReqs_ne_nil ((acting rx refs ms).flatMap Mapping.schemes) []
    cases hc : mergeReqs [] ((acting rx refs ms).flatMap Mapping.schemes) with
    | nil =>
      rw [hc] at this
      simp only [List.isEmpty_nil, if_true, not_true_eq_false, false_iff]
      rintro ⟨m, hm, o, ho, hne⟩
      exact this.2 (.inr ⟨o, List.mem_flatMap.2 ⟨m, hm, ho⟩, hne⟩) rfl
    | cons x y =>
      rw [hc] at this
      simp only [List.isEmpty_cons, Bool.false_eq_true, if_false, List.cons_ne_nil, not_false_eq_true, true_iff]
      rcases this.1 (by simp) with h | ⟨o, ho, hne⟩
      · exact absurd rfl h
      · obtain ⟨m, hm, ho⟩ := List.mem_flatMap.1 ho
        exact ⟨m, hm, o, ho, hne⟩
  have h2 : ¬ (((acting rx refs ms).flatMap fun m => (m.anyOf.map (mergeReqs [])).filter fun alt => !alt.isEmpty) = []) ↔
      ∃ m ∈ acting rx refs ms, ∃ g ∈ m.anyOf, ∃ o ∈ g, o ≠ [] := by
    constructor
    · intro h
      obtain ⟨a, ha⟩ := List.exists_mem_of_ne_nil _ h
      obtain ⟨m, hm, ha⟩ := List.mem_flatMap.1 ha
      obtain ⟨ha, hne⟩ := List.mem_filter.1 ha
      obtain ⟨g, hg, rfl⟩ := List.mem_map.1 ha
      rcases (mergeReqs_ne_nil g []).1 ((isEmpty_false_iff _).1 hne) with h | ⟨o, ho, hne⟩
      · exact absurd rfl h
      · exact ⟨m, hm, g, hg, o, ho, hne⟩
    · rintro ⟨m, hm, g, hg, o, ho, hne⟩
      apply List.ne_nil_of_mem (a := mergeReqs [] g)
      refine List.mem_flatMap.2 ⟨m, hm, List.mem_filter.2 ⟨List.mem_map.2 ⟨g, hg, rfl⟩, ?_⟩⟩
      exact (isEmpty_false_iff _).2 ((mergeReqs_ne_nil g []).2 (.inr ⟨o, ho, hne⟩))
  rw [h1, h2]
  unfold NamesScheme
  constructor
  · rintro (⟨m, hm, h⟩ | ⟨m, hm, h⟩)
    · obtain ⟨r, hr, ha⟩ := (mem_acting _ _ _ _).1 hm
      exact ⟨r, hr, m, ha, .inl h⟩
    · obtain ⟨r, hr, ha⟩ := (mem_acting _ _ _ _).1 hm
      exact ⟨r, hr, m, ha, .inr h⟩
  · rintro ⟨r, hr, m, ha, h | h⟩
    · exact .inl ⟨m, (mem_acting _ _ _ _).2 ⟨r, hr, ha⟩, h⟩
    · exact .inr ⟨m, (mem_acting _ _ _ _).2 ⟨r, hr, ha⟩, h⟩

/-! ### From applied middleware to what is resolved -/

theorem anyMatches_iff (rx : String → String → Bool) (ms : List Mapping) (r : Ref) :
    anyMatches rx ms r = true ↔ ∃ m ∈ ms, Recognises rx m r := by
  unfold anyMatches
  rw [List.any_eq_true]
  simp only [matchesRef_iff]

theorem active_same {rx : String → String → Bool} {ms : List Mapping} {a b : Ref} (h : Same a b) (m : Mapping) :
    Active rx ms a m ↔ Active rx ms b m := by
  obtain ⟨h1, h2, h3⟩ := h
  unfold Active Recognises
  rw [h1, h2, h3]

theorem mem_dedupRefs {P : Ref → Prop} (hd : Distinguished P) (l : List Ref) (hl : ∀ r ∈ l, P r) (r : Ref) (hr : r ∈ l) :
    ∃ r' ∈ dedupRefs l, Same r' r := by
  have := (mem_map_dedupBy Ref.show l r.show).2 (List.mem_map.2 ⟨r, hr, rfl⟩)
  obtain ⟨r', hr', he⟩ := List.mem_map.1 this
  exact ⟨r', hr', hd _ _ (hl _ ((dedupBy_sublist _ _).subset hr')) (hl _ hr) he⟩

/-- All references in play for a route. -/
def InPlay (through : String → List Ref) (refs : List Ref) (r : Ref) : Prop :=
  r ∈ refs ∨ ∃ r0 ∈ refs, ∃ key, baseID r0 = some key ∧ r ∈ through key

theorem baseID_same {a b : Ref} (h : Same a b) : baseID a = baseID b := by
  obtain ⟨h1, h2, h3⟩ := h
  unfold baseID
  rw [h1, h2, h3]

theorem recognises_same {rx : String → String → Bool} {m : Mapping} {a b : Ref} (h : Same a b) :
    Recognises rx m a ↔ Recognises rx m b := by
  obtain ⟨h1, h2, h3⟩ := h
  unfold Recognises
  rw [h1, h2, h3]

theorem standsFor_same {rx : String → String → Bool} {ms : List Mapping} {through : String → List Ref} {a b r : Ref}
    (h : Same a b) (hs : StandsFor rx ms through b r) : ∃ r', Same r' r ∧ StandsFor rx ms through a r' := by
  rcases hs with rfl | ⟨hn, key, hk, hr⟩
  · exact ⟨a, h, .inl rfl⟩
  · refine ⟨r, ⟨rfl, rfl, rfl⟩, .inr ⟨?_, key, ?_, hr⟩⟩
    · intro m hm hrec; exact hn m hm ((recognises_same h).1 hrec)
    · rw [baseID_same h]; exact hk

/-- The middleware a route resolves is, up to identity, what the middleware on it stands for. -/
theorem expand_active (rx : String → String → Bool) (ms : List Mapping) (through : String → List Ref) (refs : List Ref)
    (hd : Distinguished (InPlay through refs)) (m : Mapping) :
    (∃ r ∈ expand rx ms through (dedupRefs refs), Active rx ms r m) ↔
    ∃ r0 ∈ refs, ∃ r, StandsFor rx ms through r0 r ∧ Active rx ms r m := by
  have hsub : ∀ r ∈ dedupRefs refs, r ∈ refs := fun r h => (dedupBy_sublist _ _).subset h
  have hflat : ∀ r, r ∈ ((dedupRefs refs).flatMap fun r =>
      if anyMatches rx ms r then [r] else match baseID r with
        | none => [r]
        | some key => if through key = [] then [r] else through key) →
      ∃ r0 ∈ refs, StandsFor rx ms through r0 r := by
    intro r hr
    obtain ⟨r0, h0, hr⟩ := List.mem_flatMap.1 hr
    refine ⟨r0, hsub _ h0, ?_⟩
    split at hr
    · exact .inl (by simpa using hr)
    · next hnm =>
      split at hr
      · exact .inl (by simpa using hr)
      · next key hk =>
        split at hr
        · exact .inl (by simpa using hr)
        · refine .inr ⟨fun m hm hrec => hnm ((anyMatches_iff _ _ _).2 ⟨m, hm, hrec⟩), key, hk, hr⟩
  constructor
  · rintro ⟨r, hr, ha⟩
    have hr := (dedupBy_sublist _ _).subset hr
    obtain ⟨r0, h0, hs⟩ := hflat r hr
    exact ⟨r0, h0, r, hs, ha⟩
  · rintro ⟨r0, h0, r, hs, ha⟩
    obtain ⟨r0', h0', hsame⟩ := mem_dedupRefs hd refs (fun r h => .inl h) r0 h0
    obtain ⟨r', hr', hs'⟩ := standsFor_same hsame hs
    have ha' : Active rx ms r' m := (active_same hr' m).2 ha
    have hin : r' ∈ ((dedupRefs refs).flatMap fun r =>
      if anyMatches rx ms r then [r] else match baseID r with
        | none => [r]
        | some key => if through key = [] then [r] else through key) := by
      refine List.mem_flatMap.2 ⟨r0', h0', ?_⟩
      rcases hs' with rfl | ⟨hn, key, hk, hin⟩
      · rw [if_pos ((anyMatches_iff _ _ _).2 ⟨m, ha'.1, ha'.2.1⟩)]; simp
      · rw [if_neg]
        · rw [hk]
          dsimp only
          rw [if_neg (List.ne_nil_of_mem hin)]
          exact hin
        · intro h
          obtain ⟨m', hm', hrec⟩ := (anyMatches_iff _ _ _).1 h
          exact hn m' hm' hrec
    have hplay : ∀ x ∈ ((dedupRefs refs).flatMap fun r =>
      if anyMatches rx ms r then [r] else match baseID r with
        | none => [r]
        | some key => if through key = [] then [r] else through key), InPlay through refs x := by
      intro x hx
      obtain ⟨r0, h0, hs⟩ := hflat x hx
      rcases hs with rfl | ⟨_, key, hk, hin⟩
      · exact .inl h0
      · exact .inr ⟨r0, h0, key, hk, hin⟩
    obtain ⟨r'', hr'', hsm⟩ := mem_dedupRefs hd _ hplay r' hin
    exact ⟨r'', hr'', (active_same hsm m).2 ha'⟩

theorem distinguished_mono {P Q : Ref → Prop} (h : ∀ r, P r → Q r) (hd : Distinguished Q) : Distinguished P :=
  fun a b ha hb he => hd a b (h a ha) (h b hb) he

theorem inPlay_mono (through : String → List Ref) {a b : List Ref} (h : ∀ r ∈ a, r ∈ b) (r : Ref) (hr : InPlay through a r) :
    InPlay through b r := by
  rcases hr with h1 | ⟨r0, h0, x⟩
  · exact .inl (h r h1)
  · exact .inr ⟨r0, h r0 h0, x⟩

/-- The claim that some middleware on the route is mapped by an active mapping with `Q`. -/
def MappedTo (rx : String → String → Bool) (ms : List Mapping) (through : String → List Ref) (mw : RouteMW) (Q : Mapping → Prop) : Prop :=
  ∃ r0 ∈ mw.definite ++ mw.speculative, ∃ r, StandsFor rx ms through r0 r ∧ ∃ m, Active rx ms r m ∧ Q m

theorem route_either (rx : String → String → Bool) (ms : List Mapping) (through : String → List Ref) (mw : RouteMW)
    (hd : Distinguished (InPlay through (mw.definite ++ mw.speculative))) (Q : Mapping → Prop) :
    ((∃ r ∈ expand rx ms through (dedupRefs mw.definite), ∃ m, Active rx ms r m ∧ Q m) ∨
     (∃ r ∈ expand rx ms through (dedupRefs mw.speculative), ∃ m, Active rx ms r m ∧ Q m)) ↔ MappedTo rx ms through mw Q := by
  have hdd := distinguished_mono (inPlay_mono through (fun r h => List.mem_append_left mw.speculative h)) hd
  have hds := distinguished_mono (inPlay_mono through (fun r h => List.mem_append_right mw.definite h)) hd
  have e1 := expand_active rx ms through mw.definite hdd
  have e2 := expand_active rx ms through mw.speculative hds
  unfold MappedTo
  constructor
  · rintro (⟨r, hr, m, ha, hq⟩ | ⟨r, hr, m, ha, hq⟩)
    · obtain ⟨r0, h0, r', hs, ha'⟩ := (e1 m).1 ⟨r, hr, ha⟩
      exact ⟨r0, List.mem_append_left _ h0, r', hs, m, ha', hq⟩
    · obtain ⟨r0, h0, r', hs, ha'⟩ := (e2 m).1 ⟨r, hr, ha⟩
      exact ⟨r0, List.mem_append_right _ h0, r', hs, m, ha', hq⟩
  · rintro ⟨r0, h0, r, hs, m, ha, hq⟩
    rcases List.mem_append.1 h0 with h0 | h0
    · obtain ⟨r', hr', ha'⟩ := (e1 m).2 ⟨r0, h0, r, hs, ha⟩
      exact .inl ⟨r', hr', m, ha', hq⟩
    · obtain ⟨r', hr', ha'⟩ := (e2 m).2 ⟨r0, h0, r, hs, ha⟩
      exact .inr ⟨r', hr', m, ha', hq⟩

theorem routeResolve_public (rx : String → String → Bool) (ms : List Mapping) (through : String → List Ref) (mw : RouteMW)
    (hd : Distinguished (InPlay through (mw.definite ++ mw.speculative))) :
    (routeResolve rx ms through mw).2.1 = true ↔ MappedTo rx ms through mw (fun m => m.isPublic = true) := by
  rw [← route_either rx ms through mw hd]
  unfold routeResolve
  simp only [Bool.or_eq_true, resolve_public]

theorem routeResolve_reqs (rx : String → String → Bool) (ms : List Mapping) (through : String → List Ref) (mw : RouteMW)
    (hd : Distinguished (InPlay through (mw.definite ++ mw.speculative))) :
    (routeResolve rx ms through mw).1 ≠ [] ↔ MappedTo rx ms through mw NamesScheme := by
  rw [← route_either rx ms through mw hd]
  unfold routeResolve
  simp only
  rw [Ne, dedupReqs_eq_nil, List.append_eq_nil_iff, Classical.not_and_iff_not_or_not]
  rw [← Ne, ← Ne, resolve_nonempty, resolve_nonempty]

/-- **C13, public.** The operation's security is the explicit empty list exactly when some
middleware on the route, directly or through the wrapper it is, has a mapping marked public
(and not skipped). -/
theorem C13_public_iff (rx : String → String → Bool) (ms : List Mapping) (through : String → List Ref) (mw : RouteMW)
    (hd : Distinguished (InPlay through (mw.definite ++ mw.speculative))) :
    routeSecurity rx ms through mw = some [] ↔ MappedTo rx ms through mw (fun m => m.isPublic = true) := by
  rw [← routeResolve_public rx ms through mw hd]
  unfold routeSecurity
  dsimp only
  cases (routeResolve rx ms through mw).2.1 with
  | true => simp
  | false =>
    simp only [Bool.false_eq_true, if_false, iff_false]
    split
    · simp
    · next h => intro e; exact h (Option.some.inj e)

/-- **C13, required.** It is a nonempty list exactly when nothing marks the route public and
some middleware on it has a mapping that names a scheme. -/
theorem C13_required_iff (rx : String → String → Bool) (ms : List Mapping) (through : String → List Ref) (mw : RouteMW)
    (hd : Distinguished (InPlay through (mw.definite ++ mw.speculative))) :
    (∃ q qs, routeSecurity rx ms through mw = some (q :: qs)) ↔
      ¬ MappedTo rx ms through mw (fun m => m.isPublic = true) ∧ MappedTo rx ms through mw NamesScheme := by
  rw [← routeResolve_public rx ms through mw hd, ← routeResolve_reqs rx ms through mw hd]
  unfold routeSecurity
  dsimp only
  cases (routeResolve rx ms through mw).2.1 with
  | true => simp
  | false =>
    cases (routeResolve rx ms through mw).1 with
    | nil => simp
    | cons q qs => simp

/-- **C13, inherited.** Otherwise, and only then, the operation has no security entry. -/
theorem C13_inherits_iff (rx : String → String → Bool) (ms : List Mapping) (through : String → List Ref) (mw : RouteMW)
    (hd : Distinguished (InPlay through (mw.definite ++ mw.speculative))) :
    routeSecurity rx ms through mw = none ↔
      ¬ MappedTo rx ms through mw (fun m => m.isPublic = true) ∧ ¬ MappedTo rx ms through mw NamesScheme := by
  rw [← routeResolve_public rx ms through mw hd, ← routeResolve_reqs rx ms through mw hd]
  unfold routeSecurity
  dsimp only
  cases (routeResolve rx ms through mw).2.1 with
  | true => simp
  | false =>
    cases (routeResolve rx ms through mw).1 with
    | nil => simp
    | cons q qs => simp

def demoRx (p s : String) : Bool := p == s
def demoMaps : List Mapping :=
  [{ fnRe := "jwt", schemes := [[("bearerAuth", [])]] }, { fnRe := "logger", skip := true }, { fnRe := "open", isPublic := true }]
/-- `protected` is a project wrapper around `jwt`. -/
def demoThrough (k : String) : List Ref := if k = "app.protected" then [{ fn := "jwt", pkg := "lib" }] else []

example : routeSecurity demoRx demoMaps demoThrough ⟨[{ fn := "protected", pkg := "app" }, { fn := "logger" }], []⟩ =
    some [[("bearerAuth", [])]] := by decide
example : routeSecurity demoRx demoMaps demoThrough ⟨[{ fn := "jwt" }, { fn := "open" }], []⟩ = some [] := by decide
example : routeSecurity demoRx demoMaps demoThrough ⟨[{ fn := "logger" }], [{ fn := "newHandler" }]⟩ = none := by decide
example : Distinguished (InPlay demoThrough ([{ fn := "protected", pkg := "app" }, { fn := "logger" }] ++ [])) := by
  have all : ∀ r, InPlay demoThrough ([{ fn := "protected", pkg := "app" }, { fn := "logger" }] ++ []) r →
      r = { fn := "protected", pkg := "app" } ∨ r = { fn := "logger" } ∨ r = { fn := "jwt", pkg := "lib" } := by
    intro r hr
    rcases hr with h | ⟨r0, h0, key, hk, hr⟩
    · simp at h; rcases h with h | h <;> simp [h]
    · unfold demoThrough at hr
      split at hr
      · right; right; simpa using hr
      · simp at hr
  intro a b ha hb he
  unfold Same
  rcases all a ha with rfl | rfl | rfl <;> rcases all b hb with rfl | rfl | rfl <;>
    first | exact ⟨rfl, rfl, rfl⟩ | exact absurd he (by decide)

/-! ## C14 -/

theorem recordUnresolved_eq (new : List Ref) : ∀ seen : List Ref,
    recordUnresolved seen new = seen ++ dedupGo Ref.show (seen.map Ref.show) new := by
  induction new with
  | nil => intro seen; simp [recordUnresolved, dedupGo]
  | cons r new ih =>
    intro seen
    show recordUnresolved (if r.show ∈ seen.map Ref.show then seen else seen ++ [r]) new = _
    rw [ih, dedupGo]
    by_cases h : r.show ∈ seen.map Ref.show
    · rw [if_pos h, if_pos h]
    · rw [if_neg h, if_neg h, List.append_assoc, List.singleton_append]
      congr 2
      apply dedupGo_congr
      intro k
      simp [or_comm]

/-- The unrecognised middleware met, route by route, in order. -/
def metUnresolved (rx : String → String → Bool) (ms : List Mapping) (through : String → List Ref) (routes : List RouteMW) : List Ref :=
  routes.flatMap fun mw => (expand rx ms through (dedupRefs mw.definite)).filter fun r => !anyMatches rx ms r

theorem unresolvedAll_eq (rx : String → String → Bool) (ms : List Mapping) (through : String → List Ref) (routes : List RouteMW) :
    unresolvedAll rx ms through routes = dedupBy Ref.show (metUnresolved rx ms through routes) := by
  have gen : ∀ (rs : List RouteMW) (pre : List Ref),
      rs.foldl (fun acc mw => recordUnresolved acc (routeResolve rx ms through mw).2.2) (dedupBy Ref.show pre) =
        dedupBy Ref.show (pre ++ metUnresolved rx ms through rs) := by
    intro rs
    induction rs with
    | nil => intro pre; simp [metUnresolved]
    | cons mw rs ih =>
      intro pre
      rw [List.foldl_cons, recordUnresolved_eq]
      have : (routeResolve rx ms through mw).2.2 =
          (expand rx ms through (dedupRefs mw.definite)).filter fun r => !anyMatches rx ms r := by
        unfold routeResolve; dsimp only; rw [resolve_unresolved]
      rw [this]
      have e := dedupGo_append Ref.show pre [] ((expand rx ms through (dedupRefs mw.definite)).filter fun r => !anyMatches rx ms r)
      rw [List.nil_append] at e
      have e' : dedupBy Ref.show pre ++ dedupGo Ref.show ((dedupBy Ref.show pre).map Ref.show)
          ((expand rx ms through (dedupRefs mw.definite)).filter fun r => !anyMatches rx ms r) =
          dedupBy Ref.show (pre ++ (expand rx ms through (dedupRefs mw.definite)).filter fun r => !anyMatches rx ms r) := e.symm
      rw [e', ih]
      simp [metUnresolved, List.append_assoc]
  have := gen routes []
  simpa [unresolvedAll, dedupBy, dedupGo] using this

/-- A middleware that nothing accounts for: no mapping recognises it, and looking through
it finds nothing either. -/
def Unaccounted (rx : String → String → Bool) (ms : List Mapping) (through : String → List Ref) (r : Ref) : Prop :=
  (∀ m ∈ ms, ¬ Recognises rx m r) ∧ ∀ key, baseID r = some key → through key = []

theorem not_anyMatches (rx : String → String → Bool) (ms : List Mapping) (r : Ref) :
    (!anyMatches rx ms r) = true ↔ ∀ m ∈ ms, ¬ Recognises rx m r := by
  rw [Bool.not_eq_true', ← Bool.not_eq_true, anyMatches_iff]
  simp

/-- The one-middleware step of `expand`. -/
abbrev expand1 (rx : String → String → Bool) (ms : List Mapping) (through : String → List Ref) (r : Ref) : List Ref :=
  if anyMatches rx ms r then [r]
    else match baseID r with
      | none => [r]
      | some key => if through key = [] then [r] else through key

theorem expand1_unrec (rx : String → String → Bool) (ms : List Mapping) (through : String → List Ref)
    (hth : ∀ key, ∀ r ∈ through key, ∃ m ∈ ms, Recognises rx m r) (r : Ref) :
    ((expand1 rx ms through r).filter fun r => !anyMatches rx ms r) = [] ∧ ¬ Unaccounted rx ms through r ∨
    ((expand1 rx ms through r).filter fun r => !anyMatches rx ms r) = [r] ∧ Unaccounted rx ms through r := by
  unfold expand1 Unaccounted
  cases hm : anyMatches rx ms r with
  | true =>
    left
    obtain ⟨m, hmm, hrec⟩ := (anyMatches_iff _ _ _).1 hm
    exact ⟨by simp [hm], fun h => h.1 m hmm hrec⟩
  | false =>
    have hun : ∀ m ∈ ms, ¬ Recognises rx m r := (not_anyMatches _ _ _).1 (by simp [hm])
    cases hk : baseID r with
    | none =>
      right
      exact ⟨by simp [hm], hun, by simp⟩
    | some key =>
      by_cases ht : through key = []
      · right
        refine ⟨by simp [ht, hm], hun, ?_⟩
        rintro k ⟨⟩; exact ht
      · left
        refine ⟨?_, fun h => ht (h.2 key rfl)⟩
        simp only [Bool.false_eq_true, if_false, ht]
        rw [List.filter_eq_nil_iff]
        intro x hx hn
        obtain ⟨m, hmm, hrec⟩ := hth key x hx
        exact (not_anyMatches _ _ _).1 hn m hmm hrec

theorem unaccounted_same {rx : String → String → Bool} {ms : List Mapping} {through : String → List Ref} {a b : Ref}
    (h : Same a b) : Unaccounted rx ms through a ↔ Unaccounted rx ms through b := by
  unfold Unaccounted
  rw [baseID_same h]
  simp only [recognises_same h]

/-- **C14.** The report lists, in the order routes and their middleware were seen, exactly
the middleware of dedicated slots that no mapping recognises, neither itself nor through
the function it calls; each is listed once. (`hth`: looking through a function only finds
middleware some mapping recognises - proved of the code as `C48_sound`.) -/
theorem C14_report_exact (rx : String → String → Bool) (ms : List Mapping) (through : String → List Ref) (routes : List RouteMW)
    (hth : ∀ key, ∀ r ∈ through key, ∃ m ∈ ms, Recognises rx m r)
    (hd : Distinguished (InPlay through (routes.flatMap RouteMW.definite))) :
    (∀ r ∈ unresolvedAll rx ms through routes, Unaccounted rx ms through r) ∧
    (∀ mw ∈ routes, ∀ r ∈ mw.definite, Unaccounted rx ms through r →
      ∃ r' ∈ unresolvedAll rx ms through routes, Same r' r) ∧
    (unresolvedAll rx ms through routes).Sublist (routes.flatMap RouteMW.definite) ∧
    (unresolvedAll rx ms through routes).Pairwise (fun a b => a.show ≠ b.show) := by
  rw [unresolvedAll_eq]
  have hsubl : ∀ l : List Ref, ((l.flatMap (expand1 rx ms through)).filter fun r => !anyMatches rx ms r).Sublist l := by
    intro l
    induction l with
    | nil => exact List.Sublist.slnil
    | cons x l ih =>
      rw [List.flatMap_cons, List.filter_append]
      rcases expand1_unrec rx ms through hth x with ⟨e, _⟩ | ⟨e, _⟩
      · rw [e]; exact ih.cons x
      · rw [e]; exact ih.cons_cons x
  have hsub1 : ∀ mw : RouteMW, ((expand rx ms through (dedupRefs mw.definite)).filter fun r => !anyMatches rx ms r).Sublist mw.definite := by
    intro mw
    refine List.Sublist.trans ?_ ((hsubl (dedupRefs mw.definite)).trans (dedupBy_sublist _ _))
    exact (dedupBy_sublist Ref.show _).filter _
  have hmet : (metUnresolved rx ms through routes).Sublist (routes.flatMap RouteMW.definite) := by
    unfold metUnresolved
    clear hd
    induction routes with
    | nil => exact List.Sublist.slnil
    | cons mw rs ih => exact (hsub1 mw).append ih
  have hsound : ∀ r ∈ metUnresolved rx ms through routes, Unaccounted rx ms through r := by
    intro r hr
    obtain ⟨mw, _, hr⟩ := List.mem_flatMap.1 hr
    have hr : r ∈ (((dedupRefs mw.definite).flatMap (expand1 rx ms through)).filter fun r => !anyMatches rx ms r) :=
      ((dedupBy_sublist Ref.show _).filter _).subset hr
    obtain ⟨hr, hn⟩ := List.mem_filter.1 hr
    obtain ⟨x, _, hrx⟩ := List.mem_flatMap.1 hr
    have : r ∈ ((expand1 rx ms through x).filter fun r => !anyMatches rx ms r) := List.mem_filter.2 ⟨hrx, hn⟩
    rcases expand1_unrec rx ms through hth x with ⟨e, _⟩ | ⟨e, hu⟩
    · rw [e] at this; simp at this
    · rw [e] at this; rw [List.mem_singleton.1 this]; exact hu
  refine ⟨fun r hr => hsound r ((dedupBy_sublist _ _).subset hr), ?_, (dedupBy_sublist _ _).trans hmet, ?_⟩
  · intro mw hmw r hr hu
    have hplayR : ∀ x ∈ mw.definite, InPlay through (routes.flatMap RouteMW.definite) x :=
      fun x hx => .inl (List.mem_flatMap.2 ⟨mw, hmw, hx⟩)
    obtain ⟨r1, hr1, hs1⟩ := mem_dedupRefs hd mw.definite hplayR r hr
    have hu1 : Unaccounted rx ms through r1 := (unaccounted_same hs1).2 hu
    have hr1d : r1 ∈ mw.definite := (dedupBy_sublist _ _).subset hr1
    have hin : r1 ∈ (dedupRefs mw.definite).flatMap (expand1 rx ms through) := by
      refine List.mem_flatMap.2 ⟨r1, hr1, ?_⟩
      rcases expand1_unrec rx ms through hth r1 with ⟨_, h⟩ | ⟨e, _⟩
      · exact absurd hu1 h
      · have : r1 ∈ [r1] := by simp
        rw [← e] at this
        exact (List.mem_filter.1 this).1
    have hplayE : ∀ x ∈ (dedupRefs mw.definite).flatMap (expand1 rx ms through), InPlay through (routes.flatMap RouteMW.definite) x := by
      intro x hx
      obtain ⟨y, hy, hx⟩ := List.mem_flatMap.1 hx
      have hyd : y ∈ routes.flatMap RouteMW.definite := List.mem_flatMap.2 ⟨mw, hmw, (dedupBy_sublist _ _).subset hy⟩
      unfold expand1 at hx
      split at hx
      · rw [List.mem_singleton.1 hx]; exact .inl hyd
      · split at hx
        · rw [List.mem_singleton.1 hx]; exact .inl hyd
        · next key hk =>
          split at hx
          · rw [List.mem_singleton.1 hx]; exact .inl hyd
          · exact .inr ⟨y, hyd, key, hk, hx⟩
    obtain ⟨r2, hr2, hs2⟩ := mem_dedupRefs hd _ hplayE r1 hin
    have hu2 : Unaccounted rx ms through r2 := (unaccounted_same hs2).2 hu1
    have hr2e : r2 ∈ expand rx ms through (dedupRefs mw.definite) := hr2
    have hmem : r2 ∈ metUnresolved rx ms through routes :=
      List.mem_flatMap.2 ⟨mw, hmw, List.mem_filter.2 ⟨hr2e, (not_anyMatches _ _ _).2 hu2.1⟩⟩
    have hplayM : ∀ x ∈ metUnresolved rx ms through routes, InPlay through (routes.flatMap RouteMW.definite) x :=
      fun x hx => .inl (hmet.subset hx)
    obtain ⟨r3, hr3, hs3⟩ := mem_dedupRefs hd _ hplayM r2 hmem
    exact ⟨r3, hr3, ⟨hs3.1.trans (hs2.1.trans hs1.1), hs3.2.1.trans (hs2.2.1.trans hs1.2.1), hs3.2.2.trans (hs2.2.2.trans hs1.2.2)⟩⟩
  · have := dedupBy_nodup Ref.show (metUnresolved rx ms through routes)
    rw [List.nodup_iff_pairwise_ne, List.pairwise_map] at this
    exact this

/-- **C14, skipped middleware.** A middleware recognised only by mappings marked skip leaves
no trace: neither in the requirements, nor in the public flag, nor in the report. -/
theorem C14_skip_neutral (rx : String → String → Bool) (ms : List Mapping) (a b : List Ref) (r : Ref)
    (hrec : ∃ m ∈ ms, Recognises rx m r) (hskip : ∀ m ∈ ms, Recognises rx m r → m.skip = true) :
    resolveSecurity rx (a ++ r :: b) ms = resolveSecurity rx (a ++ b) ms := by
  have hact : acting rx (a ++ r :: b) ms = acting rx (a ++ b) ms := by
    unfold acting
    rw [List.flatMap_append, List.flatMap_append, List.flatMap_cons]
    have : (ms.filter fun m => m.matchesRef rx r && !m.skip) = [] := by
      rw [List.filter_eq_nil_iff]
      intro m hm h
      simp only [Bool.and_eq_true, Bool.not_eq_true', matchesRef_iff] at h
      rw [hskip m hm h.1] at h
      exact absurd h.2 (by simp)
    rw [this]; simp
  have hun : ((a ++ r :: b).filter fun r => !anyMatches rx ms r) = (a ++ b).filter fun r => !anyMatches rx ms r := by
    have := (anyMatches_iff rx ms r).2 hrec
    simp [List.filter_append, this]
  have hp : (resolveSecurity rx (a ++ r :: b) ms).2.1 = (resolveSecurity rx (a ++ b) ms).2.1 := by
    unfold resolveSecurity
    dsimp only
    rw [resolve_fold, resolve_fold, hact]
  refine Prod.ext ?_ (Prod.ext hp ?_)
  · rw [resolve_reqs, resolve_reqs, hact]
  · rw [resolve_unresolved, resolve_unresolved, hun]

example : unresolvedAll demoRx demoMaps demoThrough
    [⟨[{ fn := "protected", pkg := "app" }, { fn := "audit" }, { fn := "logger" }], []⟩, ⟨[{ fn := "cors" }, { fn := "audit" }], [{ fn := "newX" }]⟩] =
    [{ fn := "audit" }, { fn := "cors" }] := by decide

/-! ## C15 -/

theorem mergeReqs_get (l : List SecReq) : ∀ (acc : SecReq) (k : String) (v : List String),
    (∀ o ∈ l, ∀ v', (k, v') ∈ o → v' = v) → ((∃ o ∈ l, (k, v) ∈ o) ∨ mget acc k = some v) → mget (mergeReqs acc l) k = some v := by
  have inner : ∀ (o : SecReq) (acc : SecReq) (k : String) (v : List String),
      (∀ v', (k, v') ∈ o → v' = v) → ((k, v) ∈ o ∨ mget acc k = some v) →
      mget (o.foldl (fun acc kv => mset acc kv.1 kv.2) acc) k = some v := by
    intro o
    induction o with
    | nil => intro acc k v _ h; exact h.resolve_left (by simp)
    | cons x o ih =>
      intro acc k v h1 h2
      rw [List.foldl_cons]
      apply ih _ _ _ (fun v' hv' => h1 v' (by simp [hv']))
      by_cases hk : k = x.1
      · right
        rw [hk, mget_mset_self, h1 x.2 (by rw [hk]; simp)]
      · rcases h2 with h2 | h2
        · rcases List.mem_cons.1 h2 with h2 | h2
          · exact absurd (by rw [← h2]) hk
          · exact .inl h2
        · right; rw [mget_mset_ne _ _ hk]; exact h2
  induction l with
  | nil => intro acc k v _ h; exact h.resolve_left (by simp)
  | cons o l ih =>
    intro acc k v h1 h2
    show mget (mergeReqs (o.foldl (fun acc kv => mset acc kv.1 kv.2) acc) l) k = some v
    apply ih _ _ _ (fun o' ho' => h1 o' (by simp [ho']))
    rcases h2 with ⟨o', ho', hk⟩ | h2
    · rcases List.mem_cons.1 ho' with rfl | ho'
      · right; exact inner _ _ _ _ (h1 _ (by simp)) (.inl hk)
      · exact .inl ⟨o', ho', hk⟩
    · right; exact inner _ _ _ _ (h1 _ (by simp)) (.inr h2)

/-- **C15, what holds.** If no mapping in force offers alternatives and no scheme is
demanded with two different scope lists, then every requirement emitted for a set of
middleware demands every scheme any of them demands, with its scopes. (Missing from the
full property: alternatives, conflicting scopes, middleware that wraps the handler, public;
the next three theorems show the code breaks the claim there.) -/
theorem C15_as_strong_partial (rx : String → String → Bool) (refs : List Ref) (ms : List Mapping)
    (hno : ∀ r ∈ refs, ∀ m, Active rx ms r m → m.anyOf = [])
    (hcons : ∀ r ∈ refs, ∀ r' ∈ refs, ∀ m m', Active rx ms r m → Active rx ms r' m' →
      ∀ o ∈ m.schemes, ∀ o' ∈ m'.schemes, ∀ k v v', (k, v) ∈ o → (k, v') ∈ o' → v = v')
    (q : SecReq) (hq : q ∈ (resolveSecurity rx refs ms).1)
    (r : Ref) (hr : r ∈ refs) (m : Mapping) (hm : Active rx ms r m) (o : SecReq) (ho : o ∈ m.schemes) (k : String) (v : List String)
    (hk : (k, v) ∈ o) : mget q k = some v := by
  rw [resolve_reqs] at hq
  have hq := (dedupBy_sublist _ _).subset hq
  rcases List.mem_append.1 hq with hq | hq
  · split at hq
    · simp at hq
    · rw [List.mem_singleton.1 hq]
      apply mergeReqs_get
      · intro o' ho' v' hv'
        obtain ⟨m', hm', ho'⟩ := List.mem_flatMap.1 ho'
        obtain ⟨r', hr', ha'⟩ := (mem_acting _ _ _ _).1 hm'
        exact hcons r' hr' r hr m' m ha' hm o' ho' o ho k v' v hv' hk
      · exact .inl ⟨o, List.mem_flatMap.2 ⟨m, (mem_acting _ _ _ _).2 ⟨r, hr, hm⟩, ho⟩, hk⟩
  · obtain ⟨m', hm', hq⟩ := List.mem_flatMap.1 hq
    obtain ⟨r', hr', ha'⟩ := (mem_acting _ _ _ _).1 hm'
    rw [hno r' hr' m' ha'] at hq
    simp at hq

/-- **C15 fails on scopes**: two middleware demanding one scheme with different scopes leave
only the scopes of the last (security.go:325). -/
theorem C15_scopes_overwritten :
    let ms : List Mapping := [{ fnRe := "read", schemes := [[("oauth", ["read"])]] }, { fnRe := "write", schemes := [[("oauth", ["write"])]] }]
    (resolveSecurity demoRx [{ fn := "read" }, { fn := "write" }] ms).1 = [[("oauth", ["write"])]] := by decide

/-- **C15 fails on alternatives**: a middleware demanding a scheme next to one that accepts
alternatives leaves an entry that does not demand the first scheme (security.go:345-348). -/
theorem C15_alternatives_weaken :
    let ms : List Mapping := [{ fnRe := "tenant", schemes := [[("tenantKey", [])]] }, { fnRe := "login", anyOf := [[[("bearer", [])]], [[("basic", [])]]] }]
    (resolveSecurity demoRx [{ fn := "tenant" }, { fn := "login" }] ms).1 = [[("tenantKey", [])], [("bearer", [])], [("basic", [])]] := by decide

/-- **C15 fails on wrapped handlers**: router middleware demanding a key and a handler
wrapped in bearer authentication are documented as alternatives (extractor.go:747, 754). -/
theorem C15_wrapper_weakens :
    let ms : List Mapping := [{ fnRe := "apikey", schemes := [[("key", [])]] }, { fnRe := "bearer", schemes := [[("bearer", [])]] }]
    routeSecurity demoRx ms (fun _ => []) ⟨[{ fn := "apikey" }], [{ fn := "bearer" }]⟩ = some [[("key", [])], [("bearer", [])]] := by decide

example : (resolveSecurity demoRx [{ fn := "a" }, { fn := "b" }]
    [{ fnRe := "a", schemes := [[("bearer", [])]] }, { fnRe := "b", schemes := [[("oauth", ["x"]), ("bearer", [])]] }]).1 =
    [[("bearer", []), ("oauth", ["x"])]] := by decide

end Verif.Security
