import Verif.ReachSpec
import Verif.SccProps
/-!
# Properties: pruning (C22) and entrypoints (C24)
-/

namespace Verif.Reach
open Verif.Common Verif.Scc Verif.GraphSpec Verif.ReachSpec

/-! ## Work-list search -/

section
variable {κ : Type} [DecidableEq κ]

theorem mark_mem1 (lifo : Bool) (st : List κ × List κ) (a x : κ) :
    x ∈ (mark lifo st a).1 ↔ x ∈ st.1 ∨ x = a := by
  unfold mark; split
  · next h => constructor
              · exact .inl
              · rintro (h1 | rfl)
                · exact h1
                · exact h
  · simp only [List.mem_cons]; exact or_comm

theorem mark_mem2 (lifo : Bool) (st : List κ × List κ) (a x : κ) :
    x ∈ (mark lifo st a).2 ↔ x ∈ st.2 ∨ (x = a ∧ a ∉ st.1) := by
  unfold mark; split
  · next h => simp [h]
  · next h => cases lifo <;> simp [h, or_comm]

theorem mark_len (lifo : Bool) (st : List κ × List κ) (a : κ) :
    (mark lifo st a).1.length + st.2.length = st.1.length + (mark lifo st a).2.length := by
  unfold mark; split
  · rfl
  · cases lifo <;> simp <;> omega

theorem mark_nodup (lifo : Bool) (st : List κ × List κ) (a : κ) (h : st.1.Nodup) :
    (mark lifo st a).1.Nodup := by
  unfold mark; split
  · exact h
  · next hn => exact List.nodup_cons.mpr ⟨hn, h⟩

theorem marks_mem1 (lifo : Bool) (l : List κ) : ∀ (st : List κ × List κ) (x : κ),
    x ∈ (l.foldl (mark lifo) st).1 ↔ x ∈ st.1 ∨ x ∈ l := by
  induction l with
  | nil => intro st x; simp
  | cons a l ih => intro st x; rw [List.foldl_cons, ih, mark_mem1, List.mem_cons, or_assoc]

theorem marks_mem2 (lifo : Bool) (l : List κ) : ∀ (st : List κ × List κ) (x : κ),
    x ∈ (l.foldl (mark lifo) st).2 ↔ x ∈ st.2 ∨ (x ∈ l ∧ x ∉ st.1) := by
  induction l with
  | nil => intro st x; simp
  | cons a l ih =>
    intro st x
    rw [List.foldl_cons, ih, mark_mem2, mark_mem1, List.mem_cons]
    by_cases hxa : x = a
    · subst hxa; by_cases h : x ∈ st.1 <;> simp [h]
    · simp [hxa]

theorem marks_len (lifo : Bool) (l : List κ) : ∀ (st : List κ × List κ),
    (l.foldl (mark lifo) st).1.length + st.2.length = st.1.length + (l.foldl (mark lifo) st).2.length := by
  induction l with
  | nil => intro st; rfl
  | cons a l ih =>
    intro st; rw [List.foldl_cons]
    have h1 := ih (mark lifo st a)
    have h2 := mark_len lifo st a
    omega

theorem marks_nodup (lifo : Bool) (l : List κ) : ∀ (st : List κ × List κ), st.1.Nodup →
    (l.foldl (mark lifo) st).1.Nodup := by
  induction l with
  | nil => intro st h; exact h
  | cons a l ih => intro st h; exact ih _ (mark_nodup lifo st a h)

/-- The loop marks exactly what is reachable from what was marked, whichever end of the
work list is served first. -/
theorem search_exact (lifo : Bool) (next : κ → List κ) (U : List κ)
    (hU : ∀ a ∈ U, ∀ b ∈ next a, b ∈ U) : ∀ (fuel : Nat) (st : List κ × List κ),
    st.1.Nodup → (∀ x ∈ st.2, x ∈ st.1) → (∀ x ∈ st.1, x ∈ U) →
    (∀ x ∈ st.1, x ∈ st.2 ∨ ∀ y ∈ next x, y ∈ st.1) →
    U.length + st.2.length ≤ fuel + st.1.length →
    ∀ x, x ∈ search lifo next fuel st ↔ ∃ r ∈ st.1, Reach (Next next) r x := by
  have done : ∀ (marked : List κ), (∀ x ∈ marked, ∀ y ∈ next x, y ∈ marked) →
      ∀ x, x ∈ marked ↔ ∃ r ∈ marked, Reach (Next next) r x := by
    intro marked hc x
    constructor
    · intro h; exact ⟨x, h, .refl _⟩
    · rintro ⟨r, hr, h⟩
      exact h.closed (S := fun a => a ∈ marked) (fun a b ha hab => hc a ha b hab) hr
  intro fuel
  induction fuel with
  | zero =>
    intro st hnd hsub hin hcl hf
    have hle := List.Nodup.length_le_of_subset hnd (fun x hx => hin x hx)
    have hnil : st.2 = [] := List.eq_nil_of_length_eq_zero (by omega)
    refine done st.1 (fun x hx => ?_)
    rcases hcl x hx with h | h
    · rw [hnil] at h; simp at h
    · exact h
  | succ n ih =>
    rintro ⟨marked, work⟩ hnd hsub hin hcl hf
    cases work with
    | nil =>
      refine done marked (fun x hx => ?_)
      rcases hcl x hx with h | h
      · simp at h
      · exact h
    | cons k work =>
      show ∀ x, x ∈ search lifo next n ((next k).foldl (mark lifo) (marked, work)) ↔ _
      have hk : k ∈ marked := hsub k (by simp)
      have hlen := marks_len lifo (next k) (marked, work)
      have key := ih ((next k).foldl (mark lifo) (marked, work))
        (marks_nodup lifo _ _ hnd)
        (fun x hx => by
          rw [marks_mem2] at hx; rw [marks_mem1]
          rcases hx with h | h
          · exact .inl (hsub x (List.mem_cons_of_mem _ h))
          · exact .inr h.1)
        (fun x hx => by
          rw [marks_mem1] at hx
          rcases hx with h | h
          · exact hin x h
          · exact hU k (hin k hk) x h)
        (fun x hx => by
          rw [marks_mem1] at hx
          by_cases hxm : x ∈ marked
          · rcases hcl x hxm with h | h
            · rcases List.mem_cons.mp h with e | h
              · right; intro y hy; rw [marks_mem1]; right; rw [← e]; exact hy
              · left; rw [marks_mem2]; exact .inl h
            · right; intro y hy; rw [marks_mem1]; exact .inl (h y hy)
          · left; rw [marks_mem2]
            exact .inr ⟨hx.resolve_left hxm, hxm⟩)
        (by simp only [List.length_cons] at hf hlen ⊢; omega)
      intro x
      rw [key x]
      constructor
      · rintro ⟨r, hr, h⟩
        rw [marks_mem1] at hr
        rcases hr with hr | hr
        · exact ⟨r, hr, h⟩
        · exact ⟨k, hk, .step hr h⟩
      · rintro ⟨r, hr, h⟩
        exact ⟨r, (marks_mem1 lifo _ _ r).mpr (.inl hr), h⟩

/-! ## `computeReach` -/

/-- What holds of the forward pass at any moment, apart from coverage. -/
structure Loc (isMatch : κ → Bool) (s : Fwd κ) : Prop where
  nodup : s.seen.Nodup
  seeds : s.seeds = s.reach
  reach : ∀ x, x ∈ s.reach ↔ x ∈ s.seen ∧ isMatch x = true
  reachNodup : s.reach.Nodup

theorem visit_seen (isMatch : κ → Bool) (s : Fwd κ) (id x : κ) :
    x ∈ (visit isMatch s id).seen ↔ x ∈ s.seen ∨ x = id := by
  unfold visit; split
  · next h => constructor
              · exact .inl
              · rintro (h1 | rfl)
                · exact h1
                · exact h
  · simp only; split <;> (simp only [List.mem_cons]; exact or_comm)

theorem visit_frontier (isMatch : κ → Bool) (s : Fwd κ) (id x : κ) :
    x ∈ (visit isMatch s id).frontier ↔ x ∈ s.frontier ∨ (x = id ∧ id ∉ s.seen) := by
  unfold visit; split
  · next h => simp [h]
  · next h => simp only; split <;> simp [h, or_comm]

theorem visit_rev (isMatch : κ → Bool) (s : Fwd κ) (id : κ) :
    (visit isMatch s id).rev = s.rev := by
  unfold visit; split
  · rfl
  · simp only; split <;> rfl

theorem visit_len (isMatch : κ → Bool) (s : Fwd κ) (id : κ) :
    (visit isMatch s id).seen.length + s.frontier.length =
      s.seen.length + (visit isMatch s id).frontier.length := by
  unfold visit; split
  · rfl
  · simp only; split <;> simp <;> omega

theorem visit_loc {isMatch : κ → Bool} {s : Fwd κ} (h : Loc isMatch s) (id : κ) :
    Loc isMatch (visit isMatch s id) := by
  unfold visit; split
  · exact h
  · next hn =>
    have hnr : id ∉ s.reach := fun hm => hn ((h.reach id).mp hm).1
    simp only
    split
    · next hc =>
      refine ⟨List.nodup_cons.mpr ⟨hn, h.nodup⟩, by simp [h.seeds], ?_, List.nodup_cons.mpr ⟨hnr, h.reachNodup⟩⟩
      intro x
      simp only [List.mem_cons, h.reach]
      constructor
      · rintro (rfl | ⟨h1, h2⟩)
        · exact ⟨.inl rfl, hc.1⟩
        · exact ⟨.inr h1, h2⟩
      · rintro ⟨rfl | h1, h2⟩
        · exact .inl rfl
        · exact .inr ⟨h1, h2⟩
    · next hc =>
      refine ⟨List.nodup_cons.mpr ⟨hn, h.nodup⟩, h.seeds, ?_, h.reachNodup⟩
      intro x
      simp only [List.mem_cons, h.reach]
      constructor
      · rintro ⟨h1, h2⟩; exact ⟨.inr h1, h2⟩
      · rintro ⟨rfl | h1, h2⟩
        · exact absurd ⟨h2, hnr⟩ hc
        · exact ⟨h1, h2⟩

theorem kids_facts {isMatch : κ → Bool} (id : κ) (l : List κ) : ∀ (s : Fwd κ), Loc isMatch s →
    Loc isMatch (l.foldl (visitChild isMatch id) s) ∧
    (∀ x, x ∈ (l.foldl (visitChild isMatch id) s).seen ↔ x ∈ s.seen ∨ x ∈ l) ∧
    (∀ x, x ∈ (l.foldl (visitChild isMatch id) s).frontier ↔ x ∈ s.frontier ∨ (x ∈ l ∧ x ∉ s.seen)) ∧
    (l.foldl (visitChild isMatch id) s).rev = s.rev ++ l.map (fun c => (c, id)) ∧
    (l.foldl (visitChild isMatch id) s).seen.length + s.frontier.length =
      s.seen.length + (l.foldl (visitChild isMatch id) s).frontier.length := by
  induction l with
  | nil => intro s h; simp [h]
  | cons a l ih =>
    intro s h
    rw [List.foldl_cons]
    have h0 : Loc isMatch { s with rev := s.rev ++ [(a, id)] } := ⟨h.1, h.2, h.3, h.4⟩
    have h1 : Loc isMatch (visitChild isMatch id s a) := visit_loc h0 a
    obtain ⟨i1, i2, i3, i4, i5⟩ := ih _ h1
    have hs : ∀ x, x ∈ (visitChild isMatch id s a).seen ↔ x ∈ s.seen ∨ x = a := visit_seen isMatch _ a
    have hf : ∀ x, x ∈ (visitChild isMatch id s a).frontier ↔ x ∈ s.frontier ∨ (x = a ∧ a ∉ s.seen) :=
      visit_frontier isMatch _ a
    have hr : (visitChild isMatch id s a).rev = s.rev ++ [(a, id)] := visit_rev isMatch _ a
    have hl : (visitChild isMatch id s a).seen.length + s.frontier.length =
      s.seen.length + (visitChild isMatch id s a).frontier.length := visit_len isMatch { s with rev := s.rev ++ [(a, id)] } a
    refine ⟨i1, fun x => ?_, fun x => ?_, ?_, by omega⟩
    · rw [i2, hs, List.mem_cons, or_assoc]
    · rw [i3, hf, hs, List.mem_cons]
      by_cases hxa : x = a
      · subst hxa; by_cases h : x ∈ s.seen <;> simp [h]
      · simp [hxa]
    · rw [i4, hr, List.append_assoc]; rfl

theorem roots_facts {isMatch : κ → Bool} (l : List κ) : ∀ (s : Fwd κ), Loc isMatch s →
    Loc isMatch (l.foldl (visit isMatch) s) ∧
    (∀ x, x ∈ (l.foldl (visit isMatch) s).seen ↔ x ∈ s.seen ∨ x ∈ l) ∧
    (∀ x, x ∈ (l.foldl (visit isMatch) s).frontier ↔ x ∈ s.frontier ∨ (x ∈ l ∧ x ∉ s.seen)) ∧
    (l.foldl (visit isMatch) s).rev = s.rev ∧
    (l.foldl (visit isMatch) s).seen.length + s.frontier.length =
      s.seen.length + (l.foldl (visit isMatch) s).frontier.length := by
  induction l with
  | nil => intro s h; simp [h]
  | cons a l ih =>
    intro s h
    rw [List.foldl_cons]
    obtain ⟨i1, i2, i3, i4, i5⟩ := ih _ (visit_loc h a)
    refine ⟨i1, fun x => ?_, fun x => ?_, ?_, ?_⟩
    · rw [i2, visit_seen, List.mem_cons, or_assoc]
    · rw [i3, visit_frontier, visit_seen, List.mem_cons]
      by_cases hxa : x = a
      · subst hxa; by_cases h : x ∈ s.seen <;> simp [h]
      · simp [hxa]
    · rw [i4, visit_rev]
    · have := visit_len isMatch s a; omega

/-- The forward pass enumerates everything reachable and records every edge backwards. -/
theorem forward_exact {children : κ → List κ} {isMatch : κ → Bool} (U : List κ)
    (hU : ∀ a ∈ U, ∀ b ∈ children a, b ∈ U) : ∀ (fuel : Nat) (s : Fwd κ), Loc isMatch s →
    (∀ x ∈ s.frontier, x ∈ s.seen) → (∀ x ∈ s.seen, x ∈ U) →
    (∀ x ∈ s.seen, x ∈ s.frontier ∨ ∀ c ∈ children x, c ∈ s.seen ∧ (c, x) ∈ s.rev) →
    (∀ p ∈ s.rev, p.2 ∈ s.seen ∧ p.1 ∈ children p.2) →
    U.length + s.frontier.length ≤ fuel + s.seen.length →
    Loc isMatch (forward children isMatch fuel s) ∧
    (∀ x, x ∈ (forward children isMatch fuel s).seen ↔ ∃ r ∈ s.seen, Reach (Next children) r x) ∧
    (∀ x, x ∈ (forward children isMatch fuel s).seen → x ∈ U) ∧
    (∀ c p, (c, p) ∈ (forward children isMatch fuel s).rev ↔
      p ∈ (forward children isMatch fuel s).seen ∧ c ∈ children p) := by
  have done : ∀ s : Fwd κ, s.frontier = [] → Loc isMatch s → (∀ x ∈ s.seen, x ∈ U) →
      (∀ x ∈ s.seen, x ∈ s.frontier ∨ ∀ c ∈ children x, c ∈ s.seen ∧ (c, x) ∈ s.rev) →
      (∀ p ∈ s.rev, p.2 ∈ s.seen ∧ p.1 ∈ children p.2) →
      Loc isMatch s ∧ (∀ x, x ∈ s.seen ↔ ∃ r ∈ s.seen, Reach (Next children) r x) ∧
      (∀ x, x ∈ s.seen → x ∈ U) ∧ (∀ c p, (c, p) ∈ s.rev ↔ p ∈ s.seen ∧ c ∈ children p) := by
    intro s he hl hin hcl hrev
    have hc : ∀ x ∈ s.seen, ∀ c ∈ children x, c ∈ s.seen ∧ (c, x) ∈ s.rev := by
      intro x hx
      rcases hcl x hx with h | h
      · rw [he] at h; simp at h
      · exact h
    refine ⟨hl, fun x => ⟨fun h => ⟨x, h, .refl _⟩, ?_⟩, hin, fun c p => ⟨fun h => hrev _ h, fun h => (hc p h.1 c h.2).2⟩⟩
    rintro ⟨r, hr, h⟩
    exact h.closed (S := fun a => a ∈ s.seen) (fun a b ha hab => (hc a ha b hab).1) hr
  intro fuel
  induction fuel with
  | zero =>
    intro s hl hsub hin hcl hrev hf
    have hle := List.Nodup.length_le_of_subset hl.nodup (fun x hx => hin x hx)
    exact done s (List.eq_nil_of_length_eq_zero (by omega)) hl hin hcl hrev
  | succ n ih =>
    intro s hl hsub hin hcl hrev hf
    unfold forward
    split
    · next he => exact done s he hl hin hcl hrev
    · next id fr he =>
      have hid : id ∈ s.seen := hsub id (by simp [he])
      have hl0 : Loc isMatch { s with frontier := fr } := ⟨hl.1, hl.2, hl.3, hl.4⟩
      obtain ⟨k1, k2, k3, k4, k5⟩ := kids_facts id (children id) { s with frontier := fr } hl0
      simp only at k2 k3 k4 k5
      have key := ih _ k1
        (fun x hx => by
          rw [k3] at hx; rw [k2]
          rcases hx with h | h
          · exact .inl (hsub x (by simp [he, h]))
          · exact .inr h.1)
        (fun x hx => by
          rw [k2] at hx
          rcases hx with h | h
          · exact hin x h
          · exact hU id (hin id hid) x h)
        (fun x hx => by
          rw [k2] at hx
          by_cases hxs : x ∈ s.seen
          · rcases hcl x hxs with h | h
            · rw [he] at h
              rcases List.mem_cons.mp h with e | h
              · right; intro c hc
                rw [e] at hc
                refine ⟨(k2 c).mpr (.inr hc), ?_⟩
                rw [k4, e]
                exact List.mem_append_right _ (List.mem_map.mpr ⟨c, hc, rfl⟩)
              · left; rw [k3]; exact .inl h
            · right; intro c hc
              refine ⟨(k2 c).mpr (.inl (h c hc).1), ?_⟩
              rw [k4]; exact List.mem_append_left _ (h c hc).2
          · left; rw [k3]; exact .inr ⟨hx.resolve_left hxs, hxs⟩)
        (fun p hp => by
          rw [k4] at hp
          rcases List.mem_append.mp hp with h | h
          · exact ⟨(k2 _).mpr (.inl (hrev p h).1), (hrev p h).2⟩
          · obtain ⟨c, hc, e⟩ := List.mem_map.mp h
            subst e
            exact ⟨(k2 _).mpr (.inl hid), hc⟩)
        (by rw [he] at hf; simp only [List.length_cons] at hf; omega)
      obtain ⟨j1, j2, j3, j4⟩ := key
      refine ⟨j1, fun x => ?_, j3, j4⟩
      rw [j2]
      constructor
      · rintro ⟨r, hr, h⟩
        rw [k2] at hr
        rcases hr with hr | hr
        · exact ⟨r, hr, h⟩
        · exact ⟨id, hid, .step hr h⟩
      · rintro ⟨r, hr, h⟩
        exact ⟨r, (k2 r).mpr (.inl hr), h⟩

theorem mem_parentsOf (rev : List (κ × κ)) (c p : κ) : p ∈ parentsOf rev c ↔ (c, p) ∈ rev := by
  unfold parentsOf
  simp only [List.mem_map, List.mem_filter, decide_eq_true_eq, Prod.exists, exists_eq_right]

/-- **C22.** The reachability index holds exactly the identities that expansion can come
to from a root and from which some matching identity can be reached — cycles, sharing
and any traversal order included. -/
theorem C22_prune_exact (roots : List κ) (children : κ → List κ) (isMatch : κ → Bool)
    (U : List κ) (hU : Universe children roots U) (fuel : Nat) (hf : U.length ≤ fuel) (id : κ) :
    id ∈ computeReach fuel roots children isMatch ↔
      (∃ r ∈ roots, Reach (Next children) r id) ∧
      ∃ m, Reach (Next children) id m ∧ isMatch m = true := by
  have hl0 : Loc isMatch ({} : Fwd κ) := ⟨List.nodup_nil, rfl, by simp, List.nodup_nil⟩
  obtain ⟨r1, r2, r3, r4, r5⟩ := roots_facts roots ({} : Fwd κ) hl0
  simp only [List.not_mem_nil, false_or, not_false_eq_true, and_true, List.length_nil, Nat.add_zero,
    Nat.zero_add] at r2 r3 r4 r5
  obtain ⟨f1, f2, f3, f4⟩ := forward_exact (isMatch := isMatch) U hU.closed fuel _ r1
    (fun x hx => (r2 x).mpr ((r3 x).mp hx))
    (fun x hx => hU.roots x ((r2 x).mp hx))
    (fun x hx => .inl ((r3 x).mpr ((r2 x).mp hx)))
    (fun p hp => by rw [r4] at hp; simp at hp) (by omega)
  unfold computeReach
  simp only
  generalize forward children isMatch fuel (roots.foldl (visit isMatch) {}) = s at *
  have hseen : ∀ x, x ∈ s.seen ↔ ∃ r ∈ roots, Reach (Next children) r x := by
    intro x; rw [f2]
    constructor <;> (rintro ⟨r, hr, h⟩; exact ⟨r, by simpa [r2] using hr, h⟩)
  have hlenU := List.Nodup.length_le_of_subset f1.nodup (fun x hx => f3 x hx)
  have hs := search_exact true (parentsOf s.rev) s.seen
    (fun a _ b hb => by rw [mem_parentsOf, f4] at hb; exact hb.1) fuel (s.reach, s.seeds)
    f1.reachNodup (fun x hx => by rw [f1.seeds] at hx; exact hx)
    (fun x hx => ((f1.reach x).mp hx).1)
    (fun x hx => .inl (by rw [f1.seeds]; exact hx))
    (by simp only [f1.seeds]; omega) id
  rw [hs, ← hseen]
  constructor
  · rintro ⟨m, hm, h⟩
    have hm := (f1.reach m).mp hm
    have : id ∈ s.seen ∧ Reach (Next children) id m := by
      have h' := h.closed (S := fun a => a ∈ s.seen ∧ Reach (Next children) a m)
        (fun a b ha hab => by
          have hab : b ∈ parentsOf s.rev a := hab
          rw [mem_parentsOf, f4] at hab
          exact ⟨hab.1, .step hab.2 ha.2⟩) ⟨hm.1, .refl _⟩
      exact h'
    exact ⟨this.1, m, this.2, hm.2⟩
  · rintro ⟨hid, m, hr, hm⟩
    have : m ∈ s.seen ∧ Reach (Next (parentsOf s.rev)) m id := by
      have h' := hr.closed (S := fun a => a ∈ s.seen ∧ Reach (Next (parentsOf s.rev)) a id)
        (fun a b ha hab => by
          obtain ⟨r, hr, hra⟩ := (hseen a).mp ha.1
          refine ⟨(hseen b).mpr ⟨r, hr, hra.tail hab⟩, .step ?_ ha.2⟩
          show a ∈ parentsOf s.rev b
          rw [mem_parentsOf, f4]; exact ⟨ha.1, hab⟩) ⟨hid, .refl _⟩
      exact h'
    exact ⟨m, (f1.reach m).mpr ⟨this.1, hm⟩, this.2⟩

/-- **C22 (nothing is lost).** A subtree that is pruned contains no matching node; and
with no predicate supplied nothing is pruned. -/
theorem C22_pruned_is_barren (roots : List κ) (children : κ → List κ) (m : Option (κ → Bool))
    (U : List κ) (hU : Universe children roots U) (fuel : Nat) (hf : U.length ≤ fuel)
    (r id : κ) (hr : r ∈ roots) (hid : Reach (Next children) r id)
    (hp : canReachMatch m fuel roots children id = false) :
    ∃ isMatch, m = some isMatch ∧ ∀ x, Reach (Next children) id x → isMatch x = false := by
  unfold canReachMatch at hp
  split at hp
  · simp at hp
  · next isMatch =>
    refine ⟨isMatch, rfl, fun x hx => ?_⟩
    have hn := of_decide_eq_false hp
    rw [C22_prune_exact roots children isMatch U hU fuel hf] at hn
    cases h : isMatch x with
    | false => rfl
    | true => exact absurd ⟨⟨r, hr, hid⟩, x, hx, h⟩ hn

/-- **C22 (the index does not depend on traversal).** Listing roots or children in another
order, or repeated, does not change which identities can be expanded. -/
theorem C22_order_independent (roots roots' : List κ) (children children' : κ → List κ)
    (isMatch : κ → Bool) (hr : ∀ x, x ∈ roots ↔ x ∈ roots') (hc : ∀ a x, x ∈ children a ↔ x ∈ children' a)
    (U : List κ) (hU : Universe children roots U) (fuel : Nat) (hf : U.length ≤ fuel) (id : κ) :
    id ∈ computeReach fuel roots children isMatch ↔ id ∈ computeReach fuel roots' children' isMatch := by
  have hn : Next children = Next children' := by
    funext a b; exact propext (hc a b)
  rw [C22_prune_exact roots children isMatch U hU fuel hf,
    C22_prune_exact roots' children' isMatch U
      ⟨fun r h => hU.roots r ((hr r).mpr h), fun a ha b hb => hU.closed a ha b ((hc a b).mpr hb)⟩ fuel hf, hn]
  simp only [hr]

end

/-- **C22 (every family counts).** An edge none of the six families accepts is exactly an
edge the pruning predicate rejects. -/
theorem C22_every_family {ε : Type} (route mount security request response param : List (ε → Bool)) (e : ε) :
    edgeMatchesAnyFamily route mount security request response param (some e) = false ↔
      ∀ fam ∈ [route, mount, security, request, response, param], ∀ m ∈ fam, m e = false := by
  simp only [edgeMatchesAnyFamily, Bool.or_eq_false_iff, List.any_eq_false, List.mem_cons,
    List.not_mem_nil, or_false, Bool.not_eq_true]
  constructor
  · rintro ⟨⟨⟨⟨⟨h1, h2⟩, h3⟩, h4⟩, h5⟩, h6⟩ fam (rfl | rfl | rfl | rfl | rfl | rfl) <;> assumption
  · intro h
    exact ⟨⟨⟨⟨⟨h _ (.inl rfl), h _ (.inr (.inl rfl))⟩, h _ (.inr (.inr (.inl rfl)))⟩,
      h _ (.inr (.inr (.inr (.inl rfl))))⟩, h _ (.inr (.inr (.inr (.inr (.inl rfl)))))⟩,
      h _ (.inr (.inr (.inr (.inr (.inr rfl)))))⟩

/-! ## `routeReachSet` -/

theorem mem_addPred (preds : List (String × String)) (o p a b : String) :
    (a, b) ∈ addPred preds o p ↔ (a, b) ∈ preds ∨ (a = o ∧ b = p ∧ o ≠ "" ∧ p ≠ "" ∧ o ≠ p) := by
  unfold addPred; split
  · next h =>
    constructor
    · exact .inl
    · rintro (h1 | ⟨_, _, h2, h3, h4⟩)
      · exact h1
      · rcases h with h | h | h <;> contradiction
  · next h =>
    simp only [not_or] at h
    simp only [List.mem_append, List.mem_singleton, Prod.mk.injEq]
    constructor
    · rintro (h1 | ⟨h1, h2⟩)
      · exact .inl h1
      · exact .inr ⟨h1, h2, h.1, h.2.1, h.2.2⟩
    · rintro (h1 | ⟨h1, h2, _⟩)
      · exact .inl h1
      · exact .inr ⟨h1, h2⟩

theorem mem_preds (edges : List CallEdge) : ∀ (preds : List (String × String)) (b a : String),
    (b, a) ∈ edges.foldl predStep preds ↔ (b, a) ∈ preds ∨ LeadsToNamed edges a b := by
  induction edges with
  | nil => intro preds b a; simp [LeadsToNamed, LeadsTo]
  | cons e l ih =>
    intro preds b a
    rw [List.foldl_cons, ih]
    have hstep : (b, a) ∈ predStep preds e ↔ (b, a) ∈ preds ∨
        (((e.caller = a ∧ e.callee = b) ∨ (e.parent = some a ∧ e.caller = b)) ∧ a ≠ "" ∧ b ≠ "" ∧ a ≠ b) := by
      unfold predStep
      cases hp : e.parent with
      | none =>
        simp only [mem_addPred]
        constructor
        · rintro (h | ⟨rfl, rfl, h1, h2, h3⟩)
          · exact .inl h
          · exact .inr ⟨.inl ⟨rfl, rfl⟩, h2, h1, fun e => h3 e.symm⟩
        · rintro (h | ⟨⟨rfl, rfl⟩ | ⟨h, _⟩, h1, h2, h3⟩)
          · exact .inl h
          · exact .inr ⟨rfl, rfl, h2, h1, fun e => h3 e.symm⟩
          · simp at h
      | some p =>
        simp only [mem_addPred, Option.some.injEq]
        constructor
        · rintro ((h | ⟨rfl, rfl, h1, h2, h3⟩) | ⟨rfl, rfl, h1, h2, h3⟩)
          · exact .inl h
          · exact .inr ⟨.inl ⟨rfl, rfl⟩, h2, h1, fun e => h3 e.symm⟩
          · exact .inr ⟨.inr ⟨rfl, rfl⟩, h2, h1, fun e => h3 e.symm⟩
        · rintro (h | ⟨⟨rfl, rfl⟩ | ⟨rfl, rfl⟩, h1, h2, h3⟩)
          · exact .inl (.inl h)
          · exact .inl (.inr ⟨rfl, rfl, h2, h1, fun e => h3 e.symm⟩)
          · exact .inr ⟨rfl, rfl, h2, h1, fun e => h3 e.symm⟩
    rw [hstep]
    unfold LeadsToNamed LeadsTo
    simp only [List.mem_cons, exists_eq_or_imp]
    constructor
    · rintro ((h | ⟨h1, h2⟩) | ⟨h1, h2⟩)
      · exact .inl h
      · exact .inr ⟨.inl h1, h2⟩
      · exact .inr ⟨.inr h1, h2⟩
    · rintro (h | ⟨h1 | h1, h2⟩)
      · exact .inl (.inl h)
      · exact .inl (.inr ⟨h1, h2⟩)
      · exact .inr ⟨h1, h2⟩

/-- A fold that marks `key e` for the edges satisfying `p`. -/
theorem seeds_eq (p : CallEdge → Bool) (key : CallEdge → String) (f : List String × List String → CallEdge → List String × List String)
    (hf : ∀ st e, f st e = if p e then mark false st (key e) else st) (edges : List CallEdge) :
    ∀ st, edges.foldl f st = ((edges.filter p).map key).foldl (mark false) st := by
  induction edges with
  | nil => intro st; rfl
  | cons e l ih =>
    intro st
    rw [List.foldl_cons, ih, hf]
    cases h : p e with
    | true => simp [h]
    | false => simp [h]

theorem seedStep_eq (isMatch : CallEdge → Bool) (edges : List CallEdge) (st) :
    edges.foldl (seedStep isMatch) st =
      ((edges.filter fun e => isMatch e && e.caller != "").map CallEdge.caller).foldl (mark false) st := by
  apply seeds_eq
  intro st e
  unfold seedStep
  by_cases h1 : isMatch e = true <;> by_cases h2 : e.caller = "" <;> simp [h1, h2]

theorem named_ne {edges : List CallEdge} {a b : String} (h : Reach (LeadsToNamed edges) a b) :
    b ≠ "" → a ≠ "" := by
  intro hb; cases h with
  | refl => exact hb
  | step h _ => exact h.2.1

/-- **C22 (ordering hint).** The functions counted as leading to a registration are exactly
the named ones from which the caller of a matching call can be reached, through calls and
through closures written inside a function. -/
theorem C22_route_reach_exact (edges : List CallEdge) (isMatch : CallEdge → Bool) (f : String) :
    f ∈ routeReachSet edges isMatch ↔
      ∃ e ∈ edges, isMatch e = true ∧ e.caller ≠ "" ∧ Reach (LeadsToNamed edges) f e.caller := by
  unfold routeReachSet
  simp only
  rw [seedStep_eq]
  let seeds := (edges.filter fun e => isMatch e && e.caller != "").map CallEdge.caller
  let U := edges.map CallEdge.caller ++ edges.map (fun e => e.parent.getD "")
  have hUlen : U.length = 2 * edges.length := by simp [U]; omega
  have hm1 := marks_mem1 false seeds ([], [])
  have hm2 := marks_mem2 false seeds ([], [])
  have hlen := marks_len false seeds ([], [])
  simp only [List.not_mem_nil, false_or, not_false_eq_true, and_true, List.length_nil, Nat.add_zero,
    Nat.zero_add] at hm1 hm2 hlen
  have hpar : ∀ a b, a ∈ parentsOf (edges.foldl predStep []) b ↔ LeadsToNamed edges a b := by
    intro a b; rw [mem_parentsOf, mem_preds]; simp
  have hs := search_exact false (parentsOf (edges.foldl predStep [])) U
    (fun b _ a ha => by
      rw [hpar] at ha
      obtain ⟨⟨e, he, h | h⟩, _⟩ := ha
      · exact List.mem_append_left _ (List.mem_map.mpr ⟨e, he, h.1⟩)
      · exact List.mem_append_right _ (List.mem_map.mpr ⟨e, he, by rw [h.1]; rfl⟩))
    (2 * edges.length) (seeds.foldl (mark false) ([], []))
    (marks_nodup false seeds _ List.nodup_nil)
    (fun x hx => (hm1 x).mpr ((hm2 x).mp hx))
    (fun x hx => by
      obtain ⟨e, he, rfl⟩ := List.mem_map.mp ((hm1 x).mp hx)
      exact List.mem_append_left _ (List.mem_map.mpr ⟨e, (List.mem_filter.mp he).1, rfl⟩))
    (fun x hx => .inl ((hm2 x).mpr ((hm1 x).mp hx)))
    (by omega) f
  refine hs.trans ?_
  have hrel : Next (parentsOf (edges.foldl predStep [])) = fun b a => LeadsToNamed edges a b := by
    funext b a; exact propext (hpar a b)
  rw [hrel]
  constructor
  · rintro ⟨r, hr, h⟩
    obtain ⟨e, he, rfl⟩ := List.mem_map.mp ((hm1 r).mp hr)
    obtain ⟨h1, h2⟩ := List.mem_filter.mp he
    simp only [Bool.and_eq_true, bne_iff_ne] at h2
    exact ⟨e, h1, h2.1, h2.2, h.reverse⟩
  · rintro ⟨e, he, h1, h2, h⟩
    exact ⟨e.caller, (hm1 _).mpr (List.mem_map.mpr ⟨e, List.mem_filter.mpr ⟨he, by simp [h1, h2]⟩, rfl⟩),
      h.reverse⟩

/-! ## `reachesMatch` -/

/-- A component leads to a matching call. -/
def CompLeads (edges : List CallEdge) (isMatch : CallEdge → Bool) (C : List String) : Prop :=
  ∃ u ∈ C, ∃ e ∈ edges, isMatch e = true ∧ Reach (Calls (pairs edges)) u e.caller

theorem mem_pairs (edges : List CallEdge) (a b : String) :
    (a, b) ∈ pairs edges ↔ ∃ e ∈ edges, e.caller = a ∧ e.callee = b := by
  simp [pairs]

theorem comp_step (edges : List CallEdge) (isMatch : CallEdge → Bool) (done : List Bool) (C : List String)
    (hC : (build (pairs edges)).comps[done.length]? = some C)
    (hdone : ∀ c D, (build (pairs edges)).comps[c]? = some D → c < done.length →
      (done[c]? = some true ↔ CompLeads edges isMatch D)) :
    (C.any fun m => (callersOf edges m).any
      (edgeReaches (build (pairs edges)).comps isMatch done done.length)) = true ↔
    CompLeads edges isMatch C := by
  obtain ⟨hg, hn, hall⟩ := components_spec (closed_nodes (pairs edges))
  have hedge := edge_eq (pairs edges)
  change Good _ (build (pairs edges)).comps at hg
  change (build (pairs edges)).comps.flatten.Nodup at hn
  change ∀ x, x ∈ (build (pairs edges)).comps.flatten ↔ _ at hall
  generalize (build (pairs edges)).comps = comps at *
  have hocc : ∀ x ∈ comps.flatten, x ≠ "" := by
    intro x hx
    obtain ⟨g, h | h⟩ := (mem_nodesOf _ _).mp ((hall x).mp hx)
    · exact h.2.1
    · exact h.2.2
  rw [List.any_eq_true]
  constructor
  · rintro ⟨m, hm, h⟩
    rw [List.any_eq_true] at h
    obtain ⟨e, he, h⟩ := h
    simp only [callersOf, List.mem_filter, beq_iff_eq] at he
    obtain ⟨he, hem⟩ := he
    unfold edgeReaches at h
    rw [Bool.or_eq_true] at h
    rcases h with h | h
    · exact ⟨m, hm, e, he, h, by rw [hem]; exact .refl _⟩
    · split at h
      · simp at h
      · next d hd =>
        simp only [Bool.and_eq_true, decide_eq_true_eq] at h
        obtain ⟨hne, hdt⟩ := h
        have hdt : done[d]? = some true := by
          cases hx : done[d]? with
          | none => rw [hx] at hdt; simp at hdt
          | some b => rw [hx] at hdt; simp at hdt; rw [hdt]
        have hdl : d < done.length := (List.getElem?_eq_some_iff.mp hdt).1
        obtain ⟨D, hD, hcallee⟩ := (componentOf_some hn e.callee d).mp hd
        obtain ⟨u, hu, e', he', hm', hr'⟩ := (hdone d D hD hdl).mp hdt
        refine ⟨m, hm, e', he', hm', ?_⟩
        have hcall : Calls (pairs edges) m e.callee := by
          refine ⟨(mem_pairs _ _ _).mpr ⟨e, he, hem, rfl⟩, ?_, ?_⟩
          · exact hocc m (List.mem_flatten.mpr ⟨C, List.mem_of_getElem? hC, hm⟩)
          · exact hocc _ (List.mem_flatten.mpr ⟨D, List.mem_of_getElem? hD, hcallee⟩)
        have hmid := (good_at hg hD).2.2.2 e.callee hcallee u hu
        rw [hedge] at hmid
        exact .step hcall (hmid.trans hr')
  · rintro ⟨u, hu, e, he, hm, hr⟩
    have : ∀ u g, Reach (Calls (pairs edges)) u g → g = e.caller → u ∈ C →
        ∃ x ∈ C, ((callersOf edges x).any (edgeReaches comps isMatch done done.length)) = true := by
      intro u g hr
      induction hr with
      | refl x =>
        intro hx hxC
        refine ⟨x, hxC, List.any_eq_true.mpr ⟨e, ?_, ?_⟩⟩
        · simp [callersOf, he, hx]
        · simp [edgeReaches, hm]
      | @step x y z hxy hyz ih =>
        intro hz hxC
        by_cases hyC : y ∈ C
        · exact ih hz hyC
        · obtain ⟨hp, hx0, hy0⟩ := hxy
          obtain ⟨e1, he1, hc1, hc2⟩ := (mem_pairs _ _ _).mp hp
          have hyn : y ∈ nodesOf (pairs edges) := (mem_nodesOf _ _).mpr ⟨x, .inr ⟨hp, hx0, hy0⟩⟩
          obtain ⟨d, hd⟩ := (componentOf_isSome hn y).mpr ((hall y).mpr hyn)
          obtain ⟨D, hD, hyD⟩ := (componentOf_some hn y d).mp hd
          have hne : d ≠ done.length := by
            intro e2; rw [e2, hC] at hD; simp only [Option.some.injEq] at hD
            exact hyC (hD ▸ hyD)
          have hle := edge_back hg hn ((componentOf_some hn x done.length).mpr ⟨C, hC, hxC⟩) hd
            ((mem_adjOf _ x y).mpr ⟨hp, hx0, hy0⟩)
          have hdt := (hdone d D hD (by omega)).mpr ⟨y, hyD, e, he, hm, hz ▸ hyz⟩
          refine ⟨x, hxC, List.any_eq_true.mpr ⟨e1, by simp [callersOf, he1, hc1], ?_⟩⟩
          simp [edgeReaches, hc2, hd, hne, hdt]
    exact this u _ hr rfl hu

theorem compReaches_spec (edges : List CallEdge) (isMatch : CallEdge → Bool) :
    ∀ (rest : List (List String)) (done : List Bool) (pre : List (List String)),
    (build (pairs edges)).comps = pre ++ rest → done.length = pre.length →
    (∀ (c : Nat) (D : List String), (build (pairs edges)).comps[c]? = some D → c < done.length →
      (done[c]? = some true ↔ CompLeads edges isMatch D)) →
    ∀ (c : Nat) (D : List String), (build (pairs edges)).comps[c]? = some D →
      ((compReaches (build (pairs edges)).comps edges isMatch rest done)[c]? = some true ↔
        CompLeads edges isMatch D) := by
  intro rest
  induction rest with
  | nil =>
    intro done pre hpre hlen hdone c D hD
    refine hdone c D hD ?_
    have := (List.getElem?_eq_some_iff.mp hD).1
    rw [hpre] at this; simp at this; omega
  | cons comp rest ih =>
    intro done pre hpre hlen hdone c D hD
    refine ih _ (pre ++ [comp]) (by rw [hpre]; simp) (by simp [hlen]) ?_ c D hD
    intro c' D' hD' hlt
    simp only [List.length_append, List.length_singleton] at hlt
    rcases Nat.lt_or_ge c' done.length with h | h
    · rw [List.getElem?_append_left h]; exact hdone c' D' hD' h
    · have : c' = done.length := by omega
      subst this
      rw [List.getElem?_append_right (Nat.le_refl _)]
      simp only [Nat.sub_self, List.getElem?_cons_zero, Option.some.injEq]
      have hC : (build (pairs edges)).comps[done.length]? = some comp := by
        rw [hpre, hlen, List.getElem?_append_right (Nat.le_refl _)]; simp
      rw [hC] at hD'; simp only [Option.some.injEq] at hD'; subst hD'
      exact comp_step edges isMatch done comp hC hdone

/-- **C22 (summaries).** A function is said to reach a matching call exactly when it occurs
in the call graph and, through any number of calls, comes to a function that makes one. -/
theorem C22_reach_set_exact (edges : List CallEdge) (isMatch : CallEdge → Bool) (f : String) :
    reachesMatch edges isMatch f = true ↔
      Occurs (pairs edges) f ∧
      ∃ e ∈ edges, isMatch e = true ∧ Reach (Calls (pairs edges)) f e.caller := by
  obtain ⟨hg, hn, hall⟩ := components_spec (closed_nodes (pairs edges))
  change Good _ (build (pairs edges)).comps at hg
  change (build (pairs edges)).comps.flatten.Nodup at hn
  change ∀ x, x ∈ (build (pairs edges)).comps.flatten ↔ _ at hall
  unfold reachesMatch
  simp only
  split
  · next hnone =>
    simp only [Bool.false_eq_true, false_iff]
    rintro ⟨ho, _⟩
    obtain ⟨i, hi⟩ := (componentOf_isSome hn f).mpr ((hall f).mpr ((mem_nodesOf _ f).mpr ho))
    rw [hnone] at hi; simp at hi
  · next c hc =>
    obtain ⟨C, hC, hf⟩ := (componentOf_some hn f c).mp hc
    have hspec := compReaches_spec edges isMatch (build (pairs edges)).comps [] [] rfl rfl
      (by intro c D _ h; simp at h) c C hC
    have hgd : ∀ o : Option Bool, o.getD false = true ↔ o = some true := by
      intro o; cases o <;> simp
    rw [hgd, hspec]
    have hedge := edge_eq (pairs edges)
    constructor
    · rintro ⟨u, hu, e, he, hm, hr⟩
      refine ⟨(mem_nodesOf _ f).mp ((hall f).mp (List.mem_flatten.mpr ⟨C, List.mem_of_getElem? hC, hf⟩)),
        e, he, hm, ?_⟩
      have := (good_at hg hC).2.2.2 f hf u hu
      rw [hedge] at this
      exact this.trans hr
    · rintro ⟨_, e, he, hm, hr⟩
      exact ⟨f, hf, e, he, hm, hr⟩

/-! ## C24: entrypoints -/

/-- `main` can come to `f` through calls. -/
def MainReaches (edges : List CallEdge) (f : String) : Prop :=
  ∃ e ∈ edges, e.callerName = "main" ∧ ∃ b, BaseOf e.caller b ∧ Reach (CallsRaw edges) b f

theorem split_unique (p : Char → Bool) : ∀ (a b r s : List Char), a ++ r = b ++ s →
    (∀ c ∈ a, p c = true) → (∀ c ∈ b, p c = true) → (∀ c, r.head? = some c → p c = false) →
    (∀ c, s.head? = some c → p c = false) → a = b
  | [], [], _, _, _, _, _, _, _ => rfl
  | [], y :: b, r, s, h, _, hb, hr, _ => by
    have h1 := hr y (by rw [List.nil_append] at h; rw [h]; rfl)
    rw [hb y (by simp)] at h1; simp at h1
  | x :: a, [], r, s, h, ha, _, _, hs => by
    have h1 := hs x (by rw [List.nil_append] at h; rw [← h]; rfl)
    rw [ha x (by simp)] at h1; simp at h1
  | x :: a, y :: b, r, s, h, ha, hb, hr, hs => by
    simp only [List.cons_append, List.cons.injEq] at h
    rw [h.1, split_unique p a b r s h.2 (fun c hc => ha c (List.mem_cons_of_mem _ hc))
      (fun c hc => hb c (List.mem_cons_of_mem _ hc)) hr hs]

theorem baseOf_iff (id b : String) : BaseOf id b ↔ b = stripToBase id := by
  have htw : ∀ l : List Char, (∀ c ∈ l.takeWhile (fun c => c != '@' && c != '['), (c != '@' && c != '[') = true) ∧
      (∀ c, (l.dropWhile (fun c => c != '@' && c != '[')).head? = some c → (c != '@' && c != '[') = false) := by
    intro l
    refine ⟨fun c hc => ?_, fun c hc => ?_⟩
    · induction l with
      | nil => simp at hc
      | cons x l ih =>
        rw [List.takeWhile_cons] at hc
        split at hc
        · next hx => rcases List.mem_cons.mp hc with e | hc
                     · rw [e]; exact hx
                     · exact ih hc
        · simp at hc
    · have := List.head?_dropWhile_not (fun c => c != '@' && c != '[') l
      rw [hc] at this; simpa using this
  constructor
  · rintro ⟨rest, h, h1, h2, h3⟩
    unfold stripToBase
    rw [← String.toList_inj, String.toList_ofList]
    refine split_unique (fun c => c != '@' && c != '[') b.toList _ rest
      (id.toList.dropWhile (fun c => c != '@' && c != '['))
      (by rw [List.takeWhile_append_dropWhile]; exact h.symm) ?_ (htw _).1 ?_ (htw _).2
    · intro c hc
      simp only [Bool.and_eq_true, bne_iff_ne]
      exact ⟨fun e => h1 (e ▸ hc), fun e => h2 (e ▸ hc)⟩
    · intro c hc
      rcases h3 with e | e | e
      · rw [e] at hc; simp at hc
      · rw [e] at hc; simp only [Option.some.injEq] at hc; subst hc; rfl
      · rw [e] at hc; simp only [Option.some.injEq] at hc; subst hc; rfl
  · rintro rfl
    refine ⟨id.toList.dropWhile (fun c => c != '@' && c != '['), ?_, ?_, ?_, ?_⟩
    · unfold stripToBase; rw [String.toList_ofList, List.takeWhile_append_dropWhile]
    · unfold stripToBase; rw [String.toList_ofList]; intro h; have := (htw _).1 _ h; simp at this
    · unfold stripToBase; rw [String.toList_ofList]; intro h; have := (htw _).1 _ h; simp at this
    · cases hh : (id.toList.dropWhile (fun c => c != '@' && c != '[')).head? with
      | none => left; simpa using hh
      | some c =>
        right
        have := (htw _).2 c hh
        simp only [Bool.and_eq_false_iff, bne_eq_false_iff_eq] at this
        rcases this with rfl | rfl
        · exact .inl rfl
        · exact .inr rfl

/-- `f` can come to a call that registers a route. -/
def Registers (edges : List CallEdge) (routeMatch : CallEdge → Bool) (f : String) : Prop :=
  Occurs (pairs edges) f ∧ ∃ e ∈ edges, routeMatch e = true ∧ Reach (Calls (pairs edges)) f e.caller

/-- **C24 (main's reach).** The functions counted as reachable from main are exactly those
a function named `main` comes to through calls. -/
theorem C24_main_reach_exact (edges : List CallEdge) (f : String) :
    f ∈ reachableFromMains edges ↔ MainReaches edges f := by
  unfold reachableFromMains
  rw [seeds_eq (fun e => decide (e.callerName = "main")) (fun e => stripToBase e.caller) mainSeedStep
    (by intro st e; unfold mainSeedStep; by_cases h : e.callerName = "main" <;> simp [h])]
  let seeds := (edges.filter fun e => decide (e.callerName = "main")).map fun e => stripToBase e.caller
  let U := edges.map (fun e => stripToBase e.caller) ++ edges.map CallEdge.callee
  have hUlen : U.length = 2 * edges.length := by simp [U]; omega
  have hm1 := marks_mem1 false seeds ([], [])
  have hm2 := marks_mem2 false seeds ([], [])
  have hlen := marks_len false seeds ([], [])
  simp only [List.not_mem_nil, false_or, not_false_eq_true, and_true, List.length_nil, Nat.add_zero,
    Nat.zero_add] at hm1 hm2 hlen
  have hnext : Next (fun k => (callersOf edges k).map CallEdge.callee) = CallsRaw edges := by
    funext a b; apply propext
    simp only [Next, CallsRaw, callersOf, List.mem_map, List.mem_filter, beq_iff_eq]
    constructor
    · rintro ⟨e, ⟨h1, h2⟩, h3⟩; exact ⟨e, h1, h2, h3⟩
    · rintro ⟨e, h1, h2, h3⟩; exact ⟨e, ⟨h1, h2⟩, h3⟩
  have hs := search_exact false (fun k => (callersOf edges k).map CallEdge.callee) U
    (fun b _ a ha => by
      obtain ⟨e, he, rfl⟩ := List.mem_map.mp ha
      exact List.mem_append_right _ (List.mem_map.mpr ⟨e, (List.mem_filter.mp he).1, rfl⟩))
    (2 * edges.length) (seeds.foldl (mark false) ([], []))
    (marks_nodup false seeds _ List.nodup_nil)
    (fun x hx => (hm1 x).mpr ((hm2 x).mp hx))
    (fun x hx => by
      obtain ⟨e, he, rfl⟩ := List.mem_map.mp ((hm1 x).mp hx)
      exact List.mem_append_left _ (List.mem_map.mpr ⟨e, (List.mem_filter.mp he).1, rfl⟩))
    (fun x hx => .inl ((hm2 x).mpr ((hm1 x).mp hx)))
    (by omega) f
  refine hs.trans ?_
  rw [hnext]
  constructor
  · rintro ⟨r, hr, h⟩
    obtain ⟨e, he, rfl⟩ := List.mem_map.mp ((hm1 r).mp hr)
    obtain ⟨h1, h2⟩ := List.mem_filter.mp he
    exact ⟨e, h1, of_decide_eq_true h2, _, (baseOf_iff _ _).mpr rfl, h⟩
  · rintro ⟨e, he, h1, b, hb, h⟩
    rw [(baseOf_iff _ _).mp hb] at h
    exact ⟨_, (hm1 _).mpr (List.mem_map.mpr ⟨e, List.mem_filter.mpr ⟨he, by simp [h1]⟩, rfl⟩), h⟩

theorem entry_fold (fromMain : List String) (registers : String → Bool) (l : List String) :
    ∀ st : List String × EntryStats,
    (l.foldl (entryStep fromMain registers) st).1 =
      st.1 ++ l.filter (fun k => decide (k ∉ fromMain) && registers k) ∧
    (l.foldl (entryStep fromMain registers) st).2.declared = st.2.declared ∧
    (l.foldl (entryStep fromMain registers) st).2.alreadyReachable =
      st.2.alreadyReachable + (l.filter (fun k => decide (k ∈ fromMain))).length ∧
    (l.foldl (entryStep fromMain registers) st).2.noRoutes =
      st.2.noRoutes + (l.filter (fun k => decide (k ∉ fromMain) && !registers k)).length := by
  induction l with
  | nil => intro st; simp
  | cons k l ih =>
    intro st
    rw [List.foldl_cons]
    obtain ⟨h1, h2, h3, h4⟩ := ih (entryStep fromMain registers st k)
    rw [h1, h2, h3, h4]
    unfold entryStep
    by_cases hm : k ∈ fromMain
    · simp [hm]; omega
    · cases hr : registers k <;> simp [hm, hr] <;> omega

/-- **C24.** A declared entrypoint becomes an extra root exactly when main cannot reach it
and it can reach a route registration, as often as it is declared; the roots are sorted; the
counts are what they say and add up. -/
theorem C24_gate_exact (edges : List CallEdge) (candidates : List String)
    (routeMatch : CallEdge → Bool) :
    let r := entrypointRoots edges candidates routeMatch
    r.1.Pairwise (· ≤ ·) ∧
    (∀ k, ¬ MainReaches edges k → Registers edges routeMatch k → r.1.count k = candidates.count k) ∧
    (∀ k, k ∈ r.1 → k ∈ candidates ∧ ¬ MainReaches edges k ∧ Registers edges routeMatch k) ∧
    r.2.declared = candidates.length ∧ r.2.rooted = r.1.length ∧
    r.2.declared = r.2.rooted + r.2.alreadyReachable + r.2.noRoutes := by
  intro r
  by_cases hc : candidates = []
  · have hr : r = ([], {}) := by simp [r, entrypointRoots, hc]
    rw [hr, hc]; simp
  · have hr : r = (sortStrings (candidates.foldl
        (entryStep (reachableFromMains edges) (reachesMatch edges routeMatch))
        ([], { declared := candidates.length })).1,
        { (candidates.foldl (entryStep (reachableFromMains edges) (reachesMatch edges routeMatch))
          ([], { declared := candidates.length })).2 with
          rooted := (candidates.foldl (entryStep (reachableFromMains edges) (reachesMatch edges routeMatch))
          ([], { declared := candidates.length })).1.length }) := by
      simp [r, entrypointRoots, hc]
    obtain ⟨f1, f2, f3, f4⟩ := entry_fold (reachableFromMains edges) (reachesMatch edges routeMatch)
      candidates ([], { declared := candidates.length })
    simp only [List.nil_append, Nat.zero_add] at f1 f2 f3 f4
    rw [hr]
    simp only [f1, f2, f3, f4]
    have hperm := isort_perm strLe
      (candidates.filter (fun k => decide (k ∉ reachableFromMains edges) && reachesMatch edges routeMatch k))
    refine ⟨sortStrings_sorted _, ?_, ?_, trivial, hperm.length_eq.symm, ?_⟩
    · intro k hk1 hk2
      rw [← C24_main_reach_exact] at hk1
      unfold Registers at hk2
      rw [← C22_reach_set_exact] at hk2
      show (isort strLe _).count k = _
      rw [hperm.count_eq, List.count_filter (by simp [hk1, hk2])]
    · intro k hk
      rw [mem_sortStrings, List.mem_filter] at hk
      obtain ⟨h1, h2⟩ := hk
      simp only [Bool.and_eq_true, decide_eq_true_eq] at h2
      exact ⟨h1, fun h => h2.1 ((C24_main_reach_exact edges k).mpr h),
        (C22_reach_set_exact edges routeMatch k).mp h2.2⟩
    · clear f1 f2 f3 f4 hperm hr hc
      clear r
      induction candidates with
      | nil => rfl
      | cons k l ih =>
        by_cases hm : k ∈ reachableFromMains edges
        · simp [hm] at ih ⊢; omega
        · cases hr : reachesMatch edges routeMatch k <;> simp [hm, hr] at ih ⊢ <;> omega

/-! ### The hypotheses are met -/

/-- A cyclic plan graph with a match behind a back edge: X → Y → X, X → M; D is a dead end. -/
def sampleKids : Nat → List Nat
  | 0 => [1, 2, 3]
  | 1 => [0]
  | 3 => [3]
  | _ => []

example : Universe sampleKids [0] [0, 1, 2, 3] :=
  ⟨by decide, by decide⟩
example : computeReach 4 [0] sampleKids (· == 2) = [1, 0, 2] := by decide
example : canReachMatch (some (· == 2)) 4 [0] sampleKids 3 = false ∧
    canReachMatch (some (· == 2)) 4 [0] sampleKids 1 = true ∧
    canReachMatch none 4 [0] sampleKids 3 = true := by decide
example : Reach (Next sampleKids) 0 3 := .single (show 3 ∈ sampleKids 0 by decide)

/-- main calls setup; cmd (a dispatcher's command) calls serve, which registers a route
inside a closure; index registers nothing. -/
def sampleEdges : List CallEdge :=
  [⟨"app.main", "app.setup", none, "main", 0⟩,
   ⟨"app.cmd", "app.serve", none, "cmd", 0⟩,
   ⟨"app.serve", "app.cmd", none, "serve", 0⟩,
   ⟨"app.serve", "gin.GET", none, "serve", 1⟩,
   ⟨"app.lit", "gin.GET", some "app.group", "lit", 1⟩,
   ⟨"app.index", "app.store", none, "index", 0⟩]

example : entrypointRoots sampleEdges ["app.setup", "app.serve", "app.index", "app.cmd"] (·.info == 1) =
    (["app.cmd", "app.serve"], { declared := 4, rooted := 2, alreadyReachable := 1, noRoutes := 1 }) := by
  decide
example : routeReachSet sampleEdges (·.info == 1) = ["app.group", "app.cmd", "app.lit", "app.serve"] := by
  decide
example : reachesMatch sampleEdges (·.info == 1) "app.cmd" = true ∧
    reachesMatch sampleEdges (·.info == 1) "app.index" = false := by decide

end Verif.Reach
