import Verif.SccInv
/-!
# Properties of the call-graph condensation (C23)

Stated against `Verif.GraphSpec`: reachability through the listed calls.
-/

namespace Verif.Scc
open Verif.Common Verif.GraphSpec

/-! ## Helper facts -/

theorem mem_dedup {α : Type _} [DecidableEq α] (l : List α) (x : α) : x ∈ dedup l ↔ x ∈ l := by
  have := mem_map_dedupBy (key := id) l x
  simpa [dedup] using this

theorem mem_adjOf (calls : List Call) (u v : String) :
    v ∈ adjOf calls u ↔ Calls calls u v := by
  unfold adjOf Calls usable
  rw [mem_sortStrings, mem_dedup]
  simp only [List.mem_map, List.mem_filter, Bool.and_eq_true, bne_iff_ne, beq_iff_eq, Prod.exists]
  constructor
  · rintro ⟨a, b, ⟨⟨h1, h2, h3⟩, h4⟩, h5⟩
    subst h4; subst h5; exact ⟨h1, h2, h3⟩
  · rintro ⟨h1, h2, h3⟩
    exact ⟨u, v, ⟨⟨h1, h2, h3⟩, rfl⟩, rfl⟩

theorem mem_nodesOf (calls : List Call) (f : String) :
    f ∈ nodesOf calls ↔ Occurs calls f := by
  unfold nodesOf Occurs Calls usable
  rw [mem_sortStrings, mem_dedup]
  simp only [List.mem_flatMap, List.mem_filter, Bool.and_eq_true, bne_iff_ne, Prod.exists,
    List.mem_cons, List.not_mem_nil, or_false]
  constructor
  · rintro ⟨a, b, ⟨h1, h2, h3⟩, h4 | h4⟩
    · subst h4; exact ⟨b, .inl ⟨h1, h2, h3⟩⟩
    · subst h4; exact ⟨a, .inr ⟨h1, h2, h3⟩⟩
  · rintro ⟨g, ⟨h1, h2, h3⟩ | ⟨h1, h2, h3⟩⟩
    · exact ⟨f, g, ⟨h1, h2, h3⟩, .inl rfl⟩
    · exact ⟨g, f, ⟨h1, h2, h3⟩, .inr rfl⟩

theorem edge_eq (calls : List Call) : Edge (adjOf calls) = Calls calls := by
  funext u v; exact propext (mem_adjOf calls u v)

theorem closed_nodes (calls : List Call) : ∀ u, ∀ v ∈ adjOf calls u, v ∈ nodesOf calls := by
  intro u v hv
  exact (mem_nodesOf calls v).mpr ⟨u, .inr ((mem_adjOf calls u v).mp hv)⟩

theorem componentOf_some {comps : List (List String)} (hn : comps.flatten.Nodup) (x : String) (i : Nat) :
    componentOf comps x = some i ↔ ∃ C, comps[i]? = some C ∧ x ∈ C := by
  unfold componentOf
  rw [List.findIdx?_eq_some_iff_getElem]
  constructor
  · rintro ⟨h, hp, _⟩
    exact ⟨comps[i], List.getElem?_eq_getElem h, of_decide_eq_true hp⟩
  · rintro ⟨C, hC, hx⟩
    obtain ⟨h, rfl⟩ := List.getElem?_eq_some_iff.mp hC
    refine ⟨h, decide_eq_true hx, ?_⟩
    intro j hji hp
    have hxj := of_decide_eq_true hp
    have hpw := (List.pairwise_flatten.mp hn).2
    have := List.pairwise_iff_getElem.mp hpw j i (Nat.lt_trans hji h) h hji
    exact this x hxj x hx rfl

theorem good_at {adj : String → List String} {comps : List (List String)} (hg : Good adj comps)
    {i : Nat} {C : List String} (h : comps[i]? = some C) :
    C ≠ [] ∧ C.Pairwise (· ≤ ·) ∧
    (∀ x ∈ C, ∀ w ∈ adj x, w ∈ C ∨ w ∈ (comps.take i).flatten) ∧
    (∀ x ∈ C, ∀ y ∈ C, Reach (Edge adj) x y) := by
  obtain ⟨hi, rfl⟩ := List.getElem?_eq_some_iff.mp h
  refine hg (comps.take i) comps[i] (comps.drop (i + 1)) ?_
  rw [List.getElem_cons_drop, List.take_append_drop]

/-- A call never leads to a later component. -/
theorem edge_back {adj : String → List String} {comps : List (List String)} (hg : Good adj comps)
    (hn : comps.flatten.Nodup) {u v : String} {i j : Nat} (hi : componentOf comps u = some i)
    (hj : componentOf comps v = some j) (he : v ∈ adj u) : j ≤ i := by
  obtain ⟨C, hC, hu⟩ := (componentOf_some hn u i).mp hi
  rcases (good_at hg hC).2.2.1 u hu v he with h1 | h1
  · have := (componentOf_some hn v i).mpr ⟨C, hC, h1⟩
    rw [hj] at this; simp only [Option.some.injEq] at this; omega
  · obtain ⟨D, hD, hv⟩ := List.mem_flatten.mp h1
    obtain ⟨k, hk, e⟩ := List.mem_take_iff_getElem.mp hD
    have := (componentOf_some hn v k).mpr ⟨D, by rw [List.getElem?_eq_some_iff]; exact ⟨by omega, e⟩, hv⟩
    rw [hj] at this; simp only [Option.some.injEq] at this; omega

theorem reach_back {adj : String → List String} {nodes : List String}
    {comps : List (List String)} (hcl : ∀ u, ∀ v ∈ adj u, v ∈ nodes) (hg : Good adj comps)
    (hn : comps.flatten.Nodup) (hall : ∀ x, x ∈ comps.flatten ↔ x ∈ nodes)
    {u v : String} (h : Reach (Edge adj) u v) : ∀ {i j : Nat}, componentOf comps u = some i →
    componentOf comps v = some j → j ≤ i := by
  induction h with
  | refl x => intro i j hi hj; rw [hi] at hj; simp only [Option.some.injEq] at hj; omega
  | @step x y z he _ ih =>
    intro i j hi hj
    have hy : y ∈ comps.flatten := (hall y).mpr (hcl x y he)
    obtain ⟨D, hD, hyD⟩ := List.mem_flatten.mp hy
    obtain ⟨k, hk⟩ := List.mem_iff_getElem?.mp hD
    have hyk := (componentOf_some hn y k).mpr ⟨D, hk, hyD⟩
    have h1 := ih hyk hj
    have h2 := edge_back hg hn hi hyk he
    omega

theorem componentOf_isSome {comps : List (List String)} (hn : comps.flatten.Nodup) (x : String) :
    (∃ i, componentOf comps x = some i) ↔ x ∈ comps.flatten := by
  constructor
  · rintro ⟨i, h⟩
    obtain ⟨C, hC, hx⟩ := (componentOf_some hn x i).mp h
    exact List.mem_flatten.mpr ⟨C, List.mem_of_getElem? hC, hx⟩
  · intro hx
    obtain ⟨D, hD, hxD⟩ := List.mem_flatten.mp hx
    obtain ⟨k, hk⟩ := List.mem_iff_getElem?.mp hD
    exact ⟨k, (componentOf_some hn x k).mpr ⟨D, hk, hxD⟩⟩

theorem component_eq_iff {adj : String → List String} {nodes : List String}
    {comps : List (List String)} (hcl : ∀ u, ∀ v ∈ adj u, v ∈ nodes) (hg : Good adj comps)
    (hn : comps.flatten.Nodup) (hall : ∀ x, x ∈ comps.flatten ↔ x ∈ nodes)
    {u v : String} {i j : Nat} (hi : componentOf comps u = some i)
    (hj : componentOf comps v = some j) : i = j ↔ Mutual (Edge adj) u v := by
  constructor
  · intro e; subst e
    obtain ⟨C, hC, hu⟩ := (componentOf_some hn u i).mp hi
    obtain ⟨D, hD, hv⟩ := (componentOf_some hn v i).mp hj
    rw [hC] at hD; simp only [Option.some.injEq] at hD; subst hD
    have := (good_at hg hC).2.2.2
    exact ⟨this u hu v hv, this v hv u hu⟩
  · rintro ⟨h1, h2⟩
    have a := reach_back hcl hg hn hall h1 hi hj
    have b := reach_back hcl hg hn hall h2 hj hi
    omega

theorem sameComponent_iff (r : Result) (a b : String) : sameComponent r a b = true ↔
    ∃ i, componentOf r.comps a = some i ∧ componentOf r.comps b = some i := by
  unfold sameComponent
  split
  · next h => simp [h]
  · next ca h =>
    split
    · next h2 => simp [h2]
    · next cb h2 =>
      simp only [h, h2, Option.some.injEq, beq_iff_eq]
      constructor
      · intro e; exact ⟨ca, rfl, e.symm⟩
      · rintro ⟨i, rfl, rfl⟩; rfl

/-! ## C23 -/

/-- **C23 (same component).** Two functions are reported as mutually recursive exactly
when both occur in the call graph and each can reach the other through calls. -/
theorem C23_same_component (calls : List (String × String)) (a b : String) :
    sameComponent (build calls) a b = true ↔
      Occurs calls a ∧ Occurs calls b ∧ Mutual (Calls calls) a b := by
  obtain ⟨hg, hn, hall⟩ := components_spec (closed_nodes calls)
  rw [sameComponent_iff, ← edge_eq]
  show (∃ i, componentOf (components (nodesOf calls) (adjOf calls)) a = some i ∧
    componentOf (components (nodesOf calls) (adjOf calls)) b = some i) ↔ _
  constructor
  · rintro ⟨i, ha, hb⟩
    exact ⟨(mem_nodesOf calls a).mp ((hall a).mp ((componentOf_isSome hn a).mp ⟨i, ha⟩)),
      (mem_nodesOf calls b).mp ((hall b).mp ((componentOf_isSome hn b).mp ⟨i, hb⟩)),
      (component_eq_iff (closed_nodes calls) hg hn hall ha hb).mp rfl⟩
  · rintro ⟨ha, hb, hm⟩
    obtain ⟨i, hi⟩ := (componentOf_isSome hn a).mpr ((hall a).mpr ((mem_nodesOf calls a).mpr ha))
    obtain ⟨j, hj⟩ := (componentOf_isSome hn b).mpr ((hall b).mpr ((mem_nodesOf calls b).mpr hb))
    have := (component_eq_iff (closed_nodes calls) hg hn hall hi hj).mpr hm
    subst this
    exact ⟨i, hi, hj⟩

/-- **C23 (partition).** Every function that occurs is listed exactly once, nothing
else is listed, no component is empty and each is sorted. -/
theorem C23_partition (calls : List (String × String)) :
    (build calls).comps.flatten.Nodup ∧
    (∀ f, f ∈ (build calls).comps.flatten ↔ Occurs calls f) ∧
    ∀ C ∈ (build calls).comps, C ≠ [] ∧ C.Pairwise (· ≤ ·) := by
  obtain ⟨hg, hn, hall⟩ := components_spec (closed_nodes calls)
  refine ⟨hn, fun f => (hall f).trans (mem_nodesOf calls f), ?_⟩
  intro C hC
  obtain ⟨k, hk⟩ := List.mem_iff_getElem?.mp hC
  exact ⟨(good_at hg hk).1, (good_at hg hk).2.1⟩

/-- **C23 (callees first).** If a function in one component can reach a function of
another component, that other component is listed strictly earlier. -/
theorem C23_callee_first (calls : List (String × String)) (i j : Nat) (C D : List String)
    (hC : (build calls).comps[i]? = some C) (hD : (build calls).comps[j]? = some D) (hij : i ≠ j)
    (u v : String) (hu : u ∈ C) (hv : v ∈ D) (h : Reach (Calls calls) u v) : j < i := by
  obtain ⟨hg, hn, hall⟩ := components_spec (closed_nodes calls)
  rw [← edge_eq] at h
  have := reach_back (closed_nodes calls) hg hn hall h
    ((componentOf_some hn u i).mpr ⟨C, hC, hu⟩) ((componentOf_some hn v j).mpr ⟨D, hD, hv⟩)
  omega

/-- **C23 (recursion).** A function is reported as taking part in recursion exactly
when it can reach itself through one or more calls. -/
theorem C23_recursive_iff (calls : List (String × String)) (f : String) :
    inCycle (build calls) f = true ↔ ReachPlus (Calls calls) f f := by
  obtain ⟨hg, hn, hall⟩ := components_spec (closed_nodes calls)
  rw [← edge_eq]
  unfold inCycle build condense
  simp only
  have hocc : ReachPlus (Edge (adjOf calls)) f f → f ∈ nodesOf calls := by
    rintro ⟨z, hz, _⟩
    exact (mem_nodesOf calls f).mpr ⟨z, .inl ((mem_adjOf calls f z).mp hz)⟩
  split
  · next hnone =>
    simp only [Bool.false_eq_true, false_iff]
    intro hr
    obtain ⟨i, hi⟩ := (componentOf_isSome hn f).mpr ((hall f).mpr (hocc hr))
    rw [hnone] at hi; simp at hi
  · next c hc =>
    obtain ⟨C, hC, hf⟩ := (componentOf_some hn f c).mp hc
    have hget : ((components (nodesOf calls) (adjOf calls)).map (recursiveFlag (adjOf calls)))[c]? =
        some (recursiveFlag (adjOf calls) C) := by simp [hC]
    rw [hget]
    show recursiveFlag (adjOf calls) C = true ↔ _
    unfold recursiveFlag
    rw [Bool.or_eq_true, decide_eq_true_iff, List.any_eq_true]
    have hmut := (good_at hg hC).2.2.2
    constructor
    · rintro (hlen | ⟨u, hu, hself⟩)
      · -- another member exists
        have : ∃ y ∈ C, y ≠ f := by
          have hnd : C.Nodup := (List.pairwise_flatten.mp hn).1 C (List.mem_of_getElem? hC)
          match C, hlen, hnd, hf with
          | a :: b :: tl, _, hnd, _ =>
            by_cases ha : a = f
            · refine ⟨b, by simp, fun e => ?_⟩
              rw [ha, e] at hnd; simp at hnd
            · exact ⟨a, by simp, ha⟩
        obtain ⟨y, hy, hne⟩ := this
        obtain ⟨z, hz, hr⟩ := (hmut f hf y hy).plus_of_ne (fun e => hne e.symm)
        exact ⟨z, hz, hr.trans (hmut y hy f hf)⟩
      · have hself := of_decide_eq_true hself
        exact (hmut f hf u hu).plus ⟨u, hself, hmut u hu f hf⟩
    · rintro ⟨z, hz, hr⟩
      by_cases hzf : z = f
      · right; exact ⟨f, hf, decide_eq_true (by rw [← hzf] at hz ⊢; exact hz)⟩
      · left
        have hzn : z ∈ nodesOf calls := closed_nodes calls f z hz
        obtain ⟨j, hj⟩ := (componentOf_isSome hn z).mpr ((hall z).mpr hzn)
        have e := (component_eq_iff (closed_nodes calls) hg hn hall hc hj).mpr ⟨.single hz, hr⟩
        subst e
        obtain ⟨D, hD, hzD⟩ := (componentOf_some hn z c).mp hj
        rw [hC] at hD; simp only [Option.some.injEq] at hD; subst hD
        match C, hf, hzD with
        | [a], hf, hzD =>
          simp only [List.mem_singleton] at hf hzD
          exact absurd (hzD.trans hf.symm) hzf
        | a :: b :: tl, _, _ => simp

theorem natLe_pre : TotalPre natLe :=
  ⟨fun a b c h1 h2 => by
      simp only [natLe, decide_eq_true_eq] at *; omega,
   fun a b => by simp only [natLe, decide_eq_true_eq]; omega⟩

/-- **C23 (condensed graph).** The successors listed for a component are exactly the
other components one of its functions calls into, strictly ascending, and all earlier
in the list — so the condensed graph has no cycle. -/
theorem C23_condensed_graph (calls : List (String × String)) (c : Nat) (C : List String)
    (hC : (build calls).comps[c]? = some C) :
    ∃ ds, (build calls).dag[c]? = some ds ∧
      (∀ d, d ∈ ds ↔ d ≠ c ∧ ∃ D, (build calls).comps[d]? = some D ∧
        ∃ u ∈ C, ∃ v ∈ D, Calls calls u v) ∧
      ds.Pairwise (· < ·) ∧ ∀ d ∈ ds, d < c := by
  obtain ⟨hg, hn, hall⟩ := components_spec (closed_nodes calls)
  have hlt : c < (components (nodesOf calls) (adjOf calls)).length :=
    (List.getElem?_eq_some_iff.mp hC).1
  have hmem : ∀ d, d ∈ dagOf (components (nodesOf calls) (adjOf calls)) (adjOf calls) c ↔
      d ≠ c ∧ ∃ D, (build calls).comps[d]? = some D ∧ ∃ u ∈ C, ∃ v ∈ D, Calls calls u v := by
    intro d
    have hC' : (components (nodesOf calls) (adjOf calls))[c]? = some C := hC
    unfold dagOf
    rw [(isort_perm _ _).mem_iff, mem_dedup, hC']
    simp only [Option.getD_some, List.mem_filter, List.mem_filterMap, List.mem_flatMap, bne_iff_ne]
    constructor
    · rintro ⟨⟨v, ⟨u, hu, hv⟩, hd⟩, hne⟩
      obtain ⟨D, hD, hvD⟩ := (componentOf_some hn v d).mp hd
      exact ⟨hne, D, hD, u, hu, v, hvD, (mem_adjOf calls u v).mp hv⟩
    · rintro ⟨hne, D, hD, u, hu, v, hv, he⟩
      exact ⟨⟨v, ⟨u, hu, (mem_adjOf calls u v).mpr he⟩, (componentOf_some hn v d).mpr ⟨D, hD, hv⟩⟩, hne⟩
  refine ⟨dagOf (components (nodesOf calls) (adjOf calls)) (adjOf calls) c, ?_, hmem, ?_, ?_⟩
  · show ((List.range (components (nodesOf calls) (adjOf calls)).length).map
      (dagOf (components (nodesOf calls) (adjOf calls)) (adjOf calls)))[c]? = _
    rw [List.getElem?_map, List.getElem?_range hlt]; rfl
  · have h1 : (dagOf (components (nodesOf calls) (adjOf calls)) (adjOf calls) c).Pairwise
        (fun a b => natLe a b = true) := isort_pairwise natLe_pre _
    have h2 : (dagOf (components (nodesOf calls) (adjOf calls)) (adjOf calls) c).Nodup :=
      (isort_perm _ _).nodup_iff.mpr (dedup_nodup _)
    have h3 := List.pairwise_and_iff.mpr ⟨h1, h2⟩
    refine h3.imp ?_
    rintro a b ⟨h4, h5⟩
    simp only [natLe, decide_eq_true_eq] at h4
    omega
  · intro d hd
    obtain ⟨hne, D, hD, u, hu, v, hv, he⟩ := (hmem d).mp hd
    exact C23_callee_first calls c d C D hC hD (fun e => hne e.symm) u v hu hv (.single he)

theorem sortStrings_dedup_congr {l l' : List String} (h : ∀ x, x ∈ l ↔ x ∈ l') :
    sortStrings (dedup l) = sortStrings (dedup l') :=
  sortStrings_eq_of_perm ((List.perm_ext_iff_of_nodup (dedup_nodup l) (dedup_nodup l')).mpr
    (fun x => by rw [mem_dedup, mem_dedup]; exact h x))

/-- **C23 (order independent).** Two call lists with the same calls, in any order and
with any repetitions, give the same condensation: components, numbering, condensed
graph and flags. -/
theorem C23_order_independent (calls calls' : List (String × String))
    (h : ∀ c, c ∈ calls ↔ c ∈ calls') : build calls = build calls' := by
  have hc : ∀ u v, Calls calls u v ↔ Calls calls' u v := fun u v => by
    unfold Calls; rw [h]
  have h1 : nodesOf calls = nodesOf calls' := by
    unfold nodesOf
    apply sortStrings_dedup_congr
    intro x
    simp only [List.mem_flatMap, List.mem_filter, h]
  have h2 : adjOf calls = adjOf calls' := by
    funext u
    unfold adjOf
    apply sortStrings_dedup_congr
    intro x
    simp only [List.mem_map, List.mem_filter, h]
  unfold build
  rw [h1, h2]

/-! ### The hypotheses are met -/

/-- A graph with a two-function cluster, a self-caller and an outsider. -/
def sampleCalls : List (String × String) :=
  [("main", "a"), ("a", "b"), ("b", "a"), ("b", "loop"), ("loop", "loop"), ("", "x"), ("main", "leaf")]

example : (build sampleCalls).comps = [["loop"], ["a", "b"], ["leaf"], ["main"]] := by decide
example : (build sampleCalls).dag = [[], [0], [], [1, 2]] := by decide
example : (build sampleCalls).recursive = [true, true, false, false] := by decide
example : sameComponent (build sampleCalls) "a" "b" = true ∧
    sameComponent (build sampleCalls) "main" "a" = false ∧
    inCycle (build sampleCalls) "loop" = true ∧ inCycle (build sampleCalls) "x" = false := by decide
example : build sampleCalls = build (sampleCalls.reverse ++ sampleCalls) :=
  C23_order_independent _ _ (by intro c; simp)
example : Reach (Calls sampleCalls) "main" "loop" ∧ ("loop" ∈ ["loop"]) :=
  ⟨.step (y := "a") (by decide) (.step (y := "b") (by decide) (.single (by decide))), by simp⟩


end Verif.Scc
