import Verif.LazySpec
/-!
# Invariants of tree expansion
-/

namespace Verif.Lazy
open Verif.Common Verif.LazySpec

theorem scope_eq (n : Node) : n.instanceScope = nearestArg n.path := by
  unfold Node.instanceScope
  induction n.path with
  | nil => rfl
  | cons f rest ih =>
    rw [List.find?_cons]
    unfold nearestArg
    cases h : f.isArg <;> simp [ih]

theorem onPath_false {n : Node} {key : String} (h : ¬ n.onPath key = true) : key ∉ n.path.map Frame.key := by
  unfold Node.onPath at h
  rw [List.any_eq_true] at h
  intro hk
  obtain ⟨f, hf, rfl⟩ := List.mem_map.mp hk
  exact h ⟨f, hf, by simp⟩

theorem mkChild_key (i : Nat) (n : Node) (cs : Nat) (sp : Spec) : (mkChild i n cs sp).key = sp.key := rfl
theorem mkChild_isArg (i : Nat) (n : Node) (cs : Nat) (sp : Spec) : (mkChild i n cs sp).isArg = sp.arg.isSome := rfl
theorem mkChild_lister (i : Nat) (n : Node) (cs : Nat) (sp : Spec) : (mkChild i n cs sp).lister = some i := rfl
theorem mkChild_scope (i : Nat) (n : Node) (cs : Nat) (sp : Spec) : (mkChild i n cs sp).scope = cs := rfl

theorem mkChild_path (i : Nat) (n : Node) (cs : Nat) (sp : Spec)
    (hn : (n.path.map Frame.key).Nodup) (hk : sp.key ∉ n.path.map Frame.key) :
    ((mkChild i n cs sp).path.map Frame.key).Nodup := by
  unfold mkChild
  simp only [List.map_cons]
  split
  · refine List.nodup_cons.mpr ⟨fun h => hk ?_, ?_⟩
    · obtain ⟨f, hf, he⟩ := List.mem_map.mp h
      exact List.mem_map.mpr ⟨f, List.mem_of_mem_tail hf, he⟩
    · rw [List.map_tail]; exact hn.sublist (List.tail_sublist _)
  · exact List.nodup_cons.mpr ⟨hk, hn⟩

/-! ## Projections of the state changes -/

theorem countKey_nodes (s : St) (k : String) (sc : Nat) : (countKey s k sc).nodes = s.nodes := by
  unfold countKey; simp only; split <;> split <;> rfl
theorem countKey_inst (s : St) (k : String) (sc : Nat) : (countKey s k sc).inst = s.inst := by
  unfold countKey; simp only; split <;> split <;> rfl
theorem countKey_expanded (s : St) (k : String) (sc : Nat) : (countKey s k sc).expanded = s.expanded := by
  unfold countKey; simp only; split <;> split <;> rfl
theorem countKey_routeNodes (s : St) (k : String) (sc : Nat) : (countKey s k sc).routeNodes = s.routeNodes := by
  unfold countKey; simp only; split <;> split <;> rfl
theorem countKey_materialized (s : St) (k : String) (sc : Nat) : (countKey s k sc).materialized = s.materialized := by
  unfold countKey; simp only; split <;> split <;> rfl
theorem countKey_flags (s : St) (k : String) (sc : Nat) :
    (countKey s k sc).truncated = s.truncated ∧ (countKey s k sc).instTruncs = s.instTruncs ∧
    (countKey s k sc).routeTruncs = s.routeTruncs ∧ (countKey s k sc).cut = s.cut := by
  unfold countKey; simp only; split <;> split <;> exact ⟨rfl, rfl, rfl, rfl⟩

theorem chargeRoute_nodes (s : St) (sc : Nat) : (chargeRoute s sc).nodes = s.nodes := by
  unfold chargeRoute; split <;> rfl
theorem chargeRoute_inst (s : St) (sc : Nat) : (chargeRoute s sc).inst = s.inst := by
  unfold chargeRoute; split <;> rfl
theorem chargeRoute_expanded (s : St) (sc : Nat) : (chargeRoute s sc).expanded = s.expanded := by
  unfold chargeRoute; split <;> rfl
theorem chargeRoute_materialized (s : St) (sc : Nat) : (chargeRoute s sc).materialized = s.materialized := by
  unfold chargeRoute; split <;> rfl
theorem chargeRoute_seen (s : St) (sc : Nat) : (chargeRoute s sc).seenAny = s.seenAny ∧
    (chargeRoute s sc).seenWiring = s.seenWiring ∧ (chargeRoute s sc).nodesBuilt = s.nodesBuilt ∧
    (chargeRoute s sc).wiringBuilt = s.wiringBuilt := by
  unfold chargeRoute; split <;> exact ⟨rfl, rfl, rfl, rfl⟩
theorem chargeRoute_flags (s : St) (sc : Nat) : (chargeRoute s sc).truncated = s.truncated ∧
    (chargeRoute s sc).instTruncs = s.instTruncs ∧ (chargeRoute s sc).routeTruncs = s.routeTruncs ∧
    (chargeRoute s sc).cut = s.cut := by
  unfold chargeRoute; split <;> exact ⟨rfl, rfl, rfl, rfl⟩

theorem create_nodes (i : Nat) (n : Node) (cs : Nat) (s : St) (sp : Spec) :
    (create i n cs s sp).nodes = s.nodes ++ [mkChild i n cs sp] := by
  unfold create; simp only [countKey_nodes, chargeRoute_nodes]
theorem create_inst (i : Nat) (n : Node) (cs : Nat) (s : St) (sp : Spec) :
    (create i n cs s sp).inst = bump s.inst n.instanceScope sp.key := by
  unfold create; simp only [countKey_inst, chargeRoute_inst]
theorem create_expanded (i : Nat) (n : Node) (cs : Nat) (s : St) (sp : Spec) :
    (create i n cs s sp).expanded = s.expanded := by
  unfold create; simp only [countKey_expanded, chargeRoute_expanded]
theorem create_flags (i : Nat) (n : Node) (cs : Nat) (s : St) (sp : Spec) :
    (create i n cs s sp).truncated = s.truncated ∧ (create i n cs s sp).instTruncs = s.instTruncs ∧
    (create i n cs s sp).routeTruncs = s.routeTruncs ∧ (create i n cs s sp).cut = s.cut := by
  unfold create
  simp only [(countKey_flags _ _ _).1, (countKey_flags _ _ _).2.1, (countKey_flags _ _ _).2.2.1, (countKey_flags _ _ _).2.2.2,
    (chargeRoute_flags _ _).1, (chargeRoute_flags _ _).2.1, (chargeRoute_flags _ _).2.2.1, (chargeRoute_flags _ _).2.2.2, and_self]

theorem scopeOf_nodes (p : Program) (s : St) (n : Node) : (scopeOf p s n).2.nodes = s.nodes := by
  unfold scopeOf; split
  · rfl
  · split
    · rfl
    · split <;> rfl
theorem scopeOf_inst (p : Program) (s : St) (n : Node) : (scopeOf p s n).2.inst = s.inst := by
  unfold scopeOf; split
  · rfl
  · split
    · rfl
    · split <;> rfl
theorem scopeOf_expanded (p : Program) (s : St) (n : Node) : (scopeOf p s n).2.expanded = s.expanded := by
  unfold scopeOf; split
  · rfl
  · split
    · rfl
    · split <;> rfl
theorem scopeOf_flags (p : Program) (s : St) (n : Node) : (scopeOf p s n).2.truncated = s.truncated ∧
    (scopeOf p s n).2.instTruncs = s.instTruncs ∧ (scopeOf p s n).2.routeTruncs = s.routeTruncs ∧
    (scopeOf p s n).2.cut = s.cut := by
  unfold scopeOf; split
  · exact ⟨rfl, rfl, rfl, rfl⟩
  · split
    · exact ⟨rfl, rfl, rfl, rfl⟩
    · split <;> exact ⟨rfl, rfl, rfl, rfl⟩
theorem scopeOf_counts (p : Program) (s : St) (n : Node) : (scopeOf p s n).2.seenAny = s.seenAny ∧
    (scopeOf p s n).2.seenWiring = s.seenWiring ∧ (scopeOf p s n).2.nodesBuilt = s.nodesBuilt ∧
    (scopeOf p s n).2.wiringBuilt = s.wiringBuilt ∧ (scopeOf p s n).2.materialized = s.materialized := by
  unfold scopeOf; split
  · exact ⟨rfl, rfl, rfl, rfl, rfl⟩
  · split
    · exact ⟨rfl, rfl, rfl, rfl, rfl⟩
    · split <;> exact ⟨rfl, rfl, rfl, rfl, rfl⟩
theorem noteRoute_nodes (s : St) (sc : Nat) : (noteRoute s sc).nodes = s.nodes := by
  unfold noteRoute; split <;> rfl
theorem noteRoute_inst (s : St) (sc : Nat) : (noteRoute s sc).inst = s.inst := by
  unfold noteRoute; split <;> rfl
theorem noteRoute_expanded (s : St) (sc : Nat) : (noteRoute s sc).expanded = s.expanded := by
  unfold noteRoute; split <;> rfl

/-! ## Copies, callees and paths -/

def ListersIn (nodes : List Node) : Prop := ∀ x ∈ nodes, ∀ i, x.lister = some i → i < nodes.length

theorem chargedTo_append {nodes : List Node} (more : List Node) {x : Node}
    (h : ∀ i, x.lister = some i → i < nodes.length) : chargedTo (nodes ++ more) x = chargedTo nodes x := by
  unfold chargedTo
  cases hl : x.lister with
  | none => rfl
  | some i => simp only [List.getElem?_append_left (h i hl)]

theorem copies_append {nodes : List Node} (h : ListersIn nodes) (i : Nat) (n : Node) (hi : nodes[i]? = some n)
    (cs : Nat) (sp : Spec) (sc k : String) :
    copies (nodes ++ [mkChild i n cs sp]) sc k =
      copies nodes sc k + if sc = nearestArg n.path ∧ k = sp.key then 1 else 0 := by
  unfold copies
  rw [List.countP_append]
  congr 1
  · apply List.countP_congr
    intro x hx
    rw [chargedTo_append _ (h x hx)]
  · have hlt : i < nodes.length := by
      obtain ⟨h1, _⟩ := List.getElem?_eq_some_iff.mp hi; exact h1
    have hc : chargedTo (nodes ++ [mkChild i n cs sp]) (mkChild i n cs sp) = some (nearestArg n.path) := by
      unfold chargedTo
      rw [mkChild_lister]
      simp only [List.getElem?_append_left hlt, hi]
    rw [List.countP_cons, List.countP_nil, hc, mkChild_key]
    simp only [Nat.zero_add]
    by_cases hh : sc = nearestArg n.path ∧ k = sp.key
    · rw [if_pos hh, hh.1, hh.2]; simp
    · rw [if_neg hh, if_neg]
      simp only [Bool.and_eq_true, beq_iff_eq, Option.some.injEq]
      exact fun h => hh ⟨h.2.symm, h.1.symm⟩

theorem callees_append (nodes : List Node) (i : Nat) (n : Node) (cs : Nat) (sp : Spec) (j : Nat) :
    callees (nodes ++ [mkChild i n cs sp]) j = callees nodes j + if j = i ∧ sp.arg = none then 1 else 0 := by
  unfold callees
  rw [List.countP_append, List.countP_cons, List.countP_nil, mkChild_lister, mkChild_isArg]
  congr 1
  simp only [Nat.zero_add]
  by_cases hh : j = i ∧ sp.arg = none
  · rw [if_pos hh, hh.1, hh.2]; simp
  · rw [if_neg hh, if_neg]
    simp only [Bool.and_eq_true, beq_iff_eq, Option.some.injEq, Bool.not_eq_true', Option.isSome_eq_false_iff, Option.isNone_iff_eq_none]
    exact fun h => hh ⟨h.1.symm, h.2⟩

structure Inv (nroots : Nat) (L : Limits) (s : St) : Prop where
  path : ∀ x ∈ s.nodes, (x.path.map Frame.key).Nodup ∧ x.path ≠ []
  lister : ∀ x ∈ s.nodes, ∀ i, x.lister = some i → i < s.nodes.length ∧ i ∈ s.expanded
  inst : ∀ sc k, s.inst sc k = copies s.nodes sc k
  cap : ∀ sc k, copies s.nodes sc k ≤ L.instances
  kids : ∀ i, callees s.nodes i ≤ L.maxChildren
  roots : s.nodes.countP (fun x => x.lister.isNone) = nroots
  expNodup : s.expanded.Nodup
  expIn : ∀ i ∈ s.expanded, i < s.nodes.length

theorem inv_start (roots : List String) (L : Limits) : Inv roots.length L (start roots) := by
  have hl : ∀ x ∈ (start roots).nodes, x.lister = none ∧ ∃ k, x.path = [{ key := k }] := by
    intro x hx
    obtain ⟨k, _, rfl⟩ := List.mem_map.mp hx
    exact ⟨rfl, k, rfl⟩
  have hcop : ∀ sc k, copies (start roots).nodes sc k = 0 := by
    intro sc k
    refine List.countP_eq_zero.mpr fun x hx => ?_
    simp [chargedTo, (hl x hx).1]
  refine ⟨?_, ?_, ?_, ?_, ?_, ?_, List.nodup_nil, ?_⟩
  · intro x hx; obtain ⟨_, k, hk⟩ := hl x hx; rw [hk]; simp
  · intro x hx i hi; rw [(hl x hx).1] at hi; simp at hi
  · intro sc k; rw [hcop]; rfl
  · intro sc k; rw [hcop]; exact Nat.zero_le _
  · intro i
    have : callees (start roots).nodes i = 0 := by
      refine List.countP_eq_zero.mpr fun x hx => ?_
      simp [(hl x hx).1]
    omega
  · have : (start roots).nodes.countP (fun x => x.lister.isNone) = (start roots).nodes.length :=
      List.countP_eq_length.mpr fun x hx => by rw [(hl x hx).1]; rfl
    rw [this]; simp [start]
  · intro i hi; simp [start] at hi

/-- The invariant inside the loop over a plan. -/
structure LoopInv (nroots : Nat) (L : Limits) (i : Nat) (n : Node) (a : St × Nat) : Prop where
  inv : Inv nroots L a.1
  here : a.1.nodes[i]? = some n
  exp : i ∈ a.1.expanded
  count : callees a.1.nodes i = a.2

theorem loop_step {nroots : Nat} {L : Limits} {i : Nat} {n : Node} {a : St × Nat} (p : Program) (cs : Nat)
    (h : LoopInv nroots L i n a) (sp : Spec) : LoopInv nroots L i n (childStep p L i n cs a sp) := by
  unfold childStep
  split
  · exact h
  · next hlim =>
    split
    · exact h
    · next hpath =>
      split
      · exact h
      · split
        · exact ⟨⟨h.inv.path, h.inv.lister, h.inv.inst, h.inv.cap, h.inv.kids, h.inv.roots, h.inv.expNodup, h.inv.expIn⟩,
            h.here, h.exp, h.count⟩
        · next hcap =>
          have hin : ListersIn a.1.nodes := fun x hx j hj => (h.inv.lister x hx j hj).1
          have hlt : i < a.1.nodes.length := (List.getElem?_eq_some_iff.mp h.here).1
          have hn := h.inv.path n (List.mem_of_getElem? h.here)
          refine ⟨⟨?_, ?_, ?_, ?_, ?_, ?_, ?_, ?_⟩, ?_, ?_, ?_⟩
          · intro x hx
            simp only [create_nodes, List.mem_append, List.mem_singleton] at hx
            rcases hx with hx | rfl
            · exact h.inv.path x hx
            · exact ⟨mkChild_path i n cs sp hn.1 (onPath_false hpath), by simp [mkChild]⟩
          · intro x hx j hj
            simp only [create_nodes, create_expanded, List.mem_append, List.mem_singleton, List.length_append] at hx ⊢
            rcases hx with hx | rfl
            · have := h.inv.lister x hx j hj; exact ⟨by omega, this.2⟩
            · rw [mkChild_lister] at hj; simp only [Option.some.injEq] at hj; subst hj
              exact ⟨by omega, h.exp⟩
          · intro sc k
            simp only [create_nodes, create_inst]
            rw [copies_append hin i n h.here, bump, h.inv.inst, scope_eq]
            split <;> rfl
          · intro sc k
            simp only [create_nodes]
            rw [copies_append hin i n h.here]
            have := h.inv.cap sc k
            split
            · next e =>
              rw [h.inv.inst, scope_eq] at hcap
              rw [e.1, e.2]; omega
            · omega
          · intro j
            simp only [create_nodes]
            rw [callees_append]
            have := h.inv.kids j
            split
            · next e =>
              rw [e.1, h.count]
              have : ¬ L.maxChildren ≤ a.2 := fun hh => hlim ⟨e.2, hh⟩
              omega
            · omega
          · simp only [create_nodes]
            rw [List.countP_append, h.inv.roots]
            simp [mkChild_lister]
          · rw [create_expanded]; exact h.inv.expNodup
          · intro j hj
            simp only [create_nodes, create_expanded, List.length_append] at hj ⊢
            have := h.inv.expIn j hj; omega
          · simp only [create_nodes]; rw [List.getElem?_append_left hlt]; exact h.here
          · simp only [create_expanded]; exact h.exp
          · simp only [create_nodes]
            rw [callees_append, h.count]
            by_cases ha : sp.arg = none <;> simp [ha]

theorem loop_fold {nroots : Nat} {L : Limits} {i : Nat} {n : Node} (p : Program) (cs : Nat) (l : List Spec) :
    ∀ {a : St × Nat}, LoopInv nroots L i n a → LoopInv nroots L i n (l.foldl (childStep p L i n cs) a) := by
  induction l with
  | nil => intro a h; exact h
  | cons sp l ih => intro a h; exact ih (loop_step p cs h sp)

theorem expand_inv {nroots : Nat} {L : Limits} {s : St} (p : Program) (h : Inv nroots L s) (i : Nat) :
    Inv nroots L (expand p L s i) := by
  unfold expand
  split
  · exact h
  · next n hn =>
    split
    · exact h
    · next hne =>
      split
      · exact ⟨h.path, h.lister, h.inst, h.cap, h.kids, h.roots, h.expNodup, h.expIn⟩
      · split
        · exact ⟨by rw [noteRoute_nodes]; exact h.path, by rw [noteRoute_nodes, noteRoute_expanded]; exact h.lister,
            by rw [noteRoute_nodes, noteRoute_inst]; exact h.inst, by rw [noteRoute_nodes]; exact h.cap,
            by rw [noteRoute_nodes]; exact h.kids, by rw [noteRoute_nodes]; exact h.roots,
            by rw [noteRoute_expanded]; exact h.expNodup, by rw [noteRoute_nodes, noteRoute_expanded]; exact h.expIn⟩
        · have hz : callees s.nodes i = 0 := by
            refine List.countP_eq_zero.mpr fun x hx => ?_
            simp only [Bool.and_eq_true, beq_iff_eq]
            exact fun hh => hne (h.lister x hx i hh.1).2
          refine (loop_fold p _ _ (a := ((scopeOf p (markExpanded s i) n).2, 0)) ⟨⟨?_, ?_, ?_, ?_, ?_, ?_, ?_, ?_⟩, ?_, ?_, ?_⟩).inv <;>
            simp only [scopeOf_nodes, scopeOf_inst, scopeOf_expanded, markExpanded]
          · exact h.path
          · intro x hx j hj
            have := h.lister x hx j hj
            exact ⟨this.1, List.mem_cons_of_mem _ this.2⟩
          · exact h.inst
          · exact h.cap
          · exact h.kids
          · exact h.roots
          · exact List.nodup_cons.mpr ⟨hne, h.expNodup⟩
          · intro j hj
            rcases List.mem_cons.mp hj with e | hj
            · rw [e]; exact (List.getElem?_eq_some_iff.mp hn).1
            · exact h.expIn j hj
          · exact hn
          · simp
          · exact hz

theorem run_inv (p : Program) (L : Limits) (roots : List String) (ops : List Nat) :
    Inv roots.length L (run p L roots ops) := by
  unfold run
  have : ∀ (l : List Nat) (s : St), Inv roots.length L s → Inv roots.length L (l.foldl (expand p L) s) := by
    intro l
    induction l with
    | nil => intro s h; exact h
    | cons i l ih => intro s h; exact ih _ (expand_inv p h i)
  exact this ops _ (inv_start roots L)

end Verif.Lazy
