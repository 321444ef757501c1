import Verif.LazyBudget
/-!
# Properties: expansion of the call tree (C25, C26, C27)
-/

namespace Verif.Lazy
open Verif.Common Verif.LazySpec

/-! ## C25 -/

/-- **C25 (instance cap).** In whatever order nodes are expanded, no scope ever holds more
copies of a call than the cap. -/
theorem C25_instance_cap (p : Program) (L : Limits) (roots : List String) (ops : List Nat) (scope key : String) :
    copies (run p L roots ops).nodes scope key ≤ L.instances :=
  (run_inv p L roots ops).cap scope key

/-- **C25 (children limit).** No node ever lists more calls than the limit. -/
theorem C25_children_limit (p : Program) (L : Limits) (roots : List String) (ops : List Nat) (i : Nat) :
    callees (run p L roots ops).nodes i ≤ L.maxChildren :=
  (run_inv p L roots ops).kids i

/-- Where a node comes from: it is planned for the node listing it, not yet on that node's
chain of parents, and not barren; and its own chain continues from the lister or, for a chained
call, from the lister's parent. -/
def PathsFollow (p : Program) (nodes : List Node) : Prop :=
  ∀ x ∈ nodes, ∀ i, x.lister = some i → ∃ n, nodes[i]? = some n ∧ ∃ sp ∈ p.plan n.ident,
    n.onPath sp.key = false ∧ p.canReach sp = true ∧ x.key = sp.key ∧ x.arg = sp.arg ∧ (x.path.tail = n.path ∨ (sp.chain = true ∧ x.path.tail = n.path.tail))

theorem expand_paths {p : Program} {L : Limits} {s : St} (h : PathsFollow p s.nodes) (i : Nat) :
    PathsFollow p (expand p L s i).nodes := by
  unfold expand
  split
  · exact h
  · next n hn =>
    split
    · exact h
    · split
      · exact h
      · split
        · rw [noteRoute_nodes]; exact h
        · refine (fold_keeps_mem (P := fun s => PathsFollow p s.nodes ∧ s.nodes[i]? = some n) p L i n _ _
            (fun s sc k hs => hs) ?_ _ ⟨?_, ?_⟩).1
          · intro s' sp hsp hop hre hs
            have hlt : i < s'.nodes.length := (List.getElem?_eq_some_iff.mp hs.2).1
            refine ⟨?_, by rw [create_nodes, List.getElem?_append_left hlt]; exact hs.2⟩
            intro x hx j hj
            rw [create_nodes] at hx ⊢
            rcases List.mem_append.mp hx with hx | hx
            · obtain ⟨m, hm, hrest⟩ := hs.1 x hx j hj
              exact ⟨m, by rw [List.getElem?_append_left (List.getElem?_eq_some_iff.mp hm).1]; exact hm, hrest⟩
            · rw [List.mem_singleton.mp hx] at hj ⊢
              rw [mkChild_lister] at hj
              simp only [Option.some.injEq] at hj
              subst hj
              refine ⟨n, by rw [List.getElem?_append_left hlt]; exact hs.2, sp, hsp, hop, hre, mkChild_key _ _ _ _, rfl, ?_⟩
              unfold mkChild
              simp only [List.tail_cons]
              split
              · next hc => exact .inr ⟨hc.2.1, rfl⟩
              · exact .inl rfl
          · simp only [scopeOf_nodes, markExpanded]; exact h
          · simp only [scopeOf_nodes, markExpanded]; exact hn

/-- **C25 (no repetition on a path).** Along a node's chain of parents no call occurs twice,
and that chain is the chain of the node listing it, except below a chained call. -/
theorem C25_no_repeat_on_path (p : Program) (L : Limits) (roots : List String) (ops : List Nat) :
    (∀ x ∈ (run p L roots ops).nodes, (x.path.map Frame.key).Nodup) ∧ PathsFollow p (run p L roots ops).nodes := by
  refine ⟨fun x hx => ((run_inv p L roots ops).path x hx).1, ?_⟩
  refine run_keeps (P := fun s => PathsFollow p s.nodes) p L roots ops ?_ (fun s i h => expand_paths h i)
  intro x hx i hi
  obtain ⟨k, _, rfl⟩ := List.mem_map.mp hx
  simp at hi

theorem product_length (U : List String) : ∀ S : List String,
    (S.flatMap fun sc => U.map fun k => (some sc, k)).length = S.length * U.length
  | [] => by simp
  | a :: S => by simp [product_length U S, Nat.succ_mul]; omega

/-- **C25 (termination).** If the plans mention finitely many keys, the tree stays finite
whatever is expanded in whatever order, cycles in the call graph notwithstanding: there is a
bound on its size that does not depend on the requests made. -/
theorem C25_bounded (p : Program) (L : Limits) (roots U : List String) (hU : KeysIn p U) (ops : List Nat) :
    (run p L roots ops).nodes.length ≤ roots.length + (U.length + 1) * U.length * L.instances := by
  have hinv := run_inv p L roots ops
  have hfr := run_frames hU L roots ops
  generalize hs : run p L roots ops = s at *
  have h1 : s.nodes.length = s.nodes.countP (fun x => x.lister.isNone) + (built s.nodes).length := by
    rw [List.length_eq_countP_add_countP (fun x => x.lister.isNone)]
    congr 1
    unfold built
    rw [← List.countP_eq_length_filter]
    apply List.countP_congr
    intro x _
    cases x.lister <;> simp
  have h2 : (built s.nodes).length ≤ (("" :: U).flatMap fun sc => U.map fun k => (some sc, k)).length * L.instances := by
    refine length_le_classes (fun x => (chargedTo s.nodes x, x.key)) _ _ _ ?_ ?_
    · intro x hx
      obtain ⟨hx1, hx2⟩ := List.mem_filter.mp hx
      obtain ⟨i, hi⟩ := Option.isSome_iff_exists.mp hx2
      have hlt := (hinv.lister x hx1 i hi).1
      have hget : s.nodes[i]? = some s.nodes[i] := List.getElem?_eq_getElem hlt
      have hc : chargedTo s.nodes x = some (nearestArg (s.nodes[i]).path) := by
        unfold chargedTo; rw [hi]; simp only [hget]
      refine List.mem_flatMap.mpr ⟨nearestArg (s.nodes[i]).path, ?_, List.mem_map.mpr ⟨x.key, (hfr x hx1).2.2 hx2, by rw [hc]⟩⟩
      rcases nearestArg_in U _ (hfr _ (List.getElem_mem hlt)).2.1 with h | h
      · rw [h]; simp
      · exact List.mem_cons_of_mem _ h
    · intro c hc
      obtain ⟨sc, _, hc⟩ := List.mem_flatMap.mp hc
      obtain ⟨k, _, rfl⟩ := List.mem_map.mp hc
      refine Nat.le_trans ?_ (hinv.cap sc k)
      refine Nat.le_trans ((List.filter_sublist (l := s.nodes)).countP_le) (Nat.le_of_eq ?_)
      unfold copies
      apply List.countP_congr
      intro x _
      simp only [beq_iff_eq, Prod.mk.injEq, Bool.and_eq_true]
      exact and_comm
  rw [product_length] at h2
  rw [hinv.roots] at h1
  simp only [List.length_cons] at h2
  omega

theorem expand_expanded (p : Program) (L : Limits) (s : St) (i : Nat) :
    ((expand p L s i).nodes = s.nodes ∧ (expand p L s i).expanded = s.expanded) ∨
    (expand p L s i).expanded.length = s.expanded.length + 1 := by
  unfold expand
  split
  · exact .inl ⟨rfl, rfl⟩
  · next n hn =>
    split
    · exact .inl ⟨rfl, rfl⟩
    · split
      · exact .inl ⟨rfl, rfl⟩
      · split
        · exact .inl ⟨noteRoute_nodes _ _, noteRoute_expanded _ _⟩
        · right
          have := fold_keeps (P := fun s' => s'.expanded = i :: s.expanded) p L i n (scopeOf p (markExpanded s i) n).1
            (fun s' sc k hs _ => hs) (fun s' sp hs => (create_expanded _ _ _ _ _).trans hs) (p.plan n.ident)
            ((scopeOf p (markExpanded s i) n).2, 0) (scopeOf_expanded _ _ _)
          simp only [this, List.length_cons]

theorem growths_le (p : Program) (L : Limits) : ∀ (ops : List Nat) (s : St),
    growths p L s ops + s.expanded.length ≤ (ops.foldl (expand p L) s).expanded.length
  | [], s => by simp [growths]
  | i :: ops, s => by
    have ih := growths_le p L ops (expand p L s i)
    simp only [growths, List.foldl_cons]
    rcases expand_expanded p L s i with ⟨h1, h2⟩ | h
    · rw [if_pos h1, ← h2]; omega
    · split <;> omega

/-- **C25 (termination, as steps).** However long the sequence of requests, only boundedly
many of them make the tree grow; the bound is the same for every sequence. -/
theorem C25_settles (p : Program) (L : Limits) (roots U : List String) (hU : KeysIn p U) (ops : List Nat) :
    growths p L (start roots) ops ≤ roots.length + (U.length + 1) * U.length * L.instances := by
  have h1 := growths_le p L ops (start roots)
  have hinv := run_inv p L roots ops
  have h2 : (run p L roots ops).expanded.length ≤ (run p L roots ops).nodes.length := by
    have := hinv.expNodup.length_le_of_subset (l₂ := List.range (run p L roots ops).nodes.length)
      (fun i hi => List.mem_range.mpr (hinv.expIn i hi))
    simpa using this
  have h3 := C25_bounded p L roots U hU ops
  unfold run at h2 h3
  omega

theorem route_start (roots : List String) (L : Limits) (P : Nat) : RouteInv L P (start roots) := by
  refine ⟨?_, ?_, ?_, List.nodup_nil, rfl, ?_⟩
  · intro x hx
    obtain ⟨k, _, rfl⟩ := List.mem_map.mp hx
    exact .inl rfl
  · intro sc c _ h; simp [start] at h
  · intro sc c _ h; simp [start] at h
  · intro sc h; simp [start] at h

theorem run_route (p : Program) (L : Limits) (roots : List String) (P : Nat) (hP : ∀ id, (p.plan id).length ≤ P)
    (ops : List Nat) : RouteInv L P (run p L roots ops) :=
  run_keeps (P := RouteInv L P) p L roots ops (route_start roots L P) (fun _ i h => expand_route hP h i)

theorem run_count (p : Program) (L : Limits) (roots : List String) (ops : List Nat) : CountInv (run p L roots ops) :=
  run_keeps (P := CountInv) p L roots ops (count_start roots) (fun _ i h => expand_count h i)

theorem run_wiring (p : Program) (L : Limits) (roots : List String) (P : Nat) (hP : ∀ id, (p.plan id).length ≤ P)
    (ops : List Nat) : WiringOk L P (run p L roots ops) :=
  run_keeps (P := WiringOk L P) p L roots ops
    ⟨fun _ => Nat.zero_le _, fun h => by simp [start] at h⟩ (fun _ i h => expand_wiring hP h i)

/-- **C25 (route budget).** What is built below one route registration exceeds that route's
budget by less than one expansion (`P` bounds the children of one node). -/
theorem C25_route_budget (p : Program) (L : Limits) (roots : List String) (P : Nat) (hP : ∀ id, (p.plan id).length ≤ P)
    (ops : List Nat) (scope : Nat) (hs : 0 < scope) :
    inRoute (run p L roots ops).nodes scope ≤ L.route - 1 + P := by
  have h := run_route p L roots P hP ops
  cases hg : (run p L roots ops).routeNodes[scope]? with
  | some c => rw [← h.counts scope c hs hg]; exact h.bound scope c hs hg
  | none =>
    have : inRoute (run p L roots ops).nodes scope = 0 := by
      refine List.countP_eq_zero.mpr fun x hx => ?_
      have h1 := h.scopes x hx
      have h2 := List.getElem?_eq_none_iff.mp hg
      simp only [beq_iff_eq]; omega
    omega

/-- Which budget each node is charged to. -/
structure ScopeRule (p : Program) (nodes : List Node) : Prop where
  below : ∀ x ∈ nodes, ∀ i, x.lister = some i → ∃ n, nodes[i]? = some n ∧
    (Registers p n → 0 < x.scope) ∧ (¬ Registers p n → x.scope = n.scope)
  own : ∀ x ∈ nodes, ∀ y ∈ nodes, ∀ i j, x.lister = some i → y.lister = some j →
    ∀ n m, nodes[i]? = some n → nodes[j]? = some m → Registers p n → Registers p m → x.scope = y.scope → i = j

theorem scopeOf_fst (p : Program) (s : St) (n : Node) :
    (Registers p n → (scopeOf p s n).1 = (openNodes s).length) ∧ (¬ Registers p n → (scopeOf p s n).1 = n.scope) := by
  unfold scopeOf Registers
  split
  · next h => exact ⟨fun hr => absurd hr.1 h, fun _ => rfl⟩
  · next h =>
    have h : n.scope = 0 := by simpa using h
    split
    · next he => exact ⟨fun hr => by obtain ⟨_, e, h1, _⟩ := hr; rw [he] at h1; simp at h1, fun _ => rfl⟩
    · next e he =>
      split
      · next ht => exact ⟨fun hr => by obtain ⟨_, e', h1, h2⟩ := hr; rw [he] at h1; cases h1; rw [ht] at h2; simp at h2, fun _ => rfl⟩
      · next ht => exact ⟨fun _ => rfl, fun hr => (hr ⟨h, e, he, by simpa using ht⟩).elim⟩

theorem expand_scopes {p : Program} {L : Limits} {s : St}
    (hsc : ∀ x ∈ s.nodes, x.scope = 0 ∨ x.scope < s.routeNodes.length) (h : ScopeRule p s.nodes) (i : Nat) :
    ScopeRule p (expand p L s i).nodes := by
  unfold expand
  split
  · exact h
  · next n hn =>
    split
    · exact h
    · next hne =>
      split
      · exact h
      · split
        · rw [noteRoute_nodes]; exact h
        · have hcs := scopeOf_fst p (markExpanded s i) n
          simp only
          generalize (scopeOf p (markExpanded s i) n).1 = cs at hcs
          have hpos : 0 < (openNodes (markExpanded s i)).length := by
            unfold openNodes; split
            · simp
            · next hh => exact List.length_pos_iff.mpr hh
          refine (fold_keeps (P := fun s' => ScopeRule p s'.nodes ∧ s'.nodes[i]? = some n ∧
              (Registers p n → ∀ y ∈ s'.nodes, y.lister ≠ some i → y.scope < cs)) p L i n cs
            (fun s sc k hs _ => hs) ?_ _ _ ⟨?_, ?_, ?_⟩).1
          · rintro s' sp ⟨hs, hni, hlt⟩
            have hil : i < s'.nodes.length := (List.getElem?_eq_some_iff.mp hni).1
            have hni' : (s'.nodes ++ [mkChild i n cs sp])[i]? = some n := by rw [List.getElem?_append_left hil]; exact hni
            rw [create_nodes]
            refine ⟨⟨?_, ?_⟩, hni', ?_⟩
            · intro x hx j hj
              rcases List.mem_append.mp hx with hx | hx
              · obtain ⟨m, hm, hr⟩ := hs.below x hx j hj
                exact ⟨m, by rw [List.getElem?_append_left (List.getElem?_eq_some_iff.mp hm).1]; exact hm, hr⟩
              · rw [List.mem_singleton.mp hx] at hj ⊢
                rw [mkChild_lister] at hj
                simp only [Option.some.injEq] at hj
                subst hj
                refine ⟨n, hni', fun hr => ?_, fun hr => hcs.2 hr⟩
                rw [mkChild_scope, hcs.1 hr]; exact hpos
            · have old : ∀ x ∈ s'.nodes, ∀ j m, x.lister = some j → (s'.nodes ++ [mkChild i n cs sp])[j]? = some m → s'.nodes[j]? = some m := by
                intro x hx j m hj hm
                obtain ⟨m', hm', _⟩ := hs.below x hx j hj
                rwa [List.getElem?_append_left (List.getElem?_eq_some_iff.mp hm').1] at hm
              intro x hx y hy a b ha hb n1 m1 hn1 hm1 hr1 hr2 he
              rcases List.mem_append.mp hx with hx | hx <;> rcases List.mem_append.mp hy with hy | hy
              · exact hs.own x hx y hy a b ha hb n1 m1 (old x hx a n1 ha hn1) (old y hy b m1 hb hm1) hr1 hr2 he
              · rw [List.mem_singleton.mp hy, mkChild_lister] at hb
                simp only [Option.some.injEq] at hb
                subst hb
                rw [hni'] at hm1
                obtain rfl := Option.some.inj hm1
                rw [List.mem_singleton.mp hy, mkChild_scope] at he
                by_cases hai : a = i
                · exact hai
                · have := hlt hr2 x hx (by rw [ha]; simpa using hai)
                  omega
              · rw [List.mem_singleton.mp hx, mkChild_lister] at ha
                simp only [Option.some.injEq] at ha
                subst ha
                rw [hni'] at hn1
                obtain rfl := Option.some.inj hn1
                rw [List.mem_singleton.mp hx, mkChild_scope] at he
                by_cases hai : b = i
                · exact hai.symm
                · have := hlt hr1 y hy (by rw [hb]; simpa using hai)
                  omega
              · rw [List.mem_singleton.mp hx, mkChild_lister] at ha
                rw [List.mem_singleton.mp hy, mkChild_lister] at hb
                simp only [Option.some.injEq] at ha hb
                omega
            · intro hr y hy hyl
              rcases List.mem_append.mp hy with hy | hy
              · exact hlt hr y hy hyl
              · rw [List.mem_singleton.mp hy, mkChild_lister] at hyl; exact absurd rfl hyl
          · simp only [scopeOf_nodes]; exact h
          · simp only [scopeOf_nodes]; exact hn
          · intro hr y hy _
            simp only [scopeOf_nodes] at hy
            have := hsc y hy
            rw [hcs.1 hr]
            have hge : s.routeNodes.length ≤ (openNodes (markExpanded s i)).length := by
              unfold openNodes
              split
              · next hh => rw [show s.routeNodes = [] from hh]; simp
              · exact Nat.le_refl _
            omega

/-- **C25 (whose budget).** What a route registration lists is charged to a budget of that
registration's own; everything below is charged to the same budget; everything else to the
node budget. -/
theorem C25_budget_scopes (p : Program) (L : Limits) (roots : List String) (P : Nat)
    (hP : ∀ id, (p.plan id).length ≤ P) (ops : List Nat) : ScopeRule p (run p L roots ops).nodes := by
  refine (run_keeps (P := fun s => RouteInv L P s ∧ ScopeRule p s.nodes) p L roots ops
    ⟨route_start roots L P, ?_, ?_⟩
    (fun _ i h => ⟨expand_route hP h.1 i, expand_scopes h.1.scopes h.2 i⟩)).2
  · intro x hx i hi
    obtain ⟨k, _, rfl⟩ := List.mem_map.mp hx
    simp at hi
  · intro x hx y hy i j hi
    obtain ⟨k, _, rfl⟩ := List.mem_map.mp hx
    simp at hi

/-- The different calls met above every route registration. -/
def IsWiringKeys (s : St) (keys : List String) : Prop :=
  keys.Nodup ∧ ∀ k, k ∈ keys ↔ ∃ x ∈ s.nodes, x.lister.isSome = true ∧ x.scope = 0 ∧ x.key = k

/-- **C25 (node budget).** The different calls met above every route registration exceed the
node budget by less than one expansion. -/
theorem C25_node_budget (p : Program) (L : Limits) (roots : List String) (P : Nat) (hP : ∀ id, (p.plan id).length ≤ P)
    (ops : List Nat) (hL : 0 < L.maxNodes) (keys : List String) (hk : IsWiringKeys (run p L roots ops) keys) :
    keys.length ≤ L.maxNodes - 1 + P := by
  have h := (run_wiring p L roots P hP ops).1 hL
  have hc := (run_count p L roots ops).wiring
  rw [hc.2.1] at h
  refine Nat.le_trans (hk.1.length_le_of_subset fun k hm => ?_) h
  exact (hc.2.2 k).mpr ((hk.2 k).mp hm)

/-! ## C26 -/

theorem fold_trunc_mono (p : Program) (L : Limits) (i : Nat) (n : Node) (cs : Nat) (l : List Spec) (a : St × Nat) :
    a.1.instTruncs ≤ (l.foldl (childStep p L i n cs) a).1.instTruncs ∧
    (l.foldl (childStep p L i n cs) a).1.truncated = a.1.truncated ∧
    (l.foldl (childStep p L i n cs) a).1.routeTruncs = a.1.routeTruncs := by
  refine fold_keeps (P := fun s => a.1.instTruncs ≤ s.instTruncs ∧ s.truncated = a.1.truncated ∧ s.routeTruncs = a.1.routeTruncs)
    p L i n cs (fun s sc k hs _ => ⟨by simp only [noteInst]; omega, hs.2⟩) (fun s sp hs => ?_) l a ⟨Nat.le_refl _, rfl, rfl⟩
  have hf := create_flags i n cs s sp
  rw [hf.1, hf.2.1, hf.2.2.1]
  exact hs

theorem fold_same {L L' : Limits} (hL : Allows L L') (p : Program) (i : Nat) (n : Node) (cs : Nat) :
    ∀ (l : List Spec) (a : St × Nat), (l.foldl (childStep p L i n cs) a).1.instTruncs = a.1.instTruncs →
      l.foldl (childStep p L' i n cs) a = l.foldl (childStep p L i n cs) a
  | [], _, _ => rfl
  | sp :: l, a, h => by
    rw [List.foldl_cons] at h
    rw [List.foldl_cons, List.foldl_cons]
    have hm := (fold_trunc_mono p L i n cs l (childStep p L i n cs a sp)).1
    have hm0 : a.1.instTruncs ≤ (childStep p L i n cs a sp).1.instTruncs := (fold_trunc_mono p L i n cs [sp] a).1
    have heq : childStep p L' i n cs a sp = childStep p L i n cs a sp := by
      have hn : (childStep p L i n cs a sp).1.instTruncs = a.1.instTruncs := by omega
      unfold childStep at hn ⊢
      rw [hL.children]
      split
      · rfl
      · next h1 =>
        rw [if_neg h1] at hn
        split
        · rfl
        · next h2 =>
          rw [if_neg h2] at hn
          split
          · rfl
          · next h3 =>
            rw [if_neg h3] at hn
            by_cases hc : L.instances ≤ a.1.inst n.instanceScope sp.key
            · rw [if_pos hc] at hn; simp [noteInst] at hn
            · rw [if_neg hc, if_neg (by have := hL.instances; omega)]
    rw [heq]
    exact fold_same hL p i n cs l _ (by omega)

theorem reports_false {s : St} (h : reportsTruncation s = false) :
    s.truncated = false ∧ s.instTruncs = 0 ∧ s.routeTruncs = 0 := by
  unfold reportsTruncation at h
  simp only [Bool.or_eq_false_iff, decide_eq_false_iff_not, Nat.not_lt, Nat.le_zero] at h
  exact ⟨h.1.1, h.1.2, h.2⟩

theorem expand_report_mono (p : Program) (L : Limits) (s : St) (i : Nat) :
    (s.truncated = true → (expand p L s i).truncated = true) ∧ s.instTruncs ≤ (expand p L s i).instTruncs ∧
    s.routeTruncs ≤ (expand p L s i).routeTruncs := by
  unfold expand
  split
  · exact ⟨id, Nat.le_refl _, Nat.le_refl _⟩
  · next n hn =>
    split
    · exact ⟨id, Nat.le_refl _, Nat.le_refl _⟩
    · split
      · exact ⟨fun _ => rfl, Nat.le_refl _, Nat.le_refl _⟩
      · split
        · unfold noteRoute
          split
          · exact ⟨id, Nat.le_refl _, Nat.le_refl _⟩
          · exact ⟨id, Nat.le_refl _, by simp⟩
        · have := fold_trunc_mono p L i n (scopeOf p (markExpanded s i) n).1 (p.plan n.ident) ((scopeOf p (markExpanded s i) n).2, 0)
          have hf := scopeOf_flags p (markExpanded s i) n
          simp only [hf.1, hf.2.1, hf.2.2.1] at this
          simp only [this.2.1, this.2.2]
          exact ⟨id, this.1, Nat.le_refl _⟩

theorem expand_same {L L' : Limits} (hL : Allows L L') (p : Program) (s : St) (i : Nat)
    (hcut : s.routeTruncs = s.cut.length) (h : reportsTruncation (expand p L s i) = false) :
    expand p L' s i = expand p L s i := by
  have hr := reports_false h
  unfold expand at hr ⊢
  split
  · rfl
  · next n hn =>
    rw [hn] at hr
    simp only at hr
    split
    · rfl
    · next he =>
      rw [if_neg he] at hr
      by_cases hb : n.scope = 0 ∧ budgetExhausted L s = true
      · rw [if_pos hb] at hr; simp at hr
      · rw [if_neg hb] at hr ⊢
        have hb' : ¬ (n.scope = 0 ∧ budgetExhausted L' s = true) := by
          intro hh
          refine hb ⟨hh.1, ?_⟩
          have h2 := hh.2
          unfold budgetExhausted at h2 ⊢
          simp only [Bool.and_eq_true, decide_eq_true_eq] at h2 ⊢
          rcases hL.nodes with hz | hz
          · omega
          · omega
        rw [if_neg hb']
        by_cases hx : routeBudgetExhausted L s n.scope = true
        · rw [if_pos hx] at hr
          unfold noteRoute at hr
          split at hr
          · next hc =>
            have := List.length_pos_of_mem hc
            have := hr.2.2
            omega
          · have h3 := hr.2.2; simp at h3
        · rw [if_neg hx] at hr ⊢
          have hx' : ¬ routeBudgetExhausted L' s n.scope = true := by
            intro hh
            refine hx ?_
            unfold routeBudgetExhausted at hh ⊢
            simp only [Bool.and_eq_true, decide_eq_true_eq] at hh ⊢
            refine ⟨hh.1, ?_⟩
            cases hg : s.routeNodes[n.scope]? with
            | none => rw [hg] at hh; simp at hh
            | some c =>
              rw [hg] at hh
              simp only [decide_eq_true_eq] at hh ⊢
              have := hL.route
              omega
          rw [if_neg hx']
          have hm := (fold_trunc_mono p L i n (scopeOf p (markExpanded s i) n).1 (p.plan n.ident)
            ((scopeOf p (markExpanded s i) n).2, 0)).1
          simp only
          rw [fold_same hL p i n _ _ _ (by omega)]

theorem expand_cut (p : Program) (L : Limits) (s : St) (i : Nat) (hc : s.routeTruncs = s.cut.length) :
    (expand p L s i).routeTruncs = (expand p L s i).cut.length := by
  unfold expand
  split
  · exact hc
  · next n hn =>
    split
    · exact hc
    · split
      · exact hc
      · split
        · unfold noteRoute
          split
          · exact hc
          · simp [hc]
        · refine fold_keeps (P := fun s => s.routeTruncs = s.cut.length) p L i n _ (fun s sc k hs _ => hs)
            (fun s' sp hs => ?_) _ _ ?_
          · have hf := create_flags i n (scopeOf p (markExpanded s i) n).1 s' sp
            rw [hf.2.2.1, hf.2.2.2]; exact hs
          · have hf := scopeOf_flags p (markExpanded s i) n
            simp only [hf.2.2.1, hf.2.2.2]; exact hc

/-- **C26, partial.** If the statistics report nothing, no budget mattered: with any larger
budgets the same requests build the very same tree, down to every counter. Missing: the limit
on children is not among the budgets reported — `C26_children_limit_silent`. -/
theorem C26_silence_means_complete_partial (p : Program) (L L' : Limits) (hL : Allows L L') (roots : List String)
    (ops : List Nat) (h : reportsTruncation (run p L roots ops) = false) :
    run p L' roots ops = run p L roots ops := by
  unfold run at h ⊢
  have hpos : ∀ (l : List Nat) (s : St), s.routeTruncs = s.cut.length → reportsTruncation (l.foldl (expand p L) s) = false →
      l.foldl (expand p L') s = l.foldl (expand p L) s := by
    intro l
    induction l with
    | nil => intro s _ _; rfl
    | cons i l ih =>
      intro s hc hr
      rw [List.foldl_cons] at hr
      have hmono : ∀ (l : List Nat) (s : St), reportsTruncation (l.foldl (expand p L) s) = false → reportsTruncation s = false := by
        intro l
        induction l with
        | nil => intro s h; exact h
        | cons j l ihl =>
          intro s h
          have h1 := reports_false (ihl _ h)
          have h2 := expand_report_mono p L s j
          unfold reportsTruncation
          simp only [Bool.or_eq_false_iff, decide_eq_false_iff_not, Nat.not_lt, Nat.le_zero]
          refine ⟨⟨?_, by omega⟩, by omega⟩
          cases ht : s.truncated with
          | false => rfl
          | true => rw [h2.1 ht] at h1; simp at h1
      have h1 := hmono l _ hr
      rw [List.foldl_cons, List.foldl_cons, expand_same hL p s i hc h1]
      refine ih _ ?_ hr
      have hz := reports_false h1
      -- nothing is cut while nothing is reported
      have hcutlen : (expand p L s i).cut.length = (expand p L s i).routeTruncs := by
        exact (expand_cut p L s i hc).symm
      exact hcutlen.symm
  exact hpos ops _ rfl h

/-- **C26 (a report has a cause).** Whenever the statistics report truncation, the budget
named was really used up: as many different calls above the routes as the node budget, or a
route with its full budget of nodes, or a scope with its full allowance of copies. -/
theorem C26_report_has_cause (p : Program) (L : Limits) (roots : List String) (P : Nat)
    (hP : ∀ id, (p.plan id).length ≤ P) (ops : List Nat) :
    ((run p L roots ops).truncated = true →
      0 < L.maxNodes ∧ ∃ keys, IsWiringKeys (run p L roots ops) keys ∧ L.maxNodes ≤ keys.length) ∧
    (0 < (run p L roots ops).instTruncs → ∃ sc k, copies (run p L roots ops).nodes sc k = L.instances) ∧
    (∃ cut : List Nat, cut.Nodup ∧ (run p L roots ops).routeTruncs = cut.length ∧
      ∀ sc ∈ cut, 0 < sc ∧ L.route ≤ inRoute (run p L roots ops).nodes sc) := by
  refine ⟨fun ht => ?_, fun hi => ?_, ?_⟩
  · have h := (run_wiring p L roots P hP ops).2 ht
    have hc := (run_count p L roots ops).wiring
    exact ⟨h.1, _, ⟨hc.1, hc.2.2⟩, by omega⟩
  · have h : InstOk L (run p L roots ops) :=
      run_keeps (P := InstOk L) p L roots ops (fun h => by simp [start] at h) (fun _ i h => expand_inst h i)
    obtain ⟨sc, k, hk⟩ := h hi
    have hinv := run_inv p L roots ops
    rw [hinv.inst] at hk
    exact ⟨sc, k, Nat.le_antisymm (hinv.cap sc k) hk⟩
  · have h := run_route p L roots P hP ops
    refine ⟨(run p L roots ops).cut, h.cuts.1, h.cuts.2.1, fun sc hsc => ?_⟩
    obtain ⟨hpos, c, hc, hle⟩ := h.cuts.2.2 sc hsc
    exact ⟨hpos, by rw [← h.counts sc c hpos hc]; exact hle⟩

/-- The child planned by `sp` is listed by node `i`. -/
def Listed (nodes : List Node) (i : Nat) (sp : Spec) : Prop :=
  ∃ x ∈ nodes, x.lister = some i ∧ x.key = sp.key ∧ x.arg = sp.arg ∧ x.edge = if sp.arg.isSome then sp.argEdge else sp.edge

/-- The child planned by `sp` is listed by node `i`, or a limit that is now reached refused it. -/
def ListedOrRefused (L : Limits) (s : St) (i : Nat) (n : Node) (sp : Spec) : Prop :=
  Listed s.nodes i sp ∨ (sp.arg = none ∧ L.maxChildren ≤ callees s.nodes i) ∨ L.instances ≤ s.inst n.instanceScope sp.key

structure Grow (s s' : St) : Prop where
  nodes : ∃ t, s'.nodes = s.nodes ++ t
  inst : ∀ sc k, s.inst sc k ≤ s'.inst sc k

theorem Grow.refl (s : St) : Grow s s := ⟨⟨[], by simp⟩, fun _ _ => Nat.le_refl _⟩
theorem Grow.trans {a b c : St} (h : Grow a b) (h' : Grow b c) : Grow a c := by
  obtain ⟨⟨t, ht⟩, h2⟩ := h
  obtain ⟨⟨t', ht'⟩, h2'⟩ := h'
  exact ⟨⟨t ++ t', by rw [ht', ht, List.append_assoc]⟩, fun sc k => Nat.le_trans (h2 sc k) (h2' sc k)⟩

theorem listed_grow {L : Limits} {s s' : St} (h : Grow s s') {i : Nat} {n : Node} {sp : Spec}
    (hl : ListedOrRefused L s i n sp) : ListedOrRefused L s' i n sp := by
  obtain ⟨⟨t, ht⟩, h2⟩ := h
  rcases hl with ⟨x, hx, hr⟩ | ⟨ha, hc⟩ | hi
  · exact .inl ⟨x, by rw [ht]; exact List.mem_append_left _ hx, hr⟩
  · refine .inr (.inl ⟨ha, Nat.le_trans hc ?_⟩)
    unfold callees
    rw [ht, List.countP_append]; omega
  · exact .inr (.inr (Nat.le_trans hi (h2 _ _)))

theorem create_grow (i : Nat) (n : Node) (cs : Nat) (s : St) (sp : Spec) : Grow s (create i n cs s sp) := by
  refine ⟨⟨_, create_nodes _ _ _ _ _⟩, fun sc k => ?_⟩
  rw [create_inst]
  unfold bump
  split <;> omega

theorem fold_grow (p : Program) (L : Limits) (i : Nat) (n : Node) (cs : Nat) (l : List Spec) (a : St × Nat) :
    Grow a.1 (l.foldl (childStep p L i n cs) a).1 :=
  fold_keeps (P := fun s => Grow a.1 s) p L i n cs (fun _ _ _ h _ => ⟨h.nodes, h.inst⟩)
    (fun _ _ h => h.trans (create_grow _ _ _ _ _)) l a (Grow.refl _)

theorem fold_covers {nroots : Nat} {L : Limits} {i : Nat} {n : Node} (p : Program) (cs : Nat) :
    ∀ (l : List Spec) {a : St × Nat}, LoopInv nroots L i n a → ∀ sp ∈ l, n.onPath sp.key = false → p.canReach sp = true →
      ListedOrRefused L (l.foldl (childStep p L i n cs) a).1 i n sp
  | [], _, _, sp, h, _, _ => by simp at h
  | sp' :: l, a, hinv, sp, hm, hp, hr => by
    rw [List.foldl_cons]
    rcases List.mem_cons.mp hm with e | hm
    · subst e
      refine listed_grow (fold_grow p L i n cs l _) ?_
      have hcount := hinv.count
      unfold childStep
      split
      · next hc => exact .inr (.inl ⟨hc.1, by rw [hcount]; exact hc.2⟩)
      · rw [if_neg (by simp [hp]), if_neg (by simp [hr])]
        split
        · next hc => exact .inr (.inr hc)
        · refine .inl ⟨mkChild i n cs sp, ?_, mkChild_lister _ _ _ _, mkChild_key _ _ _ _, rfl, rfl⟩
          show _ ∈ (create i n cs a.1 sp).nodes
          rw [create_nodes]; simp
    · exact fold_covers p cs l (loop_step p cs hinv sp') sp hm hp hr

/-- Every expanded node has every child planned for it, repetitions and barren branches aside,
unless a limit is reached. -/
def AllListed (p : Program) (L : Limits) (s : St) : Prop :=
  ∀ i ∈ s.expanded, ∀ n, s.nodes[i]? = some n → ∀ sp ∈ p.plan n.ident, n.onPath sp.key = false → p.canReach sp = true →
    ListedOrRefused L s i n sp

theorem expand_covers {nroots : Nat} {L : Limits} {s : St} (p : Program) (hinv : Inv nroots L s) (h : AllListed p L s) (i : Nat) :
    AllListed p L (expand p L s i) := by
  unfold expand
  split
  · exact h
  · next n hn =>
    split
    · exact h
    · next hne =>
      split
      · exact h
      · split
        · intro j hj m hm sp hsp hp hr
          rw [noteRoute_expanded] at hj
          rw [noteRoute_nodes] at hm
          have := h j hj m hm sp hsp hp hr
          refine listed_grow ⟨⟨[], by rw [noteRoute_nodes, List.append_nil]⟩, fun sc k => ?_⟩ this
          rw [noteRoute_inst]; exact Nat.le_refl _
        · have hg := fold_grow p L i n (scopeOf p (markExpanded s i) n).1 (p.plan n.ident) ((scopeOf p (markExpanded s i) n).2, 0)
          have hg0 : Grow s (scopeOf p (markExpanded s i) n).2 :=
            ⟨⟨[], by rw [scopeOf_nodes, List.append_nil]; rfl⟩, fun sc k => by rw [scopeOf_inst]; exact Nat.le_refl _⟩
          have hexp := fold_keeps (P := fun s' => s'.expanded = i :: s.expanded) p L i n (scopeOf p (markExpanded s i) n).1
            (fun s' sc k hs _ => hs) (fun s' sp hs => (create_expanded _ _ _ _ _).trans hs) (p.plan n.ident)
            ((scopeOf p (markExpanded s i) n).2, 0) (scopeOf_expanded _ _ _)
          intro j hj m hm sp hsp hp hr
          simp only [hexp] at hj
          obtain ⟨t, ht⟩ := (hg0.trans hg).nodes
          simp only [ht] at hm
          rcases List.mem_cons.mp hj with e | hj
          · subst e
            rw [List.getElem?_append_left (List.getElem?_eq_some_iff.mp hn).1, hn] at hm
            obtain rfl := Option.some.inj hm
            have hz : callees s.nodes j = 0 := by
              refine List.countP_eq_zero.mpr fun x hx => ?_
              simp only [Bool.and_eq_true, beq_iff_eq]
              exact fun hh => hne (hinv.lister x hx j hh.1).2
            refine fold_covers (nroots := nroots) p _ _ ⟨⟨?_, ?_, ?_, ?_, ?_, ?_, ?_, ?_⟩, ?_, ?_, ?_⟩ sp hsp hp hr <;>
              simp only [scopeOf_nodes, scopeOf_inst, scopeOf_expanded, markExpanded]
            · exact hinv.path
            · intro x hx k hk
              have := hinv.lister x hx k hk
              exact ⟨this.1, List.mem_cons_of_mem _ this.2⟩
            · exact hinv.inst
            · exact hinv.cap
            · exact hinv.kids
            · exact hinv.roots
            · exact List.nodup_cons.mpr ⟨hne, hinv.expNodup⟩
            · intro k hk
              rcases List.mem_cons.mp hk with e | hk
              · rw [e]; exact (List.getElem?_eq_some_iff.mp hn).1
              · exact hinv.expIn k hk
            · exact hn
            · simp
            · exact hz
          · rw [List.getElem?_append_left (hinv.expIn j hj)] at hm
            exact listed_grow (hg0.trans hg) (h j hj m hm sp hsp hp hr)

/-- **C26 (nothing is missing).** Every node that has been expanded lists every child planned
for it that is not already on its path and not barren, except when the node has its full
number of calls, or the scope its full number of copies. -/
theorem C26_nothing_missing (p : Program) (L : Limits) (roots : List String) (ops : List Nat) (i : Nat)
    (hi : i ∈ (run p L roots ops).expanded) (n : Node) (hn : (run p L roots ops).nodes[i]? = some n)
    (sp : Spec) (hsp : sp ∈ p.plan n.ident) (hpath : ∀ f ∈ n.path, f.key ≠ sp.key) (hreach : p.canReach sp = true) :
    Listed (run p L roots ops).nodes i sp ∨
    (sp.arg = none ∧ callees (run p L roots ops).nodes i = L.maxChildren) ∨
    copies (run p L roots ops).nodes n.instanceScope sp.key = L.instances := by
  have hinv := run_inv p L roots ops
  have h : Inv roots.length L (run p L roots ops) ∧ AllListed p L (run p L roots ops) :=
    run_keeps (P := fun s => Inv roots.length L s ∧ AllListed p L s) p L roots ops
      ⟨inv_start roots L, fun i hi => by simp [start] at hi⟩ (fun _ i h => ⟨expand_inv p h.1 i, expand_covers p h.1 h.2 i⟩)
  have hon : n.onPath sp.key = false := by
    unfold Node.onPath
    rw [List.any_eq_false]
    intro f hf
    simpa using hpath f hf
  rcases h.2 i hi n hn sp hsp hon hreach with h | ⟨ha, h⟩ | h
  · exact .inl h
  · exact .inr (.inl ⟨ha, Nat.le_antisymm (hinv.kids i) h⟩)
  · rw [hinv.inst] at h
    exact .inr (.inr (Nat.le_antisymm (hinv.cap _ _) h))

/-- **C26 (a request is honoured or reported).** After asking for a node's children, the node
is expanded, or the statistics say that the node budget or this route's budget was spent. -/
theorem C26_request_honoured (p : Program) (L : Limits) (roots : List String) (ops : List Nat) (i : Nat) (n : Node)
    (hn : (run p L roots ops).nodes[i]? = some n) :
    i ∈ (run p L roots (ops ++ [i])).expanded ∨
    (n.scope = 0 ∧ (run p L roots (ops ++ [i])).truncated = true) ∨
    (0 < n.scope ∧ 0 < (run p L roots (ops ++ [i])).routeTruncs ∧ n.scope ∈ (run p L roots (ops ++ [i])).cut) := by
  have hrun : run p L roots (ops ++ [i]) = expand p L (run p L roots ops) i := by
    unfold run; rw [List.foldl_append]; rfl
  have hroute : (run p L roots ops).routeTruncs = (run p L roots ops).cut.length :=
    ((run_keeps (P := fun s => s.routeTruncs = s.cut.length) p L roots ops rfl) (fun s j hc => expand_cut p L s j hc))
  rw [hrun]
  generalize run p L roots ops = s at *
  unfold expand
  rw [hn]
  simp only
  split
  · next he => exact .inl he
  · split
    · next hb => exact .inr (.inl ⟨hb.1, rfl⟩)
    · split
      · next hx =>
        refine .inr (.inr ⟨?_, ?_⟩)
        · unfold routeBudgetExhausted at hx
          simp only [Bool.and_eq_true, decide_eq_true_eq] at hx
          exact hx.1
        · unfold noteRoute
          split
          · next hc => exact ⟨by rw [hroute]; exact List.length_pos_of_mem hc, hc⟩
          · exact ⟨by simp, by simp⟩
      · left
        have hexp := fold_keeps (P := fun s' => s'.expanded = i :: s.expanded) p L i n (scopeOf p (markExpanded s i) n).1
          (fun s' sc k hs _ => hs) (fun s' sp hs => (create_expanded _ _ _ _ _).trans hs) (p.plan n.ident)
          ((scopeOf p (markExpanded s i) n).2, 0) (scopeOf_expanded _ _ _)
        simp only [hexp]
        exact List.mem_cons_self

/-- **C26 (the numbers).** The nodes reported are the nodes built, roots aside, and the keys
reported are the different keys among them. -/
theorem C26_counts (p : Program) (L : Limits) (roots : List String) (ops : List Nat) :
    (run p L roots ops).materialized = (built (run p L roots ops).nodes).length ∧
    ∃ keys : List String, keys.Nodup ∧ (run p L roots ops).nodesBuilt = keys.length ∧
      ∀ k, k ∈ keys ↔ ∃ x ∈ built (run p L roots ops).nodes, x.key = k := by
  have h := run_count p L roots ops
  refine ⟨h.mat, _, h.any.1, h.any.2.1, fun k => ?_⟩
  rw [h.any.2.2]
  unfold built
  simp only [List.mem_filter, and_assoc]

/-! ## C27 -/

theorem filter_partition_perm {α : Type} (f : α → Bool) : ∀ l : List α,
    (l.filter f ++ l.filter (fun x => !f x)).Perm l
  | [] => List.Perm.refl _
  | a :: l => by
    have ih := filter_partition_perm f l
    cases h : f a with
    | true => simp only [List.filter_cons, h, if_true, Bool.not_true, Bool.false_eq_true, if_false, List.cons_append]
              exact ih.cons a
    | false => simp only [List.filter_cons, h, Bool.false_eq_true, if_false, Bool.not_false, if_true]
               exact List.perm_middle.trans (ih.cons a)

theorem order_eq (f : String → Bool) (plan : List Spec) (start : Nat) :
    orderTowardRoutes (some f) plan start =
      plan.take start ++ ((plan.drop start).filter (fun sp => f sp.key) ++ (plan.drop start).filter (fun sp => !f sp.key)) := by
  unfold orderTowardRoutes
  simp only
  split
  · next h => rw [List.drop_eq_nil_of_le h, List.take_of_length_le h]; simp
  · split
    · next h =>
      rcases h with h | h
      · rw [h, List.nil_append]
        have : (plan.drop start).filter (fun sp => !f sp.key) = plan.drop start := by
          rw [List.filter_eq_self]
          intro a ha
          have := List.filter_eq_nil_iff.mp h a ha
          simpa using this
        rw [this, List.take_append_drop]
      · rw [h, List.append_nil]
        have : (plan.drop start).filter (fun sp => f sp.key) = plan.drop start := by
          rw [List.filter_eq_self]
          intro a ha
          have := List.filter_eq_nil_iff.mp h a ha
          simpa using this
        rw [this, List.take_append_drop]
    · rfl

theorem order_split (leads : Option (String → Bool)) (plan : List Spec) (start : Nat) (hs : start ≤ plan.length) :
    (orderTowardRoutes leads plan start).take start = plan.take start ∧
    (orderTowardRoutes leads plan start).drop start =
      match leads with
      | none => plan.drop start
      | some f => (plan.drop start).filter (fun sp => f sp.key) ++ (plan.drop start).filter (fun sp => !f sp.key) := by
  cases leads with
  | none => exact ⟨rfl, rfl⟩
  | some f =>
    rw [order_eq]
    have hl : (plan.take start).length = start := by rw [List.length_take]; omega
    refine ⟨?_, ?_⟩
    · rw [List.take_append_of_le_length (by omega), List.take_of_length_le (by omega)]
    · exact List.drop_left' hl

/-- **C27.** Ordering toward routes permutes the children: the arguments in front stay as they
are; behind them, every call that leads to a route precedes every call that does not, and
within each class the order is kept. -/
theorem C27_reordering (f : String → Bool) (plan : List Spec) (start : Nat) (hs : start ≤ plan.length) :
    (orderTowardRoutes (some f) plan start).Perm plan ∧
    (orderTowardRoutes (some f) plan start).take start = plan.take start ∧
    ((orderTowardRoutes (some f) plan start).drop start).Pairwise (fun a b => f b.key = true → f a.key = true) ∧
    (∀ b, ((orderTowardRoutes (some f) plan start).drop start).filter (fun sp => f sp.key == b) =
      (plan.drop start).filter (fun sp => f sp.key == b)) := by
  have h := order_split (some f) plan start hs
  refine ⟨?_, h.1, ?_, ?_⟩
  · rw [order_eq]
    have := (filter_partition_perm (fun sp : Spec => f sp.key) (plan.drop start)).append_left (plan.take start)
    rwa [List.take_append_drop] at this
  · rw [h.2, List.pairwise_append]
    refine ⟨?_, ?_, ?_⟩
    · refine List.Pairwise.imp_of_mem ?_ (List.pairwise_of_forall (R := fun _ _ : Spec => True) (fun _ _ => trivial))
      intro a b ha _ _ _
      exact (List.mem_filter.mp ha).2
    · refine List.Pairwise.imp_of_mem ?_ (List.pairwise_of_forall (R := fun _ _ : Spec => True) (fun _ _ => trivial))
      intro a b _ hb _ hf
      have := (List.mem_filter.mp hb).2
      rw [hf] at this; simp at this
    · intro a ha b _ _
      exact (List.mem_filter.mp ha).2
  · intro b
    rw [h.2]
    simp only [List.filter_append, List.filter_filter]
    cases b with
    | true =>
      have : (plan.drop start).filter (fun a => (f a.key == true) && !f a.key) = [] := by
        rw [List.filter_eq_nil_iff]; intro a _; cases f a.key <;> simp
      rw [this, List.append_nil]
      congr 1; funext a; cases f a.key <;> rfl
    | false =>
      have : (plan.drop start).filter (fun a => (f a.key == false) && f a.key) = [] := by
        rw [List.filter_eq_nil_iff]; intro a _; cases f a.key <;> simp
      rw [this, List.nil_append]
      congr 1; funext a; cases f a.key <;> rfl

/-- Without a route predicate nothing is reordered. -/
theorem C27_unordered (plan : List Spec) (start : Nat) : orderTowardRoutes none plan start = plan := rfl

/-! ### What a plan contains -/

theorem callee_fold (l : List Attempt) : ∀ st : List String × List Spec,
    (∀ k, k ∈ st.1 ↔ k ∈ st.2.map Spec.key) → (st.2.map Spec.key).Nodup →
    (∀ k, k ∈ (l.foldl appendCallee st).1 ↔ k ∈ (l.foldl appendCallee st).2.map Spec.key) ∧
    ((l.foldl appendCallee st).2.map Spec.key).Nodup ∧
    (∀ k, k ∈ (l.foldl appendCallee st).2.map Spec.key ↔ k ∈ st.2.map Spec.key ∨ ∃ a ∈ l, a.passes = true ∧ a.key = k) ∧
    (∀ sp ∈ (l.foldl appendCallee st).2, sp ∈ st.2 ∨ ∃ a ∈ l, a.passes = true ∧
      sp = { key := a.key, edge := some a.edge, chain := a.chain }) := by
  induction l with
  | nil => intro st h1 h2; exact ⟨h1, h2, by simp, fun sp h => .inl h⟩
  | cons a l ih =>
    intro st h1 h2
    have hst : (∀ k, k ∈ (appendCallee st a).1 ↔ k ∈ (appendCallee st a).2.map Spec.key) ∧
        ((appendCallee st a).2.map Spec.key).Nodup ∧
        (∀ k, k ∈ (appendCallee st a).2.map Spec.key ↔ k ∈ st.2.map Spec.key ∨ (a.passes = true ∧ a.key = k)) ∧
        (∀ sp ∈ (appendCallee st a).2, sp ∈ st.2 ∨ (a.passes = true ∧ sp = { key := a.key, edge := some a.edge, chain := a.chain })) := by
      unfold appendCallee
      split
      · next hk => exact ⟨h1, h2, fun k => ⟨.inl, fun hh => hh.elim id (fun e => e.2 ▸ (h1 _).mp hk)⟩, fun sp h => .inl h⟩
      · next hk =>
        split
        · next hp => exact ⟨h1, h2, fun k => ⟨.inl, fun hh => hh.elim id (fun e => by rw [hp] at e; simp at e)⟩, fun sp h => .inl h⟩
        · next hp =>
          have hp : a.passes = true := by simpa using hp
          refine ⟨?_, ?_, ?_, ?_⟩
          · intro k
            simp only [List.mem_cons, List.map_append, List.map_cons, List.map_nil, List.mem_append, List.not_mem_nil, or_false]
            rw [h1]; exact or_comm
          · simp only [List.map_append, List.map_cons, List.map_nil]
            refine List.nodup_append.mpr ⟨h2, by simp, ?_⟩
            intro x hx y hy
            simp only [List.mem_singleton] at hy
            rw [hy]
            exact fun e => hk ((h1 _).mpr (e ▸ hx))
          · intro k
            simp only [List.map_append, List.map_cons, List.map_nil, List.mem_append, List.mem_singleton, hp, true_and]
            exact or_congr Iff.rfl eq_comm
          · intro sp hsp
            rcases List.mem_append.mp hsp with h | h
            · exact .inl h
            · exact .inr ⟨hp, List.mem_singleton.mp h⟩
    obtain ⟨s1, s2, s3, s4⟩ := hst
    obtain ⟨i1, i2, i3, i4⟩ := ih _ s1 s2
    refine ⟨i1, i2, ?_, ?_⟩
    · intro k
      rw [List.foldl_cons, i3, s3]
      simp only [List.mem_cons, exists_eq_or_imp, or_assoc]
    · intro sp hsp
      rcases i4 sp hsp with h | ⟨b, hb, h⟩
      · rcases s4 sp h with h | h
        · exact .inl h
        · exact .inr ⟨a, by simp, h⟩
      · exact .inr ⟨b, List.mem_cons_of_mem _ hb, h⟩

/-- **C27 (what a plan contains).** The arguments come first, in source order, up to the limit;
then calls, each call once, exactly those some source of calls offered and the generics
filter let through. -/
theorem C27_plan (maxArgs : Nat) (leads : Option (String → Bool)) (args : List ArgInfo) (attempts : List Attempt) :
    ∃ calls : List Spec,
      buildPlan maxArgs leads args attempts = argSpecs maxArgs args ++ calls ∧
      (argSpecs maxArgs args).map (fun sp => (sp.arg, some sp.key)) =
        ((args.take maxArgs).filter (fun a => a.key.isSome)).map (fun a => (some a.id, a.key)) ∧
      (∀ sp ∈ calls, sp.arg = none) ∧
      (calls.map Spec.key).Nodup ∧
      (∀ k, k ∈ calls.map Spec.key ↔ ∃ a ∈ attempts, a.passes = true ∧ a.key = k) := by
  obtain ⟨_, h2, h3, h4⟩ := callee_fold attempts ([], []) (by simp) (by simp)
  let plan := argSpecs maxArgs args ++ (attempts.foldl appendCallee ([], [])).2
  have hlen : (argSpecs maxArgs args).length ≤ plan.length := by simp [plan]
  have hsp := order_split leads plan (argSpecs maxArgs args).length hlen
  have htake : plan.take (argSpecs maxArgs args).length = argSpecs maxArgs args := by simp [plan]
  have hdrop : plan.drop (argSpecs maxArgs args).length = (attempts.foldl appendCallee ([], [])).2 := by simp [plan]
  rw [htake, hdrop] at hsp
  have hperm : ((orderTowardRoutes leads plan (argSpecs maxArgs args).length).drop (argSpecs maxArgs args).length).Perm
      (attempts.foldl appendCallee ([], [])).2 := by
    rw [hsp.2]
    cases leads with
    | none => exact List.Perm.refl _
    | some f => exact filter_partition_perm (fun sp : Spec => f sp.key) _
  refine ⟨(orderTowardRoutes leads plan (argSpecs maxArgs args).length).drop (argSpecs maxArgs args).length, ?_, ?_, ?_, ?_, ?_⟩
  · show orderTowardRoutes leads plan _ = _
    conv => lhs; rw [← List.take_append_drop (argSpecs maxArgs args).length (orderTowardRoutes leads plan _)]
    rw [hsp.1]
  · unfold argSpecs
    induction args.take maxArgs with
    | nil => rfl
    | cons a l ih => cases hk : a.key <;> simp [hk, ih]
  · intro sp hs
    rcases h4 sp (hperm.subset hs) with h | ⟨a, _, _, h⟩
    · simp at h
    · rw [h]
  · exact (hperm.map Spec.key).nodup_iff.mpr h2
  · intro k
    rw [(hperm.map Spec.key).mem_iff, h3]
    simp

/-! ### Reordering does not change what is explored -/

/-- The planned children that are neither on the path nor barren. -/
def wanted (p : Program) (n : Node) (l : List Spec) : List Spec :=
  l.filter fun sp => !n.onPath sp.key && p.canReach sp

/-- Enough allowance: neither the children limit nor the instance cap can refuse any of `l`. -/
def Ample (L : Limits) (n : Node) (s : St) (count : Nat) (w : List Spec) : Prop :=
  count + w.countP (fun sp => sp.arg.isNone) ≤ L.maxChildren ∧
  ∀ k, s.inst n.instanceScope k + w.countP (fun sp => sp.key == k) ≤ L.instances

theorem fold_ample (p : Program) (L : Limits) (i : Nat) (n : Node) (cs : Nat) : ∀ (l : List Spec) (a : St × Nat),
    Ample L n a.1 a.2 (wanted p n l) →
    (l.foldl (childStep p L i n cs) a).1.nodes = a.1.nodes ++ (wanted p n l).map (mkChild i n cs)
  | [], a, _ => by simp [wanted]
  | sp :: l, a, h => by
    rw [List.foldl_cons]
    by_cases hw : n.onPath sp.key = false ∧ p.canReach sp = true
    · have hwl : wanted p n (sp :: l) = sp :: wanted p n l := by
        unfold wanted; rw [List.filter_cons, if_pos (by simp [hw.1, hw.2])]
      rw [hwl] at h ⊢
      obtain ⟨h1, h2⟩ := h
      have hinst : ¬ L.instances ≤ a.1.inst n.instanceScope sp.key := by
        have := h2 sp.key
        rw [List.countP_cons_of_pos (by simp)] at this
        omega
      have hstep : childStep p L i n cs a sp = (create i n cs a.1 sp, if sp.arg = none then a.2 + 1 else a.2) := by
        unfold childStep
        rw [if_neg, if_neg (by simp [hw.1]), if_neg (by simp [hw.2]), if_neg hinst]
        rintro ⟨e, hh⟩
        rw [List.countP_cons_of_pos (by simp [e])] at h1
        omega
      rw [hstep, fold_ample p L i n cs l]
      · simp only [create_nodes, List.map_cons, List.append_assoc, List.singleton_append]
      · refine ⟨?_, fun k => ?_⟩
        · by_cases e : sp.arg = none
          · rw [List.countP_cons_of_pos (by simp [e])] at h1
            rw [if_pos e]; omega
          · rw [List.countP_cons_of_neg (by simp [e])] at h1
            rw [if_neg e]; exact h1
        · have := h2 k
          rw [create_inst]
          unfold bump
          by_cases e : k = sp.key
          · rw [List.countP_cons_of_pos (by simp [e])] at this
            rw [if_pos ⟨rfl, e⟩]; omega
          · rw [List.countP_cons_of_neg (by simpa using fun h => e h.symm)] at this
            rw [if_neg (fun h => e h.2)]; exact this
    · have hwl : wanted p n (sp :: l) = wanted p n l := by
        unfold wanted
        rw [List.filter_cons, if_neg]
        simp only [Bool.and_eq_true, Bool.not_eq_true']
        exact hw
      rw [hwl] at h ⊢
      have hstep : childStep p L i n cs a sp = a := by
        unfold childStep
        split
        · rfl
        · split
          · rfl
          · next hp =>
            split
            · rfl
            · next hr => exact absurd ⟨by simpa using hp, by simpa using hr⟩ hw
      rw [hstep]
      exact fold_ample p L i n cs l a h

theorem ample_perm {L : Limits} {n : Node} {s : St} {c : Nat} {w w' : List Spec} (h : w.Perm w') (ha : Ample L n s c w) :
    Ample L n s c w' :=
  ⟨by rw [← h.countP_eq]; exact ha.1, fun k => by rw [← h.countP_eq]; exact ha.2 k⟩

/-- **C27 (nothing is lost or gained).** Where the limits leave room for all of a node's
children, expanding it by any reordering of its plan lists the same children, permuted. -/
theorem C27_explores_the_same (p p' : Program) (L : Limits) (s : St) (i : Nat) (n : Node) (cs : Nat)
    (hreach : p'.canReach = p.canReach) (hplan : (p'.plan n.ident).Perm (p.plan n.ident))
    (h : Ample L n s 0 (wanted p n (p.plan n.ident))) :
    ∃ new new', ((p.plan n.ident).foldl (childStep p L i n cs) (s, 0)).1.nodes = s.nodes ++ new ∧
      ((p'.plan n.ident).foldl (childStep p' L i n cs) (s, 0)).1.nodes = s.nodes ++ new' ∧ new'.Perm new := by
  have hw : (wanted p' n (p'.plan n.ident)).Perm (wanted p n (p.plan n.ident)) := by
    unfold wanted; rw [hreach]; exact hplan.filter _
  exact ⟨_, _, fold_ample p L i n cs _ _ h, fold_ample p' L i n cs _ _ (ample_perm hw.symm h), hw.map _⟩

/-! ## Concrete cases -/

/-- `main` calls `a` and `b`; `a` calls `b`, `b` calls `a`: a cyclic call graph. -/
def cyc : Program where
  plan id := match id.key with
    | "main" => [{ key := "a", edge := some 1 }, { key := "b", edge := some 2 }]
    | "a" => [{ key := "b", edge := some 3 }]
    | "b" => [{ key := "a", edge := some 4 }]
    | _ => []
  canReach _ := true
  terminal e := e == 1

def lim : Limits := { maxNodes := 0, maxChildren := 10, maxInstances := 0, maxRoute := 0 }

theorem cyc_keys : KeysIn cyc ["a", "b"] := by
  intro id sp h
  unfold cyc at h
  simp only at h
  split at h <;> simp only [List.mem_cons, List.not_mem_nil, or_false] at h
  · rcases h with h | h <;> simp [h]
  · simp [h]
  · simp [h]

theorem cyc_plans : ∀ id, (cyc.plan id).length ≤ 2 := by
  intro id
  unfold cyc
  simp only
  split <;> simp

/-- The cyclic program is explored to the end: five nodes, whatever is asked again. -/
example : ((run cyc lim ["main"] [0, 1, 2, 3, 4, 0, 1, 2, 3, 4]).nodes.map Node.key = ["main", "a", "b", "b", "a"]) ∧
    reportsTruncation (run cyc lim ["main"] [0, 1, 2, 3, 4]) = false := by decide

example (ops : List Nat) : (run cyc lim ["main"] ops).nodes.length ≤ 1 + (2 + 1) * 2 * 100 :=
  C25_bounded cyc lim ["main"] ["a", "b"] cyc_keys ops
example (ops : List Nat) : growths cyc lim (start ["main"]) ops ≤ 1 + (2 + 1) * 2 * 100 :=
  C25_settles cyc lim ["main"] ["a", "b"] cyc_keys ops
example : growths cyc lim (start ["main"]) [0, 1, 2, 3, 4, 0, 1] = 3 := by decide
/-- The call of `a` from `main` registers a route; what it lists has a scope of its own. -/
example : Registers cyc ⟨[⟨"a", false⟩, ⟨"main", false⟩], some 1, none, 0, some 0⟩ ∧
    (run cyc lim ["main"] [0, 1, 2, 3]).nodes.map Node.scope = [0, 0, 0, 1, 0] := ⟨⟨rfl, 1, rfl, rfl⟩, by decide⟩
example (ops : List Nat) : inRoute (run cyc { lim with maxRoute := 1 } ["main"] ops).nodes 1 ≤ 1 - 1 + 2 :=
  C25_route_budget cyc _ ["main"] 2 cyc_plans ops 1 (by decide)
/-- The route below edge 1 spends a budget of one node, and is counted as cut. -/
example : inRoute (run cyc { lim with maxRoute := 1 } ["main"] [0, 1, 3]).nodes 1 = 1 ∧
    (run cyc { lim with maxRoute := 1 } ["main"] [0, 1, 3]).routeTruncs = 1 := by decide
/-- The instance cap refuses the second `b`. -/
example : (run cyc { lim with maxInstances := 1 } ["main"] [0, 1, 2]).instTruncs = 2 := by decide
/-- The node budget stops the second expansion above the routes. -/
example : (run cyc { lim with maxNodes := 1 } ["main"] [0, 2]).truncated = true ∧
    IsWiringKeys (run cyc { lim with maxNodes := 1 } ["main"] [0, 2]) ["a", "b"] := by
  refine ⟨by decide, by decide, fun k => ?_⟩
  have : (run cyc { lim with maxNodes := 1 } ["main"] [0, 2]).nodes =
      [⟨[⟨"main", false⟩], none, none, 0, none⟩, ⟨[⟨"a", false⟩, ⟨"main", false⟩], some 1, none, 0, some 0⟩,
       ⟨[⟨"b", false⟩, ⟨"main", false⟩], some 2, none, 0, some 0⟩] := by decide
  rw [this]
  constructor
  · intro h
    simp only [List.mem_cons, List.not_mem_nil, or_false] at h
    rcases h with h | h
    · exact ⟨⟨[⟨"a", false⟩, ⟨"main", false⟩], some 1, none, 0, some 0⟩, by simp, rfl, rfl, h.symm⟩
    · exact ⟨⟨[⟨"b", false⟩, ⟨"main", false⟩], some 2, none, 0, some 0⟩, by simp, rfl, rfl, h.symm⟩
  · rintro ⟨x, hx, h1, _, h3⟩
    simp only [List.mem_cons, List.not_mem_nil, or_false] at hx
    rcases hx with rfl | rfl | rfl
    · simp at h1
    · rw [← h3]; exact List.mem_cons_self
    · rw [← h3]; exact List.mem_cons_of_mem _ List.mem_cons_self
/-- Larger budgets than sufficient ones change nothing. -/
example : run cyc { lim with maxNodes := 7 } ["main"] [0, 1, 2, 3, 4] = run cyc { lim with maxNodes := 5 } ["main"] [0, 1, 2, 3, 4] :=
  C26_silence_means_complete_partial cyc _ _ ⟨rfl, .inr ⟨by decide, by decide⟩, Nat.le_refl _, Nat.le_refl _⟩ _ _ (by decide)

example : Listed (run cyc lim ["main"] [0]).nodes 0 { key := "b", edge := some 2 } := by
  rcases C26_nothing_missing cyc lim ["main"] [0] 0 (by decide) ⟨[⟨"main", false⟩], none, none, 0, none⟩ (by decide)
    { key := "b", edge := some 2 } (by decide) (by simp) rfl with h | ⟨_, h⟩ | h
  · exact h
  · exact absurd h (by decide)
  · exact absurd h (by decide)
example : 0 ∈ (run cyc lim ["main"] [0]).expanded := by decide

/-- **C26, negation.** The limit on children is not reported: here a call is left out of the
tree, a larger limit shows it, and the statistics report nothing. -/
theorem C26_children_limit_silent :
    ∃ (p : Program) (L : Limits) (roots : List String) (ops : List Nat),
      reportsTruncation (run p L roots ops) = false ∧
      (run p { L with maxChildren := L.maxChildren + 1 } roots ops).nodes ≠ (run p L roots ops).nodes ∧
      reportsTruncation (run p { L with maxChildren := L.maxChildren + 1 } roots ops) = false :=
  ⟨cyc, { lim with maxChildren := 1 }, ["main"], [0], by decide, by decide, by decide⟩

/-- **C26, the converse.** A report does not mean that anything is missing: a leaf expanded
when the node budget has just been used up is reported, although the tree is complete. -/
theorem C26_false_alarm :
    ∃ (p : Program) (L : Limits) (roots : List String) (ops : List Nat),
      reportsTruncation (run p L roots ops) = true ∧
      (run p { L with maxNodes := 0 } roots ops).nodes = (run p L roots ops).nodes ∧
      reportsTruncation (run p { L with maxNodes := 0 } roots ops) = false :=
  ⟨{ plan := fun id => if id.key = "main" then [{ key := "a", edge := some 1 }] else [], canReach := fun _ => true,
     terminal := fun _ => false }, { lim with maxNodes := 1 }, ["main"], [0, 1], by decide, by decide, by decide⟩

/-- A builder chain: `h` is called by `main`, `m` is chained on `h`'s result, and `m` calls `h`. -/
def chained : Program where
  plan id := match id.key with
    | "main" => [{ key := "h", edge := some 1 }]
    | "h" => [{ key := "m", edge := some 2, chain := true }]
    | "m" => [{ key := "h", edge := some 3 }]
    | _ => []
  canReach _ := true
  terminal _ := false

/-- **C25, negation.** Followed through the lists of children instead of the parents, a path
can meet the same call twice: a chained call is listed under one node and has another as its
parent, so the node listing it is not on its path. -/
theorem C25_chain_repeats :
    ∃ (p : Program) (L : Limits) (roots : List String) (ops : List Nat) (a b c : Nat) (x y z : Node),
      (run p L roots ops).nodes[a]? = some x ∧ (run p L roots ops).nodes[b]? = some y ∧
      (run p L roots ops).nodes[c]? = some z ∧ y.lister = some a ∧ z.lister = some b ∧ x.key = z.key :=
  ⟨chained, lim, ["main"], [0, 1, 2], 1, 2, 3, _, _, _, rfl, rfl, rfl, by decide, by decide, by decide⟩

def planEx : List Spec :=
  [{ key := "arg", arg := some 1 }, { key := "log", edge := some 1 }, { key := "routes", edge := some 2 },
   { key := "db", edge := some 3 }, { key := "mount", edge := some 4 }]

example : (orderTowardRoutes (some fun k => k == "routes" || k == "mount") planEx 1).map Spec.key =
    ["arg", "routes", "mount", "log", "db"] := by decide
example := C27_reordering (fun k => k == "routes" || k == "mount") planEx 1 (by decide)
example : (buildPlan 10 none [⟨1, some "x", none⟩, ⟨3, none, none⟩] [⟨1, "f", false, true⟩, ⟨2, "f", false, true⟩, ⟨3, "g", false, false⟩]).map Spec.key =
    ["x", "f"] := by decide
/-- Room for everything: the root of `cyc` lists both calls in either order. -/
example : Ample lim (Node.mk [⟨"main", false⟩] none none 0 none) (start ["main"]) 0
    (wanted cyc (Node.mk [⟨"main", false⟩] none none 0 none) (cyc.plan ⟨"main", none, none, false⟩)) := by
  refine ⟨by decide, fun k => ?_⟩
  exact Nat.le_trans (Nat.add_le_add_left List.countP_le_length _) (by show 0 + 2 ≤ 100; decide)

end Verif.Lazy
