import Verif.InsightPathProps

/-!
C68, the trace graph of an endpoint, and C40 for the walk that resolves interface calls.
Code: /repo/internal/insight/metrics.go:296-397, 914-1003.
-/

namespace Verif.InsightProps
open Verif.Common Verif.InsightModel

/-! ## The order of the nodes -/

/-- Nearer first, then by name. -/
def Before (a b : String × Nat) : Prop := a.2 < b.2 ∨ (a.2 = b.2 ∧ a.1 ≤ b.1)

theorem nodeLe_iff (a b : String × Nat) : nodeLe a b = true ↔ Before a b := by
  simp only [nodeLe, Before, Bool.or_eq_true, Bool.and_eq_true, decide_eq_true_eq, strLe]

theorem nodeLe_ord : TotalOrd nodeLe where
  trans a b c h1 h2 := by
    rw [nodeLe_iff] at *
    rcases h1 with h1 | ⟨h1, h1'⟩ <;> rcases h2 with h2 | ⟨h2, h2'⟩
    · exact .inl (by omega)
    · exact .inl (by omega)
    · exact .inl (by omega)
    · exact .inr ⟨by omega, String.le_trans h1' h2'⟩
  total a b := by
    rw [nodeLe_iff, nodeLe_iff]
    rcases Nat.lt_trichotomy a.2 b.2 with h | h | h
    · exact .inl (.inl h)
    · rcases String.le_total a.1 b.1 with h' | h'
      · exact .inl (.inr ⟨h, h'⟩)
      · exact .inr (.inr ⟨h.symm, h'⟩)
    · exact .inr (.inl h)
  antisymm a b h1 h2 := by
    rw [nodeLe_iff] at *
    rcases h1 with h1 | ⟨h1, h1'⟩ <;> rcases h2 with h2 | ⟨h2, h2'⟩
    · omega
    · omega
    · omega
    · exact Prod.ext (String.le_antisymm h1' h2') h1

theorem calledBy_inner (n : String) : ∀ (l : List String) (k : Nat), l.Nodup → l.foldl (fun k x => if x = n then k + 1 else k) k = k + if n ∈ l then 1 else 0 := by
  intro l
  induction l with
  | nil => intro k _; simp
  | cons x l ih =>
    intro k hn
    obtain ⟨h1, h2⟩ := List.nodup_cons.1 hn
    rw [List.foldl_cons, ih _ h2]
    by_cases hx : x = n
    · subst hx; simp [h1]
    · have : n ≠ x := fun e => hx e.symm
      simp [hx, this]

theorem calledBy_eq (adj : List (String × List String)) (n : String) (h : ∀ e ∈ adj, e.2.Nodup) : calledBy adj n = (adj.filter fun e => decide (n ∈ e.2)).length := by
  have : ∀ (adj : List (String × List String)) (k : Nat), (∀ e ∈ adj, e.2.Nodup) →
      adj.foldl (fun k e => e.2.foldl (fun k x => if x = n then k + 1 else k) k) k = k + (adj.filter fun e => decide (n ∈ e.2)).length := by
    intro adj
    induction adj with
    | nil => intro k _; simp
    | cons e adj ih =>
      intro k hh
      rw [List.foldl_cons, calledBy_inner n e.2 k (hh e (by simp)), ih _ (fun e he => hh e (List.mem_cons_of_mem _ he)), List.filter_cons]
      by_cases hn : n ∈ e.2
      · simp [hn]; omega
      · simp [hn]
  rw [calledBy, this adj 0 h, Nat.zero_add]

/-- **C68** The nodes: there is a split of the known functions into those shown and those not, in which the shown ones are
no more than the limit, all of them unless the graph says it was cut, and each of them comes before each one not shown. -/
theorem C68_nearest (L : Limits) (adj : List (String × List String)) (depth : List (String × Nat)) (root : String) :
    ∃ shown hidden : List (String × Nat), (shown ++ hidden).Perm depth ∧ (shown ++ hidden).Pairwise Before ∧ shown.length ≤ L.graph ∧
      ((buildGraph L adj depth root).truncated = false ↔ hidden = []) ∧ ((buildGraph L adj depth root).truncated = true ↔ L.graph < depth.length) ∧
      (hidden ≠ [] → shown.length = L.graph) ∧
      (buildGraph L adj depth root).nodes.map (fun t => (t.id, t.depth)) = shown := by
  refine ⟨(isort nodeLe depth).take L.graph, (isort nodeLe depth).drop L.graph, ?_, ?_, ?_, ?_, ?_, ?_, ?_⟩
  · rw [List.take_append_drop]; exact isort_perm ..
  · rw [List.take_append_drop]
    exact (isort_pairwise nodeLe_ord.toTotalPre depth).imp fun h => (nodeLe_iff _ _).1 h
  · rw [List.length_take]; omega
  · simp only [buildGraph, decide_eq_false_iff_not, List.drop_eq_nil_iff]; omega
  · simp only [buildGraph, decide_eq_true_eq, length_isort]
  · intro h
    rw [List.length_take]
    rw [ne_eq, List.drop_eq_nil_iff] at h
    omega
  · simp only [buildGraph, List.map_map]
    rw [show ((fun t : TNode => (t.id, t.depth)) ∘ mkNode adj root) = id from rfl, List.map_id]

/-- **C68** The nodes: what is said about each. -/
theorem C68_nodes (L : Limits) (adj : List (String × List String)) (depth : List (String × Nat)) (root : String) (hk : (adj.map (·.1)).Nodup) (hl : ∀ e ∈ adj, e.2.Nodup) :
    ∀ t ∈ (buildGraph L adj depth root).nodes, (t.id, t.depth) ∈ depth ∧
      (t.kind = .handler ↔ t.id = root) ∧ (t.kind = .leaf ↔ t.id ≠ root ∧ ∀ k, k ∉ kids adj t.id) ∧
      t.calls = (kids adj t.id).length ∧ ∃ callers : List String, callers.Nodup ∧ (∀ a, a ∈ callers ↔ t.id ∈ kids adj a) ∧ callers.length = t.calledBy := by
  intro t ht
  simp only [buildGraph] at ht
  obtain ⟨n, hn, rfl⟩ := List.mem_map.1 ht
  have hn' : n ∈ depth := (mem_isort _ _ _).1 (List.mem_of_mem_take hn)
  refine ⟨hn', ?_, ?_, rfl, ?_⟩
  · simp only [mkNode]
    by_cases h : n.1 = root
    · simp [h]
    · by_cases h' : (kids adj n.1).isEmpty <;> simp [h, h']
  · simp only [mkNode]
    by_cases h : n.1 = root
    · simp [h]
    · by_cases h' : kids adj n.1 = []
      · simp [h, h']
      · have h3 : (kids adj n.1).isEmpty = false := by simpa using h'
        simp only [h, h3, if_false, Bool.false_eq_true]
        simp only [ne_eq, h, not_false_eq_true, true_and, reduceCtorEq, false_iff]
        intro hall
        exact h' (List.eq_nil_iff_forall_not_mem.2 hall)
  · refine ⟨(adj.filter fun e => decide (n.1 ∈ e.2)).map (·.1), ?_, ?_, ?_⟩
    · exact hk.sublist (List.Sublist.map _ List.filter_sublist)
    · intro a
      rw [List.mem_map]
      constructor
      · rintro ⟨e, he, rfl⟩
        obtain ⟨he1, he2⟩ := List.mem_filter.1 he
        simp only [mkNode, kids]
        rw [mget_of_mem (k := e.1) (v := e.2) hk he1]
        simpa using he2
      · intro h
        simp only [mkNode, kids] at h
        cases hm : mget adj a with
        | none => rw [hm] at h; cases h
        | some l =>
          rw [hm] at h
          exact ⟨(a, l), List.mem_filter.2 ⟨mem_of_mget hm, by simpa using h⟩, rfl⟩
    · rw [List.length_map]; exact (calledBy_eq adj n.1 hl).symm

/-- **C68** The edges are exactly the calls between shown functions, each once. -/
theorem C68_edges (L : Limits) (adj : List (String × List String)) (depth : List (String × Nat)) (root : String) (hk : (adj.map (·.1)).Nodup) (hl : ∀ e ∈ adj, e.2.Nodup) :
    (buildGraph L adj depth root).edges.Nodup ∧ ∀ a b, (a, b) ∈ (buildGraph L adj depth root).edges ↔
      b ∈ kids adj a ∧ (∃ t ∈ (buildGraph L adj depth root).nodes, t.id = a) ∧ ∃ t ∈ (buildGraph L adj depth root).nodes, t.id = b := by
  have hids : ∀ x, x ∈ ((isort nodeLe depth).take L.graph).map (·.1) ↔ ∃ t ∈ (buildGraph L adj depth root).nodes, t.id = x := by
    intro x
    simp only [buildGraph, List.mem_map]
    constructor
    · rintro ⟨n, hn, rfl⟩; exact ⟨_, ⟨n, hn, rfl⟩, rfl⟩
    · rintro ⟨_, ⟨n, hn, rfl⟩, rfl⟩; exact ⟨n, hn, rfl⟩
  constructor
  · simp only [buildGraph]
    generalize ((isort nodeLe depth).take L.graph).map (·.1) = ids
    clear hids
    induction adj with
    | nil => simp
    | cons e adj ih =>
      rw [List.map_cons] at hk
      obtain ⟨hk1, hk2⟩ := List.nodup_cons.1 hk
      rw [List.flatMap_cons, List.nodup_append]
      refine ⟨?_, ih hk2 (fun e he => hl e (List.mem_cons_of_mem _ he)), ?_⟩
      · split
        · rw [List.nodup_iff_pairwise_ne, List.pairwise_map]
          exact (List.nodup_iff_pairwise_ne.1 ((hl e (by simp)).filter _)).imp fun h e => h (Prod.mk.inj e).2
        · simp
      · rintro ⟨x, y⟩ hx _ hy rfl
        have h1 : x = e.1 := by
          split at hx
          · obtain ⟨k, _, he⟩ := List.mem_map.1 hx; exact (Prod.mk.inj he).1.symm
          · cases hx
        obtain ⟨e', he', hy⟩ := List.mem_flatMap.1 hy
        have h2 : x = e'.1 := by
          split at hy
          · obtain ⟨k, _, he⟩ := List.mem_map.1 hy; exact (Prod.mk.inj he).1.symm
          · cases hy
        exact hk1 (List.mem_map.2 ⟨e', he', by rw [← h2, h1]⟩)
  · intro a b
    rw [← hids, ← hids]
    simp only [buildGraph]
    generalize ((isort nodeLe depth).take L.graph).map (·.1) = ids
    rw [List.mem_flatMap]
    constructor
    · rintro ⟨e, he, h⟩
      split at h
      · next hc =>
        obtain ⟨k, hk', heq⟩ := List.mem_map.1 h
        obtain ⟨rfl, rfl⟩ := Prod.mk.inj heq
        obtain ⟨h1, h2⟩ := List.mem_filter.1 hk'
        refine ⟨?_, by simpa using hc, by simpa using h2⟩
        rw [kids, mget_of_mem (k := e.1) (v := e.2) hk he]
        exact h1
      · cases h
    · rintro ⟨h1, h2, h3⟩
      rw [kids] at h1
      cases hm : mget adj a with
      | none => rw [hm] at h1; cases h1
      | some l =>
        rw [hm] at h1
        refine ⟨(a, l), mem_of_mget hm, ?_⟩
        rw [if_pos (by simpa using h2)]
        exact List.mem_map.2 ⟨b, List.mem_filter.2 ⟨h1, by simpa using h3⟩, rfl⟩

/-- **C68** The nodes and the mark do not depend on the order in which the maps are enumerated, and the set of edges does
not either. -/
theorem C68_order_partial (L : Limits) (adj adj' : List (String × List String)) (depth depth' : List (String × Nat)) (root : String) (hk : (adj.map (·.1)).Nodup)
    (hl : ∀ e ∈ adj, e.2.Nodup) (ha : adj.Perm adj') (hd : depth.Perm depth') :
    (buildGraph L adj depth root).nodes = (buildGraph L adj' depth' root).nodes ∧ (buildGraph L adj depth root).truncated = (buildGraph L adj' depth' root).truncated ∧
      (buildGraph L adj depth root).edges.Perm (buildGraph L adj' depth' root).edges := by
  have e : isort nodeLe depth = isort nodeLe depth' := isort_eq_of_perm nodeLe_ord hd
  refine ⟨?_, ?_, ?_⟩
  · simp only [buildGraph, e]
    apply List.map_congr_left
    intro n _
    have e1 : kids adj n.1 = kids adj' n.1 := by simp only [kids, mget_perm ha hk]
    simp only [mkNode, e1, calledBy_eq adj n.1 hl, calledBy_eq adj' n.1 (fun x hx => hl x (ha.mem_iff.2 hx)), (ha.filter _).length_eq]
  · simp only [buildGraph, e]
  · simp only [buildGraph, e]
    exact ha.flatMap_right _

/-- **C68** The order of the edges does depend on it. -/
theorem C68_edges_unordered : ∃ (adj adj' : List (String × List String)) (depth : List (String × Nat)), (adj.map (·.1)).Nodup ∧ (∀ e ∈ adj, e.2.Nodup) ∧ adj.Perm adj' ∧
    (buildGraph {} adj depth "h").edges ≠ (buildGraph {} adj' depth "h").edges :=
  ⟨[("h", ["a"]), ("a", ["b"])], [("a", ["b"]), ("h", ["a"])], [("h", 0), ("a", 1), ("b", 2)], by decide, by decide, .swap .., by decide⟩

example : buildGraph { graph := 3 } [("h", ["b", "a"]), ("a", ["c"]), ("b", ["a"])] [("c", 2), ("b", 1), ("h", 0), ("a", 1)] "h" =
    ⟨[⟨"h", 0, .handler, 2, 0⟩, ⟨"a", 1, .callee, 1, 2⟩, ⟨"b", 1, .callee, 1, 1⟩], [("h", "b"), ("h", "a"), ("b", "a")], true⟩ := by decide

/-! ## The call sites shown at a node -/

/-- By place, then by caller. -/
def SiteBefore (a b : Site) : Prop := (a.pos ≠ b.pos ∧ a.pos ≤ b.pos) ∨ (a.pos = b.pos ∧ a.caller ≤ b.caller)

theorem siteLe_iff (a b : Site) : siteLe a b = true ↔ SiteBefore a b := by
  simp only [siteLe, SiteBefore, Bool.or_eq_true, Bool.and_eq_true, decide_eq_true_eq, strLe]

theorem siteLe_pre : TotalPre siteLe where
  trans a b c h1 h2 := by
    rw [siteLe_iff] at *
    rcases h1 with ⟨h1, h1'⟩ | ⟨h1, h1'⟩ <;> rcases h2 with ⟨h2, h2'⟩ | ⟨h2, h2'⟩
    · refine .inl ⟨fun e => ?_, String.le_trans h1' h2'⟩
      rw [← e] at h2'
      exact h1 (String.le_antisymm h1' h2')
    · exact .inl ⟨by rw [← h2]; exact h1, by rw [← h2]; exact h1'⟩
    · exact .inl ⟨by rw [h1]; exact h2, by rw [h1]; exact h2'⟩
    · exact .inr ⟨h1.trans h2, String.le_trans h1' h2'⟩
  total a b := by
    rw [siteLe_iff, siteLe_iff]
    by_cases h : a.pos = b.pos
    · rcases String.le_total a.caller b.caller with h' | h'
      · exact .inl (.inr ⟨h, h'⟩)
      · exact .inr (.inr ⟨h.symm, h'⟩)
    · rcases String.le_total a.pos b.pos with h' | h'
      · exact .inl (.inl ⟨h, h'⟩)
      · exact .inr (.inl ⟨fun e => h e.symm, h'⟩)

/-- **C68** The places a function is called from, when there are several: all of them, in order, whatever the order of the map. -/
theorem C68_sites (sites : List Site) (h2 : 2 ≤ sites.length) :
    (sortedSites sites).Perm sites ∧ (sortedSites sites).Pairwise SiteBefore ∧
      ∀ sites', sites.Perm sites' → (∀ a ∈ sites, ∀ b ∈ sites, a.callee = b.callee) → sortedSites sites = sortedSites sites' := by
  have e : ∀ s : List Site, 2 ≤ s.length → sortedSites s = isort siteLe s := fun s hs => by rw [sortedSites, if_neg (by omega)]
  refine ⟨by rw [e _ h2]; exact isort_perm .., by rw [e _ h2]; exact (isort_pairwise siteLe_pre sites).imp fun h => (siteLe_iff _ _).1 h, ?_⟩
  intro sites' hp hc
  rw [e _ h2, e _ (by rw [← hp.length_eq]; exact h2)]
  refine isort_eq_of_perm_on siteLe_pre ?_ hp
  intro a ha b hb h1 h3
  rw [siteLe_iff] at h1 h3
  have hab := hc a ha b hb
  rcases a with ⟨x, y, z⟩; rcases b with ⟨x', y', z'⟩
  simp only [SiteBefore] at *
  subst hab
  rcases h1 with ⟨h1, h1'⟩ | ⟨h1, h1'⟩ <;> rcases h3 with ⟨h3, h3'⟩ | ⟨h3, h3'⟩
  · exact absurd (String.le_antisymm h1' h3') h1
  · exact absurd h3.symm h1
  · exact absurd h1.symm h3
  · subst h1; rw [String.le_antisymm h1' h3']

example : sortedSites [⟨"f", "b.go:3", "g"⟩, ⟨"f", "a.go:9", "h"⟩] = [⟨"f", "a.go:9", "h"⟩, ⟨"f", "b.go:3", "g"⟩] := by decide

/-! ## The graph of a walk -/

/-- Maps have each key once. -/
structure KeyInv (s : Walk) : Prop where
  adj : (s.adj.map (·.1)).Nodup
  depth : (s.depth.map (·.1)).Nodup

theorem keyInv_meet {L : Limits} {s : Walk} {id : String} {d : Nat} (h : KeyInv s) : KeyInv (meet L s id d) := by
  unfold meet
  split
  · exact h
  · split
    · exact ⟨h.adj, nodup_mset _ _ _ h.depth⟩
    · exact ⟨h.adj, h.depth⟩

theorem keyInv_addCall {L : Limits} {label : String → String} {cur : String} {d : Nat} (s : Walk × List String) (c : Call) (h : KeyInv s.1) : KeyInv (addCall L label cur d s c).1 := by
  obtain ⟨r1, r2, r3, r4, -⟩ := recordSite_same label s.1 c.callee cur c.pos
  simp only [addCall]
  split
  · exact h
  · split
    · exact ⟨by rw [r4]; exact h.adj, by rw [r3]; exact h.depth⟩
    · refine keyInv_meet ⟨?_, ?_⟩
      · simp only [r4]; exact nodup_mset _ _ _ h.adj
      · simp only [r3]; exact h.depth

theorem keyInv_expand {L : Limits} {label : String → String} {calls : String → List Call} {s : Walk} {cur : String} (h : KeyInv s) : KeyInv (expand L label calls s cur) := by
  simp only [expand]
  split
  · exact ⟨h.adj, h.depth⟩
  · have : ∀ (l : List Call) (s : Walk × List String) (d : Nat), KeyInv s.1 → KeyInv (l.foldl (addCall L label cur d) s).1 := by
      intro l
      induction l with
      | nil => intro s d h; exact h
      | cons c l ih => intro s d h; exact ih _ d (keyInv_addCall s c h)
    have := this (calls cur) (s, []) ((mget s.depth cur).getD 0) h
    obtain ⟨-, -, c3, c4, -⟩ := countFan_same ((calls cur).foldl (addCall L label cur ((mget s.depth cur).getD 0)) (s, [])).1
      (kids ((calls cur).foldl (addCall L label cur ((mget s.depth cur).getD 0)) (s, [])).1.adj cur).length
    exact ⟨by rw [c4]; exact this.adj, by rw [c3]; exact this.depth⟩

theorem walk_keys {L : Limits} {label : String → String} {calls : String → List Call} {root : String} {w : Walk} (hw : analyze L label calls root = some w) : KeyInv w :=
  (loop_inv (P := KeyInv) (fun s cur q _ h => keyInv_expand (s := { s with queue := q }) ⟨h.adj, h.depth⟩) _ _ _ ⟨by simp [start], by simp [start]⟩ hw).1

/-- **C68** The graph of an endpoint whose walk was not cut and which has no more functions than the limit: it shows exactly the
functions the handler can reach, each at its distance, and exactly the calls between them, each once. -/
theorem C68_whole (L : Limits) (label : String → String) (calls : String → List Call) (root : String) (w : Walk) (hw : analyze L label calls root = some w) (ht : w.truncated = false)
    (hg : (buildGraph L w.adj w.depth root).truncated = false) :
    (((buildGraph L w.adj w.depth root).nodes.map (·.id)).Nodup ∧ ∀ x d, (∃ t ∈ (buildGraph L w.adj w.depth root).nodes, t.id = x ∧ t.depth = d) ↔ Dist (Calls calls) root d x) ∧
    (buildGraph L w.adj w.depth root).edges.Nodup ∧ ∀ a b, (a, b) ∈ (buildGraph L w.adj w.depth root).edges ↔ Calls calls a b ∧ ∃ n, Way (Calls calls) root n a := by
  have hkeys := walk_keys hw
  obtain ⟨-, s2, -⟩ := C40_sound L label calls root w hw
  obtain ⟨-, c2, c3, c4⟩ := C40_complete L label calls root w hw ht
  have hdist : ∀ x d, mget w.depth x = some d → Dist (Calls calls) root d x := by
    obtain ⟨w', hw', h, -⟩ := C40_depth L label calls root
    rw [hw] at hw'; cases hw'; exact h
  have hlists : ∀ e ∈ w.adj, e.2.Nodup := by
    intro e he
    have := (s2 e.1).1
    rw [kids, mget_of_mem (k := e.1) (v := e.2) hkeys.adj he] at this
    exact this
  obtain ⟨shown, hidden, n1, n2, n3, n4, n5, n6, n7⟩ := C68_nearest L w.adj w.depth root
  rw [n4.1 hg, List.append_nil] at n1
  have hnode : ∀ x d, (∃ t ∈ (buildGraph L w.adj w.depth root).nodes, t.id = x ∧ t.depth = d) ↔ Dist (Calls calls) root d x := by
    intro x d
    constructor
    · rintro ⟨t, h, rfl, rfl⟩
      have : (t.id, t.depth) ∈ w.depth := n1.mem_iff.1 (n7 ▸ List.mem_map.2 ⟨t, h, rfl⟩)
      exact hdist _ _ (mget_of_mem hkeys.depth this)
    · intro h
      have : (x, d) ∈ shown := n1.mem_iff.2 (mem_of_mget (c3 x d h))
      rw [← n7] at this
      obtain ⟨t, h1, h2⟩ := List.mem_map.1 this
      obtain ⟨rfl, rfl⟩ := Prod.mk.inj h2
      exact ⟨t, h1, rfl, rfl⟩
  obtain ⟨e1, e2⟩ := C68_edges L w.adj w.depth root hkeys.adj hlists
  refine ⟨⟨?_, hnode⟩, e1, ?_⟩
  · have h1 : ((buildGraph L w.adj w.depth root).nodes.map fun t => (t.id, t.depth)).map (·.1) = (buildGraph L w.adj w.depth root).nodes.map (·.id) := by
      rw [List.map_map]; rfl
    rw [← h1, n7]
    exact ((n1.map _).nodup_iff).2 hkeys.depth
  · intro a b
    rw [e2]
    have hdex : ∀ x n, Way (Calls calls) root n x → ∃ t ∈ (buildGraph L w.adj w.depth root).nodes, t.id = x := by
      intro x n hx
      obtain ⟨d, hd⟩ : ∃ d, mget w.depth x = some d := by
        obtain ⟨w', hw', h, -⟩ := analyze_inv L label calls root
        rw [hw] at hw'; cases hw'
        exact Option.isSome_iff_exists.1 (h.met ht x ((c2 x).2 ⟨n, hx⟩))
      obtain ⟨t, h1, h2, -⟩ := (hnode x d).2 (hdist x d hd)
      exact ⟨t, h1, h2⟩
    constructor
    · rintro ⟨h1, ⟨t, h2, rfl⟩, -⟩
      exact ⟨(s2 _).2 _ h1, _, ((hnode t.id t.depth).1 ⟨t, h2, rfl, rfl⟩).1⟩
    · rintro ⟨h1, n, h2⟩
      exact ⟨((c4 a ((c2 a).2 ⟨n, h2⟩)).2 b).2 h1, hdex a n h2, hdex b (n + 1) (.step h2 h1)⟩

example : ((analyze {} id demo "h").map fun w => (buildGraph {} w.adj w.depth "h").nodes.map (fun t => (t.id, t.depth))) = some [("h", 0), ("a", 1), ("b", 1), ("c", 2)] := by decide

/-! ## The walk that resolves interface calls -/

/-- What that walk can reach: callees, and the implementations of a callee that has no body. -/
inductive Met (calls : String → List Call) (impls : String → List String) (root : String) : String → Prop
  | root : Met calls impls root root
  | call {x y : String} : Met calls impls root x → Calls calls x y → Met calls impls root y
  | impl {x y z : String} : Met calls impls root x → Calls calls x y → calls y = [] → z ∈ impls y → Met calls impls root z

/-- The edges it draws. -/
def Hop (calls : String → List Call) (impls : String → List String) (root : String) (a b : String) : Prop :=
  (Met calls impls root a ∧ Calls calls a b) ∨ (a ≠ b ∧ calls a = [] ∧ b ∈ impls a ∧ ∃ x, Met calls impls root x ∧ Calls calls x a)

/-- One state only adds to another. -/
structure Grows (s t : Walk) : Prop where
  depth : ∀ x d, mget s.depth x = some d → mget t.depth x = some d
  visited : ∀ x ∈ s.visited, x ∈ t.visited
  kids : ∀ x y, y ∈ kids s.adj x → y ∈ kids t.adj x
  queue : ∀ x ∈ s.queue, x ∈ t.queue
  fresh : ∀ x d, mget t.depth x = some d → mget s.depth x = some d ∨ x ∈ t.queue
  cut : t.truncated = false → s.truncated = false

theorem Grows.refl (s : Walk) : Grows s s := ⟨fun _ _ h => h, fun _ h => h, fun _ _ h => h, fun _ h => h, fun _ _ h => .inl h, fun h => h⟩

theorem Grows.trans {s t u : Walk} (h : Grows s t) (h' : Grows t u) : Grows s u :=
  ⟨fun x d hx => h'.depth x d (h.depth x d hx), fun x hx => h'.visited x (h.visited x hx), fun x y hx => h'.kids x y (h.kids x y hx), fun x hx => h'.queue x (h.queue x hx),
   fun x d hx => (h'.fresh x d hx).elim (fun h1 => (h.fresh x d h1).imp id (h'.queue x)) .inr, fun hc => h.cut (h'.cut hc)⟩

/-- What is true at every moment of the walk. -/
structure Sane (calls : String → List Call) (impls : String → List String) (root : String) (s : Walk) : Prop where
  known : ∀ x d, mget s.depth x = some d → x ∈ s.visited ∧ Way (Hop calls impls root) root d x
  met : s.truncated = false → ∀ x ∈ s.visited, (mget s.depth x).isSome
  reach : ∀ x ∈ s.visited, Met calls impls root x
  once : s.visited.Nodup
  edges : ∀ x, (kids s.adj x).Nodup ∧ ∀ y ∈ kids s.adj x, Hop calls impls root x y
  queued : ∀ x ∈ s.queue, (mget s.depth x).isSome
  deepest : ∀ x d, mget s.depth x = some d → d ≤ s.maxDepth

section
variable {L : Limits} {label : String → String} {calls : String → List Call} {impls : String → List String} {root : String}

theorem recordSite_grows (s : Walk) (a b p : String) : Grows s (recordSite label s a b p) ∧ (Sane calls impls root s → Sane calls impls root (recordSite label s a b p)) := by
  obtain ⟨r1, r2, r3, r4, r5, r6, -⟩ := recordSite_same label s a b p
  constructor
  · refine ⟨?_, ?_, ?_, ?_, ?_, ?_⟩ <;> simp only [r1, r2, r3, r4, r5]
    · exact fun _ _ h => h
    · exact fun _ h => h
    · exact fun _ _ h => h
    · exact fun _ h => h
    · exact fun _ _ h => .inl h
    · exact fun h => h
  · rintro ⟨a, b, c, d, e, f, g⟩
    refine ⟨?_, ?_, ?_, ?_, ?_, ?_, ?_⟩ <;> simp only [r1, r2, r3, r4, r5, r6] <;> assumption

theorem addEdge_grows (s : Walk) (a b : String) : Grows s (addEdge s a b) ∧ (a ≠ b → b ∈ kids (addEdge s a b).adj a) ∧
    (Sane calls impls root s → (a ≠ b → Hop calls impls root a b) → Sane calls impls root (addEdge s a b)) := by
  unfold addEdge
  split
  · next h => exact ⟨.refl s, fun hn => absurd h hn, fun h _ => h⟩
  · next hab =>
    split
    · next h => exact ⟨.refl s, fun _ => by simpa using h, fun h _ => h⟩
    · next hc =>
      refine ⟨⟨fun _ _ h => h, fun _ h => h, ?_, fun _ h => h, fun _ _ h => .inl h, fun h => h⟩, fun _ => by simp [kids_mset], ?_⟩
      · intro x y hy
        rw [kids_mset]
        split
        · next e => rw [e] at hy; exact List.mem_append_left _ hy
        · exact hy
      · rintro ⟨s1, s2, s3, s4, s5, s6, s7⟩ hh
        refine ⟨s1, s2, s3, s4, ?_, s6, s7⟩
        intro x
        simp only [kids_mset]
        split
        · next e =>
          subst e
          refine ⟨List.nodup_append.2 ⟨(s5 x).1, by simp, ?_⟩, ?_⟩
          · intro y hy z hz e
            rw [List.mem_singleton] at hz
            subst e; subst hz
            exact hc (by simpa using hy)
          · intro y hy
            rcases List.mem_append.1 hy with hy | hy
            · exact (s5 x).2 y hy
            · rw [List.mem_singleton] at hy; subst hy; exact hh hab
        · exact s5 x

theorem meet_grows (s : Walk) (id : String) (d : Nat) (hs : Sane calls impls root s) (hm : Met calls impls root id) (hw : Way (Hop calls impls root) root d id) :
    Grows s (meet L s id d) ∧ id ∈ (meet L s id d).visited ∧ Sane calls impls root (meet L s id d) := by
  unfold meet
  split
  · next h => exact ⟨.refl s, by simpa using h, hs⟩
  · next h =>
    have hnv : id ∉ s.visited := by simpa using h
    have hnd : mget s.depth id = none := by
      cases hd : mget s.depth id with
      | none => rfl
      | some e => exact absurd (hs.known id e hd).1 hnv
    obtain ⟨s1, s2, s3, s4, s5, s6, s7⟩ := hs
    split
    · refine ⟨⟨?_, fun x hx => List.mem_cons_of_mem _ hx, fun _ _ h => h, fun x hx => List.mem_append_left _ hx, ?_, fun h => h⟩, by simp, ⟨?_, ?_, ?_, ?_, s5, ?_, ?_⟩⟩
      · intro x e hx
        simp only
        rw [mget_mset, if_neg (by rintro rfl; rw [hnd] at hx; cases hx)]; exact hx
      · intro x e hx
        simp only at hx
        rw [mget_mset] at hx
        split at hx
        · next he => exact .inr (by simp [he])
        · exact .inl hx
      · intro x e hx
        simp only at hx
        rw [mget_mset] at hx
        split at hx
        · next he => cases hx; subst he; exact ⟨by simp, hw⟩
        · exact ⟨List.mem_cons_of_mem _ (s1 x e hx).1, (s1 x e hx).2⟩
      · intro ht x hx
        simp only
        rw [mget_mset]
        split
        · rfl
        · next hne => exact s2 ht x ((List.mem_cons.1 hx).elim (fun e => absurd e hne) (fun h => h))
      · intro x hx
        rcases List.mem_cons.1 hx with rfl | hx
        · exact hm
        · exact s3 x hx
      · exact List.nodup_cons.2 ⟨hnv, s4⟩
      · intro x hx
        simp only
        rw [mget_mset]
        split
        · rfl
        · next hne => exact s6 x ((List.mem_append.1 hx).elim (fun h => h) (fun h => absurd (List.mem_singleton.1 h) hne))
      · intro x e hx
        simp only at hx ⊢
        rw [mget_mset] at hx
        split at hx
        · cases hx; split <;> omega
        · have := s7 x e hx; split <;> omega
    · refine ⟨⟨fun _ _ h => h, fun x hx => List.mem_cons_of_mem _ hx, fun _ _ h => h, fun _ h => h, fun _ _ h => .inl h, (by intro h; cases h)⟩, by simp, ⟨?_, (by intro h; cases h), ?_, ?_, s5, s6, s7⟩⟩
      · intro x e hx; exact ⟨List.mem_cons_of_mem _ (s1 x e hx).1, (s1 x e hx).2⟩
      · intro x hx
        rcases List.mem_cons.1 hx with rfl | hx
        · exact hm
        · exact s3 x hx
      · exact List.nodup_cons.2 ⟨hnv, s4⟩

/-- The calls of `cur` that `s` has dealt with. -/
def Handled (calls : String → List Call) (impls : String → List String) (cur y : String) (s : Walk) : Prop :=
  y ∈ s.visited ∧ y ∈ kids s.adj cur ∧ (calls y = [] → ∀ z ∈ impls y, z ∈ s.visited ∧ (y ≠ z → z ∈ kids s.adj y))

theorem Handled.mono {cur y : String} {s t : Walk} (h : Handled calls impls cur y s) (hv : ∀ x ∈ s.visited, x ∈ t.visited) (hk : ∀ x y, y ∈ kids s.adj x → y ∈ kids t.adj x) :
    Handled calls impls cur y t :=
  ⟨hv _ h.1, hk _ _ h.2.1, fun hc z hz => ⟨hv _ (h.2.2 hc z hz).1, fun hne => hk _ _ ((h.2.2 hc z hz).2 hne)⟩⟩

theorem Handled.grows {cur y : String} {s t : Walk} (h : Handled calls impls cur y s) (hg : Grows s t) : Handled calls impls cur y t := h.mono hg.visited hg.kids

theorem impls_grow {cur y pos : String} {d : Nat} (hcur : Met calls impls root cur) (hwc : Way (Hop calls impls root) root d cur) (hy : Calls calls cur y) (hb : calls y = []) :
    ∀ (l : List String) (s : Walk), (∀ z ∈ l, z ∈ impls y) → y ∈ s.visited → Sane calls impls root s →
      Grows s (l.foldl (addImpl L label cur y pos d) s) ∧ Sane calls impls root (l.foldl (addImpl L label cur y pos d) s) ∧
        ∀ z ∈ l, z ∈ (l.foldl (addImpl L label cur y pos d) s).visited ∧ (y ≠ z → z ∈ kids (l.foldl (addImpl L label cur y pos d) s).adj y) := by
  intro l
  induction l with
  | nil => intro s _ _ hs; exact ⟨.refl s, hs, by simp⟩
  | cons z l ih =>
    intro s hl hv hs
    have hz : z ∈ impls y := hl z (by simp)
    rw [List.foldl_cons]
    have hmz : Met calls impls root z := .impl hcur hy hb hz
    obtain ⟨g1, k1, n1⟩ := addEdge_grows (calls := calls) (impls := impls) (root := root) s y z
    have sane1 := n1 hs (fun hne => .inr ⟨hne, hb, hz, cur, hcur, hy⟩)
    obtain ⟨g2, n2⟩ := recordSite_grows (label := label) (calls := calls) (impls := impls) (root := root) (addEdge s y z) z cur pos
    have sane2 := n2 sane1
    have hstep : Grows s (addImpl L label cur y pos d s z) ∧ Sane calls impls root (addImpl L label cur y pos d s z) ∧ z ∈ (addImpl L label cur y pos d s z).visited := by
      unfold addImpl
      by_cases hyz : y = z
      · subst hyz
        have hin : y ∈ (recordSite label (addEdge s y y) y cur pos).visited := g2.visited _ (g1.visited _ hv)
        have e : meet L (recordSite label (addEdge s y y) y cur pos) y (d + 2) = recordSite label (addEdge s y y) y cur pos := by
          rw [meet, if_pos (by simpa using hin)]
        rw [e]
        exact ⟨g1.trans g2, sane2, hin⟩
      · obtain ⟨g3, k3, n3⟩ := meet_grows (L := L) (recordSite label (addEdge s y z) z cur pos) z (d + 2) sane2 hmz
          (.step (.step hwc (.inl ⟨hcur, hy⟩)) (.inr ⟨hyz, hb, hz, cur, hcur, hy⟩))
        exact ⟨g1.trans (g2.trans g3), n3, k3⟩
    obtain ⟨h1, h2, h3⟩ := hstep
    have hk : y ≠ z → z ∈ kids (addImpl L label cur y pos d s z).adj y := by
      intro hne
      have hk1 := g2.kids _ _ (k1 hne)
      unfold addImpl
      rw [(meet_adj L _ z (d + 2)).1]
      exact hk1
    obtain ⟨i1, i2, i3⟩ := ih _ (fun x hx => hl x (List.mem_cons_of_mem _ hx)) (h1.visited _ hv) h2
    refine ⟨h1.trans i1, i2, ?_⟩
    intro x hx
    rcases List.mem_cons.1 hx with rfl | hx
    · exact ⟨i1.visited _ h3, fun hne => i1.kids _ _ (hk hne)⟩
    · exact i3 x hx

theorem addCallR_grows {cur : String} {d : Nat} (hcur : Met calls impls root cur) (hwc : Way (Hop calls impls root) root d cur) (s : Walk) (seen : List String) (c : Call) (hc : c ∈ calls cur)
    (hs : Sane calls impls root s) (hseen : ∀ y ∈ seen, Handled calls impls cur y s) :
    Grows s (addCallR L label calls impls cur d (s, seen) c).1 ∧ Sane calls impls root (addCallR L label calls impls cur d (s, seen) c).1 ∧
      (∀ y ∈ (addCallR L label calls impls cur d (s, seen) c).2, Handled calls impls cur y (addCallR L label calls impls cur d (s, seen) c).1) ∧
      (c.builtin = false → c.callee ≠ "" → c.callee ≠ cur → c.callee ∈ (addCallR L label calls impls cur d (s, seen) c).2) ∧
      (∀ y ∈ seen, y ∈ (addCallR L label calls impls cur d (s, seen) c).2) := by
  obtain ⟨g1, n1⟩ := recordSite_grows (label := label) (calls := calls) (impls := impls) (root := root) s c.callee cur c.pos
  simp only [addCallR]
  split
  · next h => exact ⟨.refl s, hs, hseen, fun a b e => by simp [a, b, e] at h, fun y hy => hy⟩
  · next h =>
    obtain ⟨v1, v2, v3⟩ := valid_split h
    have hcall : Calls calls cur c.callee := ⟨c, hc, rfl, v1, v2, v3⟩
    split
    · next hin => exact ⟨g1, n1 hs, fun y hy => (hseen y hy).grows g1, fun _ _ _ => by simpa using hin, fun y hy => hy⟩
    · obtain ⟨g2, k2, n2⟩ := addEdge_grows (calls := calls) (impls := impls) (root := root) (recordSite label s c.callee cur c.pos) cur c.callee
      have sane2 := n2 (n1 hs) (fun _ => .inl ⟨hcur, hcall⟩)
      obtain ⟨g3, k3, n3⟩ := meet_grows (L := L) _ c.callee (d + 1) sane2 (.call hcur hcall) (.step hwc (.inl ⟨hcur, hcall⟩))
      have hkid : c.callee ∈ kids (meet L (addEdge (recordSite label s c.callee cur c.pos) cur c.callee) c.callee (d + 1)).adj cur := g3.kids _ _ (k2 (fun e => v3 e.symm))
      have hg := g1.trans (g2.trans g3)
      split
      · next hb =>
        have hb : calls c.callee = [] := by simpa using hb
        obtain ⟨i1, i2, i3⟩ := impls_grow (L := L) (label := label) (pos := c.pos) hcur hwc hcall hb (impls c.callee) _ (fun z hz => hz) k3 n3
        refine ⟨hg.trans i1, i2, ?_, fun _ _ _ => by simp, fun y hy => List.mem_cons_of_mem _ hy⟩
        intro y hy
        rcases List.mem_cons.1 hy with rfl | hy
        · exact ⟨i1.visited _ k3, i1.kids _ _ hkid, fun _ z hz => i3 z hz⟩
        · exact (hseen y hy).grows (hg.trans i1)
      · next hb =>
        refine ⟨hg, n3, ?_, fun _ _ _ => by simp, fun y hy => List.mem_cons_of_mem _ hy⟩
        intro y hy
        rcases List.mem_cons.1 hy with rfl | hy
        · exact ⟨k3, hkid, fun e => absurd (by rw [e]; rfl) hb⟩
        · exact (hseen y hy).grows hg

theorem callsR_grow {cur : String} {d : Nat} (hcur : Met calls impls root cur) (hwc : Way (Hop calls impls root) root d cur) : ∀ (l : List Call) (s : Walk) (seen : List String),
    (∀ c ∈ l, c ∈ calls cur) → Sane calls impls root s → (∀ y ∈ seen, Handled calls impls cur y s) →
    Grows s (l.foldl (addCallR L label calls impls cur d) (s, seen)).1 ∧ Sane calls impls root (l.foldl (addCallR L label calls impls cur d) (s, seen)).1 ∧
      (∀ c ∈ l, c.builtin = false → c.callee ≠ "" → c.callee ≠ cur → Handled calls impls cur c.callee (l.foldl (addCallR L label calls impls cur d) (s, seen)).1) := by
  intro l
  induction l with
  | nil => intro s seen _ hs _; exact ⟨.refl s, hs, by simp⟩
  | cons c l ih =>
    intro s seen hl hs hseen
    rw [List.foldl_cons]
    obtain ⟨a1, a2, a3, a4, a5⟩ := addCallR_grows (L := L) (label := label) hcur hwc s seen c (hl c (by simp)) hs hseen
    generalize addCallR L label calls impls cur d (s, seen) c = r at a1 a2 a3 a4 a5
    obtain ⟨s', seen'⟩ := r
    obtain ⟨i1, i2, i3⟩ := ih s' seen' (fun c hc => hl c (List.mem_cons_of_mem _ hc)) a2 a3
    refine ⟨a1.trans i1, i2, ?_⟩
    intro c' hc' b1 b2 b3
    rcases List.mem_cons.1 hc' with rfl | hc'
    · exact (a3 _ (a4 b1 b2 b3)).grows i1
    · exact i3 c' hc' b1 b2 b3

/-- The whole of it. -/
structure SaneR (calls : String → List Call) (impls : String → List String) (root : String) (s : Walk) : Prop extends Sane calls impls root s where
  rooted : root ∈ s.visited
  closed : s.truncated = false → ∀ x d, mget s.depth x = some d → x ∉ s.queue → ∀ y, Calls calls x y → Handled calls impls x y s

theorem saneR_step (s : Walk) (cur : String) (q : List String) (hq : s.queue = cur :: q) (h : SaneR calls impls root s) :
    SaneR calls impls root (expandR L label calls impls { s with queue := q } cur) := by
  obtain ⟨d, hd⟩ := Option.isSome_iff_exists.1 (h.queued cur (by rw [hq]; simp))
  have hcv := h.known cur d hd
  have h0 : Sane calls impls root { s with queue := q } := ⟨h.known, h.met, h.reach, h.once, h.edges, fun x hx => h.queued x (by rw [hq]; exact List.mem_cons_of_mem _ hx), h.deepest⟩
  simp only [expandR, hd, Option.getD_some]
  split
  · exact { known := h.known, met := (by intro h; cases h), reach := h.reach, once := h.once, edges := h.edges, queued := h0.queued, deepest := h.deepest, rooted := h.rooted, closed := (by intro h; cases h) }
  · obtain ⟨g, n, a⟩ := callsR_grow (L := L) (label := label) (h.reach cur hcv.1) hcv.2 (calls cur) { s with queue := q } [] (fun c hc => hc) h0 (by simp)
    generalize ((calls cur).foldl (addCallR L label calls impls cur d) ({ s with queue := q }, [])).1 = t at g n a
    refine { toSane := n, rooted := g.visited _ h.rooted, closed := ?_ }
    intro ht x e hx hxq y hy
    by_cases hxc : x = cur
    · subst hxc
      obtain ⟨c, hc, rfl, b1, b2, b3⟩ := hy
      exact a c hc b1 b2 b3
    · rcases g.fresh x e hx with hx' | hx'
      · refine (h.closed (g.cut ht) x e hx' ?_ y hy).mono g.visited g.kids
        rw [hq, List.mem_cons, not_or]; exact ⟨hxc, fun hin => hxq (g.queue _ hin)⟩
      · exact absurd hx' hxq

theorem addEdge_left (s : Walk) (a b : String) : left L (addEdge s a b) = left L s := by
  unfold addEdge left
  split
  · rfl
  · split <;> rfl

theorem addImpl_left (cur y pos : String) (d : Nat) : ∀ (l : List String) (s : Walk), left L (l.foldl (addImpl L label cur y pos d) s) ≤ left L s := by
  intro l
  induction l with
  | nil => intro s; exact Nat.le_refl _
  | cons z l ih =>
    intro s
    rw [List.foldl_cons]
    refine Nat.le_trans (ih _) ?_
    unfold addImpl
    refine Nat.le_trans (meet_left ..) ?_
    obtain ⟨r1, r2, -⟩ := recordSite_same label (addEdge s y z) z cur pos
    rw [left_congr r1 r2, addEdge_left]
    exact Nat.le_refl _

theorem addCallR_left (cur : String) (d : Nat) (s : Walk × List String) (c : Call) : left L (addCallR L label calls impls cur d s c).1 ≤ left L s.1 := by
  obtain ⟨r1, r2, -⟩ := recordSite_same label s.1 c.callee cur c.pos
  simp only [addCallR]
  split
  · omega
  · split
    · exact Nat.le_of_eq (left_congr r1 r2)
    · have h1 : left L (meet L (addEdge (recordSite label s.1 c.callee cur c.pos) cur c.callee) c.callee (d + 1)) ≤ left L s.1 := by
        refine Nat.le_trans (meet_left ..) ?_
        rw [addEdge_left, left_congr r1 r2]
        exact Nat.le_refl _
      split
      · exact Nat.le_trans (addImpl_left ..) h1
      · exact h1

theorem expandR_left (s : Walk) (cur : String) : left L (expandR L label calls impls s cur) ≤ left L s := by
  simp only [expandR]
  split
  · exact Nat.le_refl _
  · exact fold_left (addCallR_left cur _) _ (s, [])

end

/-- **C40** The walk that resolves interface calls ends; without a body it declines.  Whether or not it was cut, what it
reports was really met along calls and implementations, every edge is a call or an implementation, and every depth is the
length of some chain of them. -/
theorem C40_resolved_sound (L : Limits) (label : String → String) (calls : String → List Call) (impls : String → List String) (root : String) :
    (calls root = [] → analyzeResolved L label calls impls root = none) ∧ (calls root ≠ [] → ∃ w, analyzeResolved L label calls impls root = some w) ∧
    ∀ w, analyzeResolved L label calls impls root = some w →
      w.visited.Nodup ∧ (∀ x ∈ w.visited, Met calls impls root x) ∧ (∀ x, (kids w.adj x).Nodup ∧ ∀ y ∈ kids w.adj x, Hop calls impls root x y) ∧
      (∀ x d, mget w.depth x = some d → x ∈ w.visited ∧ Way (Hop calls impls root) root d x ∧ d ≤ w.maxDepth) ∧
      (w.truncated = false → (∀ x, Met calls impls root x → x ∈ w.visited ∧ (mget w.depth x).isSome) ∧ ∀ x y, Hop calls impls root x y → y ∈ kids w.adj x) := by
  refine ⟨fun h => by simp [analyzeResolved, h], fun h => ?_, fun w hw => ?_⟩
  · have : (calls root).isEmpty = false := by simpa using h
    simp only [analyzeResolved, this]
    exact loop_ends (fun s cur => expandR_left s cur) _ _ (start_left L root)
  · have hl : loop (expandR L label calls impls) (L.reachable + 1) (start root) = some w := by
      unfold analyzeResolved at hw
      split at hw
      · cases hw
      · exact hw
    have h0 : SaneR calls impls root (start root) := by
      refine { known := ?_, met := ?_, reach := ?_, once := by simp [start], edges := by simp [start, kids], queued := ?_, deepest := ?_, rooted := by simp [start], closed := ?_ }
      · intro x d hx
        simp only [start, mget_cons, mget_nil] at hx
        split at hx
        · next e => cases hx; subst e; exact ⟨by simp [start], .here⟩
        · cases hx
      · intro _ x hx
        simp only [start, List.mem_singleton] at hx
        subst hx; simp [start, mget_cons]
      · intro x hx
        simp only [start, List.mem_singleton] at hx
        subst hx; exact .root
      · intro x hx
        simp only [start, List.mem_singleton] at hx
        subst hx; simp [start, mget_cons]
      · intro x d hx
        simp only [start, mget_cons, mget_nil] at hx
        split at hx
        · cases hx; exact Nat.le_refl _
        · cases hx
      · intro _ x d hx hn
        simp only [start, mget_cons, mget_nil] at hx
        split at hx
        · next e => subst e; exact absurd (by simp [start]) hn
        · cases hx
    obtain ⟨h, hq⟩ := loop_inv (P := SaneR calls impls root) (fun s cur q hq h => saneR_step s cur q hq h) _ _ _ h0 hl
    refine ⟨h.once, h.reach, h.edges, fun x d hx => ⟨(h.known x d hx).1, (h.known x d hx).2, h.deepest x d hx⟩, ?_⟩
    intro ht
    have hcl : ∀ x ∈ w.visited, ∀ y, Calls calls x y → Handled calls impls x y w := by
      intro x hx y hy
      obtain ⟨d, hd⟩ := Option.isSome_iff_exists.1 (h.met ht x hx)
      exact h.closed ht x d hd (by rw [hq]; simp) y hy
    have hall : ∀ x, Met calls impls root x → x ∈ w.visited := by
      intro x hx
      induction hx with
      | root => exact h.rooted
      | call _ hc ih => exact (hcl _ ih _ hc).1
      | impl _ hc hb hz ih => exact ((hcl _ ih _ hc).2.2 hb _ hz).1
    refine ⟨fun x hx => ⟨hall x hx, h.met ht x (hall x hx)⟩, ?_⟩
    rintro x y (⟨hm, hc⟩ | ⟨hne, hb, hz, z, hm, hc⟩)
    · exact (hcl _ (hall x hm) _ hc).2.1
    · exact ((hcl _ (hall z hm) _ hc).2.2 hb _ hz).2 hne

/-- A handler that calls an interface method and, directly, its implementation. -/
def viaInterface : String → List Call
  | "h" => [⟨"I.m", false, "1"⟩, ⟨"X.m", false, "2"⟩]
  | "X.m" => [⟨"k", false, "3"⟩]
  | _ => []

def viaImpls : String → List String
  | "I.m" => ["X.m"]
  | _ => []

example : (analyzeResolved {} id viaInterface viaImpls "h").map (fun w => (w.depth, w.adj, w.truncated)) =
    some ([("h", 0), ("I.m", 1), ("X.m", 2), ("k", 3)], [("h", ["I.m", "X.m"]), ("I.m", ["X.m"]), ("X.m", ["k"])], false) := by decide

/-- **C40** The depths of that walk are not the distances: an implementation that is also called directly is reported one call
further away than it is, and so is all below it. -/
theorem C40_resolved_depth_wrong : ∃ (calls : String → List Call) (impls : String → List String) (w : Walk), analyzeResolved {} id calls impls "h" = some w ∧ w.truncated = false ∧
    mget w.depth "X.m" = some 2 ∧ Way (Hop calls impls "h") "h" 1 "X.m" := by
  have h := C40_resolved_sound {} id viaInterface viaImpls "h"
  obtain ⟨w, hw⟩ := h.2.1 (by decide)
  have e : (analyzeResolved {} id viaInterface viaImpls "h").map (fun w => (w.truncated, mget w.depth "X.m")) = some (false, some 2) := by decide
  rw [hw] at e
  obtain ⟨e1, e2⟩ := Prod.mk.inj (Option.some.inj e)
  exact ⟨viaInterface, viaImpls, w, hw, e1, e2, .step .here (.inl ⟨.root, ⟨"X.m", false, "2"⟩, by decide, rfl, rfl, by decide, by decide⟩)⟩

/-! ## Builtins -/

/-- The calls of a program, the universe-scope functions (which have no package) left out. -/
def RealCall (raw : String → List RawCall) (a b : String) : Prop := ∃ c ∈ raw a, c.base = b ∧ c.pkg ≠ "" ∧ b ≠ "" ∧ b ≠ a

/-- **C40** If no function of a package is named like a builtin and the builtins have no package, the calls that are walked are
the calls of the program. -/
theorem C40_builtins_partial (raw : String → List RawCall) (h : ∀ a, ∀ c ∈ raw a, c.pkg = "" ↔ c.name ∈ builtinFuncs) (a b : String) :
    Calls (fun x => (raw x).map callOf) a b ↔ RealCall raw a b := by
  constructor
  · rintro ⟨c, hc, rfl, h1, h2, h3⟩
    obtain ⟨r, hr, rfl⟩ := List.mem_map.1 hc
    refine ⟨r, hr, rfl, fun e => ?_, h2, h3⟩
    have := (h a r hr).1 e
    simp only [callOf] at h1
    rw [List.contains_iff_mem.2 this] at h1; cases h1
  · rintro ⟨r, hr, rfl, h1, h2, h3⟩
    refine ⟨callOf r, List.mem_map.2 ⟨r, hr, rfl⟩, rfl, ?_, h2, h3⟩
    simp only [callOf]
    cases hc : builtinFuncs.contains r.name with
    | false => rfl
    | true => exact absurd ((h a r hr).2 (List.contains_iff_mem.1 hc)) h1

/-- A repository with a method `delete`. -/
def rawDemo : String → List RawCall
  | "api.handler" => [⟨"len", "", "len", "a.go:3"⟩, ⟨"delete", "app/repo", "app/repo.Repo.delete", "a.go:4"⟩]
  | "app/repo.Repo.delete" => [⟨"Exec", "database/sql", "database/sql.DB.Exec", "r.go:9"⟩]
  | _ => []

/-- **C40** A function of the project that is named like a builtin is left out, with all it calls, and the walk is not reported
as cut. -/
theorem C40_named_like_builtin : ∃ (raw : String → List RawCall) (root x : String) (w : Walk), RealCall raw root x ∧ analyze {} id (fun y => (raw y).map callOf) root = some w ∧ w.truncated = false ∧ x ∉ w.visited := by
  have e : (analyze {} id (fun y => (rawDemo y).map callOf) "api.handler").map (fun w => (w.truncated, w.visited)) = some (false, ["api.handler"]) := by decide
  obtain ⟨w, hw, -⟩ := C40_depth {} id (fun y => (rawDemo y).map callOf) "api.handler"
  rw [hw] at e
  obtain ⟨e1, e2⟩ := Prod.mk.inj (Option.some.inj e)
  exact ⟨rawDemo, "api.handler", "app/repo.Repo.delete", w, ⟨⟨"delete", "app/repo", "app/repo.Repo.delete", "a.go:4"⟩, by simp [rawDemo], rfl, by decide, by decide, by decide⟩, hw, e1, by rw [e2]; decide⟩

end Verif.InsightProps
