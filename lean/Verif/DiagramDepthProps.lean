import Verif.DiagramModel
/-!
# C63: the depth limit of the call graph diagram
-/

namespace Verif.DiagramProps
open Verif.Common Verif.DiagramModel

/-! ## Specification -/

/-- There is a chain of `k` calls from `a` to `b`. -/
inductive Chain (edges : List Edge) : Nat → Nat → Nat → Prop
  | here (a : Nat) : Chain edges a 0 a
  | step {a k b : Nat} (e : Edge) : Chain edges a k b → e ∈ edges → e.src = b → Chain edges a (k + 1) e.tgt

/-- An entry point: a function nobody calls, or one that is called `main`. -/
def Entry (d : Data) (i : Nat) : Prop :=
  ∃ n ∈ d.nodes, n.id = i ∧ ((∀ e ∈ d.edges, e.tgt ≠ i) ∨ n.label = "main" ∨ n.func = "main")

/-- Some entry point reaches `i` within `k` calls. -/
def Within (d : Data) (k : Nat) (i : Nat) : Prop := ∃ r l, Entry d r ∧ Chain d.edges r l i ∧ l ≤ k

/-! ## Helpers -/

theorem mem_next {edges : List Edge} {v w : Nat} : w ∈ next edges v ↔ ∃ e ∈ edges, e.src = v ∧ e.tgt = w := by
  simp [next, and_assoc]

theorem inDegree_zero {edges : List Edge} {i : Nat} : inDegree edges i = 0 ↔ ∀ e ∈ edges, e.tgt ≠ i := by
  simp [inDegree]

theorem mem_depthRoots {d : Data} {i : Nat} : i ∈ depthRoots d ↔ Entry d i := by
  have h1 : i ∈ (d.nodes.filter fun n => inDegree d.edges n.id = 0 || n.label = "main" || n.func = "main").map (·.id) ↔ Entry d i := by
    simp only [List.mem_map, List.mem_filter, Bool.or_eq_true, decide_eq_true_eq, Entry, or_assoc]
    constructor
    · rintro ⟨n, ⟨hn, h⟩, rfl⟩
      exact ⟨n, hn, rfl, by rwa [inDegree_zero] at h⟩
    · rintro ⟨n, hn, rfl, h⟩
      exact ⟨n, ⟨hn, by rwa [inDegree_zero]⟩, rfl⟩
  simp only [depthRoots]
  split
  · next he =>
    rw [List.isEmpty_iff] at he
    rw [he] at h1
    simp only [List.not_mem_nil, false_iff] at h1
    constructor
    · intro h
      rw [List.mem_filter] at h
      obtain ⟨n, hn, e⟩ := List.mem_map.1 h.1
      exact ⟨n, hn, e, .inl (inDegree_zero.1 (by simpa using h.2))⟩
    · intro h; exact absurd h h1
  · exact h1

/-- What holds while the neighbours of a node at distance `k` are handled. -/
structure Mid (d : Data) (k : Nat) (s : Bfs) : Prop where
  sound : ∀ (v j : Nat), mget s.depths v = some j → ∃ r, Entry d r ∧ Chain d.edges r j v
  queue : ∀ x ∈ s.queue, mget s.depths x.1 = some x.2
  low : ∀ x ∈ s.queue, k ≤ x.2
  sorted : s.queue.Pairwise fun a b => a.2 ≤ b.2
  high : ∀ (v j : Nat), mget s.depths v = some j → j ≤ k + 1
  cover : ∀ (v j : Nat), mget s.depths v = some j → v ∈ s.visited ∨ (v, j) ∈ s.queue

theorem relax_mid {d : Data} {k : Nat} {s : Bfs} {w : Nat} (h : Mid d k s) (hw : ∃ r, Entry d r ∧ Chain d.edges r (k + 1) w) :
    Mid d k (relax k s w) ∧ (relax k s w).visited = s.visited ∧ (∃ j, mget (relax k s w).depths w = some j ∧ j ≤ k + 1) ∧
      (∀ (v j : Nat), mget s.depths v = some j → mget (relax k s w).depths v = some j) ∧
      (relax k s w).queue.length ≤ s.queue.length + 1 := by
  cases hg : mget s.depths w with
  | some old =>
    have e : relax k s w = s := by
      simp only [relax, hg]
      rw [if_neg (by have := h.high w old hg; omega)]
    rw [e]
    exact ⟨h, rfl, ⟨old, hg, h.high w old hg⟩, fun _ _ h => h, by omega⟩
  | none =>
    have e : relax k s w = { s with depths := mset s.depths w (k + 1), queue := s.queue ++ [(w, k + 1)] } := by
      simp only [relax, hg]
    rw [e]
    have keep : ∀ (v j : Nat), mget s.depths v = some j → mget (mset s.depths w (k + 1)) v = some j := by
      intro v j hv
      rw [mget_mset]
      split
      · next e => subst e; rw [hg] at hv; cases hv
      · exact hv
    refine ⟨⟨?_, ?_, ?_, ?_, ?_, ?_⟩, rfl, ⟨k + 1, mget_mset_self .., Nat.le_refl _⟩, keep, by simp⟩
    · intro v j hv
      rw [mget_mset] at hv
      split at hv
      · next e => cases hv; subst e; exact hw
      · exact h.sound v j hv
    · intro x hx
      rcases List.mem_append.1 hx with hx | hx
      · exact keep _ _ (h.queue x hx)
      · rw [List.mem_singleton] at hx; subst hx; exact mget_mset_self ..
    · intro x hx
      rcases List.mem_append.1 hx with hx | hx
      · exact h.low x hx
      · rw [List.mem_singleton] at hx; subst hx; exact Nat.le_succ k
    · refine List.pairwise_append.2 ⟨h.sorted, List.pairwise_singleton _ _, ?_⟩
      intro a ha b hb
      rw [List.mem_singleton] at hb; subst hb
      exact h.high _ _ (h.queue a ha)
    · intro v j hv
      rw [mget_mset] at hv
      split at hv
      · cases hv; exact Nat.le_refl _
      · exact h.high v j hv
    · intro v j hv
      rw [mget_mset] at hv
      split at hv
      · next e => cases hv; subst e; exact .inr (by simp)
      · rcases h.cover v j hv with h' | h'
        · exact .inl h'
        · exact .inr (List.mem_append_left _ h')

theorem relax_all {d : Data} {k : Nat} : ∀ (ws : List Nat) (s : Bfs), Mid d k s →
    (∀ w ∈ ws, ∃ r, Entry d r ∧ Chain d.edges r (k + 1) w) →
    Mid d k (ws.foldl (relax k) s) ∧ (ws.foldl (relax k) s).visited = s.visited ∧
      (∀ w ∈ ws, ∃ j, mget (ws.foldl (relax k) s).depths w = some j ∧ j ≤ k + 1) ∧
      (∀ (v j : Nat), mget s.depths v = some j → mget (ws.foldl (relax k) s).depths v = some j) ∧
      (ws.foldl (relax k) s).queue.length ≤ s.queue.length + ws.length := by
  intro ws
  induction ws with
  | nil => intro s h _; exact ⟨h, rfl, by simp, fun _ _ h => h, by simp⟩
  | cons w ws ih =>
    intro s h hw
    obtain ⟨h1, h2, ⟨j, h3, h3'⟩, h4, h5⟩ := relax_mid h (hw w (List.mem_cons_self ..))
    obtain ⟨g1, g2, g3, g4, g5⟩ := ih _ h1 fun x hx => hw x (List.mem_cons_of_mem _ hx)
    rw [List.foldl_cons]
    refine ⟨g1, by rw [g2, h2], ?_, fun v j hv => g4 v j (h4 v j hv), by simp only [List.length_cons]; omega⟩
    intro x hx
    rcases List.mem_cons.1 hx with e | hx
    · subst e; exact ⟨j, g4 _ _ h3, h3'⟩
    · exact g3 x hx

/-- What holds between two turns. -/
structure Inv (d : Data) (s : Bfs) : Prop where
  mid : ∃ k, Mid d k s ∧ ∀ x, s.queue.head? = some x → x.2 = k
  roots : ∀ r, Entry d r → mget s.depths r = some 0
  closed : ∀ v ∈ s.visited, ∀ w ∈ next d.edges v, ∃ i j, mget s.depths v = some i ∧ mget s.depths w = some j ∧ j ≤ i + 1

theorem step_inv {d : Data} {s s' : Bfs} (h : Inv d s) (hs : bfsStep d.edges s = some s') : Inv d s' := by
  obtain ⟨⟨k, hm, hk⟩, hr, hc⟩ := h
  simp only [bfsStep] at hs
  split at hs
  · cases hs
  · next v k' q hq =>
    have e : k' = k := hk (v, k') (by rw [hq]; rfl)
    subst e
    have hsort := hm.sorted
    rw [hq, List.pairwise_cons] at hsort
    have hv0 : mget s.depths v = some k' := hm.queue (v, k') (by rw [hq]; exact List.mem_cons_self ..)
    -- rest of the queue
    have finish : ∀ t : Bfs, Mid d k' t → ∃ k, Mid d k t ∧ ∀ x, t.queue.head? = some x → x.2 = k := by
      intro t ht
      cases hq' : t.queue with
      | nil => exact ⟨k', ht, by intro x hx; cases hx⟩
      | cons x r =>
        refine ⟨x.2, ⟨ht.sound, ht.queue, ?_, ht.sorted, ?_, ht.cover⟩, by intro y hy; cases hy; rfl⟩
        · intro y hy
          have := ht.sorted
          rw [hq'] at this hy
          rcases List.mem_cons.1 hy with e | hy
          · subst e; exact Nat.le_refl _
          · exact (List.pairwise_cons.1 this).1 y hy
        · intro w j hw
          have := ht.high w j hw
          have := ht.low x (by rw [hq']; exact List.mem_cons_self ..)
          omega
    split at hs
    · next hvis =>
      cases hs
      refine ⟨finish _ ⟨hm.sound, ?_, ?_, hsort.2, hm.high, ?_⟩, hr, hc⟩
      · intro x hx; exact hm.queue x (by rw [hq]; exact List.mem_cons_of_mem _ hx)
      · intro x hx; exact hm.low x (by rw [hq]; exact List.mem_cons_of_mem _ hx)
      · intro w j hw
        rcases hm.cover w j hw with h' | h'
        · exact .inl h'
        · rw [hq] at h'
          rcases List.mem_cons.1 h' with e | h'
          · cases e; exact .inl (List.contains_iff_mem.1 hvis)
          · exact .inr h'
    · next hvis =>
      cases hs
      have hm0 : Mid d k' { s with queue := q, visited := v :: s.visited } := by
        refine ⟨hm.sound, ?_, ?_, hsort.2, hm.high, ?_⟩
        · intro x hx; exact hm.queue x (by rw [hq]; exact List.mem_cons_of_mem _ hx)
        · intro x hx; exact hm.low x (by rw [hq]; exact List.mem_cons_of_mem _ hx)
        · intro w j hw
          rcases hm.cover w j hw with h' | h'
          · exact .inl (List.mem_cons_of_mem _ h')
          · rw [hq] at h'
            rcases List.mem_cons.1 h' with e | h'
            · cases e; exact .inl (List.mem_cons_self ..)
            · exact .inr h'
      have hreach : ∀ w ∈ next d.edges v, ∃ r, Entry d r ∧ Chain d.edges r (k' + 1) w := by
        intro w hw
        obtain ⟨e, he, h1, h2⟩ := mem_next.1 hw
        obtain ⟨r, hr, hch⟩ := hm.sound v k' hv0
        exact ⟨r, hr, h2 ▸ Chain.step e hch he h1⟩
      obtain ⟨g1, g2, g3, g4, _⟩ := relax_all (next d.edges v) _ hm0 hreach
      refine ⟨finish _ g1, fun r hr' => g4 _ _ (hr r hr'), ?_⟩
      intro x hx w hw
      rw [g2] at hx
      rcases List.mem_cons.1 hx with e | hx
      · subst e
        obtain ⟨j, h1, h2⟩ := g3 w hw
        exact ⟨k', j, g4 _ _ hv0, h1, h2⟩
      · obtain ⟨i, j, h1, h2, h3⟩ := hc x hx w hw
        exact ⟨i, j, g4 _ _ h1, g4 _ _ h2, h3⟩

/-- The edges whose source has not been visited. -/
def open' (edges : List Edge) (vis : List Nat) : Nat := (edges.filter fun e => !vis.contains e.src).length

theorem open_cons (edges : List Edge) (vis : List Nat) (v : Nat) (h : vis.contains v = false) :
    open' edges (v :: vis) + (next edges v).length = open' edges vis := by
  induction edges with
  | nil => rfl
  | cons e r ih =>
    simp only [open', next, List.length_map] at ih ⊢
    by_cases he : e.src = v
    · rw [List.filter_cons_of_neg (by simp [he]), List.filter_cons_of_pos (by simp [he]), List.filter_cons_of_pos (by rw [he, h]; rfl)]
      simp only [List.length_cons]; omega
    · by_cases hc : vis.contains e.src
      · rw [List.filter_cons_of_neg (by simp [List.contains_iff_mem.1 hc]), List.filter_cons_of_neg (by simp [he]), List.filter_cons_of_neg (by simp [List.contains_iff_mem.1 hc])]
        exact ih
      · rw [List.filter_cons_of_pos (by simp only [List.contains_cons]; simp at hc; simp [he, hc]), List.filter_cons_of_neg (by simp [he]),
          List.filter_cons_of_pos (by simpa using hc)]
        simp only [List.length_cons]; omega

theorem step_measure {d : Data} {s s' : Bfs} (h : Inv d s) (hs : bfsStep d.edges s = some s') :
    s'.queue.length + open' d.edges s'.visited < s.queue.length + open' d.edges s.visited := by
  obtain ⟨⟨k, hm, hk⟩, hr, hc⟩ := h
  simp only [bfsStep] at hs
  split at hs
  · cases hs
  · next v k' q hq =>
    split at hs
    · cases hs; simp [hq]
    · next hvis =>
      cases hs
      have e : k' = k := hk (v, k') (by rw [hq]; rfl)
      subst e
      have hsort := hm.sorted
      rw [hq, List.pairwise_cons] at hsort
      have hv0 : mget s.depths v = some k' := hm.queue (v, k') (by rw [hq]; exact List.mem_cons_self ..)
      have hm0 : Mid d k' { s with queue := q, visited := v :: s.visited } := by
        refine ⟨hm.sound, ?_, ?_, hsort.2, hm.high, ?_⟩
        · intro x hx; exact hm.queue x (by rw [hq]; exact List.mem_cons_of_mem _ hx)
        · intro x hx; exact hm.low x (by rw [hq]; exact List.mem_cons_of_mem _ hx)
        · intro w j hw
          rcases hm.cover w j hw with h' | h'
          · exact .inl (List.mem_cons_of_mem _ h')
          · rw [hq] at h'
            rcases List.mem_cons.1 h' with e | h'
            · cases e; exact .inl (List.mem_cons_self ..)
            · exact .inr h'
      have hreach : ∀ w ∈ next d.edges v, ∃ r, Entry d r ∧ Chain d.edges r (k' + 1) w := by
        intro w hw
        obtain ⟨e, he, h1, h2⟩ := mem_next.1 hw
        obtain ⟨r, hr, hch⟩ := hm.sound v k' hv0
        exact ⟨r, hr, h2 ▸ Chain.step e hch he h1⟩
      obtain ⟨_, g2, _, _, g5⟩ := relax_all (next d.edges v) _ hm0 hreach
      have ho := open_cons d.edges s.visited v (by simpa using hvis)
      rw [g2]
      simp only [hq, List.length_cons] at g5 ⊢
      omega

theorem bfs_ends {d : Data} : ∀ (fuel : Nat) (s : Bfs), Inv d s → s.queue.length + open' d.edges s.visited < fuel →
    ∃ s', bfs d.edges fuel s = some s' ∧ Inv d s' ∧ s'.queue = [] := by
  intro fuel
  induction fuel with
  | zero => intro s _ h; omega
  | succ fuel ih =>
    intro s hi hm
    simp only [bfs]
    cases hs : bfsStep d.edges s with
    | none =>
      refine ⟨s, rfl, hi, ?_⟩
      simp only [bfsStep] at hs
      split at hs
      · assumption
      · split at hs <;> cases hs
    | some s' =>
      have := step_measure hi hs
      exact ih s' (step_inv hi hs) (by omega)

theorem foldl_mset_roots (rs : List Nat) (m : List (Nat × Nat)) (v : Nat) :
    mget (rs.foldl (fun m r => mset m r 0) m) v = if v ∈ rs then some 0 else mget m v := by
  induction rs generalizing m with
  | nil => simp
  | cons r rs ih =>
    rw [List.foldl_cons, ih, mget_mset]
    by_cases h1 : v ∈ rs
    · simp [h1]
    · by_cases h2 : v = r
      · simp [h2]
      · simp [h1, h2]

theorem callDepths_spec (d : Data) : ∃ m, callDepths d = some m ∧
    (∀ v j, mget m v = some j → ∃ r, Entry d r ∧ Chain d.edges r j v) ∧
    (∀ r l v, Entry d r → Chain d.edges r l v → ∃ j, mget m v = some j ∧ j ≤ l) := by
  have hi : Inv d ⟨(depthRoots d).map fun r => (r, 0), [], (depthRoots d).foldl (fun m r => mset m r 0) []⟩ := by
    have g : ∀ v j, mget ((depthRoots d).foldl (fun m r => mset m r 0) []) v = some j → Entry d v ∧ j = 0 := by
      intro v j h
      rw [foldl_mset_roots] at h
      split at h
      · next hv => cases h; exact ⟨mem_depthRoots.1 hv, rfl⟩
      · simp at h
    refine ⟨⟨0, ⟨?_, ?_, fun _ _ => Nat.zero_le _, ?_, ?_, ?_⟩, ?_⟩, ?_, by simp⟩
    · intro v j h; obtain ⟨h1, rfl⟩ := g v j h; exact ⟨v, h1, .here v⟩
    · intro x hx
      obtain ⟨r, hr, rfl⟩ := List.mem_map.1 hx
      simp only [foldl_mset_roots, hr, if_true]
    · rw [List.pairwise_map]; exact List.pairwise_of_forall (fun _ _ => Nat.le_refl _)
    · intro v j h; obtain ⟨_, rfl⟩ := g v j h; omega
    · intro v j h; obtain ⟨h1, rfl⟩ := g v j h; exact .inr (List.mem_map.2 ⟨v, mem_depthRoots.2 h1, rfl⟩)
    · intro x hx
      obtain ⟨r, hr, rfl⟩ := List.mem_map.1 (List.mem_of_mem_head? hx)
      rfl
    · intro r hr
      show mget ((depthRoots d).foldl (fun m r => mset m r 0) []) r = some 0
      rw [foldl_mset_roots, if_pos (mem_depthRoots.2 hr)]
  obtain ⟨s, hs, ⟨⟨k, hm, _⟩, hr, hc⟩, hq⟩ := bfs_ends ((depthRoots d).length + d.edges.length + 1) _ hi (by
    have : open' d.edges [] ≤ d.edges.length := List.length_filter_le ..
    simp only [List.length_map]; omega)
  refine ⟨s.depths, ?_, hm.sound, ?_⟩
  · simp only [callDepths, hs, Option.map_some]
  · intro r l v hr' hch
    induction hch with
    | here => exact ⟨0, hr _ hr', Nat.le_refl _⟩
    | step e _ he hsrc ih =>
      obtain ⟨j, h1, h2⟩ := ih
      have hv := hm.cover _ j h1
      rw [hq] at hv
      rcases hv with hv | hv
      · obtain ⟨i, j', g1, g2, g3⟩ := hc _ hv e.tgt (mem_next.2 ⟨e, he, hsrc, rfl⟩)
        rw [h1] at g1; cases g1
        exact ⟨j', g2, by omega⟩
      · cases hv

/-! ## Theorems -/

/-- **C63** Cutting at depth `k` always gives an answer; it keeps, in order, the functions some entry point reaches
within `k` calls, and every call between two kept functions. -/
theorem C63_depth (d : Data) (k : Nat) : ∃ d', cutDepth d k = some d' ∧ d'.nodes.Sublist d.nodes ∧ d'.edges.Sublist d.edges ∧
    (∀ n, n ∈ d'.nodes ↔ n ∈ d.nodes ∧ Within d k n.id) ∧
    (∀ e, e ∈ d'.edges ↔ e ∈ d.edges ∧ (∃ n ∈ d.nodes, n.id = e.src ∧ Within d k n.id) ∧ ∃ n ∈ d.nodes, n.id = e.tgt ∧ Within d k n.id) := by
  obtain ⟨m, hm, h1, h2⟩ := callDepths_spec d
  have key : ∀ i, notDeeper m k i = true ↔ Within d k i := by
    intro i
    simp only [notDeeper]
    constructor
    · intro h
      split at h
      · next j hj =>
        obtain ⟨r, hr, hch⟩ := h1 i j hj
        exact ⟨r, j, hr, hch, by simp only [decide_eq_true_eq] at h; omega⟩
      · cases h
    · rintro ⟨r, l, hr, hch, hl⟩
      obtain ⟨j, hj, hjl⟩ := h2 r l i hr hch
      rw [hj]
      simp only [decide_eq_true_eq]; omega
  simp only [cutDepth, hm, if_pos (Int.natCast_nonneg k)]
  refine ⟨_, rfl, List.filter_sublist, List.filter_sublist, ?_, ?_⟩
  · intro n; simp only [List.mem_filter, key]
  · intro e
    simp only [List.mem_filter, Bool.and_eq_true, List.contains_iff_mem, List.mem_map, key]
    constructor
    · rintro ⟨he, ⟨a, ⟨ha, ha'⟩, e1⟩, b, ⟨hb, hb'⟩, e2⟩
      exact ⟨he, ⟨a, ha, e1, ha'⟩, b, hb, e2, hb'⟩
    · rintro ⟨he, ⟨a, ha, e1, ha'⟩, b, hb, e2, hb'⟩
      exact ⟨he, ⟨a, ⟨ha, ha'⟩, e1⟩, b, ⟨hb, hb'⟩, e2⟩

def sample : Data :=
  ⟨[{ id := 1, label := "main" }, { id := 2, label := "a" }, { id := 3, label := "b" }, { id := 4, label := "c" }],
   [{ src := 1, tgt := 2 }, { src := 2, tgt := 3 }, { src := 1, tgt := 3 }, { src := 3, tgt := 4 }, { src := 4, tgt := 2 }]⟩

-- `b` is two calls away through `a` but one call away directly.
example : (cutDepth sample 1).map (fun d => (d.nodes.map (·.id), d.edges.length)) = some ([1, 2, 3], 3) := by decide
example : (cutDepth sample 2).map (fun d => (d.nodes.map (·.id), d.edges.length)) = some ([1, 2, 3, 4], 5) := by decide

/-- **C63** A deeper diagram shows everything a shallower one shows. -/
theorem C63_monotone (d d1 d2 : Data) (k l : Nat) (h : k ≤ l) (h1 : cutDepth d k = some d1) (h2 : cutDepth d l = some d2) :
    (∀ n ∈ d1.nodes, n ∈ d2.nodes) ∧ ∀ e ∈ d1.edges, e ∈ d2.edges := by
  obtain ⟨a, ha, _, _, ha1, ha2⟩ := C63_depth d k
  obtain ⟨b, hb, _, _, hb1, hb2⟩ := C63_depth d l
  rw [ha] at h1; rw [hb] at h2; cases h1; cases h2
  have w : ∀ i, Within d k i → Within d l i := fun i ⟨r, m, x, y, z⟩ => ⟨r, m, x, y, by omega⟩
  refine ⟨fun n hn => (hb1 n).2 ⟨((ha1 n).1 hn).1, w _ ((ha1 n).1 hn).2⟩, fun e he => ?_⟩
  obtain ⟨h0, ⟨n, hn, e1, w1⟩, m, hm, e2, w2⟩ := (ha2 e).1 he
  exact (hb2 e).2 ⟨h0, ⟨n, hn, e1, w _ w1⟩, m, hm, e2, w _ w2⟩

/-- **C63, what fails** A function that no entry point reaches is on the diagram at no depth: mutually recursive
functions called by nobody else vanish, however deep the diagram. -/
theorem C63_cycle_lost : ∃ (d : Data) (n : Node), n ∈ d.nodes ∧ ∀ (k : Nat) (d' : Data), cutDepth d k = some d' → n ∉ d'.nodes := by
  refine ⟨⟨[{ id := 1, label := "main" }, { id := 2, label := "even" }, { id := 3, label := "odd" }], [{ src := 2, tgt := 3 }, { src := 3, tgt := 2 }]⟩,
    { id := 2, label := "even" }, by simp, ?_⟩
  intro k d' h hn
  obtain ⟨a, ha, _, _, ha1, _⟩ := C63_depth _ k
  rw [ha] at h; cases h
  obtain ⟨_, r, l, hr, hch, _⟩ := (ha1 _).1 hn
  have hroot : r = 1 := by
    obtain ⟨n, hn, e, h⟩ := hr
    simp only [List.mem_cons, List.not_mem_nil, or_false] at hn
    rcases hn with rfl | rfl | rfl
    · exact e.symm
    · subst e
      rcases h with h | h | h
      · exact absurd rfl (h { src := 3, tgt := 2 } (by simp))
      · exact absurd h (by decide)
      · exact absurd h (by decide)
    · subst e
      rcases h with h | h | h
      · exact absurd rfl (h { src := 2, tgt := 3 } (by simp))
      · exact absurd h (by decide)
      · exact absurd h (by decide)
  have stay : ∀ {l v}, Chain [{ src := 2, tgt := 3 }, { src := 3, tgt := 2 }] r l v → v = 1 := by
    intro l v hc
    induction hc with
    | here => exact hroot
    | step e _ he hs ih =>
      simp only [List.mem_cons, List.not_mem_nil, or_false] at he
      rcases he with rfl | rfl <;> simp at hs <;> omega
  have := stay hch
  simp at this

end Verif.DiagramProps
