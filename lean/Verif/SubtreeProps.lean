import Verif.SubtreeModel
/-!
# C116: the trace of a route shows the calls below it
-/

namespace Verif.Subtree

/-! ### Specification -/

/-- A node of the tree below the handler, and the function whose calls it is among. -/
inductive At (root : String) (kids : List Node) : Node → String → Prop
  | top (c : Node) : c ∈ kids → At root kids c root
  | through (x : Node) (p : String) (c : Node) : At root kids x p → x.edge = none → c ∈ x.children → At root kids c p
  | call (x : Node) (p : String) (e : Edge) (c : Node) : At root kids x p → x.edge = some e → e.builtin = false → e.callee ≠ "" →
      c ∈ x.children → At root kids c e.callee

/-- What a call among those of `p` shows: `p` calls the callee; or, where the call is in the body of another function, `p`
leads to that function and that calls the callee.  A function that calls itself shows nothing. -/
inductive Shows (e : Edge) (p : String) : String → String → Prop
  | direct : e.caller = "" ∨ e.caller = p ∨ e.caller = e.callee → e.callee ≠ p → Shows e p p e.callee
  | resolved : e.caller ≠ "" → e.caller ≠ p → e.caller ≠ e.callee → Shows e p p e.caller
  | body : e.caller ≠ "" → e.caller ≠ p → e.caller ≠ e.callee → Shows e p e.caller e.callee

/-- The calls the trace of a route is about. -/
def Call (root : String) (kids : List Node) (a b : String) : Prop :=
  ∃ x p e, At root kids x p ∧ x.edge = some e ∧ e.builtin = false ∧ e.callee ≠ "" ∧ Shows e p a b

/-- The handler: the function the first call of the route is in. -/
def IsHandler (kids : List Node) (r : String) : Prop :=
  ∃ pre c e post, kids = pre ++ c :: post ∧ c.edge = some e ∧ e.caller = r ∧ r ≠ "" ∧ ∀ x ∈ pre, ∀ e', x.edge = some e' → e'.caller = ""

/-- A path of `n` edges. -/
inductive Path (adj : List (String × String)) (root : String) : String → Nat → Prop
  | here : Path adj root root 0
  | more (a b : String) (n : Nat) : Path adj root a n → (a, b) ∈ adj → Path adj root b (n + 1)

/-! ### Lemmas -/

theorem Path.mono {adj adj' : List (String × String)} {root : String} (h : ∀ e ∈ adj, e ∈ adj') {a : String} {n : Nat} (hp : Path adj root a n) :
    Path adj' root a n := by
  induction hp with
  | here => exact .here
  | more a b n _ hm ih => exact .more a b n ih (h _ hm)

theorem mem_addEdge (a b : String) (st : St) (e : String × String) : e ∈ (addEdge a b st).adj ↔ e ∈ st.adj ∨ (a ≠ b ∧ e = (a, b)) := by
  unfold addEdge
  split
  · next h => simp [h]
  · next h =>
    split
    · next hm =>
      constructor
      · exact Or.inl
      · rintro (h1 | ⟨_, h1⟩)
        · exact h1
        · rw [h1]; exact hm
    · simp [h]

theorem addEdge_rest (a b : String) (st : St) :
    (addEdge a b st).depth = st.depth ∧ (addEdge a b st).queue = st.queue ∧ (addEdge a b st).visited = st.visited ∧
    (addEdge a b st).truncated = st.truncated ∧ (addEdge a b st).maxDepth = st.maxDepth := by
  unfold addEdge
  split
  · exact ⟨rfl, rfl, rfl, rfl, rfl⟩
  · split <;> exact ⟨rfl, rfl, rfl, rfl, rfl⟩

theorem setDepth_rest (a : String) (d : Nat) (st : St) :
    (setDepth a d st).adj = st.adj ∧ (setDepth a d st).queue = st.queue ∧ (setDepth a d st).visited = st.visited ∧ (setDepth a d st).truncated = st.truncated := by
  unfold setDepth
  split <;> exact ⟨rfl, rfl, rfl, rfl⟩

theorem mem_setDepth (a : String) (d : Nat) (st : St) (x : String × Nat) (h : x ∈ (setDepth a d st).depth) : x ∈ st.depth ∨ x = (a, d) := by
  unfold setDepth at h
  split at h
  · exact Or.inl h
  · simpa using h

theorem names_setDepth (a : String) (d : Nat) (st : St) (f : String) :
    f ∈ (setDepth a d st).depth.map (·.1) ↔ f ∈ st.depth.map (·.1) ∨ f = a := by
  unfold setDepth
  split
  · next h =>
    constructor
    · exact Or.inl
    · rintro (h1 | rfl)
      · exact h1
      · exact h
  · rw [List.map_append, List.mem_append]; simp

/-- What holds of edges, depths and names all the time. -/
structure Good (root : String) (kids : List Node) (st : St) : Prop where
  calls : ∀ a b, (a, b) ∈ st.adj → Call root kids a b ∧ a ≠ b
  once : st.adj.Nodup
  names : ∀ f, f ∈ st.depth.map (·.1) ↔ f = root ∨ ∃ a, (a, f) ∈ st.adj
  single : (st.depth.map (·.1)).Nodup
  path : ∀ f d, (f, d) ∈ st.depth → ∃ n, n ≤ d ∧ Path st.adj root f n
  max : (∀ f d, (f, d) ∈ st.depth → d ≤ st.maxDepth) ∧ ∃ f, (f, st.maxDepth) ∈ st.depth
  items : ∀ it ∈ st.queue, At root kids it.node it.id ∧ ∃ n, n ≤ it.d ∧ Path st.adj root it.id n

/-- An edge from a function already met, with the depth of its end. -/
theorem good_link (root : String) (kids : List Node) (st : St) (hg : Good root kids st) (a b : String) (d : Nat)
    (hc : Call root kids a b) (hne : a ≠ b) (ha : ∃ n, n ≤ d ∧ Path st.adj root a n) :
    Good root kids (setDepth b (d + 1) (addEdge a b st)) ∧ (∃ n, n ≤ d + 1 ∧ Path (setDepth b (d + 1) (addEdge a b st)).adj root b n) ∧
    (∀ e, e ∈ st.adj → e ∈ (setDepth b (d + 1) (addEdge a b st)).adj) ∧ (a, b) ∈ (setDepth b (d + 1) (addEdge a b st)).adj := by
  obtain ⟨r1, r2, r3, r4, r5⟩ := addEdge_rest a b st
  obtain ⟨s1, s2, s3, s4⟩ := setDepth_rest b (d + 1) (addEdge a b st)
  have hmem : ∀ e, e ∈ (setDepth b (d + 1) (addEdge a b st)).adj ↔ e ∈ st.adj ∨ e = (a, b) := by
    intro e
    rw [s1, mem_addEdge]
    constructor
    · rintro (h | ⟨_, h⟩)
      · exact Or.inl h
      · exact Or.inr h
    · rintro (h | h)
      · exact Or.inl h
      · exact Or.inr ⟨hne, h⟩
  have hsub : ∀ e, e ∈ st.adj → e ∈ (setDepth b (d + 1) (addEdge a b st)).adj := fun e h => (hmem e).2 (Or.inl h)
  have hab : (a, b) ∈ (setDepth b (d + 1) (addEdge a b st)).adj := (hmem _).2 (Or.inr rfl)
  have hb : ∃ n, n ≤ d + 1 ∧ Path (setDepth b (d + 1) (addEdge a b st)).adj root b n := by
    obtain ⟨n, hn, hp⟩ := ha
    exact ⟨n + 1, by omega, .more a b n (hp.mono hsub) hab⟩
  refine ⟨⟨?_, ?_, ?_, ?_, ?_, ?_, ?_⟩, hb, hsub, hab⟩
  · intro x y h
    rcases (hmem _).1 h with h | h
    · exact hg.calls x y h
    · cases h; exact ⟨hc, hne⟩
  · rw [s1]
    unfold addEdge
    split
    · exact hg.once
    · split
      · exact hg.once
      · next hn =>
        refine List.nodup_append.2 ⟨hg.once, by simp, ?_⟩
        intro x hx y hy he
        have hy : y = (a, b) := by simpa using hy
        subst hy; subst he
        exact hn hx
  · intro f
    rw [names_setDepth, r1, hg.names]
    constructor
    · rintro ((h | ⟨x, h⟩) | rfl)
      · exact Or.inl h
      · exact Or.inr ⟨x, hsub _ h⟩
      · exact Or.inr ⟨a, hab⟩
    · rintro (h | ⟨x, h⟩)
      · exact Or.inl (Or.inl h)
      · rcases (hmem _).1 h with h | h
        · exact Or.inl (Or.inr ⟨x, h⟩)
        · cases h; exact Or.inr rfl
  · unfold setDepth
    split
    · rw [r1]; exact hg.single
    · next hn =>
      rw [r1] at hn
      simp only [r1, List.map_append]
      refine List.nodup_append.2 ⟨hg.single, by simp, ?_⟩
      intro x hx y hy he
      have hy : y = b := by simpa using hy
      subst hy; subst he
      exact hn hx
  · intro f k h
    rcases mem_setDepth _ _ _ _ h with h | h
    · rw [r1] at h
      obtain ⟨n, hn, hp⟩ := hg.path f k h
      exact ⟨n, hn, hp.mono hsub⟩
    · cases h; exact hb
  · obtain ⟨h1, f0, h2⟩ := hg.max
    unfold setDepth
    split
    · rw [r1, r5]; exact ⟨h1, f0, h2⟩
    · simp only [r1, r5]
      constructor
      · intro f k h
        rcases List.mem_append.1 h with h | h
        · have := h1 f k h; split <;> omega
        · have h : (f, k) = (b, d + 1) := by simpa using h
          cases h; split <;> omega
      · split
        · exact ⟨b, List.mem_append.2 (Or.inr List.mem_cons_self)⟩
        · exact ⟨f0, List.mem_append.2 (Or.inl h2)⟩
  · intro it h
    rw [s2, r2] at h
    obtain ⟨h1, n, hn, hp⟩ := hg.items it h
    exact ⟨h1, n, hn, hp.mono hsub⟩

/-- The depth and edges after a call, with what they show. -/
theorem visit_good (root : String) (kids : List Node) (maxReach : Nat) (e : Edge) (it : Item) (st : St) (hg : Good root kids st)
    (hat : At root kids it.node it.id) (he : it.node.edge = some e) (hp : ∃ n, n ≤ it.d ∧ Path st.adj root it.id n) :
    Good root kids (visitCall maxReach e it st) ∧ (∀ x, x ∈ st.adj → x ∈ (visitCall maxReach e it st).adj) ∧ (visitCall maxReach e it st).visited = st.visited ∧
    (st.truncated = true → (visitCall maxReach e it st).truncated = true) ∧
    ((visitCall maxReach e it st).truncated = false → e.builtin = false → e.callee ≠ "" →
      (∀ a b, Shows e it.id a b → (a, b) ∈ (visitCall maxReach e it st).adj) ∧ ∃ d, (visitCall maxReach e it st).queue = st.queue ++ it.node.children.map fun c => ⟨c, e.callee, d⟩) ∧
    (∃ more, (visitCall maxReach e it st).queue = st.queue ++ more ∧ more.length ≤ it.node.children.length ∧ ∀ i ∈ more, i.node ∈ it.node.children) ∧
    ((visitCall maxReach e it st).queue = st.queue ∨ ∃ id d, (visitCall maxReach e it st).queue = st.queue ++ it.node.children.map fun c => ⟨c, id, d⟩) := by
  by_cases hb : (e.builtin || e.callee == "") = true
  · have hv : visitCall maxReach e it st = st := by unfold visitCall; rw [if_pos hb]
    rw [hv]
    refine ⟨hg, fun _ h => h, rfl, fun h => h, fun _ h1 h2 => ?_, ⟨[], by simp, by simp, by simp⟩, Or.inl rfl⟩
    simp [h1, h2] at hb
  · have hbf : e.builtin = false ∧ e.callee ≠ "" := by simpa using hb
    -- the state before the test of the bound
    have main : ∃ st2 d, Good root kids st2 ∧ (∀ x, x ∈ st.adj → x ∈ st2.adj) ∧ st2.visited = st.visited ∧ st2.truncated = st.truncated ∧ st2.queue = st.queue ∧
        (∀ a b, Shows e it.id a b → (a, b) ∈ st2.adj) ∧ (∃ n, n ≤ d + 1 ∧ Path st2.adj root e.callee n) ∧
        visitCall maxReach e it st = if st2.depth.length > maxReach then { st2 with truncated := true }
          else { st2 with queue := st2.queue ++ it.node.children.map fun c => ⟨c, e.callee, d + 1⟩ } := by
      by_cases hbd : boundary e it = true
      · have hbd' : e.caller ≠ "" ∧ e.caller ≠ it.id ∧ e.caller ≠ e.callee := by unfold boundary at hbd; simpa using hbd
        obtain ⟨c1, c2, c3⟩ := hbd'
        obtain ⟨g1, p1, m1, a1⟩ := good_link root kids st hg it.id e.caller it.d ⟨it.node, it.id, e, hat, he, hbf.1, hbf.2, .resolved c1 c2 c3⟩ (fun h => c2 h.symm) hp
        obtain ⟨g2, p2, m2, a2⟩ := good_link root kids _ g1 e.caller e.callee (it.d + 1) ⟨it.node, it.id, e, hat, he, hbf.1, hbf.2, .body c1 c2 c3⟩ c3 p1
        refine ⟨setDepth e.callee (it.d + 1 + 1) (addEdge e.caller e.callee (setDepth e.caller (it.d + 1) (addEdge it.id e.caller st))), it.d + 1,
          g2, fun x h => m2 x (m1 x h), ?_, ?_, ?_, ?_, p2, ?_⟩
        · rw [(setDepth_rest _ _ _).2.2.1, (addEdge_rest _ _ _).2.2.1, (setDepth_rest _ _ _).2.2.1, (addEdge_rest _ _ _).2.2.1]
        · rw [(setDepth_rest _ _ _).2.2.2, (addEdge_rest _ _ _).2.2.2.1, (setDepth_rest _ _ _).2.2.2, (addEdge_rest _ _ _).2.2.2.1]
        · rw [(setDepth_rest _ _ _).2.1, (addEdge_rest _ _ _).2.1, (setDepth_rest _ _ _).2.1, (addEdge_rest _ _ _).2.1]
        · intro a b h
          cases h with
          | direct h _ => rcases h with h | h | h; exact absurd h c1; exact absurd h c2; exact absurd h c3
          | resolved _ _ _ => exact m2 _ a1
          | body _ _ _ => exact a2
        · unfold visitCall
          rw [if_neg hb]
          simp only [hbd, if_true]
          rw [if_pos (fun h => c3 h.symm)]
      · have hnb : e.caller = "" ∨ e.caller = it.id ∨ e.caller = e.callee := by
          unfold boundary at hbd
          simp only [decide_eq_true_eq] at hbd
          by_cases q1 : e.caller = ""
          · exact Or.inl q1
          · by_cases q2 : e.caller = it.id
            · exact Or.inr (Or.inl q2)
            · by_cases q3 : e.caller = e.callee
              · exact Or.inr (Or.inr q3)
              · exact absurd ⟨q1, q2, q3⟩ hbd
        have hbd : boundary e it = false := by simpa using hbd
        by_cases hself : e.callee = it.id
        · refine ⟨st, it.d, hg, fun _ h => h, rfl, rfl, rfl, ?_, ?_, ?_⟩
          · intro a b h
            cases h with
            | direct _ h => exact absurd hself h
            | resolved h1 h2 h3 => rcases hnb with q | q | q; exact absurd q h1; exact absurd q h2; exact absurd q h3
            | body h1 h2 h3 => rcases hnb with q | q | q; exact absurd q h1; exact absurd q h2; exact absurd q h3
          · obtain ⟨n, hn, hpp⟩ := hp
            rw [hself]
            exact ⟨n, by omega, hpp⟩
          · unfold visitCall
            rw [if_neg hb]
            simp only [hbd, Bool.false_eq_true, if_false]
            rw [if_neg (c := e.callee ≠ it.id) (fun q => q hself)]
        · obtain ⟨g1, p1, m1, a1⟩ := good_link root kids st hg it.id e.callee it.d ⟨it.node, it.id, e, hat, he, hbf.1, hbf.2, .direct hnb hself⟩ (fun h => hself h.symm) hp
          refine ⟨setDepth e.callee (it.d + 1) (addEdge it.id e.callee st), it.d, g1, m1, ?_, ?_, ?_, ?_, p1, ?_⟩
          · rw [(setDepth_rest _ _ _).2.2.1, (addEdge_rest _ _ _).2.2.1]
          · rw [(setDepth_rest _ _ _).2.2.2, (addEdge_rest _ _ _).2.2.2.1]
          · rw [(setDepth_rest _ _ _).2.1, (addEdge_rest _ _ _).2.1]
          · intro a b h
            cases h with
            | direct _ _ => exact a1
            | resolved h1 h2 h3 => rcases hnb with q | q | q; exact absurd q h1; exact absurd q h2; exact absurd q h3
            | body h1 h2 h3 => rcases hnb with q | q | q; exact absurd q h1; exact absurd q h2; exact absurd q h3
          · unfold visitCall
            rw [if_neg hb]
            simp only [hbd, Bool.false_eq_true, if_false]
            rw [if_pos hself]
    obtain ⟨st2, d, g, msub, hv, htr, hq, hshow, hcal, heq⟩ := main
    rw [heq]
    split
    · refine ⟨⟨g.calls, g.once, g.names, g.single, g.path, g.max, g.items⟩, msub, hv, fun _ => rfl, (fun h => by cases h), ⟨[], by simp [hq], by simp, by simp⟩, Or.inl hq⟩
    · refine ⟨⟨g.calls, g.once, g.names, g.single, g.path, g.max, ?_⟩, msub, hv, fun h => by rw [← htr] at h; exact h, fun _ _ _ => ⟨hshow, d + 1, by simp only [hq]⟩,
        ⟨it.node.children.map fun c => ⟨c, e.callee, d + 1⟩, by simp only [hq], by simp, ?_⟩, Or.inr ⟨e.callee, d + 1, by simp only [hq]⟩⟩
      · intro i hi
        rcases List.mem_append.1 hi with hi | hi
        · exact g.items i hi
        · obtain ⟨c, hc, rfl⟩ := List.mem_map.1 hi
          exact ⟨.call it.node it.id e c hat he hbf.1 hbf.2 hc, hcal⟩
      · intro i hi
        obtain ⟨c, hc, rfl⟩ := List.mem_map.1 hi
        exact hc

theorem good_frame (root : String) (kids : List Node) (st st' : St) (hg : Good root kids st) (h1 : st'.adj = st.adj) (h2 : st'.depth = st.depth)
    (h3 : st'.maxDepth = st.maxDepth) (h4 : ∀ it ∈ st'.queue, it ∈ st.queue) : Good root kids st' := by
  refine ⟨?_, ?_, ?_, ?_, ?_, ?_, ?_⟩
  · rw [h1]; exact hg.calls
  · rw [h1]; exact hg.once
  · rw [h1, h2]; exact hg.names
  · rw [h2]; exact hg.single
  · rw [h1, h2]; exact hg.path
  · rw [h2, h3]; exact hg.max
  · intro it h; rw [h1]; exact hg.items it (h4 it h)

/-- What one item does. -/
theorem step_good (root : String) (kids : List Node) (mt mr : Nat) (it : Item) (q : List Item) (st : St) (hq : st.queue = it :: q) (hg : Good root kids st) :
    Good root kids (step mt mr it { st with queue := q }) := by
  have hit := hg.items it (by rw [hq]; exact List.mem_cons_self)
  have hg0 : Good root kids { st with queue := q } := good_frame root kids st _ hg rfl rfl rfl (fun i h => by rw [hq]; exact List.mem_cons_of_mem _ h)
  unfold step
  split
  · exact good_frame root kids _ _ hg0 rfl rfl rfl (fun _ h => h)
  · split
    · exact hg0
    · have hg1 : Good root kids (if it.node.key ≠ "" then { { st with queue := q } with visited := it.node.key :: st.visited } else { st with queue := q }) := by
        split
        · exact good_frame root kids _ _ hg0 rfl rfl rfl (fun _ h => h)
        · exact hg0
      have hadj : (if it.node.key ≠ "" then { { st with queue := q } with visited := it.node.key :: st.visited } else { st with queue := q } : St).adj = st.adj := by
        split <;> rfl
      dsimp only at hg1 hadj ⊢
      generalize hst1 : (if it.node.key ≠ "" then _ else _ : St) = st1 at hg1 hadj ⊢
      cases he : it.node.edge with
      | none =>
        dsimp only
        refine ⟨hg1.calls, hg1.once, hg1.names, hg1.single, hg1.path, hg1.max, ?_⟩
        intro i hi
        rcases List.mem_append.1 hi with hi | hi
        · exact hg1.items i hi
        · obtain ⟨c, hc, rfl⟩ := List.mem_map.1 hi
          refine ⟨.through it.node it.id c hit.1 he hc, ?_⟩
          show ∃ n, n ≤ it.d ∧ Path st1.adj root it.id n
          rw [hadj]; exact hit.2
      | some e =>
        dsimp only
        exact (visit_good root kids mr e it st1 hg1 hit.1 he (by rw [hadj]; exact hit.2)).1

theorem run_good (root : String) (kids : List Node) (mt mr : Nat) : ∀ n st, Good root kids st → Good root kids (run mt mr n st) := by
  intro n
  induction n with
  | zero => intro st h; exact h
  | succ n ih =>
    intro st h
    unfold run
    cases hq : st.queue with
    | nil => exact h
    | cons it q => exact ih _ (step_good root kids mt mr it q st hq h)

theorem start_good (root : String) (kids : List Node) : Good root kids (start root kids) := by
  refine ⟨(fun a b h => by cases h), List.nodup_nil, ?_, by simp [start], ?_, ?_, ?_⟩
  · intro f; simp [start]
  · intro f d h
    have h : (f, d) = (root, 0) := by simpa [start] using h
    cases h
    exact ⟨0, Nat.le_refl _, .here⟩
  · constructor
    · intro f d h
      have h : (f, d) = (root, 0) := by simpa [start] using h
      cases h
      exact Nat.le_refl _
    · exact ⟨root, List.mem_cons_self⟩
  · intro it h
    obtain ⟨c, hc, rfl⟩ := List.mem_map.1 h
    exact ⟨.top c hc, 0, Nat.le_refl _, .here⟩

theorem rootOf_spec (kids : List Node) (h : rootOf kids ≠ "") : IsHandler kids (rootOf kids) := by
  induction kids with
  | nil => exact absurd rfl h
  | cons c cs ih =>
    have skip : rootOf (c :: cs) = rootOf cs → (∀ e', c.edge = some e' → e'.caller = "") → IsHandler (c :: cs) (rootOf (c :: cs)) := by
      intro heq hc
      rw [heq] at h ⊢
      obtain ⟨pre, x, e, post, h1, h2, h3, h4, h5⟩ := ih h
      refine ⟨c :: pre, x, e, post, by rw [List.cons_append, ← h1], h2, h3, h4, ?_⟩
      intro y hy
      rcases List.mem_cons.1 hy with rfl | hy
      · exact hc
      · exact h5 y hy
    cases he : c.edge with
    | none => exact skip (by simp [rootOf, he]) (by intro e' h'; rw [he] at h'; cases h')
    | some e =>
      by_cases hc : e.caller = ""
      · exact skip (by simp [rootOf, he, hc]) (by intro e' h'; rw [he] at h'; cases h'; exact hc)
      · have : rootOf (c :: cs) = e.caller := by simp [rootOf, he, hc]
        rw [this]
        exact ⟨[], c, e, cs, rfl, he, rfl, hc, by simp⟩

/-! ### Nothing is left out -/

/-- Waiting in the queue, or dealt with. -/
def Met (st : St) (done : List (Node × String)) (x : Node) (p : String) : Prop := (∃ it ∈ st.queue, it.node = x ∧ it.id = p) ∨ (x, p) ∈ done

structure Closed (root : String) (kids : List Node) (st : St) (done : List (Node × String)) : Prop where
  tops : ∀ c ∈ kids, Met st done c root
  plain : ∀ x p, (x, p) ∈ done → x.edge = none → ∀ c ∈ x.children, Met st done c p
  call : ∀ x p e, (x, p) ∈ done → x.edge = some e → e.builtin = false → e.callee ≠ "" →
    (∀ a b, Shows e p a b → (a, b) ∈ st.adj) ∧ ∀ c ∈ x.children, Met st done c e.callee
  keys : ∀ k ∈ st.visited, ∃ x p, (x, p) ∈ done ∧ x.key = k
  here : ∀ x p, (x, p) ∈ done → At root kids x p

/-- Two nodes with one key are the same call from the same function. -/
def Keyed (root : String) (kids : List Node) : Prop :=
  ∀ x p y q, At root kids x p → At root kids y q → x.key = y.key → x.key ≠ "" → x = y ∧ p = q

theorem step_truncated (root : String) (kids : List Node) (mt mr : Nat) (it : Item) (q : List Item) (st : St) (hq : st.queue = it :: q) (hg : Good root kids st)
    (h : st.truncated = true) : (step mt mr it { st with queue := q }).truncated = true := by
  have hit := hg.items it (by rw [hq]; exact List.mem_cons_self)
  have hg0 : Good root kids { st with queue := q } := good_frame root kids st _ hg rfl rfl rfl (fun i h => by rw [hq]; exact List.mem_cons_of_mem _ h)
  unfold step
  split
  · rfl
  · split
    · exact h
    · have hg1 : Good root kids (if it.node.key ≠ "" then { { st with queue := q } with visited := it.node.key :: st.visited } else { st with queue := q }) := by
        split
        · exact good_frame root kids _ _ hg0 rfl rfl rfl (fun _ h => h)
        · exact hg0
      have hadj : (if it.node.key ≠ "" then { { st with queue := q } with visited := it.node.key :: st.visited } else { st with queue := q } : St).adj = st.adj := by
        split <;> rfl
      have htr : (if it.node.key ≠ "" then { { st with queue := q } with visited := it.node.key :: st.visited } else { st with queue := q } : St).truncated = true := by
        split <;> exact h
      dsimp only at hg1 hadj htr ⊢
      generalize hst1 : (if it.node.key ≠ "" then _ else _ : St) = st1 at hg1 hadj htr ⊢
      cases he : it.node.edge with
      | none => exact htr
      | some e => exact (visit_good root kids mr e it st1 hg1 hit.1 he (by rw [hadj]; exact hit.2)).2.2.2.1 htr

theorem run_truncated (root : String) (kids : List Node) (mt mr : Nat) : ∀ n st, Good root kids st → st.truncated = true → (run mt mr n st).truncated = true := by
  intro n
  induction n with
  | zero => intro st _ h; exact h
  | succ n ih =>
    intro st hg h
    unfold run
    cases hq : st.queue with
    | nil => exact h
    | cons it q => exact ih _ (step_good root kids mt mr it q st hq hg) (step_truncated root kids mt mr it q st hq hg h)

theorem step_closed (root : String) (kids : List Node) (hk : Keyed root kids) (mt mr : Nat) (it : Item) (q : List Item) (st : St) (hq : st.queue = it :: q)
    (hg : Good root kids st) (done : List (Node × String)) (hc : Closed root kids st done) (ht : (step mt mr it { st with queue := q }).truncated = false) :
    ∃ done', Closed root kids (step mt mr it { st with queue := q }) done' := by
  have hit := hg.items it (by rw [hq]; exact List.mem_cons_self)
  have hg0 : Good root kids { st with queue := q } := good_frame root kids st _ hg rfl rfl rfl (fun i h => by rw [hq]; exact List.mem_cons_of_mem _ h)
  -- what was met before is met after, when the item is dealt with and the queue has only grown
  have keep : ∀ (st' : St) (done' : List (Node × String)), (∀ i ∈ q, i ∈ st'.queue) → (∀ y ∈ done, y ∈ done') → (it.node, it.id) ∈ done' →
      ∀ x p, Met st done x p → Met st' done' x p := by
    intro st' done' h1 h2 h3 x p hm
    rcases hm with ⟨i, hi, rfl, rfl⟩ | hm
    · rw [hq] at hi
      rcases List.mem_cons.1 hi with rfl | hi
      · exact Or.inr h3
      · exact Or.inl ⟨i, h1 i hi, rfl, rfl⟩
    · exact Or.inr (h2 _ hm)
  unfold step at ht ⊢
  split at ht
  · cases ht
  · next hd =>
    rw [if_neg hd]
    split at ht
    · next hv =>
      rw [if_pos hv]
      obtain ⟨x, p, hx, hxk⟩ := hc.keys _ hv.2
      obtain ⟨e1, e2⟩ := hk x p it.node it.id (hc.here x p hx) hit.1 hxk (by rw [hxk]; exact hv.1)
      subst e1; subst e2
      have kp := keep { st with queue := q } done (fun _ h => h) (fun _ h => h) hx
      exact ⟨done, fun c h => kp _ _ (hc.tops c h), fun y p h1 h2 c h3 => kp _ _ (hc.plain y p h1 h2 c h3),
        fun y p e h1 h2 h3 h4 => ⟨(hc.call y p e h1 h2 h3 h4).1, fun c h5 => kp _ _ ((hc.call y p e h1 h2 h3 h4).2 c h5)⟩, hc.keys, hc.here⟩
    · next hv =>
      rw [if_neg hv]
      refine ⟨(it.node, it.id) :: done, ?_⟩
      have hg1 : Good root kids (if it.node.key ≠ "" then { { st with queue := q } with visited := it.node.key :: st.visited } else { st with queue := q }) := by
        split
        · exact good_frame root kids _ _ hg0 rfl rfl rfl (fun _ h => h)
        · exact hg0
      have hadj : (if it.node.key ≠ "" then { { st with queue := q } with visited := it.node.key :: st.visited } else { st with queue := q } : St).adj = st.adj := by
        split <;> rfl
      have hqq : (if it.node.key ≠ "" then { { st with queue := q } with visited := it.node.key :: st.visited } else { st with queue := q } : St).queue = q := by
        split <;> rfl
      have hvis : ∀ k, k ∈ (if it.node.key ≠ "" then { { st with queue := q } with visited := it.node.key :: st.visited } else { st with queue := q } : St).visited →
          k = it.node.key ∨ k ∈ st.visited := by
        split
        · intro k h; exact List.mem_cons.1 h
        · intro k h; exact Or.inr h
      dsimp only at hg1 hadj hqq hvis ht ⊢
      generalize hst1 : (if it.node.key ≠ "" then _ else _ : St) = st1 at hg1 hadj hqq hvis ht ⊢
      have keys' : ∀ k ∈ st1.visited, ∃ x p, (x, p) ∈ (it.node, it.id) :: done ∧ x.key = k := by
        intro k h
        rcases hvis k h with rfl | h
        · exact ⟨it.node, it.id, List.mem_cons_self, rfl⟩
        · obtain ⟨x, p, h1, h2⟩ := hc.keys k h
          exact ⟨x, p, List.mem_cons_of_mem _ h1, h2⟩
      have here' : ∀ x p, (x, p) ∈ (it.node, it.id) :: done → At root kids x p := by
        intro x p h
        rcases List.mem_cons.1 h with h | h
        · cases h; exact hit.1
        · exact hc.here x p h
      cases he : it.node.edge with
      | none =>
        dsimp only
        have kp := keep { st1 with queue := st1.queue ++ it.node.children.map fun c => (⟨c, it.id, it.d⟩ : Item) } ((it.node, it.id) :: done)
          (fun i h => List.mem_append.2 (Or.inl (by rw [hqq]; exact h))) (fun _ h => List.mem_cons_of_mem _ h) List.mem_cons_self
        refine ⟨fun c h => kp _ _ (hc.tops c h), ?_, ?_, keys', here'⟩
        · intro x p h1 h2 c h3
          rcases List.mem_cons.1 h1 with h1 | h1
          · have hx : x = it.node := congrArg Prod.fst h1
            have hp : p = it.id := congrArg Prod.snd h1
            subst hx; subst hp
            exact Or.inl ⟨⟨c, it.id, it.d⟩, List.mem_append.2 (Or.inr (List.mem_map.2 ⟨c, h3, rfl⟩)), rfl, rfl⟩
          · exact kp _ _ (hc.plain x p h1 h2 c h3)
        · intro x p e h1 h2 h3 h4
          rcases List.mem_cons.1 h1 with h1 | h1
          · have hx : x = it.node := congrArg Prod.fst h1
            subst hx
            rw [he] at h2; cases h2
          · have := hc.call x p e h1 h2 h3 h4
            exact ⟨fun a b h => by show (a, b) ∈ st1.adj; rw [hadj]; exact this.1 a b h, fun c h5 => kp _ _ (this.2 c h5)⟩
      | some e =>
        rw [he] at ht
        dsimp only at ht ⊢
        obtain ⟨_, hsub, hvs, _, hfull, ⟨more, hmore, _, _⟩, _⟩ := visit_good root kids mr e it st1 hg1 hit.1 he (by rw [hadj]; exact hit.2)
        have kp := keep (visitCall mr e it st1) ((it.node, it.id) :: done)
          (fun i h => by rw [hmore, hqq]; exact List.mem_append.2 (Or.inl h)) (fun _ h => List.mem_cons_of_mem _ h) List.mem_cons_self
        refine ⟨fun c h => kp _ _ (hc.tops c h), ?_, ?_, by rw [hvs]; exact keys', here'⟩
        · intro x p h1 h2 c h3
          rcases List.mem_cons.1 h1 with h1 | h1
          · have hx : x = it.node := congrArg Prod.fst h1
            subst hx
            rw [he] at h2; cases h2
          · exact kp _ _ (hc.plain x p h1 h2 c h3)
        · intro x p e' h1 h2 h3 h4
          rcases List.mem_cons.1 h1 with h1 | h1
          · have hx : x = it.node := congrArg Prod.fst h1
            have hp : p = it.id := congrArg Prod.snd h1
            subst hx; subst hp
            rw [he] at h2; cases h2
            obtain ⟨hs, d, hqu⟩ := hfull ht h3 h4
            refine ⟨hs, fun c h5 => Or.inl ⟨⟨c, e.callee, d⟩, ?_, rfl, rfl⟩⟩
            rw [hqu]
            exact List.mem_append.2 (Or.inr (List.mem_map.2 ⟨c, h5, rfl⟩))
          · have := hc.call x p e' h1 h2 h3 h4
            exact ⟨fun a b h => hsub _ (by rw [hadj]; exact this.1 a b h), fun c h5 => kp _ _ (this.2 c h5)⟩

def qsize : List Item → Nat
  | [] => 0
  | it :: q => size it.node + qsize q

theorem qsize_append (a b : List Item) : qsize (a ++ b) = qsize a + qsize b := by
  induction a with
  | nil => simp [qsize]
  | cons x a ih => simp [qsize, ih]; omega

theorem qsize_map (cs : List Node) (id : String) (d : Nat) : qsize (cs.map fun c => (⟨c, id, d⟩ : Item)) = sizes cs := by
  induction cs with
  | nil => simp [qsize, sizes]
  | cons x cs ih => simp [qsize, sizes, ih]

theorem size_children (x : Node) : size x = 1 + sizes x.children := by
  cases x with
  | mk k e cs => simp [size, Node.children]

theorem step_size (root : String) (kids : List Node) (mt mr : Nat) (it : Item) (q : List Item) (st : St) (hq : st.queue = it :: q) (hg : Good root kids st) :
    qsize (step mt mr it { st with queue := q }).queue + 1 ≤ qsize st.queue := by
  have hit := hg.items it (by rw [hq]; exact List.mem_cons_self)
  have hg0 : Good root kids { st with queue := q } := good_frame root kids st _ hg rfl rfl rfl (fun i h => by rw [hq]; exact List.mem_cons_of_mem _ h)
  have hs := size_children it.node
  have hz : qsize st.queue = size it.node + qsize q := by rw [hq]; rfl
  unfold step
  split
  · show qsize q + 1 ≤ _; omega
  · split
    · show qsize q + 1 ≤ _; omega
    · have hg1 : Good root kids (if it.node.key ≠ "" then { { st with queue := q } with visited := it.node.key :: st.visited } else { st with queue := q }) := by
        split
        · exact good_frame root kids _ _ hg0 rfl rfl rfl (fun _ h => h)
        · exact hg0
      have hadj : (if it.node.key ≠ "" then { { st with queue := q } with visited := it.node.key :: st.visited } else { st with queue := q } : St).adj = st.adj := by
        split <;> rfl
      have hqq : (if it.node.key ≠ "" then { { st with queue := q } with visited := it.node.key :: st.visited } else { st with queue := q } : St).queue = q := by
        split <;> rfl
      dsimp only at hg1 hadj hqq ⊢
      generalize hst1 : (if it.node.key ≠ "" then _ else _ : St) = st1 at hg1 hadj hqq ⊢
      cases he : it.node.edge with
      | none =>
        dsimp only
        rw [qsize_append, qsize_map, hqq]; omega
      | some e =>
        dsimp only
        obtain ⟨_, _, _, _, _, _, h | ⟨id, d, h⟩⟩ := visit_good root kids mr e it st1 hg1 hit.1 he (by rw [hadj]; exact hit.2)
        · rw [h, hqq]; omega
        · rw [h, qsize_append, qsize_map, hqq]; omega

theorem run_done (root : String) (kids : List Node) (mt mr : Nat) : ∀ n st, Good root kids st → qsize st.queue ≤ n → (run mt mr n st).queue = [] := by
  intro n
  induction n with
  | zero =>
    intro st _ h
    cases hq : st.queue with
    | nil => exact hq
    | cons it q =>
      rw [hq] at h
      have := size_children it.node
      simp [qsize] at h
      omega
  | succ n ih =>
    intro st hg h
    unfold run
    cases hq : st.queue with
    | nil => exact hq
    | cons it q =>
      have := step_size root kids mt mr it q st hq hg
      exact ih _ (step_good root kids mt mr it q st hq hg) (by omega)

theorem run_closed (root : String) (kids : List Node) (hk : Keyed root kids) (mt mr : Nat) : ∀ n st, Good root kids st → (∃ done, Closed root kids st done) →
    (run mt mr n st).truncated = false → ∃ done, Closed root kids (run mt mr n st) done := by
  intro n
  induction n with
  | zero => intro st _ h _; exact h
  | succ n ih =>
    intro st hg hc ht
    unfold run at ht ⊢
    cases hq : st.queue with
    | nil => exact hc
    | cons it q =>
      rw [hq] at ht
      dsimp only at ht ⊢
      obtain ⟨done, hc⟩ := hc
      have hg' := step_good root kids mt mr it q st hq hg
      refine ih _ hg' (step_closed root kids hk mt mr it q st hq hg done hc ?_) ht
      cases h : (step mt mr it { st with queue := q }).truncated with
      | false => rfl
      | true => rw [run_truncated root kids mt mr n _ hg' h] at ht; cases ht

theorem analyze_some (mt mr : Nat) (kids : List Node) (st : St) (h : analyze mt mr kids = some st) :
    rootOf kids ≠ "" ∧ st = run mt mr (sizes kids) (start (rootOf kids) kids) := by
  unfold analyze at h
  split at h
  · cases h
  · next hr =>
    dsimp only at h
    split at h
    · cases h; exact ⟨hr, rfl⟩
    · cases h

/-! ### The properties -/

/-- Every edge of a trace is a call below the handler, and each is shown once; no function is shown calling itself. -/
theorem C116_edges (mt mr : Nat) (kids : List Node) (st : St) (h : analyze mt mr kids = some st) :
    ∃ r, IsHandler kids r ∧ st.adj.Nodup ∧ ∀ a b, (a, b) ∈ st.adj → Call r kids a b ∧ a ≠ b := by
  obtain ⟨hr, rfl⟩ := analyze_some mt mr kids st h
  have hg := run_good (rootOf kids) kids mt mr (sizes kids) _ (start_good _ _)
  exact ⟨rootOf kids, rootOf_spec kids hr, hg.once, hg.calls⟩

/-- The functions counted are the handler and those an edge leads to, once each, and each is reached from the handler
along the edges shown, in no more steps than its depth; the greatest depth is that of one of them. -/
theorem C116_functions (mt mr : Nat) (kids : List Node) (st : St) (h : analyze mt mr kids = some st) :
    ∃ r, IsHandler kids r ∧ (st.depth.map (·.1)).Nodup ∧ (∀ f, f ∈ st.depth.map (·.1) ↔ f = r ∨ ∃ a, (a, f) ∈ st.adj) ∧
      (∀ f d, (f, d) ∈ st.depth → d ≤ st.maxDepth ∧ ∃ n, n ≤ d ∧ Path st.adj r f n) ∧ ∃ f, (f, st.maxDepth) ∈ st.depth := by
  obtain ⟨hr, rfl⟩ := analyze_some mt mr kids st h
  have hg := run_good (rootOf kids) kids mt mr (sizes kids) _ (start_good _ _)
  exact ⟨rootOf kids, rootOf_spec kids hr, hg.single, hg.names, fun f d hm => ⟨hg.max.1 f d hm, hg.path f d hm⟩, hg.max.2⟩

/-- A trace that is not marked as cut shows every call below the handler, if a key stands for one call from one function.
Missing: keys that stand for several, `C116_second_caller`. -/
theorem C116_complete_partial (mt mr : Nat) (kids : List Node) (st : St) (h : analyze mt mr kids = some st) (ht : st.truncated = false)
    (hk : ∀ r, IsHandler kids r → Keyed r kids) : ∃ r, IsHandler kids r ∧ ∀ a b, Call r kids a b → (a, b) ∈ st.adj := by
  obtain ⟨hr, rfl⟩ := analyze_some mt mr kids st h
  have hroot := rootOf_spec kids hr
  generalize rootOf kids = r at *
  have hg0 := start_good r kids
  have hc0 : Closed r kids (start r kids) [] := by
    refine ⟨fun c hc => Or.inl ⟨⟨c, r, 0⟩, List.mem_map.2 ⟨c, hc, rfl⟩, rfl, rfl⟩, ?_, ?_, ?_, ?_⟩
    · intro _ _ h; cases h
    · intro _ _ _ h; cases h
    · intro _ h; cases h
    · intro _ _ h; cases h
  obtain ⟨done, hc⟩ := run_closed r kids (hk r hroot) mt mr (sizes kids) _ hg0 ⟨[], hc0⟩ ht
  have hempty := run_done r kids mt mr (sizes kids) (start r kids) hg0 (by unfold start; dsimp only; rw [qsize_map]; exact Nat.le_refl _)
  have met : ∀ x p, Met (run mt mr (sizes kids) (start r kids)) done x p → (x, p) ∈ done := by
    rintro x p (⟨i, hi, _⟩ | h)
    · rw [hempty] at hi; cases hi
    · exact h
  have all : ∀ x p, At r kids x p → (x, p) ∈ done := by
    intro x p hat
    induction hat with
    | top c hc' => exact met _ _ (hc.tops c hc')
    | through x p c _ he hcc ih => exact met _ _ (hc.plain x p ih he c hcc)
    | call x p e c _ he hb hn hcc ih => exact met _ _ ((hc.call x p e ih he hb hn).2 c hcc)
  refine ⟨r, hroot, ?_⟩
  rintro a b ⟨x, p, e, hat, he, hb, hn, hs⟩
  exact (hc.call x p e (all x p hat) he hb hn).1 a b hs

/-! ### Instances and what does not hold -/

/-- A handler that calls a service through an interface, whose implementation calls the database, and a logger. -/
abbrev demo : List Node :=
  [.mk "get@1" (some ⟨"app.H", "app.Svc.Get", false⟩) [.mk "query@9" (some ⟨"app.Impl.Get", "db.Query", false⟩) []],
   .mk "log@2" (some ⟨"app.H", "log.Print", false⟩) []]

example : (analyze 14 600 demo).map (fun st => (st.adj, st.depth, st.maxDepth, st.truncated)) =
    some ([("app.H", "app.Svc.Get"), ("app.H", "log.Print"), ("app.Svc.Get", "app.Impl.Get"), ("app.Impl.Get", "db.Query")],
      [("app.H", 0), ("app.Svc.Get", 1), ("log.Print", 1), ("app.Impl.Get", 2), ("db.Query", 3)], 3, false) := by decide

/-- The hypothesis about keys is met: each key of the example is there once. -/
example : ∀ r, IsHandler demo r → Keyed r demo := by
  intro r _ x p y q hx hy hk _
  have inv : ∀ x p, At r demo x p → (x, p) = (demo[0], r) ∨ (x, p) = (demo[1], r) ∨ (x, p) = (.mk "query@9" (some ⟨"app.Impl.Get", "db.Query", false⟩) [], "app.Svc.Get") := by
    intro x p h
    induction h with
    | top c h =>
      rcases List.mem_cons.1 h with rfl | h
      · exact Or.inl rfl
      · rcases List.mem_cons.1 h with rfl | h
        · exact Or.inr (Or.inl rfl)
        · cases h
    | through x p c _ he _ ih =>
      rcases ih with h | h | h <;> (have h := congrArg Prod.fst h; dsimp only at h; subst h; cases he)
    | call x p e c _ he _ _ hcc ih =>
      rcases ih with h | h | h <;> (have h := congrArg Prod.fst h; dsimp only at h; subst h; cases he)
      · rcases List.mem_cons.1 hcc with rfl | h
        · exact Or.inr (Or.inr rfl)
        · cases h
      · cases hcc
      · cases hcc
  rcases inv x p hx with h | h | h <;> rcases inv y q hy with h' | h' | h' <;> cases h <;> cases h' <;> first | exact ⟨rfl, rfl⟩ | exact absurd hk (by decide)

/-- Two interfaces lead to one implementation, whose call has one key: only the first is shown leading to it, and the trace
is not marked as cut. -/
theorem C116_second_caller :
    let body := Node.mk "query@9" (some ⟨"app.Impl.Get", "db.Query", false⟩) []
    let kids := [Node.mk "a@1" (some ⟨"app.H", "app.Reader.Get", false⟩) [body], Node.mk "b@2" (some ⟨"app.H", "app.Store.Get", false⟩) [body]]
    Call "app.H" kids "app.Store.Get" "app.Impl.Get" ∧ ∃ st, analyze 14 600 kids = some st ∧ st.truncated = false ∧ ("app.Store.Get", "app.Impl.Get") ∉ st.adj := by
  refine ⟨⟨.mk "query@9" (some ⟨"app.Impl.Get", "db.Query", false⟩) [], "app.Store.Get", ⟨"app.Impl.Get", "db.Query", false⟩, ?_, rfl, rfl, by decide,
    .resolved (by decide) (by decide) (by decide)⟩, _, rfl, by decide, by decide⟩
  exact .call _ "app.H" ⟨"app.H", "app.Store.Get", false⟩ _ (.top _ (List.mem_cons_of_mem _ List.mem_cons_self)) rfl rfl (by decide) List.mem_cons_self

/-- The depth is not the distance: a function that is two calls away is given depth 3, because the longer way through an
implementation is met first. -/
theorem C116_depth_not_distance :
    let kids := [Node.mk "a@1" (some ⟨"app.H", "app.Svc.Get", false⟩) [.mk "b@2" (some ⟨"app.Impl.Get", "app.E", false⟩) []],
      Node.mk "c@3" (some ⟨"app.H", "app.D", false⟩) [.mk "d@4" (some ⟨"app.D", "app.E", false⟩) []]]
    ∃ st, analyze 14 600 kids = some st ∧ Path st.adj "app.H" "app.E" 2 ∧ ("app.E", 3) ∈ st.depth := by
  refine ⟨_, rfl, .more "app.D" "app.E" 1 (.more "app.H" "app.D" 0 .here (by decide)) (by decide), by decide⟩

end Verif.Subtree
