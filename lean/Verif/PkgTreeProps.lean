import Verif.PkgTreeModel
/-!
# C106: the tree of packages counts what a drawing of a package shows
-/

namespace Verif.PkgTree
open Verif.Common

/-! ### Specification -/

/-- `q` is `p` or a path below it. -/
def Below (p q : Path) : Prop := q = p ∨ ∃ r, q = p ++ '/' :: r

/-- How many levels a path has, less one. -/
def slashes (p : Path) : Nat := p.count '/'

/-- A subtree of a tree, the tree itself included. -/
inductive Sub (x : Tree) : Tree → Prop where
  | here : Sub x x
  | child (t c : Tree) : c ∈ t.children → Sub x c → Sub x t

/-- A package that is known, or that a node of the drawing is in. -/
def Package (known nodes : List Path) (q : Path) : Prop := q ∈ known ∨ (q ∈ nodes ∧ q ≠ [])

/-- A package that lies in no other. -/
def Top (known nodes : List Path) (r : Path) : Prop :=
  Package known nodes r ∧ ∀ p, Package known nodes p → Below p r → p = r

mutual
/-- All paths of a tree, from the top. -/
def paths : Tree → List Path
  | .node _ full _ cs => full :: pathsAll cs
def pathsAll : List Tree → List Path
  | [] => []
  | t :: ts => paths t ++ pathsAll ts
end

/-! ### Paths -/

instance (p q : Path) : Decidable (Below p q) :=
  decidable_of_iff (q = p ∨ (p ++ ['/']) <+: q) (by
    unfold Below
    constructor
    · rintro (h | ⟨r, h⟩)
      · exact Or.inl h
      · exact Or.inr ⟨r, by rw [← h]; simp⟩
    · rintro (h | ⟨r, h⟩)
      · exact Or.inl h
      · exact Or.inr ⟨r, by rw [h]; simp⟩)

theorem below_iff (p q : Path) : Below p q ↔ (q = p ∨ (p ++ ['/']).isPrefixOf q = true) := by
  rw [List.isPrefixOf_iff_prefix]
  unfold Below
  constructor
  · rintro (h | ⟨r, h⟩)
    · exact Or.inl h
    · exact Or.inr ⟨r, by rw [h]; simp⟩
  · rintro (h | ⟨r, h⟩)
    · exact Or.inl h
    · exact Or.inr ⟨r, by rw [← h]; simp⟩

theorem below_refl (p : Path) : Below p p := Or.inl rfl

theorem below_trans {p q r : Path} (h1 : Below p q) (h2 : Below q r) : Below p r := by
  rcases h1 with rfl | ⟨a, rfl⟩
  · exact h2
  · rcases h2 with rfl | ⟨b, rfl⟩
    · exact Or.inr ⟨a, rfl⟩
    · exact Or.inr ⟨a ++ '/' :: b, by simp⟩

theorem below_slashes {p q : Path} (h : Below p q) : slashes p ≤ slashes q := by
  unfold slashes
  rcases h with rfl | ⟨a, rfl⟩
  · exact Nat.le_refl _
  · rw [List.count_append]; omega

theorem below_slashes_eq {p q : Path} (h : Below p q) (he : slashes p = slashes q) : q = p := by
  unfold slashes at he
  rcases h with rfl | ⟨a, rfl⟩
  · rfl
  · rw [List.count_append, List.count_cons_self] at he; omega

theorem below_length {p q : Path} (h : Below p q) : p.length ≤ q.length := by
  rcases h with rfl | ⟨a, rfl⟩
  · exact Nat.le_refl _
  · rw [List.length_append]; omega

theorem below_antisymm {p q : Path} (h1 : Below p q) (h2 : Below q p) : q = p :=
  below_slashes_eq h1 (Nat.le_antisymm (below_slashes h1) (below_slashes h2))

theorem below_prefix {p q : Path} (h : Below p q) : p <+: q := by
  rcases h with rfl | ⟨a, rfl⟩
  · exact List.prefix_refl _
  · exact List.prefix_append _ _

/-- Two ancestors of a path are one above the other. -/
theorem below_linear {a b x : Path} (ha : Below a x) (hb : Below b x) (hl : a.length ≤ b.length) : Below a b := by
  obtain ⟨r, rfl⟩ := List.prefix_of_prefix_length_le (below_prefix ha) (below_prefix hb) hl
  cases r with
  | nil => left; simp
  | cons c r =>
    right
    have hpre := below_prefix hb
    rcases ha with rfl | ⟨s, rfl⟩
    · have := hpre.length_le
      simp at this
      omega
    · rw [List.prefix_append_right_inj] at hpre
      have := (List.cons_prefix_cons.mp hpre).1
      exact ⟨r, by rw [this]⟩

theorem below_same {a b x : Path} (ha : Below a x) (hb : Below b x) (h : slashes a = slashes b) : a = b := by
  by_cases hl : a.length ≤ b.length
  · exact (below_slashes_eq (below_linear ha hb hl) h).symm
  · exact below_slashes_eq (below_linear hb ha (by omega)) h.symm

theorem split_ne (q : Path) : split q ≠ [] := by
  cases q with
  | nil => simp [split]
  | cons c cs =>
    unfold split
    split
    · simp
    · split <;> simp

theorem split_length (q : Path) : (split q).length = slashes q + 1 := by
  unfold slashes
  induction q with
  | nil => rfl
  | cons c cs ih =>
    unfold split
    by_cases h : c = '/'
    · rw [if_pos h, h, List.count_cons_self, List.length_cons, ih]
    · rw [if_neg h, List.count_cons_of_ne (by simpa using h)]
      split
      · rename_i s rest he; rw [he] at ih; exact ih
      · rename_i he; exact absurd he (split_ne cs)

theorem join_cons (a : Path) (l : List Path) (h : l ≠ []) : join (a :: l) = a ++ '/' :: join l := by
  cases l with
  | nil => exact absurd rfl h
  | cons b r => rfl

theorem join_cons_char (c : Char) (a : Path) (l : List Path) : join ((c :: a) :: l) = c :: join (a :: l) := by
  cases l <;> rfl

/-- The first parts of a path are the paths above it, one for each number of parts. -/
theorem upTo_spec (q : Path) : ∀ i, 1 ≤ i → i ≤ (split q).length → Below (upTo q i) q ∧ slashes (upTo q i) + 1 = i := by
  unfold upTo
  induction q with
  | nil =>
    intro i h1 h2
    have : i = 1 := by simp [split] at h2; omega
    subst this
    exact ⟨Or.inl rfl, rfl⟩
  | cons c cs ih =>
    intro i h1 h2
    unfold split at h2 ⊢
    by_cases h : c = '/'
    · rw [if_pos h] at h2 ⊢
      obtain ⟨j, rfl⟩ : ∃ j, i = j + 1 := ⟨i - 1, by omega⟩
      rw [List.take_succ_cons]
      rw [List.length_cons] at h2
      by_cases hj : j = 0
      · subst hj
        rw [List.take_zero]
        refine ⟨Or.inr ⟨cs, ?_⟩, rfl⟩
        rw [h]; rfl
      · have hne : (split cs).take j ≠ [] := by
          intro he
          rcases List.take_eq_nil_iff.mp he with h' | h'
          · exact hj h'
          · exact split_ne cs h'
        rw [join_cons _ _ hne]
        obtain ⟨hb, hs⟩ := ih j (by omega) (by omega)
        constructor
        · rcases hb with hb | ⟨r, hr⟩
          · exact Or.inl (by rw [← hb, h]; rfl)
          · exact Or.inr ⟨r, by rw [h]; show '/' :: cs = '/' :: (join (List.take j (split cs)) ++ '/' :: r); rw [← hr]⟩
        · unfold slashes at hs ⊢
          rw [List.nil_append, List.count_cons_self]; omega
    · rw [if_neg h] at h2 ⊢
      cases hsp : split cs with
      | nil => exact absurd hsp (split_ne cs)
      | cons s rest =>
        rw [hsp] at h2
        dsimp only at h2 ⊢
        obtain ⟨j, rfl⟩ : ∃ j, i = j + 1 := ⟨i - 1, by omega⟩
        have ih' := ih (j + 1) h1 (by rw [hsp]; simpa using h2)
        rw [hsp, List.take_succ_cons] at ih'
        rw [List.take_succ_cons, join_cons_char]
        obtain ⟨hb, hs⟩ := ih'
        constructor
        · rcases hb with hb | ⟨r, hr⟩
          · exact Or.inl (by rw [← hb])
          · exact Or.inr ⟨r, by rw [hr]; simp⟩
        · unfold slashes at hs ⊢
          rw [List.count_cons_of_ne (by simpa using h)]; exact hs

theorem upTo_of_below {p q : Path} (h : Below p q) : upTo q (slashes p + 1) = p := by
  have hle : slashes p + 1 ≤ (split q).length := by rw [split_length]; have := below_slashes h; omega
  obtain ⟨hb, hs⟩ := upTo_spec q (slashes p + 1) (by omega) hle
  exact below_same hb h (by omega)

/-! ### Children -/

/-- The step from a path towards a path below it. -/
def Child (set : List Path) (p c : Path) : Prop :=
  Below p c ∧ slashes c = slashes p + 1 ∧ ∃ q ∈ set, Below c q

theorem mem_childrenOf (set : List Path) (p c : Path) : c ∈ childrenOf set p ↔ Child set p c := by
  unfold childrenOf
  rw [mem_dedup, List.mem_flatMap]
  constructor
  · rintro ⟨q, hq, hc⟩
    obtain ⟨i, hi, he⟩ := List.mem_filterMap.mp hc
    rw [List.mem_range] at hi
    split at he
    · rename_i hcond
      obtain ⟨h1, hp⟩ := hcond
      have he := Option.some.inj he
      obtain ⟨hb1, hs1⟩ := upTo_spec q i h1 (by omega)
      obtain ⟨hb2, hs2⟩ := upTo_spec q (i + 1) (by omega) (by omega)
      rw [hp] at hb1 hs1
      rw [he] at hb2 hs2
      have hb : Below p c := by
        by_cases hl : p.length ≤ c.length
        · exact below_linear hb1 hb2 hl
        · have := below_slashes (below_linear hb2 hb1 (by omega)); omega
      exact ⟨hb, by omega, q, hq, hb2⟩
    · exact absurd he (by simp)
  · rintro ⟨hpc, hs, q, hq, hcq⟩
    refine ⟨q, hq, List.mem_filterMap.mpr ⟨slashes p + 1, ?_, ?_⟩⟩
    · rw [List.mem_range, split_length]; have := below_slashes hcq; omega
    · rw [if_pos ⟨by omega, upTo_of_below (below_trans hpc hcq)⟩, ← hs, upTo_of_below hcq]

theorem pathLe_ord : TotalOrd pathLe where
  trans := fun a b c h1 h2 => strLe_ord.trans _ _ _ h1 h2
  total := fun a b => strLe_ord.total _ _
  antisymm := fun a b h1 h2 => by
    have := strLe_ord.antisymm _ _ h1 h2
    have := congrArg String.toList this
    simpa using this

theorem mem_childPaths (set : List Path) (p c : Path) : c ∈ childPaths set p ↔ Child set p c := by
  unfold childPaths
  rw [mem_isort, List.mem_filter, mem_childrenOf]
  constructor
  · exact fun h => h.1
  · intro h
    exact ⟨h, by rw [decide_eq_true_eq, split_length, split_length]; have := h.2.1; omega⟩

theorem childPaths_nodup (set : List Path) (p : Path) : (childPaths set p).Nodup := by
  unfold childPaths
  rw [(isort_perm _ _).nodup_iff]
  exact (dedup_nodup _).sublist List.filter_sublist

/-! ### Counting -/

/-- Within so many levels below a path. -/
abbrev Within (k : Nat) (p x : Path) : Prop := Below p x ∧ slashes x ≤ slashes p + k

theorem childPaths_sum (set : List Path) (p : Path) (k : Nat) (x : Path) (hx : x ∈ set) :
    ((childPaths set p).map fun c => if Within k c x then 1 else 0).sum = if Within (k + 1) p x ∧ x ≠ p then 1 else 0 := by
  have aux : ∀ l : List Path, l.Nodup → (∀ c ∈ l, Child set p c) →
      (l.map fun c => if Within k c x then 1 else 0).sum = if ∃ c ∈ l, Within k c x then 1 else 0 := by
    intro l
    induction l with
    | nil => intro _ _; simp
    | cons c l ih =>
      intro hn hc
      rw [List.map_cons, List.sum_cons, ih (List.nodup_cons.mp hn).2 (fun d hd => hc d (List.mem_cons_of_mem _ hd))]
      by_cases h1 : Within k c x
      · have h2 : ¬ ∃ d ∈ l, Within k d x := by
          rintro ⟨d, hd, hw⟩
          have := below_same h1.1 hw.1 (by rw [(hc c List.mem_cons_self).2.1, (hc d (List.mem_cons_of_mem _ hd)).2.1])
          exact (List.nodup_cons.mp hn).1 (this ▸ hd)
        rw [if_pos h1, if_neg h2, if_pos ⟨c, List.mem_cons_self, h1⟩]
      · rw [if_neg h1, Nat.zero_add]
        have : (∃ d ∈ c :: l, Within k d x) ↔ ∃ d ∈ l, Within k d x := by
          constructor
          · rintro ⟨d, hd, hw⟩
            rcases List.mem_cons.mp hd with rfl | hd
            · exact absurd hw h1
            · exact ⟨d, hd, hw⟩
          · rintro ⟨d, hd, hw⟩; exact ⟨d, List.mem_cons_of_mem _ hd, hw⟩
        simp only [this]
  rw [aux _ (childPaths_nodup set p) (fun c hc => (mem_childPaths set p c).mp hc)]
  have : (∃ c ∈ childPaths set p, Within k c x) ↔ (Within (k + 1) p x ∧ x ≠ p) := by
    constructor
    · rintro ⟨c, hc, hb, hs⟩
      obtain ⟨h1, h2, _⟩ := (mem_childPaths set p c).mp hc
      refine ⟨⟨below_trans h1 hb, by omega⟩, ?_⟩
      rintro rfl
      have := below_slashes hb
      omega
    · rintro ⟨⟨hb, hs⟩, hne⟩
      have hlt : slashes p < slashes x := by
        rcases Nat.lt_or_ge (slashes p) (slashes x) with h | h
        · exact h
        · exact absurd (below_slashes_eq hb (Nat.le_antisymm (below_slashes hb) h)) hne
      obtain ⟨hb', hs'⟩ := upTo_spec x (slashes p + 2) (by omega) (by rw [split_length]; omega)
      have hpc : Below p (upTo x (slashes p + 2)) := by
        by_cases hl : p.length ≤ (upTo x (slashes p + 2)).length
        · exact below_linear hb hb' hl
        · have := below_slashes (below_linear hb' hb (by omega)); omega
      exact ⟨_, (mem_childPaths set p _).mpr ⟨hpc, by omega, x, hx, hb'⟩, hb', by omega⟩
  simp only [this]

theorem sum_add {α : Type} (l : List α) (f g : α → Nat) : (l.map fun a => f a + g a).sum = (l.map f).sum + (l.map g).sum := by
  induction l with
  | nil => rfl
  | cons a l ih => simp only [List.map_cons, List.sum_cons, ih]; omega

theorem sum_zero {α : Type} (l : List α) : (l.map fun _ => 0).sum = 0 := by
  induction l with
  | nil => rfl
  | cons a l ih => simp [ih]

/-- How many of the nodes are within so many levels below a path. -/
def counted (nodes : List Path) (k : Nat) (p : Path) : Nat := (nodes.filter fun x => decide (x ≠ [] ∧ Within k p x)).length

theorem counted_step (set : List Path) (k : Nat) (p : Path) (nodes : List Path) (h : ∀ x ∈ nodes, x ≠ [] → x ∈ set) :
    packageCount nodes p + ((childPaths set p).map fun c => counted nodes k c).sum = counted nodes (k + 1) p := by
  unfold packageCount counted
  induction nodes with
  | nil => simp [sum_zero]
  | cons x nodes ih =>
    have ih := ih (fun y hy => h y (List.mem_cons_of_mem _ hy))
    by_cases hx : x = []
    · subst hx
      simp only [List.filter_cons, ne_eq, not_true_eq_false, decide_false, false_and, Bool.false_eq_true, if_false]
      exact ih
    · have hs := childPaths_sum set p k x (h x List.mem_cons_self hx)
      have e1 : ∀ c : Path, ((x :: nodes).filter fun y => decide (y ≠ [] ∧ Within k c y)).length =
          (if Within k c x then 1 else 0) + (nodes.filter fun y => decide (y ≠ [] ∧ Within k c y)).length := by
        intro c
        rw [List.filter_cons]
        by_cases hw : Within k c x
        · rw [if_pos (by simp [hx, hw]), if_pos hw, List.length_cons]; omega
        · rw [if_neg (by simp [hw]), if_neg hw, Nat.zero_add]
      have e2 : ((x :: nodes).filter fun y => decide (y ≠ [] ∧ Within (k + 1) p y)).length =
          (if Within (k + 1) p x then 1 else 0) + (nodes.filter fun y => decide (y ≠ [] ∧ Within (k + 1) p y)).length := by
        rw [List.filter_cons]
        by_cases hw : Within (k + 1) p x
        · rw [if_pos (by simp [hx, hw]), if_pos hw, List.length_cons]; omega
        · rw [if_neg (by simp [hw]), if_neg hw, Nat.zero_add]
      rw [e2, ← ih]
      simp only [e1]
      rw [sum_add, hs, List.filter_cons, if_pos (by simpa using hx)]
      by_cases hp : x = p
      · subst hp
        rw [List.count_cons_self, if_neg (by simp), if_pos ⟨below_refl x, by omega⟩]
        omega
      · rw [List.count_cons_of_ne hp]
        by_cases hw : Within (k + 1) p x
        · rw [if_pos ⟨hw, hp⟩, if_pos hw]; omega
        · rw [if_neg (fun h => hw h.1), if_neg hw]; omega

theorem counted_zero (p : Path) (nodes : List Path) : packageCount nodes p = counted nodes 0 p := by
  unfold packageCount counted
  induction nodes with
  | nil => rfl
  | cons x nodes ih =>
    rw [List.filter_cons, List.filter_cons]
    by_cases hx : x = []
    · rw [if_neg (by simp [hx]), if_neg (by simp [hx])]; exact ih
    · rw [if_pos (by simpa using hx)]
      by_cases hp : x = p
      · rw [if_pos (by simp [hx]; exact ⟨Or.inl hp, by rw [hp]; omega⟩), List.length_cons, hp, List.count_cons_self, ih]
      · rw [if_neg, List.count_cons_of_ne hp, ih]
        simp only [decide_eq_true_eq, not_and]
        intro _ hb hs
        exact hp (below_slashes_eq hb (Nat.le_antisymm (below_slashes hb) (by omega)))

theorem build_count (set nodes : List Path) (h : ∀ x ∈ nodes, x ≠ [] → x ∈ set) :
    ∀ k top p, (buildTree set nodes k top p).count = counted nodes k p := by
  intro k
  induction k with
  | zero => intro top p; exact counted_zero p nodes
  | succ k ih =>
    intro top p
    rw [← counted_step set k p nodes h]
    show packageCount nodes p + _ = _
    rw [List.map_map]
    congr 2
    apply List.map_congr_left
    intro c _
    exact ih false c

theorem build_full (set nodes : List Path) (k : Nat) (top : Bool) (p : Path) : (buildTree set nodes k top p).full = p := by
  cases k <;> rfl

theorem build_name (set nodes : List Path) (k : Nat) (top : Bool) (p : Path) : (buildTree set nodes k top p).name = nodeName top p := by
  cases k <;> rfl

theorem build_sub (set nodes : List Path) : ∀ k top p, ∀ x, Sub x (buildTree set nodes k top p) →
    (x = buildTree set nodes k top p ∨ ∃ k' q, x = buildTree set nodes k' false q ∧ k' + slashes q = k + slashes p ∧ Below p q ∧ ∃ y ∈ set, Below q y) := by
  intro k
  induction k with
  | zero =>
    intro top p x hx
    cases hx with
    | here => exact Or.inl rfl
    | child _ c hc _ => exact absurd hc (by simp [buildTree, Tree.children])
  | succ k ih =>
    intro top p x hx
    cases hx with
    | here => exact Or.inl rfl
    | child _ c hc hs =>
      right
      obtain ⟨d, hd, rfl⟩ := List.mem_map.mp (show c ∈ (childPaths set p).map (buildTree set nodes k false) from hc)
      obtain ⟨h1, h2, h3⟩ := (mem_childPaths set p d).mp hd
      rcases ih false d x hs with rfl | ⟨k', q, rfl, he, hb, hy⟩
      · exact ⟨k, d, rfl, by omega, h1, h3⟩
      · exact ⟨k', q, rfl, by omega, below_trans h1 hb, hy⟩

theorem build_has (set nodes : List Path) : ∀ k top p, ∀ q, Within k p q → (∃ y ∈ set, Below q y) →
    ∃ x, Sub x (buildTree set nodes k top p) ∧ x.full = q := by
  intro k
  induction k with
  | zero =>
    intro top p q hw _
    exact ⟨_, Sub.here, by rw [build_full]; exact (below_slashes_eq hw.1 (Nat.le_antisymm (below_slashes hw.1) (by have := hw.2; omega))).symm⟩
  | succ k ih =>
    intro top p q hw hy
    by_cases hqp : q = p
    · exact ⟨_, Sub.here, by rw [build_full, hqp]⟩
    · obtain ⟨hb, hs⟩ := hw
      have hlt : slashes p < slashes q := by
        rcases Nat.lt_or_ge (slashes p) (slashes q) with h | h
        · exact h
        · exact absurd (below_slashes_eq hb (Nat.le_antisymm (below_slashes hb) h)) hqp
      obtain ⟨hb', hs'⟩ := upTo_spec q (slashes p + 2) (by omega) (by rw [split_length]; omega)
      have hpc : Below p (upTo q (slashes p + 2)) := by
        by_cases hl : p.length ≤ (upTo q (slashes p + 2)).length
        · exact below_linear hb hb' hl
        · have := below_slashes (below_linear hb' hb (by omega)); omega
      obtain ⟨y, hy1, hy2⟩ := hy
      have hc := (mem_childPaths set p _).mpr ⟨hpc, by omega, y, hy1, below_trans hb' hy2⟩
      obtain ⟨x, hx, hxf⟩ := ih false (upTo q (slashes p + 2)) q ⟨hb', by omega⟩ ⟨y, hy1, hy2⟩
      exact ⟨x, Sub.child _ _ (show _ ∈ (childPaths set p).map (buildTree set nodes k false) from List.mem_map.mpr ⟨_, hc, rfl⟩) hx, hxf⟩

theorem nodup_flatMap {α β : Type} (f : α → List β) : ∀ l : List α, (∀ a ∈ l, (f a).Nodup) →
    l.Pairwise (fun a b => ∀ x ∈ f a, x ∉ f b) → (l.flatMap f).Nodup := by
  intro l
  induction l with
  | nil => intro _ _; exact List.Pairwise.nil
  | cons a l ih =>
    intro h hp
    rw [List.pairwise_cons] at hp
    rw [List.flatMap_cons, List.nodup_append]
    refine ⟨h a List.mem_cons_self, ih (fun b hb => h b (List.mem_cons_of_mem _ hb)) hp.2, ?_⟩
    rintro x hx y hy rfl
    obtain ⟨b, hb, hy⟩ := List.mem_flatMap.mp hy
    exact hp.1 b hb x hx hy

theorem pathsAll_eq (ts : List Tree) : pathsAll ts = ts.flatMap paths := by
  induction ts with
  | nil => rfl
  | cons t ts ih => rw [pathsAll, ih, List.flatMap_cons]

theorem paths_eq (t : Tree) : paths t = t.full :: t.children.flatMap paths := by
  cases t with
  | node n f c cs => rw [paths, pathsAll_eq]; rfl

theorem build_paths (set nodes : List Path) : ∀ k top p, (paths (buildTree set nodes k top p)).Nodup ∧
    ∀ x ∈ paths (buildTree set nodes k top p), Below p x := by
  intro k
  induction k with
  | zero =>
    intro top p
    have : paths (buildTree set nodes 0 top p) = [p] := by rw [paths_eq]; rfl
    rw [this]
    exact ⟨by simp, by intro x hx; rw [List.mem_singleton.mp hx]; exact below_refl p⟩
  | succ k ih =>
    intro top p
    have e : paths (buildTree set nodes (k + 1) top p) = p :: (childPaths set p).flatMap fun c => paths (buildTree set nodes k false c) := by
      rw [paths_eq]
      show p :: ((childPaths set p).map (buildTree set nodes k false)).flatMap paths = _
      rw [List.flatMap_map]
    rw [e]
    have hb : ∀ x ∈ (childPaths set p).flatMap fun c => paths (buildTree set nodes k false c), Below p x ∧ x ≠ p := by
      intro x hx
      obtain ⟨c, hc, hx⟩ := List.mem_flatMap.mp hx
      obtain ⟨h1, h2, _⟩ := (mem_childPaths set p c).mp hc
      have h3 := (ih false c).2 x hx
      refine ⟨below_trans h1 h3, ?_⟩
      rintro rfl
      have := below_slashes h3
      omega
    refine ⟨List.nodup_cons.mpr ⟨fun h => (hb p h).2 rfl, ?_⟩, ?_⟩
    · refine nodup_flatMap _ _ (fun c _ => (ih false c).1) ?_
      have : ∀ l : List Path, l.Nodup → (∀ c ∈ l, Child set p c) →
          l.Pairwise (fun a b => ∀ x ∈ paths (buildTree set nodes k false a), x ∉ paths (buildTree set nodes k false b)) := by
        intro l hn hc
        refine List.Pairwise.imp_of_mem ?_ hn
        intro a b ha hb hab x hx hy
        exact hab (below_same ((ih false a).2 x hx) ((ih false b).2 x hy) (by rw [(hc a ha).2.1, (hc b hb).2.1]))
      exact this _ (childPaths_nodup set p) (fun c hc => (mem_childPaths set p c).mp hc)
    · intro x hx
      rcases List.mem_cons.mp hx with rfl | hx
      · exact below_refl x
      · exact (hb x hx).1

theorem mem_packageSet (known nodes : List Path) (q : Path) : q ∈ packageSet known nodes ↔ Package known nodes q := by
  unfold packageSet Package
  rw [mem_dedup, List.mem_append, List.mem_filter]
  simp

theorem isRoot_iff (set : List Path) (q : Path) : isRoot set q = true ↔ ∀ p ∈ set, Below p q → p = q := by
  unfold isRoot
  rw [List.all_eq_true]
  constructor
  · intro h p hp hb
    by_cases he : p = q
    · exact he
    · have hlt : slashes p < slashes q := by
        rcases Nat.lt_or_ge (slashes p) (slashes q) with h | h
        · exact h
        · exact absurd (below_slashes_eq hb (Nat.le_antisymm (below_slashes hb) h)).symm he
      have := h (slashes p + 1) (by rw [List.mem_range, split_length]; omega)
      rw [upTo_of_below hb] at this
      simp [hp] at this
  · intro h i hi
    rw [List.mem_range, split_length] at hi
    by_cases h0 : i = 0
    · simp [h0]
    · obtain ⟨hb, hs⟩ := upTo_spec q i (by omega) (by rw [split_length]; omega)
      have : upTo q i ∉ set := by
        intro hm
        have := h _ hm hb
        rw [this] at hs
        omega
      simp [this]

theorem mem_hierarchy (known nodes : List Path) (t : Tree) : t ∈ hierarchy known nodes ↔
    ∃ r, Top known nodes r ∧ t = buildTree (packageSet known nodes) nodes 20 true r := by
  unfold hierarchy
  dsimp only
  rw [List.mem_filter, List.mem_map]
  constructor
  · rintro ⟨⟨r, hr, rfl⟩, _⟩
    rw [mem_isort, List.mem_filter, mem_packageSet, isRoot_iff] at hr
    exact ⟨r, ⟨hr.1, fun p hp hb => hr.2 p ((mem_packageSet _ _ _).mpr hp) hb⟩, rfl⟩
  · rintro ⟨r, ⟨h1, h2⟩, rfl⟩
    refine ⟨⟨r, ?_, rfl⟩, ?_⟩
    · rw [mem_isort, List.mem_filter, mem_packageSet, isRoot_iff]
      exact ⟨h1, fun p hp hb => h2 p ((mem_packageSet _ _ _).mp hp) hb⟩
    · rw [build_full]
      simp [(mem_packageSet known nodes r).mpr h1]

theorem hierarchy_eq (known nodes : List Path) : hierarchy known nodes =
    (isort pathLe ((packageSet known nodes).filter (isRoot (packageSet known nodes)))).map (buildTree (packageSet known nodes) nodes 20 true) := by
  unfold hierarchy
  dsimp only
  refine List.filter_eq_self.mpr ?_
  intro t ht
  obtain ⟨r, hr, rfl⟩ := List.mem_map.mp ht
  rw [mem_isort, List.mem_filter] at hr
  rw [build_full]
  simp [hr.1]

theorem hierarchy_full (known nodes : List Path) : (hierarchy known nodes).map Tree.full =
    isort pathLe ((packageSet known nodes).filter (isRoot (packageSet known nodes))) := by
  rw [hierarchy_eq, List.map_map]
  have : (Tree.full ∘ buildTree (packageSet known nodes) nodes 20 true) = id := by
    funext p; exact build_full _ _ _ _ _
  rw [this, List.map_id]

theorem nodes_in (known nodes : List Path) : ∀ x ∈ nodes, x ≠ [] → x ∈ packageSet known nodes :=
  fun x hx hne => (mem_packageSet _ _ _).mpr (Or.inr ⟨hx, hne⟩)

/-- Every package lies in one that lies in no other. -/
theorem exists_top (known nodes : List Path) (q : Path) (hq : Package known nodes q) : ∃ r, Top known nodes r ∧ Below r q := by
  have : ∀ n, ∀ q, slashes q ≤ n → Package known nodes q → ∃ r, Top known nodes r ∧ Below r q := by
    intro n
    induction n with
    | zero =>
      intro q hn hq
      refine ⟨q, ⟨hq, fun p _ hb => ?_⟩, below_refl q⟩
      exact (below_slashes_eq hb (by have := below_slashes hb; omega)).symm
    | succ n ih =>
      intro q hn hq
      by_cases h : ∃ p, Package known nodes p ∧ Below p q ∧ p ≠ q
      · obtain ⟨p, hp, hb, hne⟩ := h
        have hlt : slashes p < slashes q := by
          rcases Nat.lt_or_ge (slashes p) (slashes q) with h | h
          · exact h
          · exact absurd (below_slashes_eq hb (Nat.le_antisymm (below_slashes hb) h)).symm hne
        obtain ⟨r, hr, hrp⟩ := ih p (by omega) hp
        exact ⟨r, hr, below_trans hrp hb⟩
      · refine ⟨q, ⟨hq, fun p hp hb => ?_⟩, below_refl q⟩
        by_cases he : p = q
        · exact he
        · exact absurd ⟨p, hp, hb, he⟩ h
  exact this _ q (Nat.le_refl _) hq

theorem top_unique (known nodes : List Path) {a b x : Path} (ha : Top known nodes a) (hb : Top known nodes b) (hax : Below a x) (hbx : Below b x) : a = b := by
  by_cases hl : a.length ≤ b.length
  · exact hb.2 a ha.1 (below_linear hax hbx hl)
  · exact (ha.2 b hb.1 (below_linear hbx hax (by omega))).symm

/-! ### The properties -/

/-- At the top are the packages that lie in no other, with their full paths, in order. -/
theorem C106_roots (known nodes : List Path) :
    (∀ r, r ∈ (hierarchy known nodes).map Tree.full ↔ Top known nodes r) ∧
    ((hierarchy known nodes).map Tree.full).Nodup ∧
    ((hierarchy known nodes).map Tree.full).Pairwise (fun a b => String.ofList a ≤ String.ofList b) ∧
    ∀ t ∈ hierarchy known nodes, t.name = t.full := by
  refine ⟨fun r => ?_, ?_, ?_, ?_⟩
  · rw [List.mem_map]
    constructor
    · rintro ⟨t, ht, rfl⟩
      obtain ⟨r, hr, rfl⟩ := (mem_hierarchy known nodes t).mp ht
      rw [build_full]; exact hr
    · intro hr
      exact ⟨_, (mem_hierarchy known nodes _).mpr ⟨r, hr, rfl⟩, build_full _ _ _ _ _⟩
  · rw [hierarchy_full, (isort_perm _ _).nodup_iff]
    exact (dedup_nodup _).sublist List.filter_sublist
  · rw [hierarchy_full]
    exact (isort_pairwise pathLe_ord.toTotalPre _).imp (fun h => of_decide_eq_true h)
  · intro t ht
    obtain ⟨r, _, rfl⟩ := (mem_hierarchy known nodes t).mp ht
    rw [build_full, build_name]; rfl

/-- Each entry counts the nodes whose package is its path or lies below, down to twenty levels below the top entry. -/
theorem C106_counts (known nodes : List Path) (t : Tree) (ht : t ∈ hierarchy known nodes) (s : Tree) (hs : Sub s t) :
    s.count = (nodes.filter fun x => decide (x ≠ [] ∧ Below s.full x ∧ slashes x ≤ slashes t.full + 20)).length := by
  obtain ⟨r, hr, rfl⟩ := (mem_hierarchy known nodes t).mp ht
  have hin := nodes_in known nodes
  rcases build_sub _ _ _ _ _ s hs with rfl | ⟨k', q, rfl, he, hb, _⟩
  · rw [build_count _ _ hin, build_full]; rfl
  · rw [build_count _ _ hin, build_full, build_full]
    unfold counted Within
    have : slashes q + k' = slashes r + 20 := by omega
    rw [this]

/-- Below an entry are, once each and in order, the paths one level below that are packages or lead to one; except
below the twentieth level, where there is nothing. -/
theorem C106_children (known nodes : List Path) (t : Tree) (ht : t ∈ hierarchy known nodes) (s : Tree) (hs : Sub s t) :
    (∀ c, c ∈ s.children.map Tree.full ↔ slashes s.full < slashes t.full + 20 ∧
      (∃ part, c = s.full ++ '/' :: part ∧ '/' ∉ part) ∧ ∃ q, Package known nodes q ∧ Below c q) ∧
    (s.children.map Tree.full).Nodup ∧ (s.children.map Tree.full).Pairwise (fun a b => String.ofList a ≤ String.ofList b) := by
  obtain ⟨r, hr, rfl⟩ := (mem_hierarchy known nodes t).mp ht
  rw [build_full]
  have main : ∀ k top p, k + slashes p = slashes r + 20 → s = buildTree (packageSet known nodes) nodes k top p →
      (∀ c, c ∈ s.children.map Tree.full ↔ slashes s.full < slashes r + 20 ∧
      (∃ part, c = s.full ++ '/' :: part ∧ '/' ∉ part) ∧ ∃ q, Package known nodes q ∧ Below c q) ∧
      (s.children.map Tree.full).Nodup ∧ (s.children.map Tree.full).Pairwise (fun a b => String.ofList a ≤ String.ofList b) := by
    intro k top p hk he
    subst he
    rw [build_full]
    cases k with
    | zero =>
      refine ⟨fun c => ?_, List.Pairwise.nil, List.Pairwise.nil⟩
      constructor
      · intro h; exact absurd h (List.not_mem_nil)
      · rintro ⟨h, _⟩; omega
    | succ k =>
      have e : (buildTree (packageSet known nodes) nodes (k + 1) top p).children.map Tree.full = childPaths (packageSet known nodes) p := by
        show ((childPaths (packageSet known nodes) p).map (buildTree _ nodes k false)).map Tree.full = _
        rw [List.map_map]
        have : (Tree.full ∘ buildTree (packageSet known nodes) nodes k false) = id := by
          funext p; exact build_full _ _ _ _ _
        rw [this, List.map_id]
      rw [e]
      refine ⟨fun c => ?_, childPaths_nodup _ _, ?_⟩
      · rw [mem_childPaths]
        constructor
        · rintro ⟨h1, h2, q, hq, hb⟩
          refine ⟨by omega, ?_, q, (mem_packageSet _ _ _).mp hq, hb⟩
          rcases h1 with rfl | ⟨part, rfl⟩
          · omega
          · refine ⟨part, rfl, fun hm => ?_⟩
            unfold slashes at h2
            rw [List.count_append, List.count_cons_self] at h2
            have := List.count_pos_iff.mpr hm
            omega
        · rintro ⟨_, ⟨part, rfl, hp⟩, q, hq, hb⟩
          refine ⟨Or.inr ⟨part, rfl⟩, ?_, q, (mem_packageSet _ _ _).mpr hq, hb⟩
          unfold slashes
          rw [List.count_append, List.count_cons_self, List.count_eq_zero.mpr hp]
      · exact (isort_pairwise pathLe_ord.toTotalPre _).imp (fun h => of_decide_eq_true h)
  rcases build_sub _ _ _ _ _ s hs with rfl | ⟨k', q, rfl, he, hb, _⟩
  · exact main 20 true r (by omega) rfl
  · exact main k' false q (by omega) rfl

theorem split_plain : ∀ p : Path, '/' ∉ p → split p = [p] := by
  intro p
  induction p with
  | nil => intro _; rfl
  | cons c cs ih =>
    intro h
    have hc : ¬ c = '/' := fun he => h (by rw [he]; exact List.mem_cons_self)
    unfold split
    rw [if_neg hc, ih (fun hm => h (List.mem_cons_of_mem _ hm))]

theorem split_last (p part : Path) (h : '/' ∉ part) : (split (p ++ '/' :: part)).getLast? = some part := by
  induction p with
  | nil =>
    show (split ('/' :: part)).getLast? = some part
    unfold split
    rw [if_pos rfl, split_plain part h]; rfl
  | cons c cs ih =>
    rw [List.cons_append]
    unfold split
    by_cases hc : c = '/'
    · rw [if_pos hc, List.getLast?_cons, ih]; rfl
    · rw [if_neg hc]
      have hlen : (split (cs ++ '/' :: part)).length ≥ 2 := by
        rw [split_length]; unfold slashes; rw [List.count_append, List.count_cons_self]; omega
      match hsp : split (cs ++ '/' :: part), hlen, ih with
      | [], hlen, _ => simp at hlen
      | [_], hlen, _ => simp at hlen
      | a :: b :: rest, _, ih =>
        dsimp only
        rw [List.getLast?_cons_cons] at ih ⊢
        exact ih

/-- An entry below another is called by what its path adds to the other's. -/
theorem C106_names (known nodes : List Path) (t : Tree) (ht : t ∈ hierarchy known nodes) (s : Tree) (hs : Sub s t)
    (c : Tree) (hc : c ∈ s.children) (part : Path) (hp : c.full = s.full ++ '/' :: part) (hne : part ≠ []) (hpl : '/' ∉ part) : c.name = part := by
  obtain ⟨r, hr, rfl⟩ := (mem_hierarchy known nodes t).mp ht
  have main : ∀ k top p, s = buildTree (packageSet known nodes) nodes k top p → c.name = part := by
    intro k top p he
    subst he
    rw [build_full] at hp
    cases k with
    | zero => exact absurd hc (List.not_mem_nil)
    | succ k =>
      obtain ⟨d, _, rfl⟩ := List.mem_map.mp (show c ∈ (childPaths _ p).map (buildTree _ nodes k false) from hc)
      rw [build_full] at hp
      rw [build_name, hp]
      unfold nodeName
      rw [if_neg (by simp), split_last p part hpl]
      cases part with
      | nil => exact absurd rfl hne
      | cons a l => rfl
  rcases build_sub _ _ _ _ _ s hs with rfl | ⟨k', q, rfl, he, hb, _⟩
  · exact main 20 true r rfl
  · exact main k' false q rfl

/-- No path is in the tree twice. -/
theorem C106_once (known nodes : List Path) : ((hierarchy known nodes).flatMap paths).Nodup := by
  rw [hierarchy_eq, List.flatMap_map]
  refine nodup_flatMap _ _ (fun p _ => (build_paths _ _ _ _ _).1) ?_
  have hn : (isort pathLe ((packageSet known nodes).filter (isRoot (packageSet known nodes)))).Nodup := by
    rw [(isort_perm _ _).nodup_iff]
    exact (dedup_nodup _).sublist List.filter_sublist
  have hm : ∀ r ∈ isort pathLe ((packageSet known nodes).filter (isRoot (packageSet known nodes))), Top known nodes r := by
    intro r hr
    rw [← hierarchy_full] at hr
    exact ((C106_roots known nodes).1 r).mp hr
  refine List.Pairwise.imp_of_mem ?_ hn
  intro a b ha hb hab x hx hy
  exact hab (top_unique known nodes (hm a ha) (hm b hb) ((build_paths _ _ _ _ _).2 x hx) ((build_paths _ _ _ _ _).2 x hy))

/-- Every package is below exactly one top entry, and it has an entry if it is at most twenty levels below that. -/
theorem C106_everything_partial (known nodes : List Path) (q : Path) (hq : Package known nodes q) :
    ∃ t ∈ hierarchy known nodes, Below t.full q ∧ (∀ t' ∈ hierarchy known nodes, Below t'.full q → t' = t) ∧
      (slashes q ≤ slashes t.full + 20 → ∃ s, Sub s t ∧ s.full = q) := by
  obtain ⟨r, hr, hb⟩ := exists_top known nodes q hq
  refine ⟨_, (mem_hierarchy known nodes _).mpr ⟨r, hr, rfl⟩, by rw [build_full]; exact hb, ?_, ?_⟩
  · intro t' ht' hb'
    obtain ⟨r', hr', rfl⟩ := (mem_hierarchy known nodes t').mp ht'
    rw [build_full] at hb'
    rw [top_unique known nodes hr' hr hb' hb]
  · intro hd
    rw [build_full] at hd
    exact build_has _ _ _ _ _ q ⟨hb, hd⟩ ⟨q, (mem_packageSet _ _ _).mpr hq, below_refl q⟩

/-- A drawing of chosen packages has the nodes of these packages and of the packages below, whatever is known. -/
theorem C106_drawing (known chosen : List Path) (x : Path) : shown known chosen x = true ↔ ∃ s ∈ chosen, Below s x := by
  unfold shown expand
  rw [List.any_eq_true]
  constructor
  · rintro ⟨s, hs, h⟩
    have hb : Below s x := (below_iff s x).mpr (by simpa using h)
    rw [mem_dedup, List.mem_append] at hs
    rcases hs with hs | hs
    · exact ⟨s, hs, hb⟩
    · obtain ⟨s', hs', hm⟩ := List.mem_flatMap.mp hs
      obtain ⟨_, hm⟩ := List.mem_filter.mp hm
      have : Below s' s := (below_iff s' s).mpr (by
        rw [Bool.or_eq_true, decide_eq_true_eq] at hm
        exact hm.symm)
      exact ⟨s', hs', below_trans this hb⟩
  · rintro ⟨s, hs, hb⟩
    refine ⟨s, by rw [mem_dedup]; exact List.mem_append_left _ hs, ?_⟩
    have := (below_iff s x).mp hb
    simpa using this

/-- If no package is more than twenty levels below its top entry, an entry counts the nodes a drawing of it shows. -/
theorem C106_agree_partial (known nodes : List Path) (t : Tree) (ht : t ∈ hierarchy known nodes) (s : Tree) (hs : Sub s t) (hne : s.full ≠ [])
    (hd : ∀ x ∈ nodes, Below t.full x → slashes x ≤ slashes t.full + 20) :
    s.count = (nodes.filter (shown known [s.full])).length := by
  have hst : Below t.full s.full := by
    obtain ⟨r, hr, rfl⟩ := (mem_hierarchy known nodes t).mp ht
    rw [build_full]
    rcases build_sub _ _ _ _ _ s hs with rfl | ⟨k', q, rfl, he, hb, _⟩
    · rw [build_full]; exact below_refl r
    · rw [build_full]; exact hb
  rw [C106_counts known nodes t ht s hs]
  congr 1
  apply List.filter_congr
  intro x hx
  rw [Bool.eq_iff_iff, C106_drawing, decide_eq_true_eq]
  constructor
  · rintro ⟨_, hb, _⟩; exact ⟨s.full, List.mem_singleton_self _, hb⟩
  · rintro ⟨y, hy, hb⟩
    rw [List.mem_singleton.mp hy] at hb
    refine ⟨?_, hb, hd x hx (below_trans hst hb)⟩
    rintro rfl
    rcases hb with hb | ⟨a, hb⟩
    · exact hne hb.symm
    · simp at hb

theorem sum_count_indicator (set : List Path) (hn : set.Nodup) : ∀ xs : List Path, (∀ x ∈ xs, x ∈ set) → (set.map fun p => xs.count p).sum = xs.length := by
  intro xs
  induction xs with
  | nil => intro _; simp [sum_zero]
  | cons x xs ih =>
    intro h
    have e : (set.map fun p => (x :: xs).count p) = set.map fun p => (if p = x then 1 else 0) + xs.count p := by
      apply List.map_congr_left
      intro p _
      rw [List.count_cons]
      by_cases hp : p = x
      · simp [hp]; omega
      · have : ¬ x = p := fun h => hp h.symm
        simp [hp, this]
    rw [e, sum_add, ih (fun y hy => h y (List.mem_cons_of_mem _ hy))]
    have hx := h x List.mem_cons_self
    have : ∀ l : List Path, l.Nodup → (l.map fun p => if p = x then 1 else 0).sum = if x ∈ l then 1 else 0 := by
      intro l
      induction l with
      | nil => intro _; rfl
      | cons a l ih =>
        intro hn
        rw [List.map_cons, List.sum_cons, ih (List.nodup_cons.mp hn).2]
        by_cases ha : a = x
        · subst ha
          rw [if_pos rfl, if_neg (List.nodup_cons.mp hn).1, if_pos List.mem_cons_self]
        · rw [if_neg ha]
          have : x ∈ a :: l ↔ x ∈ l := by
            rw [List.mem_cons]
            exact ⟨fun h => h.resolve_left (fun h => ha h.symm), Or.inr⟩
          simp only [this, Nat.zero_add]
    rw [this set hn, if_pos hx, List.length_cons]; omega

/-- The total is the number of nodes that have a package; it is the sum over the top entries if no package is more
than twenty levels below its top entry. -/
theorem C106_total_partial (known nodes : List Path) :
    totalCount known nodes = (nodes.filter fun x => decide (x ≠ [])).length ∧
    ((∀ t ∈ hierarchy known nodes, ∀ x ∈ nodes, Below t.full x → slashes x ≤ slashes t.full + 20) →
      ((hierarchy known nodes).map Tree.count).sum = totalCount known nodes) := by
  have h1 : totalCount known nodes = (nodes.filter fun x => decide (x ≠ [])).length := by
    unfold totalCount packageCount
    apply sum_count_indicator _ (dedup_nodup _)
    intro x hx
    obtain ⟨h1, h2⟩ := List.mem_filter.mp hx
    exact nodes_in known nodes x h1 (by simpa using h2)
  refine ⟨h1, fun hd => ?_⟩
  rw [h1]
  have e : (hierarchy known nodes).map Tree.count = ((hierarchy known nodes).map Tree.full).map fun r => ((nodes.filter fun x => decide (x ≠ [])).filter fun x => decide (Below r x)).length := by
    rw [List.map_map]
    apply List.map_congr_left
    intro t ht
    rw [C106_counts known nodes t ht t Sub.here]
    show _ = ((nodes.filter fun x => decide (x ≠ [])).filter fun x => decide (Below t.full x)).length
    rw [List.filter_filter]
    congr 1
    apply List.filter_congr
    intro x hx
    rw [Bool.eq_iff_iff]
    simp only [decide_eq_true_eq, Bool.and_eq_true]
    constructor
    · rintro ⟨a, b, _⟩; exact ⟨b, a⟩
    · rintro ⟨b, a⟩; exact ⟨a, b, hd t ht x hx b⟩
  rw [e]
  have main : ∀ xs : List Path, (∀ x ∈ xs, ∃ r, Top known nodes r ∧ Below r x) →
      ((((hierarchy known nodes).map Tree.full).map fun r => (xs.filter fun x => decide (Below r x)).length).sum = xs.length) := by
    intro xs
    induction xs with
    | nil => intro _; exact sum_zero _
    | cons x xs ih =>
      intro h
      have hl : ∀ r : Path, ((x :: xs).filter fun x => decide (Below r x)).length = (if Below r x then 1 else 0) + (xs.filter fun x => decide (Below r x)).length := by
        intro r
        rw [List.filter_cons]
        by_cases hb : Below r x
        · rw [if_pos (by simpa using hb), if_pos hb, List.length_cons]; omega
        · rw [if_neg (by simpa using hb), if_neg hb, Nat.zero_add]
      simp only [hl]
      rw [sum_add, ih (fun y hy => h y (List.mem_cons_of_mem _ hy)), List.length_cons]
      obtain ⟨r, hr, hb⟩ := h x List.mem_cons_self
      have aux : ∀ l : List Path, l.Nodup → (∀ a ∈ l, Top known nodes a) → (l.map fun a => if Below a x then 1 else 0).sum = if r ∈ l then 1 else 0 := by
        intro l
        induction l with
        | nil => intro _ _; rfl
        | cons a l ihl =>
          intro hn ht
          rw [List.map_cons, List.sum_cons, ihl (List.nodup_cons.mp hn).2 (fun b hb => ht b (List.mem_cons_of_mem _ hb))]
          by_cases ha : Below a x
          · have := top_unique known nodes (ht a List.mem_cons_self) hr ha hb
            subst this
            rw [if_pos ha, if_neg (List.nodup_cons.mp hn).1, if_pos List.mem_cons_self]
          · rw [if_neg ha]
            have : r ∈ a :: l ↔ r ∈ l := by
              rw [List.mem_cons]
              exact ⟨fun h => h.resolve_left (fun h => ha (h ▸ hb)), Or.inr⟩
            simp only [this, Nat.zero_add]
      rw [aux _ (C106_roots known nodes).2.1 (fun a ha => ((C106_roots known nodes).1 a).mp ha), if_pos (((C106_roots known nodes).1 r).mpr hr)]
      omega
  apply main
  intro x hx
  obtain ⟨a, b⟩ := List.mem_filter.mp hx
  exact exists_top known nodes x (Or.inr ⟨a, by simpa using b⟩)

theorem perm_of_mem {a b : List Path} (ha : a.Nodup) (hb : b.Nodup) (h : ∀ x, x ∈ a ↔ x ∈ b) : a.Perm b :=
  (List.perm_ext_iff_of_nodup ha hb).mpr h

/-- The answer does not depend on the order in which packages and nodes come. -/
theorem C106_order (known known' nodes nodes' : List Path) (hk : known.Perm known') (hn : nodes.Perm nodes') :
    hierarchy known nodes = hierarchy known' nodes' ∧ totalCount known nodes = totalCount known' nodes' := by
  have hset : ∀ x, x ∈ packageSet known nodes ↔ x ∈ packageSet known' nodes' := by
    intro x
    rw [mem_packageSet, mem_packageSet]
    unfold Package
    rw [hk.mem_iff, hn.mem_iff]
  have hchild : ∀ p, childPaths (packageSet known nodes) p = childPaths (packageSet known' nodes') p := by
    intro p
    unfold childPaths
    apply isort_eq_of_perm pathLe_ord
    apply List.Perm.filter
    refine perm_of_mem (a := childrenOf (packageSet known nodes) p) (b := childrenOf (packageSet known' nodes') p) (dedup_nodup _) (dedup_nodup _) ?_
    intro c
    rw [mem_childrenOf, mem_childrenOf]
    unfold Child
    simp only [hset]
  have hcount : ∀ p, packageCount nodes p = packageCount nodes' p := fun p => (hn.filter _).count_eq p
  have hbuild : ∀ k top p, buildTree (packageSet known nodes) nodes k top p = buildTree (packageSet known' nodes') nodes' k top p := by
    intro k
    induction k with
    | zero => intro top p; unfold buildTree; rw [hcount]
    | succ k ih =>
      intro top p
      unfold buildTree
      have : buildTree (packageSet known nodes) nodes k false = buildTree (packageSet known' nodes') nodes' k false := by funext q; exact ih false q
      rw [hcount, hchild, this]
  constructor
  · rw [hierarchy_eq, hierarchy_eq]
    have h1 : isort pathLe ((packageSet known nodes).filter (isRoot (packageSet known nodes))) =
        isort pathLe ((packageSet known' nodes').filter (isRoot (packageSet known' nodes'))) := by
      apply isort_eq_of_perm pathLe_ord
      have hr : ∀ q, isRoot (packageSet known nodes) q = isRoot (packageSet known' nodes') q := by
        intro q
        rw [Bool.eq_iff_iff, isRoot_iff, isRoot_iff]
        simp only [hset]
      have : isRoot (packageSet known nodes) = isRoot (packageSet known' nodes') := funext hr
      rw [this]
      apply List.Perm.filter
      exact perm_of_mem (dedup_nodup _) (dedup_nodup _) hset
    rw [h1]
    apply List.map_congr_left
    intro r _
    exact hbuild 20 true r
  · rw [(C106_total_partial known nodes).1, (C106_total_partial known' nodes').1]
    exact (hn.filter _).length_eq

/-! ### Instances -/

def s (x : String) : Path := x.toList

/-- Two packages below one, one beside them; the metadata know only some. -/
example : (hierarchy [s "m", s "m/a/b", s "n/x"] [s "m", s "m/a/b", s "m/a/b", s "m/c", [], s "mm"]).map (fun t => (t.full, t.count)) =
    [(s "m", 4), (s "mm", 1), (s "n/x", 0)] := by decide
example : (hierarchy [s "m", s "m/a/b"] [s "m/a/b", s "m/c"]).flatMap paths = [s "m", s "m/a", s "m/a/b", s "m/c"] := by decide
example : ((hierarchy [s "m"] [s "m/a/b"]).flatMap (fun t => t.children)).map Tree.name = [s "a"] ∧
    shown [s "m"] [s "m/a"] (s "m/a/b") = true ∧ shown [s "m"] [s "m/a"] (s "m/ab") = false := by decide
example : totalCount [s "m", s "m/a/b"] [s "m", s "m/a/b", []] = 2 := by decide

/-! ### What does not hold -/

/-- One package for which twenty levels are not enough. -/
def deep : Path := 'a' :: (List.replicate 21 ['/', 'a']).flatten

/-- What is missing above: a package more than twenty levels below its top entry is counted nowhere but in the total,
and has no entry. -/
theorem C106_deep_lost : Below (s "a") deep ∧ totalCount [s "a"] [deep] = 1 ∧ ((hierarchy [s "a"] [deep]).map Tree.count).sum = 0 ∧
    deep ∉ (hierarchy [s "a"] [deep]).flatMap paths := by decide +kernel

end Verif.PkgTree
