import Verif.SccModel
import Verif.SccSpec
/-!
# The invariant of the condensation loop

Helper module: every turn of the loop in `condenseSCC` preserves `Inv`, and the
loop ends within `fuelFor` turns.  The properties are stated in `SccProps`.
-/

namespace Verif.Scc
open Verif.Common Verif.GraphSpec

/-- The edge relation of an adjacency function. -/
abbrev Edge (adj : String → List String) (u v : String) : Prop := v ∈ adj u

/-- What the emitted component list satisfies at any moment. -/
def Good (adj : String → List String) (comps : List (List String)) : Prop :=
  ∀ a C b, comps = a ++ C :: b →
    C ≠ [] ∧ C.Pairwise (· ≤ ·) ∧
    (∀ x ∈ C, ∀ w ∈ adj x, w ∈ C ∨ w ∈ a.flatten) ∧
    (∀ x ∈ C, ∀ y ∈ C, Reach (Edge adj) x y)

/-- Functions with an open frame. -/
abbrev gray (s : St) : List String := s.cs.map Prod.fst

structure Core (adj : String → List String) (s : St) : Prop where
  idx_le : ∀ x, s.idx x ≤ s.cnt
  stk_vis : ∀ x ∈ s.stk, s.idx x ≠ 0
  vis : ∀ x, s.idx x ≠ 0 → x ∈ s.stk ∨ x ∈ s.comps.flatten
  comp_vis : ∀ x ∈ s.comps.flatten, s.idx x ≠ 0
  disj : ∀ x ∈ s.stk, x ∉ s.comps.flatten
  sorted : s.stk.Pairwise (fun a b => s.idx b < s.idx a)
  cs_sub : (gray s).Sublist s.stk
  bottom : s.stk.getLast? = (gray s).getLast?
  low_le : ∀ x ∈ s.stk, s.low x ≤ s.idx x
  low_wit : ∀ x ∈ s.stk, ∃ y ∈ s.stk, s.idx y = s.low x ∧ Reach (Edge adj) x y
  gray_reach : ∀ g ∈ gray s, ∀ x ∈ s.stk, s.idx g ≤ s.idx x → Reach (Edge adj) g x
  black_low : ∀ x ∈ s.stk, x ∉ gray s → s.low x < s.idx x
  near : ∀ x ∈ s.stk, x ∉ gray s → ∀ g ∈ gray s, s.idx g < s.idx x →
    (∀ g' ∈ gray s, s.idx g' < s.idx x → s.idx g' ≤ s.idx g) → s.low g ≤ s.low x
  black_adj : ∀ x ∈ s.stk, x ∉ gray s → ∀ w ∈ adj x,
    s.idx w ≠ 0 ∧ (w ∈ s.stk → s.low x ≤ s.idx w)
  rem_sub : ∀ f ∈ s.cs, ∀ w ∈ f.2, w ∈ adj f.1
  good : Good adj s.comps
  nodup : s.comps.flatten.Nodup

/-- Every successor of an open function is still to be visited, or is accounted for;
`exc` lists successors about to be discovered. -/
def GrayAdj (adj : String → List String) (s : St) (exc : List String) : Prop :=
  ∀ f ∈ s.cs, ∀ w ∈ adj f.1, w ∈ f.2 ∨ w ∈ exc ∨ (s.idx w ≠ 0 ∧ (w ∈ s.stk → s.low f.1 ≤ s.idx w))

theorem upd_self (f : String → Nat) (a : String) (b : Nat) : upd f a b a = b := by simp [upd]
theorem upd_ne (f : String → Nat) {a x : String} (b : Nat) (h : x ≠ a) : upd f a b x = f x := by
  simp [upd, h]

theorem core_init (adj : String → List String) : Core adj init := by
  constructor <;> simp [init, gray, Good]

theorem discover_core {adj : String → List String} {s : St} {w : String}
    (h : Core adj s) (hg : GrayAdj adj s [w]) (hw : s.idx w = 0)
    (htop : ∀ f, s.cs.head? = some f → w ∈ adj f.1) :
    Core adj (discover adj s w) ∧ GrayAdj adj (discover adj s w) [] := by
  have hwstk : w ∉ s.stk := fun hm => h.stk_vis w hm hw
  have hwcomp : w ∉ s.comps.flatten := fun hm => h.comp_vis w hm hw
  have hwgray : w ∉ gray s := fun hm => hwstk (h.cs_sub.subset hm)
  have hne : ∀ x ∈ s.stk, x ≠ w := fun x hx e => hwstk (e ▸ hx)
  have hneg : ∀ x ∈ gray s, x ≠ w := fun x hx e => hwgray (e ▸ hx)
  -- every open function reaches `w`
  have hgw : ∀ g ∈ gray s, Reach (Edge adj) g w := by
    intro g hgm
    cases hcs : s.cs with
    | nil => simp [gray, hcs] at hgm
    | cons f rest =>
      have hfw : w ∈ adj f.1 := htop f (by simp [hcs])
      have hf : f.1 ∈ s.stk := h.cs_sub.subset (by simp [gray, hcs])
      have hle : s.idx g ≤ s.idx f.1 := by
        have hs := h.sorted.sublist h.cs_sub
        simp only [gray, hcs, List.map_cons, List.pairwise_cons, List.mem_cons] at hs hgm
        rcases hgm with rfl | hgm
        · exact Nat.le_refl _
        · exact Nat.le_of_lt (hs.1 g hgm)
      exact (h.gray_reach g hgm f.1 hf hle).tail hfw
  refine ⟨?_, ?_⟩
  · constructor
    · intro x
      show upd s.idx w (s.cnt + 1) x ≤ s.cnt + 1
      by_cases hx : x = w
      · subst hx; simp [upd]
      · rw [upd_ne _ _ hx]; exact Nat.le_succ_of_le (h.idx_le x)
    · intro x hx
      show upd s.idx w (s.cnt + 1) x ≠ 0
      by_cases hxw : x = w
      · subst hxw; simp [upd]
      · rw [upd_ne _ _ hxw]
        rcases List.mem_cons.mp hx with e | hx
        · exact absurd e hxw
        · exact h.stk_vis x hx
    · intro x hx
      show x ∈ w :: s.stk ∨ _
      by_cases hxw : x = w
      · left; simp [hxw]
      · have : s.idx x ≠ 0 := by
          have hx : upd s.idx w (s.cnt + 1) x ≠ 0 := hx
          rwa [upd_ne _ _ hxw] at hx
        rcases h.vis x this with h1 | h1
        · left; exact List.mem_cons_of_mem _ h1
        · right; exact h1
    · intro x hx
      show upd s.idx w (s.cnt + 1) x ≠ 0
      by_cases hxw : x = w
      · subst hxw; simp [upd]
      · rw [upd_ne _ _ hxw]; exact h.comp_vis x hx
    · intro x hx
      rcases List.mem_cons.mp hx with e | hx
      · subst e; exact hwcomp
      · exact h.disj x hx
    · show (w :: s.stk).Pairwise (fun a b => upd s.idx w (s.cnt + 1) b < upd s.idx w (s.cnt + 1) a)
      rw [List.pairwise_cons]
      refine ⟨fun x hx => ?_, ?_⟩
      · rw [upd_self, upd_ne _ _ (hne x hx)]
        exact Nat.lt_succ_of_le (h.idx_le x)
      · refine h.sorted.imp_of_mem ?_
        intro a b ha hb hab
        rw [upd_ne _ _ (hne a ha), upd_ne _ _ (hne b hb)]; exact hab
    · exact h.cs_sub.cons_cons w
    · show (w :: s.stk).getLast? = (w :: gray s).getLast?
      rw [List.getLast?_cons, List.getLast?_cons, h.bottom]
    · intro x hx
      show upd s.low w (s.cnt + 1) x ≤ upd s.idx w (s.cnt + 1) x
      by_cases hxw : x = w
      · subst hxw; simp [upd]
      · rcases List.mem_cons.mp hx with e | hx
        · exact absurd e hxw
        · rw [upd_ne _ _ hxw, upd_ne _ _ hxw]; exact h.low_le x hx
    · intro x hx
      show ∃ y ∈ w :: s.stk, upd s.idx w (s.cnt + 1) y = upd s.low w (s.cnt + 1) x ∧ _
      by_cases hxw : x = w
      · subst hxw; exact ⟨x, by simp, by simp [upd], .refl _⟩
      · rcases List.mem_cons.mp hx with e | hx
        · exact absurd e hxw
        · obtain ⟨y, hy, e, r⟩ := h.low_wit x hx
          exact ⟨y, List.mem_cons_of_mem _ hy, by
            rw [upd_ne _ _ (hne y hy), upd_ne _ _ hxw]; exact e, r⟩
    · intro g hgm x hx hle
      have hle : upd s.idx w (s.cnt + 1) g ≤ upd s.idx w (s.cnt + 1) x := hle
      have hgm : g ∈ w :: gray s := hgm
      have hx : x ∈ w :: s.stk := hx
      rcases List.mem_cons.mp hgm with e | hgm
      · subst e
        rcases List.mem_cons.mp hx with e | hx
        · subst e; exact .refl _
        · exfalso
          rw [upd_self, upd_ne _ _ (hne x hx)] at hle
          have := h.idx_le x; omega
      · rcases List.mem_cons.mp hx with e | hx
        · rw [e]; exact hgw g hgm
        · rw [upd_ne _ _ (hneg g hgm), upd_ne _ _ (hne x hx)] at hle
          exact h.gray_reach g hgm x hx hle
    · intro x hx hxg
      have hx : x ∈ w :: s.stk := hx
      have hxg : x ∉ w :: gray s := hxg
      simp only [List.mem_cons, not_or] at hxg
      rcases List.mem_cons.mp hx with e | hx
      · exact absurd e hxg.1
      · show upd s.low w (s.cnt + 1) x < upd s.idx w (s.cnt + 1) x
        rw [upd_ne _ _ hxg.1, upd_ne _ _ hxg.1]; exact h.black_low x hx hxg.2
    · intro x hx hxg g hgm hlt hmax
      have hx : x ∈ w :: s.stk := hx
      have hxg : x ∉ w :: gray s := hxg
      have hgm : g ∈ w :: gray s := hgm
      have hlt : upd s.idx w (s.cnt + 1) g < upd s.idx w (s.cnt + 1) x := hlt
      simp only [List.mem_cons, not_or] at hxg
      rcases List.mem_cons.mp hx with e | hx
      · exact absurd e hxg.1
      rw [upd_ne _ _ hxg.1] at hlt
      rcases List.mem_cons.mp hgm with e | hgm
      · subst e; rw [upd_self] at hlt; have := h.idx_le x; omega
      · show upd s.low w (s.cnt + 1) g ≤ upd s.low w (s.cnt + 1) x
        rw [upd_ne _ _ hxg.1, upd_ne _ _ (hneg g hgm)]
        rw [upd_ne _ _ (hneg g hgm)] at hlt
        refine h.near x hx hxg.2 g hgm hlt ?_
        intro g' hg' hlt'
        have := hmax g' (List.mem_cons_of_mem _ hg')
          (by show upd s.idx w (s.cnt + 1) g' < upd s.idx w (s.cnt + 1) x
              rw [upd_ne _ _ (hneg g' hg'), upd_ne _ _ hxg.1]; exact hlt')
        have this : upd s.idx w (s.cnt + 1) g' ≤ upd s.idx w (s.cnt + 1) g := this
        rwa [upd_ne _ _ (hneg g' hg'), upd_ne _ _ (hneg g hgm)] at this
    · intro x hx hxg u hu
      have hx : x ∈ w :: s.stk := hx
      have hxg : x ∉ w :: gray s := hxg
      simp only [List.mem_cons, not_or] at hxg
      rcases List.mem_cons.mp hx with e | hx
      · exact absurd e hxg.1
      obtain ⟨h1, h2⟩ := h.black_adj x hx hxg.2 u hu
      have huw : u ≠ w := fun e => h1 (e ▸ hw)
      refine ⟨by show upd s.idx w (s.cnt + 1) u ≠ 0; rwa [upd_ne _ _ huw], fun hm => ?_⟩
      show upd s.low w (s.cnt + 1) x ≤ upd s.idx w (s.cnt + 1) u
      rw [upd_ne _ _ hxg.1, upd_ne _ _ huw]
      rcases List.mem_cons.mp hm with e | hm
      · exact absurd e huw
      · exact h2 hm
    · intro f hf u hu
      have hf : f ∈ (w, adj w) :: s.cs := hf
      rcases List.mem_cons.mp hf with e | hf
      · subst e; exact hu
      · exact h.rem_sub f hf u hu
    · exact h.good
    · exact h.nodup
  · intro f hf u hu
    have hf : f ∈ (w, adj w) :: s.cs := hf
    rcases List.mem_cons.mp hf with e | hf
    · subst e; left; exact hu
    · have hfw : f.1 ≠ w := hneg f.1 (List.mem_map_of_mem hf)
      have hfs : f.1 ∈ s.stk := h.cs_sub.subset (List.mem_map_of_mem hf)
      by_cases huw : u = w
      · right; right
        subst huw
        refine ⟨by show upd s.idx u (s.cnt + 1) u ≠ 0; simp [upd], fun _ => ?_⟩
        show upd s.low u (s.cnt + 1) f.1 ≤ upd s.idx u (s.cnt + 1) u
        rw [upd_ne _ _ hfw, upd_self]
        exact Nat.le_succ_of_le (Nat.le_trans (h.low_le _ hfs) (h.idx_le _))
      · rcases hg f hf u hu with h1 | h1 | ⟨h1, h2⟩
        · left; exact h1
        · exact absurd (List.mem_singleton.mp h1) huw
        · right; right
          refine ⟨by show upd s.idx w (s.cnt + 1) u ≠ 0; rwa [upd_ne _ _ huw], fun hm => ?_⟩
          show upd s.low w (s.cnt + 1) f.1 ≤ upd s.idx w (s.cnt + 1) u
          rw [upd_ne _ _ hfw, upd_ne _ _ huw]
          rcases List.mem_cons.mp hm with e | hm
          · exact absurd e huw
          · exact h2 hm

/-- Replacing the top frame's remaining successors changes none of the core facts. -/
theorem core_frame {adj : String → List String} {s : St} {v : String} {ws ws' : List String}
    {rest : List (String × List String)} (h : Core adj s) (hcs : s.cs = (v, ws) :: rest)
    (hsub : ∀ x ∈ ws', x ∈ ws) : Core adj { s with cs := (v, ws') :: rest } := by
  have hg : gray { s with cs := (v, ws') :: rest } = gray s := by simp [gray, hcs]
  constructor
  · exact h.idx_le
  · exact h.stk_vis
  · exact h.vis
  · exact h.comp_vis
  · exact h.disj
  · exact h.sorted
  · rw [hg]; exact h.cs_sub
  · rw [hg]; exact h.bottom
  · exact h.low_le
  · exact h.low_wit
  · rw [hg]; exact h.gray_reach
  · rw [hg]; exact h.black_low
  · rw [hg]; exact h.near
  · rw [hg]; exact h.black_adj
  · intro f hf u hu
    rcases List.mem_cons.mp hf with e | hf
    · subst e; exact h.rem_sub (v, ws) (by simp [hcs]) u (hsub u hu)
    · exact h.rem_sub f (by simp [hcs, hf]) u hu
  · exact h.good
  · exact h.nodup

/-- Lowering the low-link of an open function to a value that some stacked node it
reaches has, keeps the core facts. -/
theorem core_lower {adj : String → List String} {s : St} {v : String} {n : Nat}
    (h : Core adj s) (hv : v ∈ gray s) (hn : n ≤ s.low v)
    (hw : ∃ y ∈ s.stk, s.idx y = n ∧ Reach (Edge adj) v y) :
    Core adj { s with low := upd s.low v n } := by
  have hle : ∀ x, upd s.low v n x ≤ s.low x := by
    intro x; unfold upd; split
    · next e => subst e; exact hn
    · exact Nat.le_refl _
  have hb : ∀ x, x ∉ gray s → upd s.low v n x = s.low x := fun x hx =>
    upd_ne _ _ (fun e => hx (e ▸ hv))
  constructor
  · exact h.idx_le
  · exact h.stk_vis
  · exact h.vis
  · exact h.comp_vis
  · exact h.disj
  · exact h.sorted
  · exact h.cs_sub
  · exact h.bottom
  · intro x hx; exact Nat.le_trans (hle x) (h.low_le x hx)
  · intro x hx
    show ∃ y ∈ s.stk, s.idx y = upd s.low v n x ∧ _
    by_cases hxv : x = v
    · subst hxv; rw [upd_self]; exact hw
    · rw [upd_ne _ _ hxv]; exact h.low_wit x hx
  · exact h.gray_reach
  · intro x hx hxg; exact Nat.lt_of_le_of_lt (hle x) (h.black_low x hx hxg)
  · intro x hx hxg g hgm hlt hmax
    show upd s.low v n g ≤ upd s.low v n x
    rw [hb x hxg]
    exact Nat.le_trans (hle g) (h.near x hx hxg g hgm hlt hmax)
  · intro x hx hxg u hu
    show s.idx u ≠ 0 ∧ (u ∈ s.stk → upd s.low v n x ≤ s.idx u)
    rw [hb x hxg]; exact h.black_adj x hx hxg u hu
  · exact h.rem_sub
  · exact h.good
  · exact h.nodup

theorem grayAdj_lower {adj : String → List String} {s : St} {v : String} {n : Nat} {exc}
    (hg : GrayAdj adj s exc) (hn : n ≤ s.low v) :
    GrayAdj adj { s with low := upd s.low v n } exc := by
  intro f hf u hu
  rcases hg f hf u hu with h1 | h1 | ⟨h1, h2⟩
  · exact .inl h1
  · exact .inr (.inl h1)
  · refine .inr (.inr ⟨h1, fun hm => ?_⟩)
    refine Nat.le_trans ?_ (h2 hm)
    show upd s.low v n f.1 ≤ s.low f.1
    unfold upd; split
    · next e => rw [e]; exact hn
    · exact Nat.le_refl _

/-! ### Popping -/

theorem popTo_split (v : String) (pre post : List String) (h : v ∉ pre) :
    popTo v (pre ++ v :: post) = (pre ++ [v], post) := by
  induction pre with
  | nil => simp [popTo]
  | cons x xs ih =>
    simp only [List.mem_cons, not_or] at h
    have hx : ¬ x = v := fun e => h.1 e.symm
    show popTo v (x :: (xs ++ v :: post)) = _
    unfold popTo
    rw [if_neg hx, ih h.2]; rfl

theorem sublist_after {v : String} : ∀ {pre post l : List String}, v ∉ pre →
    (v :: l).Sublist (pre ++ v :: post) → l.Sublist post
  | [], post, l, _, h => by
    simp only [List.nil_append] at h
    exact (List.cons_sublist_cons).mp h
  | x :: xs, post, l, hv, h => by
    simp only [List.mem_cons, not_or] at hv
    cases h with
    | cons _ h => exact sublist_after hv.2 h
    | cons_cons _ h => exact absurd rfl hv.1

theorem last_min {idx : String → Nat} {l : List String}
    (h : l.Pairwise (fun a b => idx b < idx a)) {v : String} (hl : l.getLast? = some v) :
    ∀ x ∈ l, idx v ≤ idx x := by
  intro x hx
  obtain ⟨ys, rfl⟩ := List.getLast?_eq_some_iff.mp hl
  rw [List.pairwise_append] at h
  rcases List.mem_append.mp hx with h1 | h1
  · exact Nat.le_of_lt (h.2.2 x h1 v (by simp))
  · rw [List.mem_singleton.mp h1]; exact Nat.le_refl _

/-! ### Retiring a frame -/

/-- The state after the frame of `v` has been removed and its low-link handed to the
frame below, but before any popping. -/
theorem retire_lower {adj : String → List String} {s : St} {v : String}
    {rest : List (String × List String)}
    (h : Core adj s) (hg : GrayAdj adj s []) (hcs : s.cs = (v, []) :: rest) :
    Core adj { s with low := lowToParent s.low v rest } ∧
    GrayAdj adj { s with low := lowToParent s.low v rest } [] ∧
    lowToParent s.low v rest v = s.low v ∧
    (∀ p tl, rest = p :: tl → lowToParent s.low v rest p.1 ≤ s.low v) := by
  have hvs : v ∈ s.stk := h.cs_sub.subset (by simp [gray, hcs])
  have hsg := h.sorted.sublist h.cs_sub
  simp only [gray, hcs, List.map_cons, List.pairwise_cons] at hsg
  cases rest with
  | nil => exact ⟨h, hg, rfl, by intro p tl e; simp at e⟩
  | cons p tl =>
    have hpv : s.idx p.1 < s.idx v := hsg.1 p.1 (by simp)
    have hpne : v ≠ p.1 := fun e => by rw [← e] at hpv; omega
    have hpg : p.1 ∈ gray s := by simp [gray, hcs]
    by_cases hlt : s.low v < s.low p.1
    · have e : lowToParent s.low v (p :: tl) = upd s.low p.1 (s.low v) := by
        simp [lowToParent, hlt]
      rw [e]
      refine ⟨core_lower h hpg (Nat.le_of_lt hlt) ?_, grayAdj_lower hg (Nat.le_of_lt hlt),
        upd_ne _ _ hpne, ?_⟩
      · obtain ⟨y, hy, e1, r⟩ := h.low_wit v hvs
        exact ⟨y, hy, e1, (h.gray_reach p.1 hpg v hvs (Nat.le_of_lt hpv)).trans r⟩
      · intro p' tl' e'
        obtain ⟨rfl, rfl⟩ := List.cons.inj e'
        rw [upd_self]; exact Nat.le_refl _
    · have e : lowToParent s.low v (p :: tl) = s.low := by simp [lowToParent, hlt]
      rw [e]
      refine ⟨h, hg, rfl, ?_⟩
      intro p' tl' e'
      obtain ⟨rfl, rfl⟩ := List.cons.inj e'
      omega

/-- Index equality on the stack is equality. -/
theorem idx_inj {adj : String → List String} {s : St} (h : Core adj s) :
    ∀ x ∈ s.stk, ∀ y ∈ s.stk, s.idx x = s.idx y → x = y := by
  have hs := h.sorted
  intro x hx y hy e
  generalize s.stk = l at *
  clear h
  induction l with
  | nil => simp at hx
  | cons a l ih =>
    rw [List.pairwise_cons] at hs
    rcases List.mem_cons.mp hx with e1 | hx1
    · rcases List.mem_cons.mp hy with e2 | hy1
      · rw [e1, e2]
      · have := hs.1 y hy1; rw [← e1] at this; omega
    · rcases List.mem_cons.mp hy with e2 | hy1
      · have := hs.1 x hx1; rw [← e2] at this; omega
      · exact ih hs.2 hx1 hy1

/-- Retiring without popping. -/
theorem retire_keep {adj : String → List String} {s : St} {v : String}
    {rest : List (String × List String)}
    (h : Core adj s) (hg : GrayAdj adj s []) (hcs : s.cs = (v, []) :: rest)
    (hpar : ∀ p tl, rest = p :: tl → s.low p.1 ≤ s.low v)
    (hne : s.low v ≠ s.idx v) :
    Core adj { s with cs := rest } ∧ GrayAdj adj { s with cs := rest } [] := by
  have hgr : gray s = v :: rest.map Prod.fst := by simp [gray, hcs]
  have hvs : v ∈ s.stk := h.cs_sub.subset (by simp [hgr])
  have hsg := h.sorted.sublist h.cs_sub
  rw [hgr, List.pairwise_cons] at hsg
  have hvlt : s.low v < s.idx v := by have := h.low_le v hvs; omega
  have hrne : rest ≠ [] := by
    intro e
    have hb := h.bottom
    rw [hgr, e] at hb
    obtain ⟨y, hy, e1, _⟩ := h.low_wit v hvs
    have := last_min h.sorted (v := v) (by simpa using hb) y hy
    omega
  obtain ⟨p, tl, rfl⟩ : ∃ p tl, rest = p :: tl := by
    cases rest with
    | nil => exact absurd rfl hrne
    | cons p tl => exact ⟨p, tl, rfl⟩
  have hp := hpar p tl rfl
  have hgnew : gray { s with cs := p :: tl } = p.1 :: tl.map Prod.fst := rfl
  have hgr' : gray s = v :: p.1 :: tl.map Prod.fst := by simp [gray, hcs]
  have hvadj : ∀ w ∈ adj v, s.idx w ≠ 0 ∧ (w ∈ s.stk → s.low v ≤ s.idx w) := by
    intro w hw
    rcases hg (v, []) (by simp [hcs]) w hw with h1 | h1 | h1
    · simp at h1
    · simp at h1
    · exact h1
  have hsub : (p.1 :: tl.map Prod.fst).Sublist s.stk := by
    have := h.cs_sub; rw [hgr'] at this
    exact (List.sublist_cons_self _ _).trans this
  have hpmax : ∀ g ∈ p.1 :: tl.map Prod.fst, s.idx g ≤ s.idx p.1 := by
    intro g hgm
    have := hsg.2
    rw [List.map_cons, List.pairwise_cons] at this
    rcases List.mem_cons.mp hgm with rfl | hgm
    · exact Nat.le_refl _
    · exact Nat.le_of_lt (this.1 g hgm)
  have hvnot : v ∉ p.1 :: tl.map Prod.fst := by
    intro hm; have := hsg.1 v (by simpa using hm); omega
  refine ⟨?_, ?_⟩
  · constructor
    · exact h.idx_le
    · exact h.stk_vis
    · exact h.vis
    · exact h.comp_vis
    · exact h.disj
    · exact h.sorted
    · exact hsub
    · show s.stk.getLast? = (p.1 :: tl.map Prod.fst).getLast?
      rw [h.bottom, hgr', List.getLast?_cons_cons]
    · exact h.low_le
    · exact h.low_wit
    · intro g hgm; exact h.gray_reach g (by rw [hgr']; exact List.mem_cons_of_mem _ hgm)
    · intro x hx hxg
      have hxg : x ∉ p.1 :: tl.map Prod.fst := hxg
      by_cases hxv : x = v
      · subst hxv; exact hvlt
      · exact h.black_low x hx (by rw [hgr']; simp only [List.mem_cons] at hxg ⊢; simp_all)
    · intro x hx hxg g hgm hlt hmax
      have hxg : x ∉ p.1 :: tl.map Prod.fst := hxg
      have hgm : g ∈ p.1 :: tl.map Prod.fst := hgm
      have hlt : s.idx g < s.idx x := hlt
      show s.low g ≤ s.low x
      have hmax : ∀ g' ∈ p.1 :: tl.map Prod.fst, s.idx g' < s.idx x → s.idx g' ≤ s.idx g := hmax
      have hpx : s.idx p.1 < s.idx x → g = p.1 := by
        intro hl
        have h1 := hmax p.1 (by simp) hl
        have h2 := hpmax g hgm
        exact idx_inj h g (hsub.subset hgm) p.1 (hsub.subset (by simp)) (by omega)
      have hpv : s.idx p.1 < s.idx v := hsg.1 p.1 (by simp)
      by_cases hxv : x = v
      · subst hxv; rw [hpx hpv]; exact hp
      · have hxold : x ∉ gray s := by
          rw [hgr']; intro hm; rcases List.mem_cons.mp hm with e | hm
          · exact hxv e
          · exact hxg hm
        rcases Nat.lt_or_ge (s.idx v) (s.idx x) with hvx | hvx
        · have hnear := h.near x hx hxold v (by simp [hgr']) hvx (by
            intro g' hg' _
            rw [hgr'] at hg'
            rcases List.mem_cons.mp hg' with e | hg'
            · rw [e]; exact Nat.le_refl _
            · have := hpmax g' hg'; omega)
          rw [hpx (by omega)]; omega
        · refine h.near x hx hxold g (by rw [hgr']; exact List.mem_cons_of_mem _ hgm) hlt ?_
          intro g' hg' hlt'
          rw [hgr'] at hg'
          rcases List.mem_cons.mp hg' with e | hg'
          · rw [e] at hlt'; omega
          · exact hmax g' hg' hlt'
    · intro x hx hxg w hw
      have hxg : x ∉ p.1 :: tl.map Prod.fst := hxg
      by_cases hxv : x = v
      · subst hxv; exact hvadj w hw
      · refine h.black_adj x hx ?_ w hw
        rw [hgr']; intro hm; rcases List.mem_cons.mp hm with e | hm
        · exact hxv e
        · exact hxg hm
    · intro f hf; exact h.rem_sub f (by rw [hcs]; exact List.mem_cons_of_mem _ hf)
    · exact h.good
    · exact h.nodup
  · intro f hf; exact hg f (by rw [hcs]; exact List.mem_cons_of_mem _ hf)

/-- From any member of the segment above `v` the path of low-links leads down to `v`. -/
theorem descend {adj : String → List String} {s : St} {v : String} (h : Core adj s)
    (hlow : ∀ x ∈ s.stk, s.idx v < s.idx x → s.low x < s.idx x ∧ s.idx v ≤ s.low x)
    (hv : v ∈ s.stk) :
    ∀ n x, x ∈ s.stk → s.idx x = n → s.idx v ≤ s.idx x → Reach (Edge adj) x v := by
  intro n
  induction n using Nat.strongRecOn with
  | _ n ih =>
    intro x hx hxn hle
    rcases Nat.lt_or_ge (s.idx v) (s.idx x) with hlt | hge
    · obtain ⟨h1, h2⟩ := hlow x hx hlt
      obtain ⟨y, hy, e, r⟩ := h.low_wit x hx
      exact r.trans (ih (s.idx y) (by omega) y hy rfl (by omega))
    · have : x = v := idx_inj h x hx v hv (by omega)
      subst this; exact .refl _

/-- The state after popping the component of `v`. -/
def popped (s : St) (v : String) (rest : List (String × List String)) : St :=
  { s with
    cs := rest
    stk := (popTo v s.stk).2
    comps := s.comps ++ [sortStrings (popTo v s.stk).1] }

/-- Retiring a component root: the popped segment is a component. -/
theorem retire_pop {adj : String → List String} {s : St} {v : String}
    {rest : List (String × List String)}
    (h : Core adj s) (hg : GrayAdj adj s []) (hcs : s.cs = (v, []) :: rest)
    (heq : s.low v = s.idx v) :
    Core adj (popped s v rest) ∧ GrayAdj adj (popped s v rest) [] := by
  have hgr : gray s = v :: rest.map Prod.fst := by simp [gray, hcs]
  have hvs : v ∈ s.stk := h.cs_sub.subset (by simp [hgr])
  have hsg := h.sorted.sublist h.cs_sub
  rw [hgr, List.pairwise_cons] at hsg
  obtain ⟨pre, post, hst, hpre⟩ := List.append_of_mem hvs |> fun ⟨a, b, e⟩ =>
    (⟨a, b, e, by
      intro hm
      have := h.sorted
      rw [e, List.pairwise_append] at this
      have := this.2.2 v hm v (by simp)
      omega⟩ : ∃ a b, s.stk = a ++ v :: b ∧ v ∉ a)
  have hpop : popTo v s.stk = (pre ++ [v], post) := by rw [hst]; exact popTo_split v pre post hpre
  unfold popped
  rw [hpop]
  have hso := h.sorted
  rw [hst, List.pairwise_append, List.pairwise_cons] at hso
  have hup : ∀ x ∈ pre ++ [v], s.idx v ≤ s.idx x := by
    intro x hx
    rcases List.mem_append.mp hx with h1 | h1
    · exact Nat.le_of_lt (hso.2.2 x h1 v (by simp))
    · rw [List.mem_singleton.mp h1]; exact Nat.le_refl _
  have hdown : ∀ x ∈ post, s.idx x < s.idx v := fun x hx => hso.2.1.1 x hx
  have hmemstk : ∀ x, x ∈ s.stk ↔ x ∈ pre ++ [v] ∨ x ∈ post := by
    intro x; rw [hst]
    simp only [List.mem_append, List.mem_cons, List.not_mem_nil, or_false, or_assoc]
  have hsubpost : (rest.map Prod.fst).Sublist post := by
    have := h.cs_sub; rw [hgr, hst] at this
    exact sublist_after hpre this
  have hpoststk : ∀ x ∈ post, x ∈ s.stk := fun x hx => (hmemstk x).mpr (.inr hx)
  have hsegstk : ∀ x ∈ pre ++ [v], x ∈ s.stk := fun x hx => (hmemstk x).mpr (.inl hx)
  have hseg_iff : ∀ x ∈ s.stk, s.idx v ≤ s.idx x → x ∈ pre ++ [v] := by
    intro x hx hle
    rcases (hmemstk x).mp hx with h1 | h1
    · exact h1
    · have := hdown x h1; omega
  -- members of the segment other than `v` are retired
  have hblack : ∀ x ∈ s.stk, s.idx v < s.idx x → x ∉ gray s := by
    intro x hx hlt hm
    rw [hgr] at hm
    rcases List.mem_cons.mp hm with e | hm
    · rw [e] at hlt; omega
    · have := hsg.1 x hm; omega
  have hlow : ∀ x ∈ s.stk, s.idx v < s.idx x → s.low x < s.idx x ∧ s.idx v ≤ s.low x := by
    intro x hx hlt
    refine ⟨h.black_low x hx (hblack x hx hlt), ?_⟩
    rw [← heq]
    refine h.near x hx (hblack x hx hlt) v (by simp [hgr]) hlt ?_
    intro g hgm _
    rw [hgr] at hgm
    rcases List.mem_cons.mp hgm with e | hgm
    · rw [e]; exact Nat.le_refl _
    · exact Nat.le_of_lt (hsg.1 g hgm)
  have htov : ∀ x ∈ pre ++ [v], Reach (Edge adj) x v := fun x hx =>
    descend h hlow hvs _ x (hsegstk x hx) rfl (hup x hx)
  have hfromv : ∀ x ∈ pre ++ [v], Reach (Edge adj) v x := fun x hx =>
    h.gray_reach v (by simp [hgr]) x (hsegstk x hx) (hup x hx)
  have hvadj : ∀ w ∈ adj v, s.idx w ≠ 0 ∧ (w ∈ s.stk → s.low v ≤ s.idx w) := by
    intro w hw
    rcases hg (v, []) (by simp [hcs]) w hw with h1 | h1 | h1
    · simp at h1
    · simp at h1
    · exact h1
  have hclosed : ∀ x ∈ pre ++ [v], ∀ w ∈ adj x, w ∈ pre ++ [v] ∨ w ∈ s.comps.flatten := by
    intro x hx w hw
    have hxs := hsegstk x hx
    have key : s.idx w ≠ 0 ∧ (w ∈ s.stk → s.idx v ≤ s.idx w) := by
      rcases Nat.lt_or_ge (s.idx v) (s.idx x) with hlt | hge
      · obtain ⟨h1, h2⟩ := h.black_adj x hxs (hblack x hxs hlt) w hw
        exact ⟨h1, fun hm => Nat.le_trans (hlow x hxs hlt).2 (h2 hm)⟩
      · have : x = v := idx_inj h x hxs v hvs (by have := hup x hx; omega)
        subst this
        rw [← heq]; exact hvadj w hw
    rcases h.vis w key.1 with h1 | h1
    · left; exact hseg_iff w h1 (key.2 h1)
    · right; exact h1
  have hmems : ∀ x, x ∈ sortStrings (pre ++ [v]) ↔ x ∈ pre ++ [v] := mem_sortStrings _
  have hflat : ∀ x, x ∈ (s.comps ++ [sortStrings (pre ++ [v])]).flatten ↔
      x ∈ s.comps.flatten ∨ x ∈ pre ++ [v] := by
    intro x; rw [List.flatten_append, List.mem_append]
    simp only [List.flatten_cons, List.flatten_nil, List.append_nil, hmems]
  have hgrlt : ∀ g ∈ rest.map Prod.fst, s.idx g < s.idx v := hsg.1
  refine ⟨?_, ?_⟩
  · constructor
    · exact h.idx_le
    · intro x hx; exact h.stk_vis x (hpoststk x hx)
    · intro x hx
      show x ∈ post ∨ x ∈ (s.comps ++ [sortStrings (pre ++ [v])]).flatten
      rw [hflat]
      rcases h.vis x hx with h1 | h1
      · rcases (hmemstk x).mp h1 with h2 | h2
        · exact .inr (.inr h2)
        · exact .inl h2
      · exact .inr (.inl h1)
    · intro x hx
      rcases (hflat x).mp hx with h1 | h1
      · exact h.comp_vis x h1
      · exact h.stk_vis x (hsegstk x h1)
    · intro x hx hm
      have hx : x ∈ post := hx
      rcases (hflat x).mp hm with h1 | h1
      · exact h.disj x (hpoststk x hx) h1
      · have := hup x h1; have := hdown x hx; omega
    · exact hso.2.1.2
    · exact hsubpost
    · show post.getLast? = (rest.map Prod.fst).getLast?
      have hb := h.bottom
      rw [hst, hgr] at hb
      cases hpost : post with
      | nil =>
        rw [hpost] at hsubpost
        rw [List.sublist_nil.mp hsubpost]
      | cons a as =>
        have hb2 : (a :: as).getLast? = (v :: rest.map Prod.fst).getLast? := by
          rw [← hb, hpost]
          simp [List.getLast?_append, List.getLast?_cons]
        cases hr : rest.map Prod.fst with
        | nil =>
          exfalso
          rw [hr] at hb2
          have : v ∈ a :: as := List.mem_of_getLast? (by simpa using hb2)
          have := hdown v (by rw [hpost]; exact this)
          omega
        | cons q qs => rw [hb2, hr, List.getLast?_cons_cons]
    · intro x hx; exact h.low_le x (hpoststk x hx)
    · intro x hx
      have hx : x ∈ post := hx
      obtain ⟨y, hy, e, r⟩ := h.low_wit x (hpoststk x hx)
      refine ⟨y, ?_, e, r⟩
      show y ∈ post
      rcases (hmemstk y).mp hy with h1 | h1
      · have := hup y h1
        have := h.low_le x (hpoststk x hx)
        have := hdown x hx
        omega
      · exact h1
    · intro g hgm x hx hle
      exact h.gray_reach g (by rw [hgr]; exact List.mem_cons_of_mem _ hgm) x (hpoststk x hx) hle
    · intro x hx hxg
      have hx : x ∈ post := hx
      refine h.black_low x (hpoststk x hx) ?_
      rw [hgr]; intro hm
      rcases List.mem_cons.mp hm with e | hm
      · have := hdown x hx; rw [e] at this; omega
      · exact hxg hm
    · intro x hx hxg g hgm hlt hmax
      have hx : x ∈ post := hx
      have hgm : g ∈ rest.map Prod.fst := hgm
      refine h.near x (hpoststk x hx) ?_ g (by rw [hgr]; exact List.mem_cons_of_mem _ hgm) hlt ?_
      · rw [hgr]; intro hm
        rcases List.mem_cons.mp hm with e | hm
        · have := hdown x hx; rw [e] at this; omega
        · exact hxg hm
      · intro g' hg' hlt'
        rw [hgr] at hg'
        rcases List.mem_cons.mp hg' with e | hg'
        · have := hdown x hx; rw [e] at hlt'; omega
        · exact hmax g' hg' hlt'
    · intro x hx hxg w hw
      have hx : x ∈ post := hx
      obtain ⟨h1, h2⟩ := h.black_adj x (hpoststk x hx) (by
        rw [hgr]; intro hm
        rcases List.mem_cons.mp hm with e | hm
        · have := hdown x hx; rw [e] at this; omega
        · exact hxg hm) w hw
      exact ⟨h1, fun hm => h2 (hpoststk w hm)⟩
    · intro f hf; exact h.rem_sub f (by rw [hcs]; exact List.mem_cons_of_mem _ hf)
    · intro a C b e
      have e : s.comps ++ [sortStrings (pre ++ [v])] = a ++ C :: b := e
      rcases List.append_eq_append_iff.mp e with ⟨t, ha, hb⟩ | ⟨t, ha, hb⟩
      · -- a = comps ++ t, [seg] = t ++ C :: b
        cases t with
        | nil =>
          simp only [List.nil_append, List.cons.injEq] at hb
          obtain ⟨rfl, _⟩ := hb
          rw [List.append_nil] at ha; subst ha
          refine ⟨?_, sortStrings_sorted _, ?_, ?_⟩
          · intro e
            have : v ∈ sortStrings (pre ++ [v]) := (hmems v).mpr (by simp)
            rw [e] at this; simp at this
          · intro x hx w hw
            rw [hmems]
            exact hclosed x ((hmems x).mp hx) w hw
          · intro x hx y hy
            exact (htov x ((hmems x).mp hx)).trans (hfromv y ((hmems y).mp hy))
        | cons c t =>
          have := congrArg List.length hb
          simp only [List.length_cons, List.length_nil, List.length_append] at this; omega
      · -- comps = a ++ t, C :: b = t ++ [seg]
        cases t with
        | nil =>
          simp only [List.nil_append, List.cons.injEq] at hb
          obtain ⟨rfl, _⟩ := hb
          rw [List.append_nil] at ha; subst ha
          refine ⟨?_, sortStrings_sorted _, ?_, ?_⟩
          · intro e
            have : v ∈ sortStrings (pre ++ [v]) := (hmems v).mpr (by simp)
            rw [e] at this; simp at this
          · intro x hx w hw
            rw [hmems]
            exact hclosed x ((hmems x).mp hx) w hw
          · intro x hx y hy
            exact (htov x ((hmems x).mp hx)).trans (hfromv y ((hmems y).mp hy))
        | cons c t =>
          simp only [List.cons_append, List.cons.injEq] at hb
          obtain ⟨rfl, _⟩ := hb
          exact h.good a C t ha
    · show (s.comps ++ [sortStrings (pre ++ [v])]).flatten.Nodup
      rw [List.flatten_append, List.nodup_append]
      refine ⟨h.nodup, ?_, ?_⟩
      · simp only [List.flatten_cons, List.flatten_nil, List.append_nil]
        have hnd : (pre ++ [v]).Nodup := by
          have hs2 : (pre ++ [v]).Pairwise (fun a b => s.idx b < s.idx a) := by
            refine h.sorted.sublist ?_
            rw [hst]
            exact List.Sublist.append (List.Sublist.refl _) (by simp)
          exact hs2.imp (fun {a b} hab => by intro e; rw [e] at hab; omega)
        exact (isort_perm _ _).nodup_iff.mpr hnd
      · intro x hx y hy e
        subst e
        simp only [List.flatten_cons, List.flatten_nil, List.append_nil, hmems] at hy
        exact h.disj x (hsegstk x hy) hx
  · intro f hf u hu
    rcases hg f (by rw [hcs]; exact List.mem_cons_of_mem _ hf) u hu with h1 | h1 | ⟨h1, h2⟩
    · exact .inl h1
    · exact .inr (.inl h1)
    · exact .inr (.inr ⟨h1, fun hm => h2 (hpoststk u hm)⟩)

/-! ### One turn, the whole loop -/

theorem step_core {adj : String → List String} {s : St}
    (h : Core adj s) (hg : GrayAdj adj s []) :
    Core adj (step adj s) ∧ GrayAdj adj (step adj s) [] := by
  unfold step
  split
  · exact ⟨h, hg⟩
  · next v w ws rest hcs =>
    have h1 : Core adj { s with cs := (v, ws) :: rest } :=
      core_frame h hcs (fun x hx => List.mem_cons_of_mem _ hx)
    have hwadj : w ∈ adj v := h.rem_sub (v, w :: ws) (by simp [hcs]) w (by simp)
    have hg1 : GrayAdj adj { s with cs := (v, ws) :: rest } [w] := by
      intro f hf u hu
      rcases List.mem_cons.mp hf with e | hf
      · subst e
        rcases hg (v, w :: ws) (by simp [hcs]) u hu with h2 | h2 | h2
        · rcases List.mem_cons.mp h2 with e | h2
          · right; left; simp [e]
          · left; exact h2
        · simp at h2
        · right; right; exact h2
      · rcases hg f (by simp [hcs, hf]) u hu with h2 | h2 | h2
        · left; exact h2
        · simp at h2
        · right; right; exact h2
    split
    · next hw =>
      refine discover_core h1 hg1 hw ?_
      intro f hf
      simp only [List.head?_cons, Option.some.injEq] at hf
      subst hf; exact hwadj
    · next hw =>
      -- `w` is accounted for as soon as the low-link of `v` is at most its index
      have finish : ∀ low' : String → Nat, (w ∈ s.stk → low' v ≤ s.idx w) →
          GrayAdj adj { s with cs := (v, ws) :: rest, low := low' } [w] →
          (∀ f ∈ rest, f.1 ≠ v) →
          (∀ f ∈ rest, low' f.1 = s.low f.1) →
          GrayAdj adj { s with cs := (v, ws) :: rest, low := low' } [] := by
        intro low' hle hg2 hne hlow f hf u hu
        rcases List.mem_cons.mp hf with e | hf
        · subst e
          rcases hg2 (v, ws) (by simp) u hu with h3 | h3 | h3
          · exact .inl h3
          · rw [List.mem_singleton] at h3; subst h3
            exact .inr (.inr ⟨hw, hle⟩)
          · exact .inr (.inr h3)
        · rcases hg f (by simp [hcs, hf]) u hu with h3 | h3 | ⟨h3, h4⟩
          · exact .inl h3
          · simp at h3
          · refine .inr (.inr ⟨h3, ?_⟩)
            show u ∈ s.stk → low' f.1 ≤ s.idx u
            rw [hlow f hf]; exact h4
      have hne : ∀ f ∈ rest, f.1 ≠ v := by
        intro f hf e
        have hsg := h.sorted.sublist h.cs_sub
        simp only [gray, hcs, List.map_cons, List.pairwise_cons] at hsg
        have := hsg.1 f.1 (List.mem_map_of_mem hf)
        rw [e] at this; omega
      split
      · next hc =>
        obtain ⟨hws, hlt⟩ := hc
        refine ⟨core_lower (s := { s with cs := (v, ws) :: rest }) h1 (by simp [gray])
          (Nat.le_of_lt hlt) ⟨w, hws, rfl, .single hwadj⟩, ?_⟩
        refine finish (upd s.low v (s.idx w)) (fun _ => by rw [upd_self]; exact Nat.le_refl _)
          (grayAdj_lower (s := { s with cs := (v, ws) :: rest }) hg1 (Nat.le_of_lt hlt)) hne ?_
        intro f hf; exact upd_ne _ _ (hne f hf)
      · next hc =>
        refine ⟨h1, finish s.low ?_ hg1 hne (fun _ _ => rfl)⟩
        intro hws
        have : ¬ s.idx w < s.low v := fun hl => hc ⟨hws, hl⟩
        omega
  · next v rest hcs =>
    unfold retire
    obtain ⟨h1, h2, h3, h4⟩ := retire_lower h hg hcs
    simp only
    split
    · next heq => exact retire_pop (s := { s with low := lowToParent s.low v rest }) h1 h2 hcs heq
    · next heq =>
      exact retire_keep (s := { s with low := lowToParent s.low v rest }) h1 h2 hcs
        (fun p tl e => Nat.le_trans (h4 p tl e) (Nat.le_of_eq h3.symm)) heq

theorem run_core {adj : String → List String} : ∀ (n : Nat) {s : St},
    Core adj s → GrayAdj adj s [] → Core adj (run adj n s) ∧ GrayAdj adj (run adj n s) []
  | 0, _, h, hg => ⟨h, hg⟩
  | n + 1, s, h, hg => by
    unfold run
    split
    · exact ⟨h, hg⟩
    · have := step_core h hg
      exact run_core n this.1 this.2

/-! ### Termination -/

/-- Work left: unvisited nodes and open frames. -/
def work (adj : String → List String) (nodes : List String) (s : St) : Nat :=
  (nodes.map fun v => if s.idx v = 0 then (adj v).length + 1 else 0).sum +
  (s.cs.map fun f => f.2.length + 1).sum

theorem unvisited_drop (adj : String → List String) (idx : String → Nat) (w : String) (k : Nat)
    (hk : k ≠ 0) (hw : idx w = 0) : ∀ (nodes : List String), w ∈ nodes →
    (nodes.map fun v => if upd idx w k v = 0 then (adj v).length + 1 else 0).sum +
      ((adj w).length + 1) ≤
    (nodes.map fun v => if idx v = 0 then (adj v).length + 1 else 0).sum := by
  have hle : ∀ v, (if upd idx w k v = 0 then (adj v).length + 1 else 0) ≤
      (if idx v = 0 then (adj v).length + 1 else 0) := by
    intro v
    by_cases h : v = w
    · subst h; simp [upd_self, hk]
    · rw [upd_ne _ _ h]; exact Nat.le_refl _
  have hsum : ∀ l : List String,
      (l.map fun v => if upd idx w k v = 0 then (adj v).length + 1 else 0).sum ≤
      (l.map fun v => if idx v = 0 then (adj v).length + 1 else 0).sum := by
    intro l
    induction l with
    | nil => simp
    | cons a l ih => simp only [List.map_cons, List.sum_cons]; exact Nat.add_le_add (hle a) ih
  intro nodes
  induction nodes with
  | nil => intro h; simp at h
  | cons a l ih =>
    intro hm
    simp only [List.map_cons, List.sum_cons]
    rcases List.mem_cons.mp hm with e | hm
    · subst e
      have := hsum l
      rw [upd_self, if_neg hk, if_pos hw]; omega
    · have := ih hm; have := hle a; omega

theorem step_work {adj : String → List String} {nodes : List String} {s : St}
    (hcl : ∀ u, ∀ v ∈ adj u, v ∈ nodes) (h : Core adj s) (hne : s.cs ≠ []) :
    work adj nodes (step adj s) + 1 ≤ work adj nodes s := by
  unfold step
  split
  · next e => exact absurd e hne
  · next v w ws rest hcs =>
    have hw : w ∈ nodes := hcl v w (h.rem_sub (v, w :: ws) (by simp [hcs]) w (by simp))
    split
    · next h0 =>
      have := unvisited_drop adj s.idx w (s.cnt + 1) (by omega) h0 nodes hw
      have hb : work adj nodes s = (nodes.map fun v => if s.idx v = 0 then (adj v).length + 1 else 0).sum
          + ((ws.length + 1 + 1) + (rest.map fun f => f.2.length + 1).sum) := by
        simp [work, hcs]
      have ha : work adj nodes (discover adj { s with cs := (v, ws) :: rest } w) =
          (nodes.map fun v => if upd s.idx w (s.cnt + 1) v = 0 then (adj v).length + 1 else 0).sum
          + (((adj w).length + 1) + ((ws.length + 1) + (rest.map fun f => f.2.length + 1).sum)) := by
        simp [work, discover]; rfl
      rw [ha, hb]
      omega
    · split <;> (simp only [work, hcs, List.map_cons, List.sum_cons, List.length_cons]; omega)
  · next v rest hcs =>
    unfold retire
    simp only
    split <;> (simp only [work, hcs, List.map_cons, List.sum_cons, List.length_nil]; omega)

theorem run_done {adj : String → List String} {nodes : List String}
    (hcl : ∀ u, ∀ v ∈ adj u, v ∈ nodes) : ∀ (n : Nat) {s : St},
    Core adj s → GrayAdj adj s [] → work adj nodes s ≤ n → (run adj n s).cs = []
  | 0, s, h, hg, hn => by
    show s.cs = []
    cases hcs : s.cs with
    | nil => rfl
    | cons f rest => simp [work, hcs] at hn
  | n + 1, s, h, hg, hn => by
    unfold run
    split
    · next e => exact e
    · next f rest hcs =>
      have h1 := step_core h hg
      have h2 := step_work hcl h (by simp [hcs])
      exact run_done hcl n h1.1 h1.2 (by omega)

theorem step_idx_mono {adj : String → List String} (s : St) (x : String) (hx : s.idx x ≠ 0) :
    (step adj s).idx x ≠ 0 := by
  unfold step
  split
  · exact hx
  · split
    · show upd s.idx _ (s.cnt + 1) x ≠ 0
      unfold upd; split
      · omega
      · exact hx
    · split <;> exact hx
  · unfold retire; simp only; split <;> exact hx

theorem run_idx_mono {adj : String → List String} : ∀ (n : Nat) (s : St) (x : String),
    s.idx x ≠ 0 → (run adj n s).idx x ≠ 0
  | 0, _, _, hx => hx
  | n + 1, s, x, hx => by
    unfold run
    split
    · exact hx
    · exact run_idx_mono n _ x (step_idx_mono s x hx)

/-- Between roots: no open frame, empty stack. -/
structure Quiet (adj : String → List String) (s : St) : Prop where
  core : Core adj s
  cs : s.cs = []
  stk : s.stk = []

theorem quiet_of {adj : String → List String} {s : St} (h : Core adj s) (hcs : s.cs = []) :
    Quiet adj s := by
  refine ⟨h, hcs, ?_⟩
  have := h.bottom
  rw [gray, hcs] at this
  exact List.getLast?_eq_none_iff.mp (by simpa using this)

theorem work_discover_le {adj : String → List String} {nodes : List String} {s : St} {w : String}
    (hq : Quiet adj s) (hw : w ∈ nodes) (h0 : s.idx w = 0) :
    work adj nodes (discover adj s w) ≤ fuelFor adj nodes := by
  have h1 := unvisited_drop adj s.idx w (s.cnt + 1) (by omega) h0 nodes hw
  have h2 : (nodes.map fun v => if s.idx v = 0 then (adj v).length + 1 else 0).sum ≤
      fuelFor adj nodes := by
    unfold fuelFor
    clear hw h1
    induction nodes with
    | nil => simp
    | cons a l ih =>
      simp only [List.map_cons, List.sum_cons]
      refine Nat.add_le_add ?_ ih
      split <;> omega
  simp only [work, discover, hq.cs, List.map_cons, List.sum_cons, List.map_nil, List.sum_nil]
  omega

theorem visitRoot_quiet {adj : String → List String} {nodes : List String} {s : St} {w : String}
    (hcl : ∀ u, ∀ v ∈ adj u, v ∈ nodes) (hq : Quiet adj s) (hw : w ∈ nodes) :
    Quiet adj (visitRoot adj (fuelFor adj nodes) s w) ∧
    (visitRoot adj (fuelFor adj nodes) s w).idx w ≠ 0 ∧
    ∀ x, s.idx x ≠ 0 → (visitRoot adj (fuelFor adj nodes) s w).idx x ≠ 0 := by
  unfold visitRoot
  split
  · next h0 =>
    have hd := discover_core hq.core (w := w) (by intro f hf; simp [hq.cs] at hf) h0
      (by intro f hf; simp [hq.cs] at hf)
    have hr := run_core (fuelFor adj nodes) hd.1 hd.2
    have hdone := run_done hcl (fuelFor adj nodes) hd.1 hd.2 (work_discover_le hq hw h0)
    refine ⟨quiet_of hr.1 hdone, ?_, ?_⟩
    · exact run_idx_mono _ _ _ (by show upd s.idx w (s.cnt + 1) w ≠ 0; simp [upd])
    · intro x hx
      refine run_idx_mono _ _ _ ?_
      show upd s.idx w (s.cnt + 1) x ≠ 0
      unfold upd; split
      · omega
      · exact hx
  · next h0 => exact ⟨hq, h0, fun _ h => h⟩

theorem foldl_quiet {adj : String → List String} {nodes : List String}
    (hcl : ∀ u, ∀ v ∈ adj u, v ∈ nodes) : ∀ (l : List String) (s : St), (∀ x ∈ l, x ∈ nodes) →
    Quiet adj s →
    Quiet adj (l.foldl (visitRoot adj (fuelFor adj nodes)) s) ∧
    (∀ x, x ∈ l ∨ s.idx x ≠ 0 → (l.foldl (visitRoot adj (fuelFor adj nodes)) s).idx x ≠ 0)
  | [], s, _, hq => ⟨hq, fun x h => by simpa using h⟩
  | w :: l, s, hl, hq => by
    obtain ⟨h1, h2, h3⟩ := visitRoot_quiet hcl hq (hl w (by simp))
    obtain ⟨h4, h5⟩ := foldl_quiet hcl l _ (fun x hx => hl x (List.mem_cons_of_mem _ hx)) h1
    refine ⟨h4, ?_⟩
    intro x hx
    refine h5 x ?_
    rcases hx with hx | hx
    · rcases List.mem_cons.mp hx with e | hx
      · subst e; exact .inr h2
      · exact .inl hx
    · exact .inr (h3 x hx)

/-- Every node of the graph is in the list, and only those: no others are visited. -/
theorem step_idx_nodes {adj : String → List String} {nodes : List String} {s : St}
    (hcl : ∀ u, ∀ v ∈ adj u, v ∈ nodes) (h : Core adj s)
    (hn : ∀ x, s.idx x ≠ 0 → x ∈ nodes) : ∀ x, (step adj s).idx x ≠ 0 → x ∈ nodes := by
  unfold step
  split
  · exact hn
  · next v w ws rest hcs =>
    have hw : w ∈ nodes := hcl v w (h.rem_sub (v, w :: ws) (by simp [hcs]) w (by simp))
    split
    · intro x hx
      have hx : upd s.idx w (s.cnt + 1) x ≠ 0 := hx
      unfold upd at hx; split at hx
      · next e => rw [e]; exact hw
      · exact hn x hx
    · split <;> exact hn
  · unfold retire; simp only; split <;> exact hn

theorem run_idx_nodes {adj : String → List String} {nodes : List String}
    (hcl : ∀ u, ∀ v ∈ adj u, v ∈ nodes) : ∀ (n : Nat) {s : St}, Core adj s → GrayAdj adj s [] →
    (∀ x, s.idx x ≠ 0 → x ∈ nodes) → ∀ x, (run adj n s).idx x ≠ 0 → x ∈ nodes
  | 0, _, _, _, hn => hn
  | n + 1, s, h, hg, hn => by
    unfold run
    split
    · exact hn
    · exact run_idx_nodes hcl n (step_core h hg).1 (step_core h hg).2 (step_idx_nodes hcl h hn)

theorem foldl_idx_nodes {adj : String → List String} {nodes : List String}
    (hcl : ∀ u, ∀ v ∈ adj u, v ∈ nodes) : ∀ (l : List String) (s : St), (∀ x ∈ l, x ∈ nodes) →
    Quiet adj s → (∀ x, s.idx x ≠ 0 → x ∈ nodes) →
    ∀ x, (l.foldl (visitRoot adj (fuelFor adj nodes)) s).idx x ≠ 0 → x ∈ nodes
  | [], s, _, _, hn => hn
  | w :: l, s, hl, hq, hn => by
    have hwn := hl w (by simp)
    refine foldl_idx_nodes hcl l _ (fun x hx => hl x (List.mem_cons_of_mem _ hx))
      (visitRoot_quiet hcl hq hwn).1 ?_
    unfold visitRoot
    split
    · next h0 =>
      have hd := discover_core hq.core (w := w) (by intro f hf; simp [hq.cs] at hf) h0
        (by intro f hf; simp [hq.cs] at hf)
      refine run_idx_nodes hcl _ hd.1 hd.2 ?_
      intro x hx
      have hx : upd s.idx w (s.cnt + 1) x ≠ 0 := hx
      unfold upd at hx; split at hx
      · next e => rw [e]; exact hwn
      · exact hn x hx
    · exact hn

/-- What the finished component list satisfies, on any graph closed under calls. -/
theorem components_spec {adj : String → List String} {nodes : List String}
    (hcl : ∀ u, ∀ v ∈ adj u, v ∈ nodes) :
    Good adj (components nodes adj) ∧ (components nodes adj).flatten.Nodup ∧
    ∀ x, x ∈ (components nodes adj).flatten ↔ x ∈ nodes := by
  have hq0 : Quiet adj init := ⟨core_init adj, rfl, rfl⟩
  obtain ⟨hq, hv⟩ := foldl_quiet hcl nodes init (fun _ h => h) hq0
  have hn := foldl_idx_nodes hcl nodes init (fun _ h => h) hq0 (by intro x hx; exact absurd rfl hx)
  refine ⟨hq.core.good, hq.core.nodup, fun x => ⟨fun hx => hn x (hq.core.comp_vis x hx), fun hx => ?_⟩⟩
  rcases hq.core.vis x (hv x (.inl hx)) with h1 | h1
  · rw [hq.stk] at h1; simp at h1
  · exact h1

end Verif.Scc
