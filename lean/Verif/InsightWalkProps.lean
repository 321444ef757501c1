import Verif.InsightModel
/-!
# C40: reachable functions, distances and fan-out of an endpoint
-/

namespace Verif.InsightProps
open Verif.Common Verif.InsightModel

/-! ## Specification -/

/-- `a` calls `b`: builtins, unnamed functions and direct self-calls do not count. -/
def Calls (calls : String → List Call) (a b : String) : Prop := ∃ c ∈ calls a, c.callee = b ∧ c.builtin = false ∧ b ≠ "" ∧ b ≠ a

/-- A chain of `n` calls from `a`. -/
inductive Way (R : String → String → Prop) (a : String) : Nat → String → Prop
  | here : Way R a 0 a
  | step {n : Nat} {b c : String} : Way R a n b → R b c → Way R a (n + 1) c

/-- The shortest chain has `n` calls. -/
def Dist (R : String → String → Prop) (a : String) (n : Nat) (b : String) : Prop := Way R a n b ∧ ∀ m, Way R a m b → n ≤ m

theorem Dist.unique {R : String → String → Prop} {a b : String} {n m : Nat} (h : Dist R a n b) (h' : Dist R a m b) : n = m :=
  Nat.le_antisymm (h.2 _ h'.1) (h'.2 _ h.1)

/-! ## Termination -/

theorem kids_mset (adj : List (String × List String)) (a : String) (l : List String) (x : String) :
    kids (mset adj a l) x = if x = a then l else kids adj x := by
  simp only [kids, mget_mset]; split <;> rfl

/-- Turns that may still come. -/
def left (L : Limits) (s : Walk) : Nat := (L.reachable - s.visited.length) + s.queue.length

theorem recordSite_same (label : String → String) (s : Walk) (a b p : String) :
    (recordSite label s a b p).visited = s.visited ∧ (recordSite label s a b p).queue = s.queue ∧ (recordSite label s a b p).depth = s.depth ∧
    (recordSite label s a b p).adj = s.adj ∧ (recordSite label s a b p).truncated = s.truncated ∧ (recordSite label s a b p).maxDepth = s.maxDepth ∧
    (recordSite label s a b p).fanMax = s.fanMax ∧ (recordSite label s a b p).fanSum = s.fanSum ∧ (recordSite label s a b p).fanCount = s.fanCount := by
  unfold recordSite
  split
  · simp
  · split <;> simp

theorem meet_left (L : Limits) (s : Walk) (id : String) (d : Nat) : left L (meet L s id d) ≤ left L s := by
  unfold meet left
  split
  · omega
  · split
    · simp only [List.length_append, List.length_cons, List.length_nil]; omega
    · simp only [List.length_cons]; omega

theorem left_congr {L : Limits} {s t : Walk} (h1 : s.visited = t.visited) (h2 : s.queue = t.queue) : left L s = left L t := by
  simp only [left, h1, h2]

theorem addCall_left (L : Limits) (label : String → String) (cur : String) (d : Nat) (s : Walk × List String) (c : Call) :
    left L (addCall L label cur d s c).1 ≤ left L s.1 := by
  simp only [addCall]
  have hr := recordSite_same label s.1 c.callee cur c.pos
  split
  · omega
  · split
    · exact Nat.le_of_eq (left_congr hr.1 hr.2.1)
    · refine Nat.le_trans (meet_left ..) (Nat.le_of_eq (left_congr ?_ ?_))
      · exact hr.1
      · exact hr.2.1

theorem fold_left {α : Type} {L : Limits} {f : Walk × List String → α → Walk × List String} (hf : ∀ s c, left L (f s c).1 ≤ left L s.1) :
    ∀ (l : List α) (s : Walk × List String), left L (l.foldl f s).1 ≤ left L s.1 := by
  intro l
  induction l with
  | nil => intro s; exact Nat.le_refl _
  | cons c l ih => intro s; exact Nat.le_trans (ih (f s c)) (hf s c)

theorem countFan_same (w : Walk) (n : Nat) : (countFan w n).visited = w.visited ∧ (countFan w n).queue = w.queue ∧ (countFan w n).depth = w.depth ∧
    (countFan w n).adj = w.adj ∧ (countFan w n).truncated = w.truncated ∧ (countFan w n).maxDepth = w.maxDepth ∧ (countFan w n).sites = w.sites := by
  unfold countFan; split <;> simp

theorem expand_left (L : Limits) (label : String → String) (calls : String → List Call) (s : Walk) (cur : String) :
    left L (expand L label calls s cur) ≤ left L s := by
  simp only [expand]
  split
  · exact Nat.le_refl _
  · rw [left_congr (countFan_same _ _).1 (countFan_same _ _).2.1]
    exact fold_left (addCall_left L label cur _) _ (s, [])

theorem loop_ends {L : Limits} {step : Walk → String → Walk} (hs : ∀ s cur, left L (step s cur) ≤ left L s) :
    ∀ (fuel : Nat) (s : Walk), left L s ≤ fuel → ∃ w, loop step fuel s = some w := by
  intro fuel
  induction fuel with
  | zero =>
    intro s h
    have : s.queue = [] := List.length_eq_zero_iff.1 (by unfold left at h; omega)
    exact ⟨s, by simp only [loop, this]⟩
  | succ fuel ih =>
    intro s h
    cases hq : s.queue with
    | nil => exact ⟨s, by simp only [loop, hq]⟩
    | cons cur q =>
      simp only [loop, hq]
      refine ih _ (Nat.le_trans (hs _ _) ?_)
      unfold left at h ⊢
      rw [hq] at h
      simp only [List.length_cons] at h
      simp only
      omega

theorem start_left (L : Limits) (root : String) : left L (start root) ≤ L.reachable + 1 := by
  simp only [left, start, List.length_cons, List.length_nil]; omega

theorem loop_inv {step : Walk → String → Walk} {P : Walk → Prop} (hs : ∀ s cur q, s.queue = cur :: q → P s → P (step { s with queue := q } cur)) :
    ∀ (fuel : Nat) (s w : Walk), P s → loop step fuel s = some w → P w ∧ w.queue = [] := by
  intro fuel
  induction fuel with
  | zero =>
    intro s w h hl
    simp only [loop] at hl
    split at hl
    · next hq => cases hl; exact ⟨h, hq⟩
    · cases hl
  | succ fuel ih =>
    intro s w h hl
    simp only [loop] at hl
    split at hl
    · next hq => cases hl; exact ⟨h, hq⟩
    · next cur q hq => exact ih _ w (hs s cur q hq h) hl

/-! ## The walk -/

structure WalkInv (L : Limits) (calls : String → List Call) (root : String) (s : Walk) : Prop where
  rootDepth : mget s.depth root = some 0
  known : ∀ x d, mget s.depth x = some d → x ∈ s.visited ∧ Dist (Calls calls) root d x
  met : s.truncated = false → ∀ x ∈ s.visited, (mget s.depth x).isSome
  reach : ∀ x ∈ s.visited, ∃ n, Way (Calls calls) root n x
  once : s.visited.Nodup
  queued : ∀ x ∈ s.queue, (mget s.depth x).isSome ∧ kids s.adj x = []
  queueOnce : s.queue.Nodup
  sorted : s.queue.Pairwise fun x y => ∀ d e, mget s.depth x = some d → mget s.depth y = some e → d ≤ e
  near : ∀ x ∈ s.queue, ∀ d, mget s.depth x = some d → ∀ y e, mget s.depth y = some e → e ≤ d + 1
  closed : s.truncated = false → ∀ x d, mget s.depth x = some d → x ∉ s.queue → ∀ y, Calls calls x y → ∃ e, mget s.depth y = some e ∧ e ≤ d + 1
  stuck : s.truncated = true → L.reachable ≤ s.visited.length ∨ ∀ x ∈ s.queue, ∀ d, mget s.depth x = some d → L.depth ≤ d
  deepest : (∀ x d, mget s.depth x = some d → d ≤ s.maxDepth) ∧ ∃ x, mget s.depth x = some s.maxDepth
  edges : ∀ x, (kids s.adj x).Nodup ∧ ∀ y ∈ kids s.adj x, Calls calls x y
  edgeKeys : ∀ x, kids s.adj x ≠ [] → (mget s.depth x).isSome
  allEdges : s.truncated = false → ∀ x, (mget s.depth x).isSome → x ∉ s.queue → ∀ y, Calls calls x y → y ∈ kids s.adj x
  fan : (∀ x, (kids s.adj x).length ≤ s.fanMax) ∧ (s.fanMax = 0 ∨ ∃ x, (kids s.adj x).length = s.fanMax)

/-- What one function's calls do. -/
structure FoldInv (L : Limits) (calls : String → List Call) (cur : String) (d : Nat) (s : Walk) (done : List Call) (w : Walk) (seen : List String) : Prop where
  keep : ∀ x e, mget s.depth x = some e → mget w.depth x = some e
  fresh : ∀ x e, mget w.depth x = some e → mget s.depth x = some e ∨ (e = d + 1 ∧ x ∉ s.visited ∧ x ∈ w.queue ∧ L.reachable > s.visited.length)
  queue : ∃ new, w.queue = s.queue ++ new ∧ new.Nodup ∧ ∀ x ∈ new, x ∉ s.visited ∧ mget w.depth x = some (d + 1)
  visited : ∀ x, x ∈ w.visited ↔ x ∈ s.visited ∨ ∃ c ∈ done, c.callee = x ∧ c.builtin = false ∧ x ≠ "" ∧ x ≠ cur
  once : w.visited.Nodup
  met : w.truncated = false → ∀ x ∈ w.visited, (mget w.depth x).isSome
  dv : ∀ x, (mget w.depth x).isSome → x ∈ w.visited
  cut : w.truncated = true → s.truncated = true ∨ L.reachable ≤ w.visited.length
  stay : s.truncated = true → w.truncated = true
  grow : s.visited.length ≤ w.visited.length
  kidsCur : ∀ y, y ∈ kids w.adj cur ↔ ∃ c ∈ done, c.callee = y ∧ c.builtin = false ∧ y ≠ "" ∧ y ≠ cur
  seenCur : ∀ y, y ∈ seen ↔ y ∈ kids w.adj cur
  kidsOnce : (kids w.adj cur).Nodup
  kidsOther : ∀ x, x ≠ cur → kids w.adj x = kids s.adj x
  deepest : (∀ x e, mget w.depth x = some e → e ≤ w.maxDepth) ∧ ∃ x, mget w.depth x = some w.maxDepth
  fan : w.fanMax = s.fanMax

theorem valid_split {c : Call} {cur : String} (h : ¬ (c.builtin || decide (c.callee = "") || decide (c.callee = cur)) = true) :
    c.builtin = false ∧ c.callee ≠ "" ∧ c.callee ≠ cur := by
  simp only [Bool.or_eq_true, decide_eq_true_eq, not_or] at h
  exact ⟨by simpa using h.1.1, h.1.2, h.2⟩

theorem foldInv_step {L : Limits} {label : String → String} {calls : String → List Call} {cur : String} {d : Nat} {s w : Walk} {done : List Call} {seen : List String} (c : Call)
    (h : FoldInv L calls cur d s done w seen) :
    FoldInv L calls cur d s (done ++ [c]) (addCall L label cur d (w, seen) c).1 (addCall L label cur d (w, seen) c).2 := by
  simp only [addCall]
  split
  · next hb =>
    have none' : ∀ x, (∃ c' ∈ done ++ [c], c'.callee = x ∧ c'.builtin = false ∧ x ≠ "" ∧ x ≠ cur) ↔ ∃ c' ∈ done, c'.callee = x ∧ c'.builtin = false ∧ x ≠ "" ∧ x ≠ cur := by
      intro x
      constructor
      · rintro ⟨c', hc', h1, h2, h3, h4⟩
        rcases List.mem_append.1 hc' with hc' | hc'
        · exact ⟨c', hc', h1, h2, h3, h4⟩
        · rw [List.mem_singleton] at hc'; subst hc'; subst h1
          simp [h2, h3, h4] at hb
      · rintro ⟨c', hc', h⟩; exact ⟨c', List.mem_append_left _ hc', h⟩
    exact { h with visited := fun x => by rw [none', h.visited], kidsCur := fun y => by rw [none', h.kidsCur] }
  · next hb =>
    obtain ⟨b1, b2, b3⟩ := valid_split hb
    obtain ⟨r1, r2, r3, r4, r5, r6, r7, r8, r9⟩ := recordSite_same label w c.callee cur c.pos
    have more : ∀ x, (∃ c' ∈ done ++ [c], c'.callee = x ∧ c'.builtin = false ∧ x ≠ "" ∧ x ≠ cur) ↔
        (∃ c' ∈ done, c'.callee = x ∧ c'.builtin = false ∧ x ≠ "" ∧ x ≠ cur) ∨ x = c.callee := by
      intro x
      constructor
      · rintro ⟨c', hc', h1, h2, h3, h4⟩
        rcases List.mem_append.1 hc' with hc' | hc'
        · exact .inl ⟨c', hc', h1, h2, h3, h4⟩
        · rw [List.mem_singleton] at hc'; subst hc'; exact .inr h1.symm
      · rintro (⟨c', hc', h⟩ | rfl)
        · exact ⟨c', List.mem_append_left _ hc', h⟩
        · exact ⟨c, by simp, rfl, b1, b2, b3⟩
    generalize recordSite label w c.callee cur c.pos = u at r1 r2 r3 r4 r5 r6 r7 r8 r9
    split
    · next hs =>
      have hin : c.callee ∈ kids w.adj cur := (h.seenCur _).1 (by simpa using hs)
      have hdone := (h.kidsCur _).1 hin
      refine ⟨by rw [r3]; exact h.keep, by rw [r3, r2]; exact h.fresh, by rw [r2, r3]; exact h.queue, ?_, by rw [r1]; exact h.once, by rw [r1, r3, r5]; exact h.met,
        by rw [r1, r3]; exact h.dv, by rw [r1, r5]; exact h.cut, by rw [r5]; exact h.stay, by rw [r1]; exact h.grow, ?_, by rw [r4]; exact h.seenCur, by rw [r4]; exact h.kidsOnce,
        by rw [r4]; exact h.kidsOther, by rw [r3, r6]; exact h.deepest, by rw [r7]; exact h.fan⟩
      · intro x; rw [r1, more, h.visited]
        constructor
        · rintro (h | h)
          · exact .inl h
          · exact .inr (.inl h)
        · rintro (h | h | rfl)
          · exact .inl h
          · exact .inr h
          · exact .inr hdone
      · intro y; rw [r4, more, h.kidsCur]
        constructor
        · exact .inl
        · rintro (h | rfl)
          · exact h
          · exact hdone
    · next hs =>
      have hnot : c.callee ∉ kids w.adj cur := fun hin => hs (by simpa using (h.seenCur _).2 hin)
      -- the new edge
      have kc : ∀ x, kids (mset u.adj cur (kids u.adj cur ++ [c.callee])) x = if x = cur then kids w.adj cur ++ [c.callee] else kids w.adj x := by
        intro x; rw [kids_mset, r4]
      have e1 : ∀ y, y ∈ kids (mset u.adj cur (kids u.adj cur ++ [c.callee])) cur ↔ ∃ c' ∈ done ++ [c], c'.callee = y ∧ c'.builtin = false ∧ y ≠ "" ∧ y ≠ cur := by
        intro y
        rw [kc, if_pos rfl, List.mem_append, List.mem_singleton, more, h.kidsCur]
      have e2 : ∀ y, y ∈ c.callee :: seen ↔ y ∈ kids (mset u.adj cur (kids u.adj cur ++ [c.callee])) cur := by
        intro y
        rw [kc, if_pos rfl, List.mem_append, List.mem_singleton, List.mem_cons, h.seenCur, or_comm]
      have e3 : (kids (mset u.adj cur (kids u.adj cur ++ [c.callee])) cur).Nodup := by
        rw [kc, if_pos rfl, List.nodup_append]
        refine ⟨h.kidsOnce, by simp, ?_⟩
        intro a ha b hb e
        rw [List.mem_singleton] at hb; subst hb; subst e; exact hnot ha
      have e4 : ∀ x, x ≠ cur → kids (mset u.adj cur (kids u.adj cur ++ [c.callee])) x = kids s.adj x := by
        intro x hx; rw [kc, if_neg hx]; exact h.kidsOther x hx
      simp only [meet]
      split
      · next hv =>
        rw [r1] at hv
        have hv : c.callee ∈ w.visited := by simpa using hv
        refine ⟨by simp only [r3]; exact h.keep, by simp only [r3, r2]; exact h.fresh, by simp only [r2, r3]; exact h.queue, ?_, by simp only [r1]; exact h.once, by simp only [r1, r3, r5]; exact h.met,
          by simp only [r1, r3]; exact h.dv, by simp only [r1, r5]; exact h.cut, by simp only [r5]; exact h.stay, by simp only [r1]; exact h.grow, e1, e2, e3, e4,
          by simp only [r3, r6]; exact h.deepest, by simp only [r7]; exact h.fan⟩
        intro x
        simp only [r1]
        rw [more, h.visited]
        constructor
        · rintro (h | h)
          · exact .inl h
          · exact .inr (.inl h)
        · rintro (h' | h' | rfl)
          · exact .inl h'
          · exact .inr h'
          · exact (h.visited _).1 hv
      · next hv =>
        rw [r1] at hv
        have hv : c.callee ∉ w.visited := by simpa using hv
        have hvs : c.callee ∉ s.visited := fun hin => hv ((h.visited _).2 (.inl hin))
        have hd : mget w.depth c.callee = none := by
          cases he : mget w.depth c.callee with
          | none => rfl
          | some e => exact absurd (h.dv _ (by rw [he]; rfl)) hv
        have vis : ∀ x, x ∈ c.callee :: u.visited ↔ x ∈ s.visited ∨ ∃ c' ∈ done ++ [c], c'.callee = x ∧ c'.builtin = false ∧ x ≠ "" ∧ x ≠ cur := by
          intro x
          rw [more, List.mem_cons, r1, h.visited]
          constructor
          · rintro (h | h | h)
            · exact .inr (.inr h)
            · exact .inl h
            · exact .inr (.inl h)
          · rintro (h | h | h)
            · exact .inr (.inl h)
            · exact .inr (.inr h)
            · exact .inl h
        have vonce : (c.callee :: u.visited).Nodup := by rw [r1]; exact List.nodup_cons.2 ⟨hv, h.once⟩
        have vgrow : s.visited.length ≤ (c.callee :: u.visited).length := by
          rw [r1, List.length_cons]; exact Nat.le_succ_of_le h.grow
        split
        · next hroom =>
          simp only [r1] at hroom
          have hg := h.grow
          refine ⟨?_, ?_, ?_, vis, vonce, ?_, ?_, ?_, by simp only [r5]; exact h.stay, vgrow, e1, e2, e3, e4, ?_, by simp only [r7]; exact h.fan⟩
          · intro x e hx
            have := h.keep x e hx
            simp only [r3, mget_mset]
            split
            · next hxc => subst hxc; rw [hd] at this; cases this
            · exact this
          · intro x e hx
            simp only [r3, mget_mset] at hx
            simp only [r2]
            split at hx
            · next hxc => cases hx; exact .inr ⟨rfl, by rw [hxc]; exact hvs, by rw [hxc]; simp, by omega⟩
            · rcases h.fresh x e hx with h' | ⟨h1, h2, h3, h4⟩
              · exact .inl h'
              · exact .inr ⟨h1, h2, List.mem_append_left _ h3, h4⟩
          · obtain ⟨new, q1, q2, q3⟩ := h.queue
            refine ⟨new ++ [c.callee], by simp only [r2, q1, List.append_assoc], ?_, ?_⟩
            · rw [List.nodup_append]
              refine ⟨q2, by simp, ?_⟩
              intro a ha b hb e
              rw [List.mem_singleton] at hb; subst hb; subst e
              have := (q3 _ ha).2
              rw [hd] at this; cases this
            · intro x hx
              simp only [r3, mget_mset]
              rcases List.mem_append.1 hx with hx | hx
              · obtain ⟨a1, a2⟩ := q3 x hx
                refine ⟨a1, ?_⟩
                split
                · rfl
                · exact a2
              · rw [List.mem_singleton] at hx; subst hx
                exact ⟨hvs, by rw [if_pos rfl]⟩
          · intro ht x hx
            simp only [r5] at ht
            simp only [r3, mget_mset]
            split
            · rfl
            · next hne =>
              rcases List.mem_cons.1 hx with hx | hx
              · exact absurd hx hne
              · rw [r1] at hx; exact h.met ht x hx
          · intro x hx
            simp only [r3, mget_mset] at hx
            split at hx
            · next e => rw [e]; exact List.mem_cons_self ..
            · refine List.mem_cons_of_mem _ ?_
              rw [r1]; exact h.dv x hx
          · intro ht
            simp only [r5] at ht
            rcases h.cut ht with h' | h'
            · exact .inl h'
            · simp only [r1, List.length_cons]; exact .inr (Nat.le_succ_of_le h')
          · obtain ⟨m1, y, m2⟩ := h.deepest
            simp only [r3, r6]
            constructor
            · intro x e hx
              rw [mget_mset] at hx
              split at hx
              · cases hx; split <;> omega
              · have := m1 x e hx; split <;> omega
            · by_cases hm : w.maxDepth < d + 1
              · rw [if_pos hm]; exact ⟨c.callee, by simp⟩
              · rw [if_neg hm]
                refine ⟨y, ?_⟩
                rw [mget_mset]
                split
                · next e => subst e; rw [hd] at m2; cases m2
                · exact m2
        · next hroom =>
          simp only [r1] at hroom
          refine ⟨by simp only [r3]; exact h.keep, by simp only [r3, r2]; exact h.fresh, by simp only [r2, r3]; exact h.queue, vis, vonce, (by intro h; cases h), ?_, ?_, (by intro _; rfl), vgrow, e1, e2, e3, e4,
            by simp only [r3, r6]; exact h.deepest, by simp only [r7]; exact h.fan⟩
          · intro x hx
            simp only [r3] at hx
            refine List.mem_cons_of_mem _ ?_
            rw [r1]; exact h.dv x hx
          · intro _
            simp only [r1, List.length_cons]
            exact .inr (by omega)

theorem foldInv_all {L : Limits} {label : String → String} {calls : String → List Call} {cur : String} {d : Nat} {s : Walk} :
    ∀ (todo done : List Call) (w : Walk) (seen : List String), FoldInv L calls cur d s done w seen →
      FoldInv L calls cur d s (done ++ todo) (todo.foldl (addCall L label cur d) (w, seen)).1 (todo.foldl (addCall L label cur d) (w, seen)).2 := by
  intro todo
  induction todo with
  | nil => intro done w seen h; simpa using h
  | cons c todo ih =>
    intro done w seen h
    have := ih (done ++ [c]) _ _ (foldInv_step (label := label) c h)
    rw [List.append_assoc] at this
    exact this

theorem bfs_complete {L : Limits} {calls : String → List Call} {root cur : String} {q : List String} {s : Walk} (h : WalkInv L calls root s) (hq : s.queue = cur :: q)
    {d : Nat} (hd : mget s.depth cur = some d) (ht : s.truncated = false) : ∀ m x, Way (Calls calls) root m x → m ≤ d → ∃ e, mget s.depth x = some e ∧ e ≤ m := by
  intro m
  induction m with
  | zero => intro x hx _; cases hx; exact ⟨0, h.rootDepth, Nat.le_refl _⟩
  | succ m ih =>
    intro x hx hm
    cases hx with
    | step hw hc =>
      obtain ⟨e, he, hem⟩ := ih _ hw (by omega)
      obtain ⟨e', he', hle⟩ := h.closed ht _ e he (by
        rw [hq, List.mem_cons]
        have hs := h.sorted
        rw [hq, List.pairwise_cons] at hs
        rintro (rfl | hin)
        · rw [hd] at he; cases he; omega
        · have := hs.1 _ hin d e hd he; omega) x hc
      exact ⟨e', he', by omega⟩

theorem countFan_max (w : Walk) (n : Nat) : (countFan w n).fanMax = max w.fanMax n := by
  unfold countFan
  split
  · simp only; split <;> omega
  · omega

theorem walkInv_step {L : Limits} {label : String → String} {calls : String → List Call} {root : String} (s : Walk) (cur : String) (q : List String)
    (hq : s.queue = cur :: q) (h : WalkInv L calls root s) : WalkInv L calls root (expand L label calls { s with queue := q } cur) := by
  have hcq : cur ∈ s.queue := by rw [hq]; simp
  obtain ⟨hds, hk0⟩ := h.queued cur hcq
  obtain ⟨d, hd⟩ := Option.isSome_iff_exists.1 hds
  have hsub : ∀ x ∈ q, x ∈ s.queue := fun x hx => by rw [hq]; exact List.mem_cons_of_mem _ hx
  have hsort := h.sorted
  rw [hq, List.pairwise_cons] at hsort
  have hqo := h.queueOnce
  rw [hq, List.nodup_cons] at hqo
  have hge : ∀ x ∈ q, ∀ e, mget s.depth x = some e → d ≤ e := fun x hx e he => hsort.1 x hx d e hd he
  simp only [expand, hd, Option.getD_some]
  split
  · next hdeep =>
    refine ⟨h.rootDepth, h.known, (by intro h; cases h), h.reach, h.once, fun x hx => h.queued x (hsub x hx), hqo.2, hsort.2, fun x hx => h.near x (hsub x hx), (by intro h; cases h), ?_, h.deepest,
      h.edges, h.edgeKeys, (by intro h; cases h), h.fan⟩
    · intro _
      exact .inr fun x hx e he => Nat.le_trans hdeep (hge x hx e he)
  · next hshallow =>
    have h0 : FoldInv L calls cur d { s with queue := q } [] { s with queue := q } [] := by
      refine ⟨fun _ _ h => h, fun _ _ h => .inl h, ⟨[], by simp, by simp, by simp⟩, by simp, h.once, h.met, ?_, fun h => .inl h, fun h => h, Nat.le_refl _, by simp [hk0], by simp [hk0], by simp [hk0], fun _ _ => rfl, h.deepest, rfl⟩
      intro x hx
      obtain ⟨e, he⟩ := Option.isSome_iff_exists.1 hx
      exact (h.known x e he).1
    have hf := foldInv_all (label := label) (calls cur) [] { s with queue := q } [] h0
    rw [List.nil_append] at hf
    generalize ((calls cur).foldl (addCall L label cur d) ({ s with queue := q }, [])).2 = seen at hf
    generalize ((calls cur).foldl (addCall L label cur d) ({ s with queue := q }, [])).1 = w at hf
    have hcalls : ∀ y, (∃ c ∈ calls cur, c.callee = y ∧ c.builtin = false ∧ y ≠ "" ∧ y ≠ cur) ↔ Calls calls cur y := fun y => Iff.rfl
    have nottrunc : L.reachable > s.visited.length → s.truncated = false := by
      intro hr
      cases ht : s.truncated with
      | false => rfl
      | true =>
        rcases h.stuck ht with h' | h'
        · omega
        · exact absurd (h' cur hcq d hd) hshallow
    have wayCur := (h.known cur d hd).2.1
    -- the depth of a function met now
    have newDist : ∀ x, x ∉ s.visited → Calls calls cur x → s.truncated = false → Dist (Calls calls) root (d + 1) x := by
      intro x hx hc ht
      refine ⟨.step wayCur hc, fun m hm => ?_⟩
      by_cases hmd : m ≤ d
      · obtain ⟨e, he, _⟩ := bfs_complete h hq hd ht m x hm hmd
        exact absurd (h.known x e he).1 hx
      · omega
    have fresh' : ∀ x e, mget w.depth x = some e → mget s.depth x = some e ∨ (e = d + 1 ∧ x ∉ s.visited ∧ x ∈ w.queue ∧ s.truncated = false ∧ Calls calls cur x) := by
      intro x e hx
      rcases hf.fresh x e hx with h' | ⟨h1, h2, h3, h4⟩
      · exact .inl h'
      · refine .inr ⟨h1, h2, h3, nottrunc h4, ?_⟩
        rcases (hf.visited x).1 (hf.dv x (by rw [hx]; rfl)) with h' | h'
        · exact absurd h' h2
        · exact h'
    obtain ⟨new, hqn, hnewOnce, hnew⟩ := hf.queue
    simp only at hqn
    obtain ⟨c1, c2, c3, c4, c5, c6, c7⟩ := countFan_same w (kids w.adj cur).length
    have hmax := countFan_max w (kids w.adj cur).length
    generalize countFan w (kids w.adj cur).length = v at c1 c2 c3 c4 c5 c6 c7 hmax
    have dle : ∀ x e, mget w.depth x = some e → e ≤ d + 1 := by
      intro x e hx
      rcases fresh' x e hx with h' | h'
      · exact h.near cur hcq d hd x e h'
      · omega
    have dge : ∀ x ∈ w.queue, ∀ e, mget w.depth x = some e → d ≤ e := by
      intro x hx e he
      rw [hqn] at hx
      rcases List.mem_append.1 hx with hx | hx
      · obtain ⟨e', he'⟩ := Option.isSome_iff_exists.1 (h.queued x (hsub x hx)).1
        have := hf.keep x e' he'
        rw [this] at he; cases he
        exact hge x hx _ he'
      · rw [(hnew x hx).2] at he; cases he; omega
    refine ⟨?_, ?_, ?_, ?_, ?_, ?_, ?_, ?_, ?_, ?_, ?_, ?_, ?_, ?_, ?_, ?_⟩
    · rw [c3]; exact hf.keep _ _ h.rootDepth
    · rw [c3, c1]
      intro x e hx
      refine ⟨hf.dv x (by rw [hx]; rfl), ?_⟩
      rcases fresh' x e hx with h' | ⟨rfl, h2, _, h4, h5⟩
      · exact (h.known x e h').2
      · exact newDist x h2 h5 h4
    · rw [c5, c1, c3]; exact hf.met
    · rw [c1]
      intro x hx
      rcases (hf.visited x).1 hx with h' | h'
      · exact h.reach x h'
      · exact ⟨d + 1, .step wayCur h'⟩
    · rw [c1]; exact hf.once
    · rw [c2, c3, c4]
      intro x hx
      rw [hqn] at hx
      rcases List.mem_append.1 hx with hx | hx
      · obtain ⟨a1, a2⟩ := h.queued x (hsub x hx)
        obtain ⟨e, he⟩ := Option.isSome_iff_exists.1 a1
        refine ⟨by rw [hf.keep x e he]; rfl, ?_⟩
        rw [hf.kidsOther x (by intro e; subst e; exact hqo.1 hx)]; exact a2
      · obtain ⟨a1, a2⟩ := hnew x hx
        refine ⟨by rw [a2]; rfl, ?_⟩
        have hxc : x ≠ cur := by intro e; subst e; exact a1 (h.known x d hd).1
        rw [hf.kidsOther x hxc]
        cases hk : kids s.adj x with
        | nil => rfl
        | cons y ys =>
          obtain ⟨e, he⟩ := Option.isSome_iff_exists.1 (h.edgeKeys x (by rw [hk]; simp))
          exact absurd (h.known x e he).1 a1
    · rw [c2, hqn, List.nodup_append]
      refine ⟨hqo.2, hnewOnce, ?_⟩
      intro a ha b hb e
      subst e
      obtain ⟨e, he⟩ := Option.isSome_iff_exists.1 (h.queued a (hsub a ha)).1
      exact (hnew a hb).1 (h.known a e he).1
    · rw [c2, c3, hqn, List.pairwise_append]
      refine ⟨?_, ?_, ?_⟩
      · refine hsort.2.imp_of_mem ?_
        intro a b ha hb hab x y hx hy
        obtain ⟨e, he⟩ := Option.isSome_iff_exists.1 (h.queued a (hsub a ha)).1
        obtain ⟨f, hf'⟩ := Option.isSome_iff_exists.1 (h.queued b (hsub b hb)).1
        rw [hf.keep a e he] at hx; rw [hf.keep b f hf'] at hy
        cases hx; cases hy
        exact hab _ _ he hf'
      · exact List.pairwise_of_forall_mem_list fun a ha b hb x y hx hy => by
          rw [(hnew a ha).2] at hx; rw [(hnew b hb).2] at hy; cases hx; cases hy; exact Nat.le_refl _
      · intro a ha b hb x y hx hy
        rw [(hnew b hb).2] at hy; cases hy
        exact dle a x hx
    · rw [c2, c3]
      intro x hx e he y f hy
      have := dge x hx e he
      have := dle y f hy
      omega
    · rw [c5, c3, c2]
      intro ht x e hx hnq y hy
      have hst : s.truncated = false := by
        cases hs : s.truncated with
        | false => rfl
        | true => have := hf.stay hs; rw [ht] at this; cases this
      by_cases hxc : x = cur
      · subst hxc
        have hyv : y ∈ w.visited := (hf.visited y).2 (.inr hy)
        obtain ⟨f, hf'⟩ := Option.isSome_iff_exists.1 (hf.met ht y hyv)
        have he : e = d := by have := hf.keep x d hd; rw [this] at hx; cases hx; rfl
        exact ⟨f, hf', by rw [he]; exact dle y f hf'⟩
      · rcases fresh' x e hx with h' | ⟨_, _, h3, _⟩
        · have hnq' : x ∉ s.queue := by
            rw [hq, List.mem_cons, not_or]
            exact ⟨hxc, fun hin => hnq (by rw [hqn]; exact List.mem_append_left _ hin)⟩
          obtain ⟨f, hf', hle⟩ := h.closed hst x e h' hnq' y hy
          exact ⟨f, hf.keep y f hf', hle⟩
        · exact absurd h3 hnq
    · rw [c5, c1, c2, c3]
      intro ht
      rcases hf.cut ht with h' | h'
      · rcases h.stuck h' with h' | h'
        · exact .inl (Nat.le_trans h' hf.grow)
        · exact absurd (h' cur hcq d hd) hshallow
      · exact .inl h'
    · rw [c3, c6]; exact hf.deepest
    · rw [c4]
      intro x
      by_cases hxc : x = cur
      · subst hxc; exact ⟨hf.kidsOnce, fun y hy => (hf.kidsCur y).1 hy⟩
      · rw [hf.kidsOther x hxc]; exact h.edges x
    · rw [c4, c3]
      intro x hx
      by_cases hxc : x = cur
      · subst hxc; rw [hf.keep x d hd]; rfl
      · rw [hf.kidsOther x hxc] at hx
        obtain ⟨e, he⟩ := Option.isSome_iff_exists.1 (h.edgeKeys x hx)
        rw [hf.keep x e he]; rfl
    · rw [c5, c3, c2, c4]
      intro ht x hx hnq y hy
      have hst : s.truncated = false := by
        cases hs : s.truncated with
        | false => rfl
        | true => have := hf.stay hs; rw [ht] at this; cases this
      by_cases hxc : x = cur
      · subst hxc; exact (hf.kidsCur y).2 hy
      · rw [hf.kidsOther x hxc]
        obtain ⟨e, he⟩ := Option.isSome_iff_exists.1 hx
        rcases fresh' x e he with h' | ⟨_, _, h3, _⟩
        · refine h.allEdges hst x (by rw [h']; rfl) ?_ y hy
          rw [hq, List.mem_cons, not_or]
          exact ⟨hxc, fun hin => hnq (by rw [hqn]; exact List.mem_append_left _ hin)⟩
        · exact absurd h3 hnq
    · rw [c4, hmax, hf.fan]
      obtain ⟨f1, f2⟩ := h.fan
      have ko : ∀ x, x ≠ cur → kids w.adj x = kids s.adj x := hf.kidsOther
      simp only
      have f0 : (kids s.adj cur).length = 0 := by rw [hk0]; rfl
      constructor
      · intro x
        by_cases hxc : x = cur
        · subst hxc; omega
        · rw [ko x hxc]; have := f1 x; omega
      · by_cases hm : s.fanMax ≤ (kids w.adj cur).length
        · exact .inr ⟨cur, by omega⟩
        · rcases f2 with f2 | ⟨x, f2⟩
          · omega
          · refine .inr ⟨x, ?_⟩
            have hxc : x ≠ cur := by intro e; subst e; omega
            rw [ko x hxc]; omega

theorem walkInv_start (L : Limits) (calls : String → List Call) (root : String) : WalkInv L calls root (start root) := by
  have key : ∀ x d, mget (start root).depth x = some d → x = root ∧ d = 0 := by
    intro x d hx
    simp only [start, mget_cons, mget_nil] at hx
    split at hx
    · next e => cases hx; exact ⟨by simpa using e.symm, rfl⟩
    · cases hx
  have hr : mget (start root).depth root = some 0 := by simp [start, mget_cons]
  refine ⟨hr, ?_, ?_, ?_, by simp [start], ?_, by simp [start], by simp [start], ?_, ?_, (by intro h; cases h), ?_, ?_, ?_, ?_, ?_⟩
  · intro x d hx
    obtain ⟨rfl, rfl⟩ := key x d hx
    exact ⟨by simp [start], .here, fun m _ => Nat.zero_le m⟩
  · intro _ x hx
    simp only [start, List.mem_singleton] at hx
    subst hx; rw [hr]; rfl
  · intro x hx
    simp only [start, List.mem_singleton] at hx
    subst hx; exact ⟨0, .here⟩
  · intro x hx
    simp only [start, List.mem_singleton] at hx
    subst hx; exact ⟨by rw [hr]; rfl, rfl⟩
  · intro x _ d hx y e hy
    have := (key y e hy).2; omega
  · intro _ x d hx hnq
    obtain ⟨rfl, rfl⟩ := key x d hx
    exact absurd (by simp [start]) hnq
  · exact ⟨fun x d hx => by rw [(key x d hx).2]; exact Nat.zero_le _, root, hr⟩
  · intro x; exact ⟨by simp [start, kids], by simp [start, kids]⟩
  · intro x hx; exact absurd rfl hx
  · intro _ x hx hnq
    obtain ⟨d, hd⟩ := Option.isSome_iff_exists.1 hx
    obtain ⟨rfl, rfl⟩ := key x d hd
    exact absurd (by simp [start]) hnq
  · exact ⟨fun x => Nat.zero_le _, .inl rfl⟩

theorem analyze_inv (L : Limits) (label : String → String) (calls : String → List Call) (root : String) :
    ∃ w, analyze L label calls root = some w ∧ WalkInv L calls root w ∧ w.queue = [] := by
  obtain ⟨w, hw⟩ := loop_ends (expand_left L label calls) (L.reachable + 1) (start root) (start_left L root)
  exact ⟨w, hw, loop_inv (walkInv_step (label := label)) _ _ _ (walkInv_start L calls root) hw⟩

/-- **C40** The walk ends for every program, recursive or not.  Every depth it gives is the length of a shortest chain of
calls from the handler, also when it was cut short; the largest is the reported depth. -/
theorem C40_depth (L : Limits) (label : String → String) (calls : String → List Call) (root : String) :
    ∃ w, analyze L label calls root = some w ∧ (∀ x d, mget w.depth x = some d → Dist (Calls calls) root d x) ∧
      (∀ x d, mget w.depth x = some d → d ≤ w.maxDepth) ∧ ∃ x, Dist (Calls calls) root w.maxDepth x := by
  obtain ⟨w, hw, h, _⟩ := analyze_inv L label calls root
  refine ⟨w, hw, fun x d hx => (h.known x d hx).2, h.deepest.1, ?_⟩
  obtain ⟨x, hx⟩ := h.deepest.2
  exact ⟨x, (h.known x _ hx).2⟩

/-- **C40** If the walk is not reported as cut, it met exactly the functions the handler can reach, each once, knows the
distance of each, and for each of them lists exactly the functions it calls, each once. -/
theorem C40_complete (L : Limits) (label : String → String) (calls : String → List Call) (root : String) (w : Walk) (hw : analyze L label calls root = some w)
    (ht : w.truncated = false) :
    w.visited.Nodup ∧ (∀ x, x ∈ w.visited ↔ ∃ n, Way (Calls calls) root n x) ∧ (∀ x d, Dist (Calls calls) root d x → mget w.depth x = some d) ∧
      ∀ x ∈ w.visited, (kids w.adj x).Nodup ∧ ∀ y, y ∈ kids w.adj x ↔ Calls calls x y := by
  obtain ⟨w', hw', h, hq⟩ := analyze_inv L label calls root
  rw [hw] at hw'; cases hw'
  have hnq : ∀ x, x ∉ w.queue := fun x hx => by rw [hq] at hx; cases hx
  have all : ∀ n x, Way (Calls calls) root n x → (mget w.depth x).isSome := by
    intro n
    induction n with
    | zero => intro x hx; cases hx; rw [h.rootDepth]; rfl
    | succ n ih =>
      intro x hx
      cases hx with
      | step hb hc =>
        obtain ⟨d, hd⟩ := Option.isSome_iff_exists.1 (ih _ hb)
        obtain ⟨e, he, _⟩ := h.closed ht _ d hd (hnq _) x hc
        rw [he]; rfl
  refine ⟨h.once, fun x => ⟨h.reach x, ?_⟩, ?_, ?_⟩
  · rintro ⟨n, hn⟩
    obtain ⟨d, hd⟩ := Option.isSome_iff_exists.1 (all n x hn)
    exact (h.known x d hd).1
  · intro x d hd
    obtain ⟨e, he⟩ := Option.isSome_iff_exists.1 (all d x hd.1)
    rw [he, Dist.unique (h.known x e he).2 hd]
  · intro x hx
    exact ⟨(h.edges x).1, fun y => ⟨(h.edges x).2 y, h.allEdges ht x (h.met ht x hx) (hnq x) y⟩⟩

/-- **C40** Even when the walk was cut, everything it lists is a call and everything it met can be reached; the largest
fan-out is the largest number of functions listed for one function. -/
theorem C40_sound (L : Limits) (label : String → String) (calls : String → List Call) (root : String) (w : Walk) (hw : analyze L label calls root = some w) :
    (∀ x ∈ w.visited, ∃ n, Way (Calls calls) root n x) ∧ (∀ x, (kids w.adj x).Nodup ∧ ∀ y ∈ kids w.adj x, Calls calls x y) ∧
      (∀ x, (kids w.adj x).length ≤ w.fanMax) ∧ (w.fanMax = 0 ∨ ∃ x, (kids w.adj x).length = w.fanMax) := by
  obtain ⟨w', hw', h, _⟩ := analyze_inv L label calls root
  rw [hw] at hw'; cases hw'
  exact ⟨h.reach, h.edges, h.fan⟩

/-- A recursive program with a builtin, a repeated call and a short cut. -/
def demo : String → List Call
  | "h" => [⟨"a", false, "f:1"⟩, ⟨"len", true, ""⟩, ⟨"b", false, "f:2"⟩, ⟨"a", false, "f:3"⟩]
  | "a" => [⟨"b", false, "f:4"⟩, ⟨"h", false, "f:5"⟩]
  | "b" => [⟨"c", false, "f:6"⟩]
  | _ => []

example : (analyze {} id demo "h").map (fun w => (w.depth, w.visited)) = some ([("h", 0), ("a", 1), ("b", 1), ("c", 2)], ["c", "b", "a", "h"]) := by decide
example : (analyze {} id demo "h").map (fun w => (w.adj, w.maxDepth)) = some ([("h", ["a", "b"]), ("a", ["b", "h"]), ("b", ["c"])], 2) := by decide
example : (analyze {} id demo "h").map (fun w => (w.truncated, w.fanMax, w.fanSum, w.fanCount)) = some (false, 2, 5, 3) := by decide

/-! ## Averages and call sites -/

/-- The number of listed calls. -/
def listed (adj : List (String × List String)) : Nat := (adj.map fun e => e.2.length).sum

theorem listed_mset (adj : List (String × List String)) (a : String) (l : List String) :
    listed (mset adj a l) + (kids adj a).length = listed adj + l.length ∧ (mset adj a l).length = adj.length + (if (mget adj a).isSome then 0 else 1) := by
  induction adj with
  | nil => simp [mset, listed, kids]
  | cons e adj ih =>
    obtain ⟨k, v⟩ := e
    by_cases h : k = a
    · subst h
      simp [mset, listed, kids, mget]
      omega
    · simp only [mset, listed, kids, mget, h, if_false, List.map_cons, List.sum_cons, List.length_cons] at ih ⊢
      omega

structure FanInv (s : Walk) : Prop where
  keys : ∀ e ∈ s.adj, e.2 ≠ []
  sum : s.fanSum = listed s.adj
  count : s.fanCount = s.adj.length

theorem mem_mset_adj {adj : List (String × List String)} {a : String} {l : List String} {e : String × List String} (h : e ∈ mset adj a l) : e ∈ adj ∨ e.2 = l := by
  induction adj with
  | nil => simp only [mset, List.mem_singleton] at h; subst h; exact .inr rfl
  | cons x adj ih =>
    obtain ⟨k, v⟩ := x
    simp only [mset] at h
    split at h
    · rcases List.mem_cons.1 h with h | h
      · subst h; exact .inr rfl
      · exact .inl (List.mem_cons_of_mem _ h)
    · rcases List.mem_cons.1 h with h | h
      · exact .inl (by rw [h]; exact List.mem_cons_self ..)
      · rcases ih h with h | h
        · exact .inl (List.mem_cons_of_mem _ h)
        · exact .inr h

theorem isSome_iff_kids {adj : List (String × List String)} (h : ∀ e ∈ adj, e.2 ≠ []) (a : String) : (mget adj a).isSome = true ↔ kids adj a ≠ [] := by
  simp only [kids]
  cases hm : mget adj a with
  | none => simp
  | some l => simpa using h _ (mem_of_mget hm)

theorem meet_adj (L : Limits) (s : Walk) (id : String) (d : Nat) : (meet L s id d).adj = s.adj ∧ (meet L s id d).fanSum = s.fanSum ∧ (meet L s id d).fanCount = s.fanCount ∧
    (meet L s id d).sites = s.sites := by
  unfold meet; split
  · simp
  · split <;> simp

theorem fan_fold {L : Limits} {label : String → String} {cur : String} {d : Nat} {s : Walk} : ∀ (todo : List Call) (w : Walk) (seen : List String),
    ((∀ e ∈ w.adj, e.2 ≠ []) ∧ listed w.adj = listed s.adj + (kids w.adj cur).length ∧ w.adj.length = s.adj.length + (if kids w.adj cur = [] then 0 else 1) ∧
      w.fanSum = s.fanSum ∧ w.fanCount = s.fanCount) →
    (∀ e ∈ (todo.foldl (addCall L label cur d) (w, seen)).1.adj, e.2 ≠ []) ∧
      listed (todo.foldl (addCall L label cur d) (w, seen)).1.adj = listed s.adj + (kids (todo.foldl (addCall L label cur d) (w, seen)).1.adj cur).length ∧
      (todo.foldl (addCall L label cur d) (w, seen)).1.adj.length = s.adj.length + (if kids (todo.foldl (addCall L label cur d) (w, seen)).1.adj cur = [] then 0 else 1) ∧
      (todo.foldl (addCall L label cur d) (w, seen)).1.fanSum = s.fanSum ∧ (todo.foldl (addCall L label cur d) (w, seen)).1.fanCount = s.fanCount := by
  intro todo
  induction todo with
  | nil => intro w seen h; exact h
  | cons c todo ih =>
    intro w seen h
    rw [List.foldl_cons]
    obtain ⟨r1, r2, r3, r4, r5, r6, r7, r8, r9⟩ := recordSite_same label w c.callee cur c.pos
    have hstep : ∃ w' seen', addCall L label cur d (w, seen) c = (w', seen') ∧ ((∀ e ∈ w'.adj, e.2 ≠ []) ∧ listed w'.adj = listed s.adj + (kids w'.adj cur).length ∧
        w'.adj.length = s.adj.length + (if kids w'.adj cur = [] then 0 else 1) ∧ w'.fanSum = s.fanSum ∧ w'.fanCount = s.fanCount) := by
      simp only [addCall]
      split
      · exact ⟨w, seen, rfl, h⟩
      · split
        · exact ⟨_, seen, rfl, by rw [r4, r8, r9]; exact h⟩
        · obtain ⟨m1, m2, m3, _⟩ := meet_adj L { recordSite label w c.callee cur c.pos with adj := mset (recordSite label w c.callee cur c.pos).adj cur (kids (recordSite label w c.callee cur c.pos).adj cur ++ [c.callee]) } c.callee (d + 1)
          refine ⟨_, _, rfl, ?_⟩
          rw [m1, m2, m3]
          simp only [r4, r8, r9]
          obtain ⟨h1, h2, h3, h4, h5⟩ := h
          obtain ⟨l1, l2⟩ := listed_mset w.adj cur (kids w.adj cur ++ [c.callee])
          refine ⟨?_, ?_, ?_, h4, h5⟩
          · intro e he
            rcases mem_mset_adj he with he | he
            · exact h1 e he
            · rw [he]; simp
          · rw [kids_mset, if_pos rfl]
            simp only [List.length_append, List.length_cons, List.length_nil] at l1 ⊢
            omega
          · rw [kids_mset, if_pos rfl, l2, h3]
            have := isSome_iff_kids h1 cur
            by_cases hk : kids w.adj cur = []
            · rw [if_pos hk, if_neg (by rw [this]; simpa using hk), if_neg (by simp)]
            · rw [if_neg hk, if_pos (by rw [this]; exact hk), if_neg (by simp)]
    obtain ⟨w', seen', e, hw'⟩ := hstep
    rw [e]
    exact ih w' seen' hw'

theorem fanInv_step {L : Limits} {label : String → String} {calls : String → List Call} {s : Walk} {cur : String} (hk : kids s.adj cur = []) (h : FanInv s) : FanInv (expand L label calls s cur) := by
  simp only [expand]
  split
  · exact ⟨h.keys, h.sum, h.count⟩
  · obtain ⟨h1, h2, h3, h4, h5⟩ := fan_fold (L := L) (label := label) (cur := cur) (d := (mget s.depth cur).getD 0) (s := s) (calls cur) s [] ⟨h.keys, by rw [hk]; rfl, by rw [hk]; rfl, rfl, rfl⟩
    generalize ((calls cur).foldl (addCall L label cur ((mget s.depth cur).getD 0)) (s, [])).1 = w at h1 h2 h3 h4 h5
    have hs := h.sum
    have hc := h.count
    unfold countFan
    split
    · next hn =>
      refine ⟨h1, ?_, ?_⟩
      · simp only; omega
      · simp only
        rw [if_neg (by intro e; rw [e] at hn; exact absurd hn (by simp))] at h3
        omega
    · next hn =>
      have : kids w.adj cur = [] := List.length_eq_zero_iff.1 (by omega)
      rw [this] at h2 h3
      exact ⟨h1, by simp at h2; omega, by simp at h3; omega⟩

/-- Where calls were seen. -/
structure SiteInv (label : String → String) (calls : String → List Call) (s : Walk) : Prop where
  sound : ∀ t ∈ s.sites, t.pos ≠ "" ∧ ∃ x c, c ∈ calls x ∧ c.builtin = false ∧ c.callee ≠ "" ∧ c.callee ≠ x ∧ t = ⟨c.callee, c.pos, label x⟩ ∧ (mget s.depth x).isSome
  once : s.sites.Pairwise fun a b => ¬ (a.callee = b.callee ∧ a.pos = b.pos)
  complete : s.truncated = false → ∀ x, (mget s.depth x).isSome → x ∉ s.queue → ∀ c ∈ calls x, c.builtin = false → c.callee ≠ "" → c.callee ≠ x → c.pos ≠ "" →
    ∃ t ∈ s.sites, t.callee = c.callee ∧ t.pos = c.pos

theorem recordSite_sites (label : String → String) (s : Walk) (a b p : String) :
    (∀ t ∈ s.sites, t ∈ (recordSite label s a b p).sites) ∧ (∀ t ∈ (recordSite label s a b p).sites, t ∈ s.sites ∨ (p ≠ "" ∧ t = ⟨a, p, label b⟩)) ∧
    (p ≠ "" → ∃ t ∈ (recordSite label s a b p).sites, t.callee = a ∧ t.pos = p) ∧
    (s.sites.Pairwise (fun a b => ¬ (a.callee = b.callee ∧ a.pos = b.pos)) → (recordSite label s a b p).sites.Pairwise fun a b => ¬ (a.callee = b.callee ∧ a.pos = b.pos)) := by
  unfold recordSite
  split
  · next h => exact ⟨fun _ h => h, fun _ h => .inl h, fun hp => absurd h hp, fun h => h⟩
  · next hp =>
    split
    · next h =>
      refine ⟨fun _ h => h, fun _ h => .inl h, fun _ => ?_, fun h => h⟩
      obtain ⟨t, ht, h'⟩ := List.any_eq_true.1 h
      exact ⟨t, ht, by simpa using h'⟩
    · next h =>
      refine ⟨fun t ht => List.mem_append_left _ ht, ?_, fun _ => ⟨⟨a, p, label b⟩, by simp, rfl, rfl⟩, ?_⟩
      · intro t ht
        rcases List.mem_append.1 ht with ht | ht
        · exact .inl ht
        · rw [List.mem_singleton] at ht; exact .inr ⟨hp, ht⟩
      · intro hpw
        refine List.pairwise_append.2 ⟨hpw, List.pairwise_singleton _ _, ?_⟩
        intro x hx y hy
        rw [List.mem_singleton] at hy; subst hy
        intro hxy
        exact h (List.any_eq_true.2 ⟨x, hx, by simpa using hxy⟩)

theorem site_fold {L : Limits} {label : String → String} {cur : String} {d : Nat} : ∀ (todo : List Call) (w : Walk) (seen : List String),
    (∀ t ∈ w.sites, t ∈ (todo.foldl (addCall L label cur d) (w, seen)).1.sites) ∧
    (∀ t ∈ (todo.foldl (addCall L label cur d) (w, seen)).1.sites, t ∈ w.sites ∨ ∃ c ∈ todo, c.builtin = false ∧ c.callee ≠ "" ∧ c.callee ≠ cur ∧ c.pos ≠ "" ∧ t = ⟨c.callee, c.pos, label cur⟩) ∧
    (∀ c ∈ todo, c.builtin = false → c.callee ≠ "" → c.callee ≠ cur → c.pos ≠ "" → ∃ t ∈ (todo.foldl (addCall L label cur d) (w, seen)).1.sites, t.callee = c.callee ∧ t.pos = c.pos) ∧
    (w.sites.Pairwise (fun a b => ¬ (a.callee = b.callee ∧ a.pos = b.pos)) →
      (todo.foldl (addCall L label cur d) (w, seen)).1.sites.Pairwise fun a b => ¬ (a.callee = b.callee ∧ a.pos = b.pos)) := by
  intro todo
  induction todo with
  | nil => intro w seen; exact ⟨fun _ h => h, fun _ h => .inl h, by simp, fun h => h⟩
  | cons c todo ih =>
    intro w seen
    rw [List.foldl_cons]
    have hstep : ∃ w' seen', addCall L label cur d (w, seen) c = (w', seen') ∧
        (w'.sites = w.sites ∧ (c.builtin = false → c.callee ≠ "" → c.callee ≠ cur → False) ∨
          (w'.sites = (recordSite label w c.callee cur c.pos).sites ∧ c.builtin = false ∧ c.callee ≠ "" ∧ c.callee ≠ cur)) := by
      simp only [addCall]
      split
      · next hb =>
        refine ⟨w, seen, rfl, .inl ⟨rfl, ?_⟩⟩
        intro h1 h2 h3; simp [h1, h2, h3] at hb
      · next hb =>
        have hv := valid_split hb
        split
        · exact ⟨_, _, rfl, .inr ⟨rfl, hv⟩⟩
        · exact ⟨_, _, rfl, .inr ⟨(meet_adj ..).2.2.2, hv⟩⟩
    obtain ⟨w', seen', e, hw'⟩ := hstep
    rw [e]
    obtain ⟨i1, i2, i3, i4⟩ := ih w' seen'
    rcases hw' with ⟨hs, hno⟩ | ⟨hs, b1, b2, b3⟩
    · rw [hs] at i1 i2 i4
      refine ⟨i1, ?_, ?_, i4⟩
      · intro t ht
        rcases i2 t ht with h | ⟨c', hc', h⟩
        · exact .inl h
        · exact .inr ⟨c', List.mem_cons_of_mem _ hc', h⟩
      · intro c' hc' a1 a2 a3 a4
        rcases List.mem_cons.1 hc' with rfl | hc'
        · exact absurd (hno a1 a2 a3) id
        · exact i3 c' hc' a1 a2 a3 a4
    · obtain ⟨r1, r2, r3, r4⟩ := recordSite_sites label w c.callee cur c.pos
      rw [hs] at i1 i2 i4
      refine ⟨fun t ht => i1 t (r1 t ht), ?_, ?_, fun h => i4 (r4 h)⟩
      · intro t ht
        rcases i2 t ht with h | ⟨c', hc', h⟩
        · rcases r2 t h with h | ⟨hp, h⟩
          · exact .inl h
          · exact .inr ⟨c, by simp, b1, b2, b3, hp, h⟩
        · exact .inr ⟨c', List.mem_cons_of_mem _ hc', h⟩
      · intro c' hc' a1 a2 a3 a4
        rcases List.mem_cons.1 hc' with rfl | hc'
        · obtain ⟨t, ht, h⟩ := r3 a4
          exact ⟨t, i1 t ht, h⟩
        · exact i3 c' hc' a1 a2 a3 a4

/-- What a function's turn leaves behind. -/
theorem expand_done {L : Limits} {label : String → String} {calls : String → List Call} {root : String} {s : Walk} {cur : String} {q : List String}
    (hq : s.queue = cur :: q) (h : WalkInv L calls root s) :
    (∀ x, (mget s.depth x).isSome → (mget (expand L label calls { s with queue := q } cur).depth x).isSome) ∧
    (∀ x, (mget (expand L label calls { s with queue := q } cur).depth x).isSome → x ∉ (expand L label calls { s with queue := q } cur).queue →
      x = cur ∨ ((mget s.depth x).isSome ∧ x ∉ s.queue)) ∧
    ((expand L label calls { s with queue := q } cur).truncated = false → s.truncated = false) := by
  have hcq : cur ∈ s.queue := by rw [hq]; simp
  obtain ⟨hds, hk0⟩ := h.queued cur hcq
  obtain ⟨d, hd⟩ := Option.isSome_iff_exists.1 hds
  simp only [expand, hd, Option.getD_some]
  split
  · refine ⟨fun _ h => h, fun x hx hn => ?_, (by intro h; cases h)⟩
    by_cases hxc : x = cur
    · exact .inl hxc
    · exact .inr ⟨hx, by rw [hq, List.mem_cons, not_or]; exact ⟨hxc, hn⟩⟩
  · have h0 : FoldInv L calls cur d { s with queue := q } [] { s with queue := q } [] := by
      refine ⟨fun _ _ h => h, fun _ _ h => .inl h, ⟨[], by simp, by simp, by simp⟩, by simp, h.once, h.met, ?_, fun h => .inl h, fun h => h, Nat.le_refl _, by simp [hk0], by simp [hk0], by simp [hk0], fun _ _ => rfl, h.deepest, rfl⟩
      intro x hx
      obtain ⟨e, he⟩ := Option.isSome_iff_exists.1 hx
      exact (h.known x e he).1
    have hf := foldInv_all (label := label) (calls cur) [] { s with queue := q } [] h0
    rw [List.nil_append] at hf
    generalize ((calls cur).foldl (addCall L label cur d) ({ s with queue := q }, [])).2 = seen at hf
    generalize ((calls cur).foldl (addCall L label cur d) ({ s with queue := q }, [])).1 = w at hf
    obtain ⟨c1, c2, c3, c4, c5, c6, c7⟩ := countFan_same w (kids w.adj cur).length
    rw [c2, c3, c5]
    refine ⟨?_, ?_, ?_⟩
    · intro x hx
      obtain ⟨e, he⟩ := Option.isSome_iff_exists.1 hx
      rw [hf.keep x e he]; rfl
    · intro x hx hn
      by_cases hxc : x = cur
      · exact .inl hxc
      · obtain ⟨e, he⟩ := Option.isSome_iff_exists.1 hx
        rcases hf.fresh x e he with h' | ⟨_, _, h3, _⟩
        · refine .inr ⟨by rw [show mget s.depth x = some e from h']; rfl, ?_⟩
          obtain ⟨new, hqn, _⟩ := hf.queue
          rw [hq, List.mem_cons, not_or]
          exact ⟨hxc, fun hin => hn (by rw [hqn]; exact List.mem_append_left _ hin)⟩
        · exact absurd h3 hn
    · intro ht
      cases hs : s.truncated with
      | false => rfl
      | true => have := hf.stay hs; rw [ht] at this; cases this

theorem siteInv_step {L : Limits} {label : String → String} {calls : String → List Call} {root : String} (s : Walk) (cur : String) (q : List String)
    (hq : s.queue = cur :: q) (h : WalkInv L calls root s) (hs : SiteInv label calls s) : SiteInv label calls (expand L label calls { s with queue := q } cur) := by
  obtain ⟨e1, e2, e3⟩ := expand_done (label := label) hq h
  have hcq : cur ∈ s.queue := by rw [hq]; simp
  have hds := (h.queued cur hcq).1
  have hcase : ((expand L label calls { s with queue := q } cur).truncated = true ∧ (expand L label calls { s with queue := q } cur).sites = s.sites) ∨
      (expand L label calls { s with queue := q } cur).sites = ((calls cur).foldl (addCall L label cur ((mget s.depth cur).getD 0)) ({ s with queue := q }, [])).1.sites := by
    simp only [expand]
    split
    · exact .inl ⟨rfl, rfl⟩
    · exact .inr (countFan_same _ _).2.2.2.2.2.2
  rcases hcase with ⟨ht, hsame⟩ | hsites
  · refine ⟨?_, by rw [hsame]; exact hs.once, by intro h; rw [ht] at h; cases h⟩
    intro t ht'
    rw [hsame] at ht'
    obtain ⟨a, x, c, b1, b2, b3, b4, b5, b6⟩ := hs.sound t ht'
    exact ⟨a, x, c, b1, b2, b3, b4, b5, e1 x b6⟩
  · obtain ⟨i1, i2, i3, i4⟩ := site_fold (L := L) (label := label) (cur := cur) (d := (mget s.depth cur).getD 0) (calls cur) { s with queue := q } []
    refine ⟨?_, by rw [hsites]; exact i4 hs.once, ?_⟩
    · intro t ht
      rw [hsites] at ht
      rcases i2 t ht with ht | ⟨c, hc, b1, b2, b3, b4, b5⟩
      · obtain ⟨a, x, c, b1, b2, b3, b4, b5, b6⟩ := hs.sound t ht
        exact ⟨a, x, c, b1, b2, b3, b4, b5, e1 x b6⟩
      · exact ⟨by rw [b5]; exact b4, cur, c, hc, b1, b2, b3, b5, e1 cur hds⟩
    · intro ht x hx hn c hc b1 b2 b3 b4
      rw [hsites]
      rcases e2 x hx hn with rfl | ⟨hx', hn'⟩
      · exact i3 c hc b1 b2 b3 b4
      · obtain ⟨t, ht', h'⟩ := hs.complete (e3 ht) x hx' hn' c hc b1 b2 b3 b4
        exact ⟨t, i1 t ht', h'⟩

/-- **C40** The average fan-out is the number of listed calls over the number of functions that call something, and the
call sites are exactly the places of the calls that were walked, each once. -/
theorem C40_fan_sites (L : Limits) (label : String → String) (calls : String → List Call) (root : String) (w : Walk) (hw : analyze L label calls root = some w) :
    (w.fanSum = (w.adj.map fun e => e.2.length).sum ∧ w.fanCount = w.adj.length ∧ ∀ e ∈ w.adj, e.2 ≠ []) ∧
    (∀ t ∈ w.sites, t.pos ≠ "" ∧ ∃ x c, c ∈ calls x ∧ c.builtin = false ∧ c.callee ≠ "" ∧ c.callee ≠ x ∧ t = ⟨c.callee, c.pos, label x⟩ ∧ ∃ n, Way (Calls calls) root n x) ∧
    (w.sites.Pairwise fun a b => ¬ (a.callee = b.callee ∧ a.pos = b.pos)) ∧
    (w.truncated = false → ∀ x n, Way (Calls calls) root n x → ∀ c ∈ calls x, c.builtin = false → c.callee ≠ "" → c.callee ≠ x → c.pos ≠ "" →
      ∃ t ∈ w.sites, t.callee = c.callee ∧ t.pos = c.pos) := by
  have h0 : WalkInv L calls root (start root) ∧ FanInv (start root) ∧ SiteInv label calls (start root) := by
    refine ⟨walkInv_start L calls root, ⟨by simp [start], rfl, rfl⟩, ⟨by simp [start], by simp [start], ?_⟩⟩
    intro _ x hx hn
    simp only [start, mget_cons, mget_nil] at hx
    split at hx
    · next e => exact absurd (by simp [start, e]) hn
    · cases hx
  have hall := loop_inv (step := expand L label calls) (P := fun s => WalkInv L calls root s ∧ FanInv s ∧ SiteInv label calls s)
    (by
      rintro s cur q hq ⟨a, b, c⟩
      exact ⟨walkInv_step s cur q hq a, fanInv_step (s := { s with queue := q }) (a.queued cur (by rw [hq]; simp)).2 ⟨b.keys, b.sum, b.count⟩, siteInv_step s cur q hq a c⟩)
    _ _ _ h0 hw
  obtain ⟨⟨a, b, c⟩, hq⟩ := hall
  refine ⟨⟨b.sum, b.count, b.keys⟩, ?_, c.once, ?_⟩
  · intro t ht
    obtain ⟨h1, x, k, h2, h3, h4, h5, h6, h7⟩ := c.sound t ht
    obtain ⟨d, hd⟩ := Option.isSome_iff_exists.1 h7
    exact ⟨h1, x, k, h2, h3, h4, h5, h6, d, (a.known x d hd).2.1⟩
  · intro ht x n hx
    have hv := ((C40_complete L label calls root w hw ht).2.1 x).2 ⟨n, hx⟩
    exact c.complete ht x (a.met ht x hv) (by rw [hq]; simp)

example : (analyze {} id demo "h").map (·.sites) = some [⟨"a", "f:1", "h"⟩, ⟨"b", "f:2", "h"⟩, ⟨"a", "f:3", "h"⟩, ⟨"b", "f:4", "a"⟩, ⟨"h", "f:5", "a"⟩, ⟨"c", "f:6", "b"⟩] := by decide

/-- `f0` calls `f1`, and so on up to `f14`. -/
def longChain (x : String) : List Call :=
  ((mget [("f0", "f1"), ("f1", "f2"), ("f2", "f3"), ("f3", "f4"), ("f4", "f5"), ("f5", "f6"), ("f6", "f7"), ("f7", "f8"), ("f8", "f9"), ("f9", "f10"),
    ("f10", "f11"), ("f11", "f12"), ("f12", "f13"), ("f13", "f14")] x).map fun y => { callee := y }).toList

/-- **C40, what fails** The walk can be reported as cut although nothing is missing: the last function of a chain of 14
calls calls nothing, and everything reachable was met. -/
theorem C40_false_alarm : ∃ (calls : String → List Call) (w : Walk), analyze {} id calls "f0" = some w ∧ w.truncated = true ∧
    ∀ x ∈ w.visited, ∀ y, Calls calls x y → y ∈ w.visited ∧ y ∈ kids w.adj x := by
  have h1 : (analyze {} id longChain "f0").map (·.truncated) = some true := by decide
  have h2 : ∀ w, analyze {} id longChain "f0" = some w → ∀ x ∈ w.visited, ∀ c ∈ longChain x, c.callee ∈ w.visited ∧ c.callee ∈ kids w.adj x := by
    have : ((analyze {} id longChain "f0").all fun w => w.visited.all fun x => (longChain x).all fun c => decide (c.callee ∈ w.visited ∧ c.callee ∈ kids w.adj x)) = true := by decide
    intro w hw x hx c hc
    rw [hw] at this
    have := List.all_eq_true.1 (List.all_eq_true.1 this x hx) c hc
    simpa using this
  obtain ⟨w, hw, _⟩ := analyze_inv {} id longChain "f0"
  refine ⟨longChain, w, hw, ?_, ?_⟩
  · rw [hw] at h1; simpa using h1
  · rintro x hx y ⟨c, hc, rfl, _⟩
    exact h2 w hw x hx c hc

end Verif.InsightProps
