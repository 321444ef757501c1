import Verif.NearModel
import Verif.ResponsesProps
/-!
# C108: of the bodies without a status those closest to the handler are documented
-/

namespace Verif.Near
open Verif.Common Verif.Responses

/-! ### Specification -/

/-- There is a chain of `n` calls from `a` to the function. -/
inductive Way (calls : Calls) (a : String) : Nat → String → Prop
  | here : Way calls a 0 a
  | step {n : Nat} {b c : String} : Way calls a n b → (b, c) ∈ calls → Way calls a (n + 1) c

/-- The shortest chain has `n` calls. -/
def Far (calls : Calls) (a : String) (n : Nat) (b : String) : Prop := Way calls a n b ∧ ∀ m, Way calls a m b → n ≤ m

/-! ### Lemmas -/

theorem mem_callees (calls : Calls) (b c : String) : c ∈ callees calls b ↔ (b, c) ∈ calls := by
  unfold callees
  simp only [List.mem_map, List.mem_filter, decide_eq_true_eq]
  constructor
  · rintro ⟨e, ⟨he, rfl⟩, rfl⟩; exact he
  · intro h; exact ⟨_, ⟨h, rfl⟩, rfl⟩

/-- The calls whose callee has no number yet. -/
def rest (calls : Calls) (m : List (String × Nat)) : Nat := (calls.filter fun e => (mget m e.2).isNone).length

/-- What holds while the callees of a function at distance `k` are handled. -/
structure Mid (calls : Calls) (h : String) (k : Nat) (s : St) : Prop where
  sound : ∀ x d, mget s.depths x = some d → Way calls h d x ∧ d ≤ k + 1
  queue : ∀ x ∈ s.queue, ∃ d, mget s.depths x = some d ∧ k ≤ d
  sorted : s.queue.Pairwise fun a b => (mget s.depths a).getD 0 ≤ (mget s.depths b).getD 0

theorem rest_mset (calls : Calls) (m : List (String × Nat)) (c : String) (n : Nat) (hc : mget m c = none) (hm : ∃ b, (b, c) ∈ calls) :
    rest calls (mset m c n) + 1 ≤ rest calls m := by
  obtain ⟨b, hb⟩ := hm
  unfold rest
  obtain ⟨l1, l2, rfl⟩ := List.append_of_mem hb
  have key : ∀ l : Calls, (l.filter fun e => (mget (mset m c n) e.2).isNone).length ≤ (l.filter fun e => (mget m e.2).isNone).length := by
    intro l
    induction l with
    | nil => simp
    | cons e l ih =>
      rw [List.filter_cons, List.filter_cons, mget_mset]
      by_cases he : e.2 = c
      · rw [if_pos he, he, hc]; simp; omega
      · rw [if_neg he]; split
        · rw [List.length_cons, List.length_cons]; omega
        · exact ih
  have h1 := key l1
  have h2 := key l2
  rw [List.filter_append, List.filter_append, List.filter_cons, List.filter_cons]
  simp only [mget_mset_self, hc, Option.isNone_some, Option.isNone_none, List.length_append]
  simp
  omega

theorem visit_mid (calls : Calls) (h : String) (k : Nat) (s : St) (c : String) (hm : Mid calls h k s) (hc : Way calls h (k + 1) c) (hin : ∃ b, (b, c) ∈ calls) :
    Mid calls h k (visit (k + 1) s c) ∧ (∃ d, mget (visit (k + 1) s c).depths c = some d ∧ d ≤ k + 1) ∧
    (∀ x d, mget s.depths x = some d → mget (visit (k + 1) s c).depths x = some d) ∧
    (∀ x, x ∈ s.queue → x ∈ (visit (k + 1) s c).queue) ∧
    (∀ x d, mget (visit (k + 1) s c).depths x = some d → mget s.depths x = some d ∨ x ∈ (visit (k + 1) s c).queue) ∧
    (visit (k + 1) s c).queue.length + rest calls (visit (k + 1) s c).depths ≤ s.queue.length + rest calls s.depths := by
  cases hg : mget s.depths c with
  | some d =>
    have e : visit (k + 1) s c = s := by unfold visit; rw [hg]
    rw [e]
    exact ⟨hm, ⟨d, hg, (hm.sound c d hg).2⟩, fun _ _ h => h, fun _ h => h, fun _ _ h => Or.inl h, Nat.le_refl _⟩
  | none =>
    have e : visit (k + 1) s c = ⟨mset s.depths c (k + 1), s.queue ++ [c]⟩ := by unfold visit; rw [hg]
    rw [e]
    have keep : ∀ x d, mget s.depths x = some d → mget (mset s.depths c (k + 1)) x = some d := by
      intro x d hx
      rw [mget_mset, if_neg]
      · exact hx
      · rintro rfl; rw [hg] at hx; cases hx
    refine ⟨⟨?_, ?_, ?_⟩, ⟨k + 1, mget_mset_self .., Nat.le_refl _⟩, keep, fun x hx => List.mem_append_left _ hx, ?_, ?_⟩
    · intro x d hx
      rw [mget_mset] at hx
      split at hx
      · next he => cases hx; subst he; exact ⟨hc, Nat.le_refl _⟩
      · exact hm.sound x d hx
    · intro x hx
      rcases List.mem_append.1 hx with hx | hx
      · obtain ⟨d, h1, h2⟩ := hm.queue x hx
        exact ⟨d, keep x d h1, h2⟩
      · rw [List.mem_singleton] at hx; subst hx
        exact ⟨k + 1, mget_mset_self .., by omega⟩
    · refine List.pairwise_append.2 ⟨?_, List.pairwise_singleton _ _, ?_⟩
      · refine List.Pairwise.imp_of_mem ?_ hm.sorted
        intro a b ha hb hab
        obtain ⟨d1, h1, _⟩ := hm.queue a ha
        obtain ⟨d2, h2, _⟩ := hm.queue b hb
        rw [keep a d1 h1, keep b d2 h2]
        rw [h1, h2] at hab
        exact hab
      · intro a ha b hb
        rw [List.mem_singleton] at hb; subst hb
        obtain ⟨d1, h1, _⟩ := hm.queue a ha
        rw [keep a d1 h1, mget_mset_self]
        exact (hm.sound a d1 h1).2
    · intro x d hx
      rw [mget_mset] at hx
      split at hx
      · next he => subst he; exact Or.inr (by simp)
      · exact Or.inl hx
    · have := rest_mset calls s.depths c (k + 1) hg hin
      simp only [List.length_append, List.length_singleton]
      omega

theorem visit_all (calls : Calls) (h : String) (k : Nat) : ∀ (cs : List String) (s : St), Mid calls h k s →
    (∀ c ∈ cs, Way calls h (k + 1) c ∧ ∃ b, (b, c) ∈ calls) →
    Mid calls h k (cs.foldl (visit (k + 1)) s) ∧ (∀ c ∈ cs, ∃ d, mget (cs.foldl (visit (k + 1)) s).depths c = some d ∧ d ≤ k + 1) ∧
    (∀ x d, mget s.depths x = some d → mget (cs.foldl (visit (k + 1)) s).depths x = some d) ∧
    (∀ x, x ∈ s.queue → x ∈ (cs.foldl (visit (k + 1)) s).queue) ∧
    (∀ x d, mget (cs.foldl (visit (k + 1)) s).depths x = some d → mget s.depths x = some d ∨ x ∈ (cs.foldl (visit (k + 1)) s).queue) ∧
    (cs.foldl (visit (k + 1)) s).queue.length + rest calls (cs.foldl (visit (k + 1)) s).depths ≤ s.queue.length + rest calls s.depths := by
  intro cs
  induction cs with
  | nil => intro s hm _; exact ⟨hm, by simp, fun _ _ h => h, fun _ h => h, fun _ _ h => Or.inl h, Nat.le_refl _⟩
  | cons c cs ih =>
    intro s hm hc
    obtain ⟨h1, ⟨d, h2, h2'⟩, h3, h4, h5, h6⟩ := visit_mid calls h k s c hm (hc c List.mem_cons_self).1 (hc c List.mem_cons_self).2
    obtain ⟨g1, g2, g3, g4, g5, g6⟩ := ih _ h1 (fun x hx => hc x (List.mem_cons_of_mem _ hx))
    rw [List.foldl_cons]
    refine ⟨g1, ?_, fun x d hx => g3 x d (h3 x d hx), fun x hx => g4 x (h4 x hx), ?_, by omega⟩
    · intro x hx
      rcases List.mem_cons.1 hx with rfl | hx
      · exact ⟨d, g3 _ _ h2, h2'⟩
      · exact g2 x hx
    · intro x d hx
      rcases g5 x d hx with hx | hx
      · rcases h5 x d hx with hx | hx
        · exact Or.inl hx
        · exact Or.inr (g4 x hx)
      · exact Or.inr hx

/-- What holds between two turns. -/
structure Inv (calls : Calls) (h : String) (s : St) : Prop where
  mid : ∃ k, Mid calls h k s ∧ ∀ x, s.queue.head? = some x → mget s.depths x = some k
  start : mget s.depths h = some 0
  closed : ∀ x d, mget s.depths x = some d → x ∈ s.queue ∨ ∀ c, (x, c) ∈ calls → ∃ j, mget s.depths c = some j ∧ j ≤ d + 1

theorem step_inv (calls : Calls) (h cur : String) (q : List String) (s : St) (hi : Inv calls h s) (hq : s.queue = cur :: q) :
    let s' := (callees calls cur).foldl (visit ((mget s.depths cur).getD 0 + 1)) ⟨s.depths, q⟩
    Inv calls h s' ∧ s'.queue.length + rest calls s'.depths < s.queue.length + rest calls s.depths := by
  obtain ⟨⟨k, hm, hk⟩, hst, hcl⟩ := hi
  have hcur : mget s.depths cur = some k := hk cur (by rw [hq]; rfl)
  have hsort := hm.sorted
  rw [hq, List.pairwise_cons] at hsort
  have hm0 : Mid calls h k ⟨s.depths, q⟩ := ⟨hm.sound, fun x hx => hm.queue x (by rw [hq]; exact List.mem_cons_of_mem _ hx), hsort.2⟩
  have hw : ∀ c ∈ callees calls cur, Way calls h (k + 1) c ∧ ∃ b, (b, c) ∈ calls := by
    intro c hc
    have hc := (mem_callees calls cur c).mp hc
    exact ⟨.step (hm.sound cur k hcur).1 hc, cur, hc⟩
  obtain ⟨g1, g2, g3, g4, g5, g6⟩ := visit_all calls h k (callees calls cur) ⟨s.depths, q⟩ hm0 hw
  intro s'
  have hs' : s' = (callees calls cur).foldl (visit (k + 1)) ⟨s.depths, q⟩ := by
    show (callees calls cur).foldl (visit ((mget s.depths cur).getD 0 + 1)) ⟨s.depths, q⟩ = _
    rw [hcur]; rfl
  rw [hs']
  refine ⟨⟨?_, g3 _ _ hst, ?_⟩, ?_⟩
  · generalize (callees calls cur).foldl (visit (k + 1)) ⟨s.depths, q⟩ = t at g1
    cases hq' : t.queue with
    | nil => exact ⟨k, g1, by intro x hx; cases hx⟩
    | cons y r =>
      obtain ⟨d, hd, hkd⟩ := g1.queue y (by rw [hq']; exact List.mem_cons_self)
      refine ⟨d, ⟨?_, ?_, g1.sorted⟩, ?_⟩
      · intro x j hx
        have := g1.sound x j hx
        exact ⟨this.1, by omega⟩
      · intro x hx
        obtain ⟨d', hd', _⟩ := g1.queue x hx
        refine ⟨d', hd', ?_⟩
        have hs := g1.sorted
        rw [hq'] at hs hx
        rcases List.mem_cons.1 hx with rfl | hx
        · rw [hd] at hd'; cases hd'; exact Nat.le_refl _
        · have := (List.pairwise_cons.1 hs).1 x hx
          rw [hd, hd'] at this
          exact this
      · intro x hx
        cases hx; exact hd
  · intro x d hx
    rcases g5 x d hx with hx0 | hx0
    · rcases hcl x d hx0 with hx1 | hx1
      · rw [hq] at hx1
        rcases List.mem_cons.1 hx1 with rfl | hx1
        · right
          intro c hc
          have hx0 : mget s.depths x = some d := hx0
          rw [hcur] at hx0
          cases hx0
          exact g2 c ((mem_callees calls x c).mpr hc)
        · exact Or.inl (g4 x hx1)
      · right
        intro c hc
        obtain ⟨j, h1, h2⟩ := hx1 c hc
        exact ⟨j, g3 c j h1, h2⟩
    · exact Or.inl hx0
  · rw [hq]
    simp only [List.length_cons] at g6 ⊢
    omega

theorem loop_ends (calls : Calls) (h : String) : ∀ (fuel : Nat) (s : St), Inv calls h s → s.queue.length + rest calls s.depths < fuel →
    ∃ s', loop calls fuel s = some s' ∧ Inv calls h s' ∧ s'.queue = [] := by
  intro fuel
  induction fuel with
  | zero => intro s _ hf; omega
  | succ fuel ih =>
    intro s hi hf
    cases hq : s.queue with
    | nil => exact ⟨s, by unfold loop; rw [hq], hi, hq⟩
    | cons cur q =>
      obtain ⟨h1, h2⟩ := step_inv calls h cur q s hi hq
      obtain ⟨s', h3, h4, h5⟩ := ih _ h1 (by omega)
      exact ⟨s', by unfold loop; rw [hq]; exact h3, h4, h5⟩

/-! ### The properties -/

/-- The numbers are exactly the lengths of the shortest chains of calls, for every call graph, with loops or without; and
computing them always ends. -/
theorem C108_distance (calls : Calls) (h : String) (hne : h ≠ "") :
    ∃ m, handlerDepths calls h = some m ∧ ∀ x d, mget m x = some d ↔ Far calls h d x := by
  have hi : Inv calls h ⟨mset [] h 0, [h]⟩ := by
    have g : ∀ x d, mget (mset ([] : List (String × Nat)) h 0) x = some d → x = h ∧ d = 0 := by
      intro x d hx
      rw [mget_mset] at hx
      split at hx
      · next he => cases hx; exact ⟨he, rfl⟩
      · cases hx
    refine ⟨⟨0, ⟨?_, ?_, List.pairwise_singleton _ _⟩, ?_⟩, mget_mset_self .., ?_⟩
    · intro x d hx
      obtain ⟨rfl, rfl⟩ := g x d hx
      exact ⟨.here, by omega⟩
    · intro x hx
      rw [List.mem_singleton] at hx; subst hx
      exact ⟨0, mget_mset_self .., Nat.le_refl _⟩
    · intro x hx; cases hx; exact mget_mset_self ..
    · intro x d hx
      obtain ⟨rfl, rfl⟩ := g x d hx
      exact Or.inl (List.mem_singleton_self _)
  obtain ⟨s, hs, ⟨⟨k, hm, _⟩, hst, hcl⟩, hq⟩ := loop_ends calls h (calls.length + 2) _ hi (by
    have : rest calls (mset ([] : List (String × Nat)) h 0) ≤ calls.length := List.length_filter_le ..
    simp only [List.length_singleton]; omega)
  have low : ∀ n x, Way calls h n x → ∃ d, mget s.depths x = some d ∧ d ≤ n := by
    intro n x hw
    induction hw with
    | here => exact ⟨0, hst, Nat.le_refl _⟩
    | step _ hc ih =>
      obtain ⟨d, h1, h2⟩ := ih
      rcases hcl _ d h1 with h3 | h3
      · rw [hq] at h3; cases h3
      · obtain ⟨j, h4, h5⟩ := h3 _ hc
        exact ⟨j, h4, by omega⟩
  refine ⟨s.depths, by unfold handlerDepths; rw [if_neg hne, hs]; rfl, ?_⟩
  intro x d
  constructor
  · intro hx
    refine ⟨(hm.sound x d hx).1, ?_⟩
    intro n hn
    obtain ⟨j, h1, h2⟩ := low n x hn
    rw [hx] at h1; cases h1; exact h2
  · rintro ⟨hw, hmin⟩
    obtain ⟨j, h1, h2⟩ := low d x hw
    have := hmin j (hm.sound x j h1).1
    have : j = d := by omega
    rw [← this]; exact h1

/-- The lookup the responses use (extractor.go:1458-1461). -/
def lookup (calls : Calls) (h : String) (x : String) : Option Nat := (handlerDepths calls h).bind fun m => mget m x

theorem lookup_some (calls : Calls) (h : String) (hne : h ≠ "") (x : String) (d : Nat) : lookup calls h x = some d ↔ Far calls h d x := by
  obtain ⟨m, hm, hf⟩ := C108_distance calls h hne
  unfold lookup
  rw [hm]
  exact hf x d

theorem depth_le (calls : Calls) (h : String) (hne : h ≠ "") (f g : Frag) (n : Nat) (hf : Far calls h n f.caller) (hn : n ≤ 2 ^ 20)
    (hg : ∀ m, Far calls h m g.caller → n ≤ m) : depthOf (lookup calls h) f ≤ depthOf (lookup calls h) g := by
  unfold depthOf
  rw [(lookup_some calls h hne f.caller n).mpr hf]
  cases hl : lookup calls h g.caller with
  | none => exact hn
  | some m => exact hg m ((lookup_some calls h hne _ m).mp hl)

/-- A body that no status write claims is documented if no other such body is written in a function fewer calls away
from the handler. -/
theorem C108_nearest_documented (calls : Calls) (h : String) (hne : h ≠ "") (cands : List Candidate) (pre post : List Frag) (f : Frag)
    (hfr : fragments cands = pre ++ f :: post) (hf : BodyOnly f) (hcl : claimed pre f.chain = none) (n : Nat) (hd : Far calls h n f.caller) (hn : n ≤ 2 ^ 20)
    (hnear : ∀ pre' g post', fragments cands = pre' ++ g :: post' → BodyOnly g → claimed pre' g.chain = none → ∀ m, Way calls h m g.caller → n ≤ m) :
    ∃ q, (mget (pairAndFill (lookup calls h) [] cands) (slot f.resp.implicit) = some q ∨
      ∃ k : Int, k < 0 ∧ mget (pairAndFill (lookup calls h) [] cands) (slot k) = some q) ∧ q.bodyType ≠ "" := by
  have hdep : ∀ g ∈ leftFrom [] (fragments cands), depthOf (lookup calls h) f ≤ depthOf (lookup calls h) g := by
    intro g hg
    obtain ⟨pre', g', post', e, hb, hc, rfl⟩ := (mem_leftFrom _ _ _).1 hg
    exact depth_le calls h hne f _ n hd hn (fun m hm => hnear pre' g' post' e hb (by simpa using hc) m hm.1)
  obtain ⟨h1, h2⟩ := C10_unclaimed_body_documented (lookup calls h) cands pre post f hfr hf hcl hdep
  by_cases hi : f.resp.implicit > 0 ∧ (∀ g ∈ pre, g.chain = f.chain → ¬ Unreadable g)
  · obtain ⟨q, ha, hb⟩ := h1 hi
    exact ⟨q, Or.inl ha, hb⟩
  · obtain ⟨k, hk, q, ha, hb, _⟩ := h2 hi
    exact ⟨q, Or.inr ⟨k, hk, ha⟩, hb⟩

/-- Nothing else is documented without a status: such a response is a body that no status write claims, and no other
such body is written fewer calls away. -/
theorem C108_only_nearest (calls : Calls) (h : String) (hne : h ≠ "") (cands : List Candidate) (k : String) (q : Resp)
    (hq : mget (pairAndFill (lookup calls h) [] cands) k = some q) (hneg : q.status < 0) :
    ∃ pre f post, fragments cands = pre ++ f :: post ∧ BodyOnly f ∧ claimed pre f.chain = none ∧ q.bodyType = f.resp.bodyType ∧
      ∀ pre' g post', fragments cands = pre' ++ g :: post' → BodyOnly g → claimed pre' g.chain = none →
        ∀ m, Way calls h m g.caller → m < 2 ^ 20 → ∃ n, n ≤ m ∧ Way calls h n f.caller := by
  rw [C10_pairing_exact] at hq
  have hst := foldl_store (directFrom [] (fragments cands) ++ leftResps 0 (shallow (lookup calls h) (leftFrom [] (fragments cands))))
    [] ⟨by simp, by simp⟩
  have hm := ((hst.2 k).1 q hq).resolve_right (by simp)
  rcases List.mem_append.1 hm with hm | hm
  · exfalso
    obtain ⟨pre, f, post, e, hh⟩ := (mem_directFrom _ _ _).1 hm
    rcases hh with ⟨hk, rfl⟩ | ⟨hb, s, hcl, rfl⟩
    · omega
    · unfold claimed at hcl
      split at hcl
      · split at hcl
        · next hso =>
          have := hso.1.1
          simp only [Option.some.injEq] at hcl
          rw [hcl] at this
          exact absurd hneg (by show ¬ s < 0; omega)
        · cases hcl
      · cases hcl
  · obtain ⟨g0, hg0, hh⟩ := mem_leftResps _ _ _ hm
    obtain ⟨hl, hsh⟩ := List.mem_filter.1 hg0
    obtain ⟨pre, f, post, e, hb, hcl, rfl⟩ := (mem_leftFrom _ _ _).1 hl
    have ebt : q.bodyType = f.resp.bodyType := by
      have eb : (effective ([] ++ pre) f).bodyType = f.resp.bodyType := by unfold effective; split <;> rfl
      rcases hh with ⟨_, rfl⟩ | ⟨_, j, rfl⟩ <;> exact eb
    refine ⟨pre, f, post, e, hb, by simpa using hcl, ebt, ?_⟩
    intro pre' g post' e' hb' hc' m hw hlt
    have hgl : ({ g with resp := effective ([] ++ pre') g } : Frag) ∈ leftFrom [] (fragments cands) :=
      (mem_leftFrom _ _ _).2 ⟨pre', g, post', e', hb', by simpa using hc', rfl⟩
    have hle := (of_decide_eq_true hsh) _ hgl
    unfold depthOf at hle
    -- the distance of `g`
    obtain ⟨mm, hmm, hfar⟩ := C108_distance calls h hne
    have hgd : ∃ d, lookup calls h g.caller = some d ∧ d ≤ m := by
      have ex : ∀ n, Way calls h n g.caller → ∃ d, Far calls h d g.caller ∧ d ≤ n := by
        intro n
        induction n using Nat.strongRecOn with
        | _ n ih =>
          intro hn
          by_cases hmin : ∀ j, Way calls h j g.caller → n ≤ j
          · exact ⟨n, ⟨hn, hmin⟩, Nat.le_refl _⟩
          · obtain ⟨j, hj⟩ := Classical.not_forall.mp hmin
            obtain ⟨hj1, hj2⟩ := Classical.not_imp.mp hj
            obtain ⟨d, h1, h2⟩ := ih j (by omega) hj1
            exact ⟨d, h1, by omega⟩
      obtain ⟨d, h1, h2⟩ := ex m hw
      exact ⟨d, (lookup_some calls h hne _ d).mpr h1, h2⟩
    obtain ⟨d, hd, hdm⟩ := hgd
    dsimp only at hle
    rw [hd] at hle
    cases hfd : lookup calls h f.caller with
    | none =>
      rw [hfd] at hle
      have hle : 2 ^ 20 ≤ d := hle
      omega
    | some n =>
      rw [hfd] at hle
      have hle : n ≤ d := hle
      exact ⟨n, by omega, ((lookup_some calls h hne _ n).mp hfd).1⟩

/-! ### Instances and what does not hold -/

/-- A loop in the calls. -/
abbrev demoCalls : Calls := [("H", "respond"), ("H", "client"), ("client", "post"), ("post", "client"), ("respond", "H"), ("respond", "post")]

example : handlerDepths demoCalls "H" = some [("H", 0), ("respond", 1), ("client", 1), ("post", 2)] := by decide

/-- The handler writes two bodies; a client three calls down encodes what it sends. -/
abbrev demoCands : List Candidate :=
  [⟨"h", "enc@9", "H", "h.go", 9, 1, [some { status := -1, bodyType := "User" }]⟩,
   ⟨"h>client>post", "enc@3", "post", "c.go", 3, 1, [some { status := -1, bodyType := "Outgoing" }]⟩]

example : (pairAndFill (lookup demoCalls "H") [] demoCands).map (fun x => (x.1, x.2.bodyType)) = [("-1", "User")] := by decide

/-- The instance meets the conditions of `C108_nearest_documented`. -/
example : ∃ pre post f, fragments demoCands = pre ++ f :: post ∧ BodyOnly f ∧ claimed pre f.chain = none ∧ Far demoCalls "H" 0 f.caller := by
  refine ⟨[⟨{ status := -1, bodyType := "Outgoing", file := "c.go", line := 3 }, "h>client>post", "enc@3", "post", "c.go", 3, 1⟩], [],
    ⟨{ status := -1, bodyType := "User", file := "h.go", line := 9 }, "h", "enc@9", "H", "h.go", 9, 1⟩, by decide, by decide, by decide, .here, fun _ _ => Nat.zero_le _⟩

/-- A handler that writes one body itself and another through a helper: the second is lost, also if the framework
sends it with 200. -/
theorem C108_helper_lost :
    let cands : List Candidate :=
      [⟨"h", "enc@5", "H", "h.go", 5, 1, [some { status := -1, bodyType := "Health" }]⟩,
       ⟨"h>respond", "enc@20", "respond", "h.go", 20, 1, [some { status := -1, bodyType := "User", implicit := 200 }]⟩]
    Far demoCalls "H" 1 "respond" ∧ (pairAndFill (lookup demoCalls "H") [] cands).map (fun x => (x.1, x.2.bodyType)) = [("-1", "Health")] :=
  ⟨(lookup_some demoCalls "H" (by decide) "respond" 1).mp (by decide), by decide⟩

end Verif.Near
