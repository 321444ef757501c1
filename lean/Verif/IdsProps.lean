import Verif.IdsModel
/-!
# Properties: interning (C34) and call identifiers (C35)
-/

namespace Verif.IdsModel
open Verif.Common

/-! ## C34 -/

/-- What holds of every pool: no string twice, none empty, and the map has exactly the positions. -/
structure Ok (p : Pool) : Prop where
  nodup : p.values.Nodup
  nonempty : ∀ s ∈ p.values, s ≠ []
  map : ∃ m, p.strings = some m ∧ ∀ s i, mget m s = some i ↔ 0 ≤ i ∧ p.values[i.toNat]? = some s

theorem index_get : ∀ (vs pre : List Str) (m : List (Str × Int)) (n : Nat), (pre ++ vs).Nodup → pre.length = n →
    (∀ s i, mget m s = some i ↔ 0 ≤ i ∧ pre[i.toNat]? = some s) →
    ∀ s i, mget (index m n vs) s = some i ↔ 0 ≤ i ∧ (pre ++ vs)[i.toNat]? = some s
  | [], pre, m, n, _, _, h, s, i => by rw [index, List.append_nil]; exact h s i
  | v :: vs, pre, m, n, hnd, hn, h, s, i => by
    rw [index]
    have e : pre ++ v :: vs = (pre ++ [v]) ++ vs := by simp
    rw [e]
    have := index_get vs (pre ++ [v]) (mset m v n) (n + 1) (e ▸ hnd) (by simp [hn]) ?_ s i
    · exact this
    · intro s i
      rw [mget_mset]
      have hv : v ∉ pre := fun hm => by
        rw [List.nodup_append] at hnd
        exact hnd.2.2 v hm v (by simp) rfl
      by_cases hs : s = v
      · subst hs
        rw [if_pos rfl]
        constructor
        · intro e; cases e
          exact ⟨by omega, by simp [← hn]⟩
        · rintro ⟨h0, h1⟩
          rw [List.getElem?_append] at h1
          split at h1
          · exact absurd (List.mem_of_getElem? h1) hv
          · next hlt =>
            have : i.toNat - pre.length = 0 := by
              rcases Nat.lt_or_ge (i.toNat - pre.length) 1 with h2 | h2
              · omega
              · rw [List.getElem?_eq_none (by simpa using h2)] at h1; cases h1
            have : i.toNat = n := by omega
            rw [Option.some.injEq]; omega
      · rw [if_neg hs, h s i]
        refine and_congr_right fun h0 => ?_
        rw [List.getElem?_append]
        split
        · exact Iff.rfl
        · next hlt =>
          rw [List.getElem?_eq_none (by omega)]
          constructor
          · intro e; cases e
          · intro e
            have := List.mem_of_getElem? e
            exact absurd (List.mem_singleton.mp this) hs

theorem ok_new : Ok newPool := ⟨List.nodup_nil, by simp [newPool], [], rfl, by simp [newPool]⟩

theorem ok_reload {p : Pool} (h : Ok p) : Ok (unmarshal (marshal p)) := by
  refine ⟨h.nodup, h.nonempty, _, rfl, fun s i => ?_⟩
  have := index_get p.values [] [] 0 (by simpa using h.nodup) rfl (by simp) s i
  rw [List.nil_append] at this
  exact this

/-- What `get` does on a proper pool. -/
theorem get_spec {p : Pool} (h : Ok p) (s : Str) (hs : s ≠ []) :
    (s ∈ p.values → (get p s).1 = p ∧ 0 ≤ (get p s).2 ∧ p.values[(get p s).2.toNat]? = some s) ∧
    (s ∉ p.values → (get p s).1.values = p.values ++ [s] ∧ (get p s).2 = p.values.length ∧
      Ok (get p s).1) := by
  obtain ⟨m, hm, hg⟩ := h.map
  unfold get
  rw [if_neg hs, hm]
  simp only [Option.bind_some]
  constructor
  · intro hin
    obtain ⟨k, hk⟩ := List.mem_iff_getElem?.mp hin
    rw [(hg s k).mpr ⟨by omega, by simpa using hk⟩]
    exact ⟨rfl, by simp, by simpa using hk⟩
  · intro hnot
    cases hq : mget m s with
    | some i => exact absurd (List.mem_of_getElem? ((hg s i).mp hq).2) hnot
    | none =>
      refine ⟨rfl, rfl, ?_, ?_, _, rfl, ?_⟩
      · rw [List.nodup_append]
        exact ⟨h.nodup, by simp, fun a ha b hb e => by
          rw [List.mem_singleton] at hb; subst hb; subst e; exact hnot ha⟩
      · intro x hx
        rcases List.mem_append.mp hx with hx | hx
        · exact h.nonempty x hx
        · rw [List.mem_singleton] at hx; subst hx; exact hs
      · have := index_get [s] p.values m p.values.length (by
          rw [List.nodup_append]
          exact ⟨h.nodup, by simp, fun a ha b hb e => by
            rw [List.mem_singleton] at hb; subst hb; subst e; exact hnot ha⟩) rfl hg
        exact this

theorem ok_step {p : Pool} (h : Ok p) : ∀ o, Ok (step p o)
  | .reload => ok_reload h
  | .intern s => by
    show Ok (get p s).1
    by_cases hs : s = []
    · unfold get; rw [if_pos hs]; exact h
    · by_cases hin : s ∈ p.values
      · rw [((get_spec h s hs).1 hin).1]; exact h
      · exact ((get_spec h s hs).2 hin).2.2

theorem ok_foldl : ∀ (h : List Op) {p : Pool}, Ok p → Ok (h.foldl step p)
  | [], _, hp => hp
  | o :: h, _, hp => ok_foldl h (ok_step hp o)

theorem ok_run (h : List Op) : Ok (run h) := ok_foldl h ok_new

theorem step_prefix {p : Pool} (h : Ok p) : ∀ o, ∃ t, (step p o).values = p.values ++ t
  | .reload => ⟨[], by simp [step, unmarshal, marshal]⟩
  | .intern s => by
    show ∃ t, (get p s).1.values = p.values ++ t
    by_cases hs : s = []
    · exact ⟨[], by unfold get; rw [if_pos hs]; simp⟩
    · by_cases hin : s ∈ p.values
      · exact ⟨[], by rw [((get_spec h s hs).1 hin).1]; simp⟩
      · exact ⟨[s], ((get_spec h s hs).2 hin).1⟩

theorem foldl_prefix : ∀ (h : List Op) {p : Pool}, Ok p → ∃ t, (h.foldl step p).values = p.values ++ t
  | [], _, _ => ⟨[], by simp⟩
  | o :: h, p, hp => by
    obtain ⟨t, ht⟩ := step_prefix hp o
    obtain ⟨t', ht'⟩ := foldl_prefix h (ok_step hp o)
    exact ⟨t ++ t', by rw [List.foldl_cons, ht', ht, List.append_assoc]⟩

theorem nodup_at {l : List Str} (h : l.Nodup) {i j : Nat} {s : Str} (hi : l[i]? = some s) (hj : l[j]? = some s) : i = j :=
  (List.getElem?_inj (List.getElem?_eq_some_iff.mp hi).1 h).mp (hi.trans hj.symm)

/-- After interning `s`, the index is a position of `s`. -/
theorem get_at {p : Pool} (h : Ok p) (s : Str) (hs : s ≠ []) :
    0 ≤ (get p s).2 ∧ (get p s).1.values[(get p s).2.toNat]? = some s := by
  by_cases hin : s ∈ p.values
  · obtain ⟨h1, h2, h3⟩ := (get_spec h s hs).1 hin
    rw [h1]; exact ⟨h2, h3⟩
  · obtain ⟨h1, h2, _⟩ := (get_spec h s hs).2 hin
    rw [h1, h2]
    exact ⟨by omega, by simp⟩

theorem getString_at {p : Pool} {i : Int} {s : Str} (h0 : 0 ≤ i) (h : p.values[i.toNat]? = some s) : getString p i = s := by
  unfold getString
  have : i.toNat < p.values.length := (List.getElem?_eq_some_iff.mp h).1
  rw [if_pos ⟨h0, by omega⟩, h]
  rfl

/-- **C34 (stable round trip).** However the pool was built before, and whatever is interned or
saved and reloaded afterwards, the index a string was given reads back as that string, and interning
it again gives the same index. -/
theorem C34_stable (h h' : List Op) (s : Str) :
    getString (run (h ++ .intern s :: h')) (get (run h) s).2 = s ∧
    (get (run (h ++ .intern s :: h')) s).2 = (get (run h) s).2 := by
  have hrun : run (h ++ .intern s :: h') = h'.foldl step (get (run h) s).1 := by
    unfold run; rw [List.foldl_append, List.foldl_cons]; rfl
  rw [hrun]
  by_cases hs : s = []
  · subst hs
    have e : ∀ p, (get p []).2 = -1 := fun p => by unfold get; rw [if_pos rfl]
    rw [e, e]
    exact ⟨by unfold getString; rw [if_neg (by omega)], rfl⟩
  · have hok := ok_run h
    have hok' : Ok (get (run h) s).1 := ok_step hok (.intern s)
    obtain ⟨h0, h1⟩ := get_at hok s hs
    obtain ⟨t, ht⟩ := foldl_prefix h' hok'
    have hat : (h'.foldl step (get (run h) s).1).values[(get (run h) s).2.toNat]? = some s := by
      rw [ht, List.getElem?_append_left (List.getElem?_eq_some_iff.mp h1).1, h1]
    refine ⟨getString_at h0 hat, ?_⟩
    have hfin := ok_foldl h' hok'
    have hin := List.mem_of_getElem? hat
    obtain ⟨_, g0, g1⟩ := (get_spec hfin s hs).1 hin
    have := nodup_at hfin.nodup g1 hat
    omega

/-- **C34 (different strings).** Different strings never share an index, at whatever two moments of a
history they were interned. -/
theorem C34_distinct (h h' : List Op) (s t : Str) (hne : s ≠ t) :
    (get (run h) s).2 ≠ (get (run (h ++ .intern s :: h')) t).2 := by
  intro e
  have h1 := (C34_stable h (h' ++ [.intern t]) s).1
  have h2 := (C34_stable (h ++ .intern s :: h') [] t).1
  rw [← e] at h2
  have : h ++ .intern s :: (h' ++ [.intern t]) = (h ++ .intern s :: h') ++ .intern t :: [] := by simp
  rw [this] at h1
  exact hne (h1.symm.trans h2)

/-- **C34 (reload).** Saving and reloading is invisible: every index reads back the same, and
interning gives the same indices, now and after anything that follows. -/
theorem C34_reload (h h' : List Op) :
    (∀ i, getString (run (h ++ .reload :: h')) i = getString (run (h ++ h')) i) ∧
    (∀ s, (get (run (h ++ .reload :: h')) s).2 = (get (run (h ++ h')) s).2) ∧
    size (run (h ++ .reload :: h')) = size (run (h ++ h')) := by
  have hv : ∀ (h' : List Op) (p q : Pool), Ok p → Ok q → p.values = q.values → (h'.foldl step p).values = (h'.foldl step q).values := by
    intro h'
    induction h' with
    | nil => intro p q _ _ e; exact e
    | cons o h' ih =>
      intro p q hp hq e
      refine ih _ _ (ok_step hp o) (ok_step hq o) ?_
      cases o with
      | reload => exact e
      | intern s =>
        show (get p s).1.values = (get q s).1.values
        by_cases hs : s = []
        · unfold get; rw [if_pos hs, if_pos hs]; exact e
        · by_cases hin : s ∈ p.values
          · rw [((get_spec hp s hs).1 hin).1, ((get_spec hq s hs).1 (e ▸ hin)).1, e]
          · rw [((get_spec hp s hs).2 hin).1, ((get_spec hq s hs).2 (e ▸ hin)).1, e]
  have e : (run (h ++ .reload :: h')).values = (run (h ++ h')).values := by
    unfold run
    rw [List.foldl_append, List.foldl_append, List.foldl_cons]
    exact hv h' _ _ (ok_step (ok_run h) .reload) (ok_run h) rfl
  refine ⟨fun i => by unfold getString; rw [e], fun s => ?_, by unfold size; rw [e]⟩
  by_cases hs : s = []
  · unfold get; rw [if_pos hs, if_pos hs]
  · have ho1 := ok_run (h ++ .reload :: h')
    have ho2 := ok_run (h ++ h')
    by_cases hin : s ∈ (run (h ++ h')).values
    · obtain ⟨_, a0, a1⟩ := (get_spec ho1 s hs).1 (e ▸ hin)
      obtain ⟨_, b0, b1⟩ := (get_spec ho2 s hs).1 hin
      rw [e] at a1
      have := nodup_at ho2.nodup a1 b1
      omega
    · rw [((get_spec ho1 s hs).2 (e ▸ hin)).2.1, ((get_spec ho2 s hs).2 hin).2.1, e]

/-- **C34 (nothing else).** The pool holds exactly the non-empty strings interned so far, each once. -/
theorem C34_contents (h : List Op) (s : Str) : s ∈ marshal (run h) ↔ s ≠ [] ∧ .intern s ∈ h := by
  have key : ∀ (h : List Op) (p : Pool), Ok p → (s ∈ (h.foldl step p).values ↔ s ∈ p.values ∨ (s ≠ [] ∧ .intern s ∈ h)) := by
    intro h
    induction h with
    | nil => intro p _; simp
    | cons o h ih =>
      intro p hp
      rw [List.foldl_cons, ih _ (ok_step hp o)]
      cases o with
      | reload => simp [step, unmarshal, marshal]
      | intern x =>
        have : s ∈ (step p (.intern x)).values ↔ s ∈ p.values ∨ (s ≠ [] ∧ s = x) := by
          show s ∈ (get p x).1.values ↔ _
          by_cases hx : x = []
          · subst hx
            unfold get; rw [if_pos rfl]
            exact ⟨.inl, fun h => h.resolve_right fun h => h.1 h.2⟩
          · by_cases hin : x ∈ p.values
            · rw [((get_spec hp x hx).1 hin).1]
              exact ⟨.inl, fun h => h.elim id fun h => h.2 ▸ hin⟩
            · rw [((get_spec hp x hx).2 hin).1, List.mem_append, List.mem_singleton]
              exact or_congr_right ⟨fun e => ⟨e ▸ hx, e⟩, fun h => h.2⟩
        rw [this]
        simp only [List.mem_cons, Op.intern.injEq]
        grind
  have := key h newPool ok_new
  simpa [newPool, run, marshal] using this

theorem C34_each_once (h : List Op) : (marshal (run h)).Nodup := (ok_run h).nodup

example : (get (run [.intern "a".toList, .intern "b".toList, .reload, .intern "a".toList]) "c".toList).2 = 2 ∧
    (get (run [.intern "a".toList, .intern "b".toList, .reload]) "b".toList).2 = 1 := by decide

/-! ## C35 -/

theorem trimStar_id {s : Str} (h : s.head? ≠ some '*') : trimStar s = s := by
  cases s with
  | nil => rfl
  | cons c s => rw [trimStar, if_neg]; intro e; exact h (by rw [e]; rfl)

theorem baseOf_eq (c : Ident) (hp : c.pkg.head? ≠ some '*') :
    baseOf c = if c.recv = [] then c.pkg ++ '.' :: c.name else c.pkg ++ '.' :: (trimStar c.recv ++ '.' :: c.name) := by
  unfold baseOf
  refine trimStar_id ?_
  split
  all_goals
    cases h : c.pkg with
    | nil => simp
    | cons x t => rw [h] at hp; simpa using hp

theorem baseOf_head (c : Ident) (hp : c.pkg.head? ≠ some '*') (t : Str) : (baseOf c ++ t).head? ≠ some '*' := by
  rw [baseOf_eq c hp]
  split
  all_goals
    cases h : c.pkg with
    | nil => simp
    | cons x t => rw [h] at hp; simpa using hp

/-- The text of an instance id. -/
theorem render_instance (c : Ident) (hp : c.pkg.head? ≠ some '*') :
    render c .site = baseOf c ++ (genericText c.generics ++ (if c.position = [] then [] else '@' :: c.position)) :=
  trimStar_id (baseOf_head c hp _)

theorem takeWhile_stop {p : Char → Bool} {a b : Str} (ha : ∀ x ∈ a, p x = true) (hb : ∀ x, b.head? = some x → p x = false) :
    (a ++ b).takeWhile p = a := by
  induction a with
  | nil =>
    cases b with
    | nil => rfl
    | cons x b => rw [List.nil_append, List.takeWhile_cons_of_neg (by simp [hb x rfl])]
  | cons x a ih =>
    rw [List.cons_append, List.takeWhile_cons_of_pos (ha x (by simp)), ih fun y hy => ha y (List.mem_cons_of_mem _ hy)]

theorem genericText_head (g : List (Str × Str)) (t : Str) :
    genericText g = [] ∨ ∃ r, genericText g ++ t = '[' :: r := by
  unfold genericText
  split
  · exact .inl rfl
  · exact .inr ⟨_, by rw [List.cons_append]⟩

/-- A name without the characters that start a suffix. -/
def Plain (s : Str) : Prop := '@' ∉ s ∧ '[' ∉ s

theorem plain_base (c : Ident) (h : Plain c.pkg ∧ Plain c.recv ∧ Plain c.name) (hp : c.pkg.head? ≠ some '*') : Plain (baseOf c) := by
  have ht : ∀ s, Plain s → Plain (trimStar s) := by
    intro s hs
    cases s with
    | nil => exact hs
    | cons x s =>
      rw [trimStar]
      split
      · exact ⟨fun hm => hs.1 (List.mem_cons_of_mem _ hm), fun hm => hs.2 (List.mem_cons_of_mem _ hm)⟩
      · exact hs
  obtain ⟨h1, h2, h3⟩ := h
  have h4 := ht _ h2
  rw [baseOf_eq c hp]
  unfold Plain at *
  split <;> simp [h1.1, h1.2, h3.1, h3.2, h4.1, h4.2]

/-- **C35 (stripping).** Stripping the base, generic or instance identifier of a call gives
`pkg.name` or `pkg.Recv.name`, whatever its type arguments and its position. -/
theorem C35_strip_partial (c : Ident) (hp : c.pkg.head? ≠ some '*') (h : Plain c.pkg ∧ Plain c.recv ∧ Plain c.name) (t : IdType) :
    (c.recv = [] → stripToBase (render c t) = c.pkg ++ ".".toList ++ c.name) ∧
    (∀ r, c.recv ≠ [] → (c.recv = r ∨ c.recv = '*' :: r) → r.head? ≠ some '*' →
      stripToBase (render c t) = c.pkg ++ ".".toList ++ r ++ ".".toList ++ c.name) := by
  have hb := plain_base c h hp
  have hplain : ∀ x ∈ baseOf c, (x != '@' && x != '[') = true := by
    intro x hx
    have h1 : x ≠ '@' := fun e => hb.1 (e ▸ hx)
    have h2 : x ≠ '[' := fun e => hb.2 (e ▸ hx)
    simp [h1, h2]
  have hstrip : stripToBase (render c t) = baseOf c := by
    unfold stripToBase
    cases t with
    | base =>
      have := takeWhile_stop (b := []) hplain (by simp)
      rwa [List.append_nil] at this
    | generic =>
      refine takeWhile_stop hplain fun x hx => ?_
      rcases genericText_head c.generics [] with he | ⟨r, he⟩
      · rw [he] at hx; cases hx
      · rw [List.append_nil] at he; rw [he] at hx; cases hx; decide
    | site =>
      rw [render_instance c hp]
      refine takeWhile_stop hplain fun x hx => ?_
      rcases genericText_head c.generics (if c.position = [] then [] else '@' :: c.position) with he | ⟨r, he⟩
      · rw [he, List.nil_append] at hx
        split at hx
        · cases hx
        · cases hx; decide
      · rw [he] at hx; cases hx; decide
  rw [hstrip, baseOf_eq c hp]
  refine ⟨fun h0 => by rw [if_pos h0]; simp, fun r h0 h1 h2 => ?_⟩
  rw [if_neg h0]
  have : trimStar c.recv = r := by
    rcases h1 with h1 | h1
    · rw [h1]; exact trimStar_id h2
    · rw [h1]; rfl
  rw [this]; simp

example : stripToBase (render ⟨"x.org/api".toList, "Get".toList, "*Store".toList, "f.go:3:4".toList, [("T".toList, "int".toList)]⟩ .site) =
    "x.org/api.Store.Get".toList := by decide

/-- **C35, negation.** A method of a generic type: the receiver is written with its type
parameters, so stripping the identifier loses the method name and no two methods of the type are
told apart. -/
theorem C35_generic_receiver :
    ∃ c d : Ident, c.name ≠ d.name ∧ stripToBase (render c .base) = stripToBase (render d .base) ∧ render c .base ≠ render d .base :=
  ⟨⟨"p".toList, "Get".toList, "Store[T]".toList, [], []⟩, ⟨"p".toList, "Put".toList, "Store[T]".toList, [], []⟩,
    by decide, by decide, by decide⟩

theorem strLe_total : TotalOrd strLe where
  trans _ _ _ := Common.strLe_ord.trans _ _ _
  total _ _ := Common.strLe_ord.total _ _
  antisymm _ _ h1 h2 := String.ofList_injective (Common.strLe_ord.antisymm _ _ h1 h2)

/-- **C35 (order of type arguments).** The identifiers do not depend on the order the type
arguments are enumerated in. -/
theorem C35_order (c : Ident) (g : List (Str × Str)) (hg : g.Perm c.generics) (t : IdType) :
    render { c with generics := g } t = render c t := by
  have e : genericText g = genericText c.generics := by
    unfold genericText
    rw [isort_eq_of_perm strLe_total (hg.map _)]
    have : g = [] ↔ c.generics = [] := ⟨fun h => by subst h; exact List.nil_perm.mp hg, fun h => by rw [h] at hg; exact List.perm_nil.mp hg⟩
    by_cases h : g = []
    · rw [if_pos h, if_pos (this.mp h)]
    · rw [if_neg h, if_neg (fun h' => h (this.mpr h'))]
  cases t with
  | base => rfl
  | generic => show baseOf _ ++ genericText g = _; rw [e]; rfl
  | site =>
    show trimStar (baseOf _ ++ (genericText g ++ _)) = _
    rw [e]; rfl

example : render ⟨"p".toList, "F".toList, [], [], [("T".toList, "int".toList), ("K".toList, "a".toList)]⟩ .generic = "p.F[K=a,T=int]".toList := by decide

theorem at_mem_join : ∀ (l : List Str), '@' ∈ joinComma l → ∃ p ∈ l, '@' ∈ p
  | [], h => by simp [joinComma] at h
  | [p], h => ⟨p, by simp, h⟩
  | p :: q :: ps, h => by
    rw [joinComma, List.mem_append, List.mem_cons] at h
    rcases h with h | h | h
    · exact ⟨p, by simp, h⟩
    · cases h
    · obtain ⟨x, hx, h⟩ := at_mem_join (q :: ps) h
      exact ⟨x, List.mem_cons_of_mem _ hx, h⟩

theorem no_at_generic (g : List (Str × Str)) (h : ∀ kv ∈ g, '@' ∉ kv.1 ∧ '@' ∉ kv.2) : '@' ∉ genericText g := by
  unfold genericText
  split
  · simp
  · intro hm
    simp only [List.mem_cons, List.mem_append, List.not_mem_nil, or_false] at hm
    rcases hm with hm | hm | hm
    · cases hm
    · obtain ⟨p, hp, hx⟩ := at_mem_join _ hm
      rw [mem_isort] at hp
      obtain ⟨kv, hkv, rfl⟩ := List.mem_map.mp hp
      rw [List.mem_append, List.mem_cons] at hx
      rcases hx with hx | hx | hx
      · exact (h kv hkv).1 hx
      · cases hx
      · exact (h kv hkv).2 hx
    · cases hm

theorem at_split {a b c d : Str} (ha : '@' ∉ a) (hc : '@' ∉ c) (h : a ++ '@' :: b = c ++ '@' :: d) : b = d := by
  rcases List.append_eq_append_iff.mp h with ⟨t, h1, h2⟩ | ⟨t, h1, h2⟩
  · cases t with
    | nil => injection h2
    | cons x t => injection h2 with h2 _; exact absurd (by rw [h1, ← h2]; simp) hc
  · cases t with
    | nil => injection h2 with _ h2; exact h2.symm
    | cons x t => injection h2 with h2 _; exact absurd (by rw [h1, ← h2]; simp) ha

/-- **C35 (positions).** Calls recorded at different positions have different instance
identifiers, whatever else they have in common. -/
theorem C35_positions (c d : Ident) (hpc : c.pkg.head? ≠ some '*') (hpd : d.pkg.head? ≠ some '*')
    (hc : '@' ∉ c.pkg ∧ '@' ∉ c.recv ∧ '@' ∉ c.name ∧ ∀ kv ∈ c.generics, '@' ∉ kv.1 ∧ '@' ∉ kv.2)
    (hd : '@' ∉ d.pkg ∧ '@' ∉ d.recv ∧ '@' ∉ d.name ∧ ∀ kv ∈ d.generics, '@' ∉ kv.1 ∧ '@' ∉ kv.2)
    (hpos : c.position ≠ d.position) : render c .site ≠ render d .site := by
  have hbase : ∀ c : Ident, c.pkg.head? ≠ some '*' → ('@' ∉ c.pkg ∧ '@' ∉ c.recv ∧ '@' ∉ c.name ∧ ∀ kv ∈ c.generics, '@' ∉ kv.1 ∧ '@' ∉ kv.2) →
      '@' ∉ baseOf c ++ genericText c.generics := by
    intro c hp hc hm
    rcases List.mem_append.mp hm with hm | hm
    · rw [baseOf_eq c hp] at hm
      split at hm
      · simp [hc.1, hc.2.2.1] at hm
      · have : '@' ∉ trimStar c.recv := by
          intro h
          cases hr : c.recv with
          | nil => rw [hr] at h; cases h
          | cons x s =>
            rw [hr, trimStar] at h
            have h2 := hc.2.1
            rw [hr] at h2
            split at h
            · exact h2 (List.mem_cons_of_mem _ h)
            · exact h2 h
        simp [hc.1, hc.2.2.1, this] at hm
    · exact no_at_generic _ hc.2.2.2 hm
  have h1 := hbase c hpc hc
  have h2 := hbase d hpd hd
  rw [render_instance c hpc, render_instance d hpd, ← List.append_assoc, ← List.append_assoc]
  intro e
  by_cases hc0 : c.position = []
  · rw [if_pos hc0, List.append_nil] at e
    by_cases hd0 : d.position = []
    · exact hpos (hc0.trans hd0.symm)
    · rw [if_neg hd0] at e; exact h1 (by rw [e]; simp)
  · rw [if_neg hc0] at e
    by_cases hd0 : d.position = []
    · rw [if_pos hd0, List.append_nil] at e; exact h2 (by rw [← e]; simp)
    · rw [if_neg hd0] at e; exact hpos (at_split h1 h2 e)

example : render ⟨"p".toList, "F".toList, [], "a.go:1:2".toList, []⟩ .site ≠ render ⟨"p".toList, "F".toList, [], "a.go:1:3".toList, []⟩ .site := by decide

/-! ### The caches of a call -/

/-- The caches agree with the call's fields. -/
structure Fresh (c : Call) : Prop where
  ident : ∀ i cache, c.identifier = some (i, cache) → i = identOf c ∧ ∀ t s, mget cache t = some s → s = render (identOf c) t
  base : c.baseCache ≠ [] → c.baseCache = render (identOf c) .base
  inst : c.instCache ≠ [] → c.instCache = render (identOf c) .site

theorem ask_fresh {c : Call} (h : Fresh c) (hi : c.identifier.isSome = true) (t : IdType) :
    (ask c t).2 = render (identOf c) t ∧ Fresh (ask c t).1 ∧ identOf (ask c t).1 = identOf c := by
  unfold ask
  cases hc : c.identifier with
  | none => rw [hc] at hi; cases hi
  | some x =>
    obtain ⟨i, cache⟩ := x
    obtain ⟨rfl, hcache⟩ := h.ident i cache hc
    simp only
    have hid : (ID cache (identOf c) t).2 = render (identOf c) t ∧ ∀ t' s, mget (ID cache (identOf c) t).1 t' = some s → s = render (identOf c) t' := by
      unfold ID
      cases hg : mget cache t with
      | some s => exact ⟨hcache t s hg, hcache⟩
      | none =>
        refine ⟨rfl, fun t' s hs => ?_⟩
        simp only at hs
        rw [mget_mset] at hs
        split at hs
        · next e => subst e; cases hs; rfl
        · exact hcache t' s hs
    refine ⟨hid.1, ⟨?_, h.base, h.inst⟩, rfl⟩
    intro i' cache' e
    cases e
    exact ⟨rfl, hid.2⟩

theorem ensure_fresh {c : Call} (h : Fresh c) : Fresh (ensure c) ∧ (ensure c).identifier.isSome = true ∧ identOf (ensure c) = identOf c := by
  unfold ensure
  split
  · next hi => exact ⟨h, hi, rfl⟩
  · refine ⟨⟨?_, h.base, h.inst⟩, rfl, rfl⟩
    intro i cache e
    cases e
    exact ⟨rfl, by simp⟩

theorem baseID_fresh {c : Call} (h : Fresh c) : (baseID c).2 = render (identOf c) .base ∧ Fresh (baseID c).1 ∧ identOf (baseID c).1 = identOf c := by
  unfold baseID
  split
  · next hb => exact ⟨h.base hb, h, rfl⟩
  · obtain ⟨h1, h2, h3⟩ := ensure_fresh h
    obtain ⟨a1, a2, a3⟩ := ask_fresh h1 h2 .base
    rw [h3] at a1 a3
    refine ⟨a1, ⟨a2.ident, fun _ => ?_, a2.inst⟩, a3⟩
    show (ask (ensure c) .base).2 = render (identOf (ask (ensure c) .base).1) .base
    rw [a1, a3]

theorem instanceID_fresh {c : Call} (h : Fresh c) :
    (instanceID c).2 = render (identOf c) .site ∧ Fresh (instanceID c).1 ∧ identOf (instanceID c).1 = identOf c := by
  unfold instanceID
  split
  · next hb => exact ⟨h.inst hb, h, rfl⟩
  · obtain ⟨h1, h2, h3⟩ := ensure_fresh h
    obtain ⟨a1, a2, a3⟩ := ask_fresh h1 h2 .site
    rw [h3] at a1 a3
    refine ⟨a1, ⟨a2.ident, a2.base, fun _ => ?_⟩, a3⟩
    show (ask (ensure c) .site).2 = render (identOf (ask (ensure c) .site).1) .site
    rw [a1, a3]

/-- **C35 (asked again).** However often and in whatever order a new call is asked for its
identifiers, it gives the ones made from its package, receiver, name, type arguments and position. -/
theorem C35_caching (pkg name recv position : Str) (g : List (Str × Str)) (qs : List Query) :
    (baseID (qs.foldl queryStep ⟨pkg, name, recv, position, g, none, [], []⟩)).2 = render ⟨pkg, name, recv, position, g⟩ .base ∧
    (instanceID (qs.foldl queryStep ⟨pkg, name, recv, position, g, none, [], []⟩)).2 = render ⟨pkg, name, recv, position, g⟩ .site := by
  have key : ∀ (qs : List Query) (c : Call), Fresh c → Fresh (qs.foldl queryStep c) ∧ identOf (qs.foldl queryStep c) = identOf c := by
    intro qs
    induction qs with
    | nil => intro c h; exact ⟨h, rfl⟩
    | cons q qs ih =>
      intro c h
      have hs : Fresh (queryStep c q) ∧ identOf (queryStep c q) = identOf c := by
        cases q with
        | base => exact (baseID_fresh h).2
        | site => exact (instanceID_fresh h).2
      obtain ⟨h1, h2⟩ := ih _ hs.1
      exact ⟨h1, h2.trans hs.2⟩
  obtain ⟨h1, h2⟩ := key qs ⟨pkg, name, recv, position, g, none, [], []⟩ ⟨by simp, by simp, by simp⟩
  exact ⟨(baseID_fresh h1).1.trans (by rw [h2]; rfl), (instanceID_fresh h1).1.trans (by rw [h2]; rfl)⟩

/-- **C35, negation.** A call whose instance identifier has been asked for — as every call of the
graph has, metadata.go:1675 — keeps it when it is copied with the type arguments of its caller: the
copy and the original, with different type arguments, have the same instance identifier. -/
theorem C35_copy_keeps_id :
    ∃ (c : Call) (g : List (Str × Str)), c.identifier = none ∧ c.baseCache = [] ∧ c.instCache = [] ∧
      (instanceID (withGenerics (instanceID c).1 g)).2 = (instanceID c).2 ∧
      render (identOf { c with generics := g }) .site ≠ (instanceID c).2 :=
  ⟨⟨"p".toList, "F".toList, [], "a.go:1:2".toList, [("T".toList, "int".toList)], none, [], []⟩,
   [("T".toList, "int".toList), ("K".toList, "string".toList)], rfl, rfl, rfl, by decide, by decide⟩

/-- A copy made before anyone asked has the identifiers of its own type arguments. -/
theorem C35_copy_partial (pkg name recv position : Str) (g g' : List (Str × Str)) :
    (instanceID (withGenerics ⟨pkg, name, recv, position, g, none, [], []⟩ g')).2 = render ⟨pkg, name, recv, position, g'⟩ .site := by
  have h : Fresh (withGenerics ⟨pkg, name, recv, position, g, none, [], []⟩ g') := by
    refine ⟨?_, by simp [withGenerics, buildIdentifier], by simp [withGenerics, buildIdentifier]⟩
    intro i cache e
    cases e
    exact ⟨rfl, by simp⟩
  exact (instanceID_fresh h).1

end Verif.IdsModel
