import Verif.ConcModel
/-!
# Properties: the shared caches are transparent under concurrency (C36)
-/

namespace Verif.ConcModel
open Verif.Common

/-- Whether a value matches a pattern, computed without caches; invalid patterns match nothing. -/
def matches' (L : Lib) (p v : String) : Bool :=
  match L.compile p with
  | none => false
  | some re => L.isMatch re v

/-- What holds of a goroutine. -/
def ThreadOk {L : Lib} (s : State L) : Thread → Prop
  | .rxDone p none => L.compile p = none
  | .rxDone p (some r) => mget s.rxCache p = some r
  | .m3 p v b | .mDone p v b => b = matches' L p v
  | .t2 id r => s.refs[r]? = some (L.parse id)
  | .tDone id r => mget s.refCache id = some r
  | _ => True

structure Inv {L : Lib} (s : State L) : Prop where
  rx : ∀ p r, mget s.rxCache p = some r → ∃ re, L.compile p = some re ∧ s.regexes[r]? = some re
  mc : ∀ p v b, cachedResult s p v = some b → b = matches' L p v
  tr : ∀ id r, mget s.refCache id = some r → s.refs[r]? = some (L.parse id)
  th : ∀ i, ThreadOk s (s.threads i)

/-- Nothing cached or made is changed from `s` to `s'`. -/
structure Keeps {L : Lib} (s s' : State L) : Prop where
  rx : ∀ p r, mget s.rxCache p = some r → mget s'.rxCache p = some r
  re : ∀ (r : Nat) x, s.regexes[r]? = some x → s'.regexes[r]? = some x
  tr : ∀ id r, mget s.refCache id = some r → mget s'.refCache id = some r
  rf : ∀ (r : Nat) x, s.refs[r]? = some x → s'.refs[r]? = some x

theorem Keeps.refl {L : Lib} (s : State L) : Keeps s s := ⟨fun _ _ h => h, fun _ _ h => h, fun _ _ h => h, fun _ _ h => h⟩
theorem Keeps.trans {L : Lib} {a b c : State L} (h : Keeps a b) (h' : Keeps b c) : Keeps a c :=
  ⟨fun p r x => h'.rx p r (h.rx p r x), fun r y x => h'.re r y (h.re r y x), fun p r x => h'.tr p r (h.tr p r x), fun r y x => h'.rf r y (h.rf r y x)⟩

theorem ThreadOk.keep {L : Lib} {s s' : State L} (hk : Keeps s s') : ∀ {t : Thread}, ThreadOk s t → ThreadOk s' t
  | .rx0 _, h | .rx1 _, h | .m0 _ _, h | .m1 _ _, h | .m2 _ _, h | .m3 _ _ _, h | .mDone _ _ _, h | .t0 _, h | .t1 _, h => h
  | .rxDone _ none, h => h
  | .rxDone _ (some _), h => hk.rx _ _ h
  | .t2 _ _, h => hk.rf _ _ h
  | .tDone _ _, h => hk.tr _ _ h

/-- Changing the shared part and moving one goroutine. -/
theorem Inv.move {L : Lib} {s s' : State L} (h : Inv s) (i : Nat) (t : Thread) (hth : s'.threads = s.threads) (hk : Keeps s s')
    (hrx : ∀ p r, mget s'.rxCache p = some r → ∃ re, L.compile p = some re ∧ s'.regexes[r]? = some re)
    (hmc : ∀ p v b, cachedResult s' p v = some b → b = matches' L p v)
    (htr : ∀ id r, mget s'.refCache id = some r → s'.refs[r]? = some (L.parse id)) (ht : ThreadOk s' t) : Inv (goto s' i t) where
  rx := hrx
  mc := hmc
  tr := htr
  th := by
    intro j
    show ThreadOk (goto s' i t) (if j = i then t else s'.threads j)
    have keep : Keeps s' (goto s' i t) := ⟨fun _ _ h => h, fun _ _ h => h, fun _ _ h => h, fun _ _ h => h⟩
    split
    · exact ht.keep keep
    · rw [hth]; exact ((h.th j).keep hk).keep keep

theorem Inv.stay {L : Lib} {s : State L} (h : Inv s) (i : Nat) (t : Thread) (ht : ThreadOk s t) : Inv (goto s i t) :=
  h.move i t rfl (Keeps.refl s) h.rx h.mc h.tr ht

theorem getElem?_snoc {α : Type} {l : List α} {n : Nat} {a b : α} (h : l[n]? = some a) : (l ++ [b])[n]? = some a := by
  obtain ⟨hl, _⟩ := List.getElem?_eq_some_iff.mp h
  rw [List.getElem?_append_left hl]; exact h

theorem locked_keeps {L : Lib} (s : State L) (p : String) : Keeps s (lockedRegex s p).1 ∧ (lockedRegex s p).1.threads = s.threads ∧
    (lockedRegex s p).1.matchCache = s.matchCache ∧ (lockedRegex s p).1.refCache = s.refCache ∧ (lockedRegex s p).1.refs = s.refs := by
  unfold lockedRegex
  cases hg : mget s.rxCache p with
  | some re => exact ⟨Keeps.refl s, rfl, rfl, rfl, rfl⟩
  | none =>
    cases L.compile p with
    | none => exact ⟨Keeps.refl s, rfl, rfl, rfl, rfl⟩
    | some re =>
      refine ⟨⟨fun q r h => ?_, fun r x h => getElem?_snoc h, fun _ _ h => h, fun _ _ h => h⟩, rfl, rfl, rfl, rfl⟩
      have : q ≠ p := fun e => by subst e; rw [hg] at h; cases h
      simp only
      rw [mget_mset_ne _ _ this]; exact h

theorem locked_ok {L : Lib} {s : State L} (h : Inv s) (p : String) :
    (∀ q r, mget (lockedRegex s p).1.rxCache q = some r → ∃ re, L.compile q = some re ∧ (lockedRegex s p).1.regexes[r]? = some re) ∧
    (match (lockedRegex s p).2 with
      | none => L.compile p = none
      | some r => mget (lockedRegex s p).1.rxCache p = some r) := by
  unfold lockedRegex
  cases hg : mget s.rxCache p with
  | some re => exact ⟨h.rx, hg⟩
  | none =>
    cases hc : L.compile p with
    | none => exact ⟨h.rx, rfl⟩
    | some re =>
      refine ⟨fun q r hq => ?_, mget_mset_self ..⟩
      simp only [mget_mset] at hq
      split at hq
      · next e =>
        cases hq; subst e
        exact ⟨re, hc, by simp⟩
      · obtain ⟨re', h1, h2⟩ := h.rx q r hq
        exact ⟨re', h1, getElem?_snoc h2⟩

theorem matched_ok {L : Lib} {s : State L} {p v : String} {r : Option Nat}
    (h : match r with | none => L.compile p = none | some r => ∃ re, L.compile p = some re ∧ s.regexes[r]? = some re) :
    matched s r v = matches' L p v := by
  cases r with
  | none => simp only [matched, matches', show L.compile p = none from h]
  | some r =>
    obtain ⟨re, h1, h2⟩ := h
    simp only [matched, matches', h1, h2]

theorem cached_store {L : Lib} (s : State L) (p v : String) (b : Bool) (q w : String) :
    cachedResult (storeMatch s p v b) q w = if q = p ∧ w = v then some b else cachedResult s q w := by
  unfold cachedResult storeMatch
  simp only [mget_mset]
  by_cases hq : q = p
  · subst hq
    simp only [if_true, Option.bind_some, mget_mset, true_and]
    split
    · rfl
    · cases mget s.matchCache q <;> rfl
  · simp only [hq, false_and, if_false]

theorem Keeps.goto {L : Lib} {s s' : State L} (h : Keeps s s') (i : Nat) (t : Thread) : Keeps s (goto s' i t) := ⟨h.rx, h.re, h.tr, h.rf⟩
theorem keeps_goto {L : Lib} (s : State L) (i : Nat) (t : Thread) : Keeps s (goto s i t) := (Keeps.refl s).goto i t

theorem step_inv {L : Lib} {s : State L} (h : Inv s) (i : Nat) : Inv (step s i) ∧ Keeps s (step s i) := by
  have hi := h.th i
  unfold step
  cases ht : s.threads i with
  | rx0 p =>
    simp only
    split
    · next re hre => exact ⟨h.stay i _ hre, keeps_goto s i _⟩
    · exact ⟨h.stay i _ trivial, keeps_goto s i _⟩
  | rx1 p =>
    simp only
    obtain ⟨k1, k2, k3, k4, k5⟩ := locked_keeps s p
    obtain ⟨l1, l2⟩ := locked_ok h p
    refine ⟨h.move i _ k2 k1 l1 (fun q v b hb => h.mc q v b (by unfold cachedResult at hb ⊢; rwa [k3] at hb)) (fun id r hr => ?_) ?_, k1.goto i _⟩
    · rw [k4] at hr; rw [k5]; exact h.tr id r hr
    · cases hr : (lockedRegex s p).2 with
      | none => rw [hr] at l2; exact l2
      | some r => rw [hr] at l2; exact l2
  | m0 p v =>
    simp only
    split
    · next b hb => exact ⟨h.stay i _ (h.mc p v b hb), keeps_goto s i _⟩
    · exact ⟨h.stay i _ trivial, keeps_goto s i _⟩
  | m1 p v =>
    simp only
    split
    · next re hre => exact ⟨h.stay i _ (matched_ok (r := some re) (h.rx p re hre)), keeps_goto s i _⟩
    · exact ⟨h.stay i _ trivial, keeps_goto s i _⟩
  | m2 p v =>
    simp only
    obtain ⟨k1, k2, k3, k4, k5⟩ := locked_keeps s p
    obtain ⟨l1, l2⟩ := locked_ok h p
    refine ⟨h.move i _ k2 k1 l1 (fun q v b hb => h.mc q v b (by unfold cachedResult at hb ⊢; rwa [k3] at hb)) (fun id r hr => ?_) ?_, k1.goto i _⟩
    · rw [k4] at hr; rw [k5]; exact h.tr id r hr
    · show matched _ _ _ = _
      apply matched_ok
      cases hr : (lockedRegex s p).2 with
      | none => rw [hr] at l2; exact l2
      | some r => rw [hr] at l2; exact l1 p r l2
  | m3 p v b =>
    simp only
    rw [ht] at hi
    refine ⟨h.move i _ rfl ⟨fun _ _ h => h, fun _ _ h => h, fun _ _ h => h, fun _ _ h => h⟩ h.rx (fun q w c hc => ?_) h.tr hi,
      ⟨fun _ _ h => h, fun _ _ h => h, fun _ _ h => h, fun _ _ h => h⟩⟩
    rw [cached_store] at hc
    split at hc
    · next e => cases hc; rw [e.1, e.2]; exact hi
    · exact h.mc q w c hc
  | t0 id =>
    simp only
    split
    · next r hr => exact ⟨h.stay i _ hr, keeps_goto s i _⟩
    · exact ⟨h.stay i _ trivial, keeps_goto s i _⟩
  | t1 id =>
    simp only
    have k : Keeps s { s with refs := s.refs ++ [L.parse id] } := ⟨fun _ _ h => h, fun _ _ h => h, fun _ _ h => h, fun _ _ h => getElem?_snoc h⟩
    refine ⟨h.move i _ rfl k h.rx h.mc (fun id' r hr => getElem?_snoc (h.tr id' r hr)) ?_, k.goto i _⟩
    simp [ThreadOk]
  | t2 id ref =>
    simp only
    rw [ht] at hi
    unfold storeRef
    cases hg : mget s.refCache id with
    | some r => exact ⟨h.stay i _ hg, keeps_goto s i _⟩
    | none =>
      have k : Keeps s { s with refCache := mset s.refCache id ref } := ⟨fun _ _ h => h, fun _ _ h => h, fun id' r hr => by
        have : id' ≠ id := fun e => by subst e; rw [hg] at hr; cases hr
        simp only; rw [mget_mset_ne _ _ this]; exact hr, fun _ _ h => h⟩
      refine ⟨h.move i _ rfl k h.rx h.mc (fun id' r hr => ?_) (mget_mset_self ..), k.goto i _⟩
      simp only [mget_mset] at hr
      split at hr
      · next e => cases hr; subst e; exact hi
      · exact h.tr id' r hr
  | rxDone p r => exact ⟨h, Keeps.refl s⟩
  | mDone p v b => exact ⟨h, Keeps.refl s⟩
  | tDone id r => exact ⟨h, Keeps.refl s⟩

theorem exec_inv {L : Lib} : ∀ (is : List Nat) {s : State L}, Inv s → Inv (exec s is) ∧ Keeps s (exec s is)
  | [], s, h => ⟨h, Keeps.refl s⟩
  | i :: is, _, h => by
    obtain ⟨h1, h2⟩ := step_inv h i
    obtain ⟨h3, h4⟩ := exec_inv is h1
    exact ⟨h3, h2.trans h4⟩

theorem start_inv (L : Lib) (req : Nat → Request) : Inv (start L req) where
  rx := by intro p r h; cases h
  mc := by intro p v b h; cases h
  tr := by intro id r h; cases h
  th := by
    intro i
    show ThreadOk _ (begin (req i))
    cases req i <;> trivial

/-! ## Requests are answered -/

/-- The request a goroutine is working on. -/
def requestOf : Thread → Request
  | .rx0 p | .rx1 p | .rxDone p _ => .regex p
  | .m0 p v | .m1 p v | .m2 p v | .m3 p v _ | .mDone p v _ => .match p v
  | .t0 id | .t1 id | .t2 id _ | .tDone id _ => .typeRef id

/-- How many steps a goroutine has left at most. -/
def left : Thread → Nat
  | .rx0 _ => 2 | .rx1 _ => 1
  | .m0 _ _ => 4 | .m1 _ _ => 3 | .m2 _ _ => 2 | .m3 _ _ _ => 1
  | .t0 _ => 3 | .t1 _ => 2 | .t2 _ _ => 1
  | _ => 0

theorem goto_thread {L : Lib} (s : State L) (i : Nat) (t : Thread) (j : Nat) : (goto s i t).threads j = if j = i then t else s.threads j := rfl

theorem step_thread {L : Lib} (s : State L) (i j : Nat) :
    requestOf ((step s i).threads j) = requestOf (s.threads j) ∧
    (j ≠ i → (step s i).threads j = s.threads j) ∧
    (j = i → left ((step s i).threads j) ≤ left (s.threads j) - 1) := by
  have k2 : ∀ p, (lockedRegex s p).1.threads = s.threads := fun p => (locked_keeps s p).2.1
  have k3 : ∀ id ref, (storeRef s id ref).1.threads = s.threads := by
    intro id ref; unfold storeRef; cases mget s.refCache id <;> rfl
  unfold step
  by_cases e : j = i
  · subst e
    cases ht : s.threads j with
    | rx0 p => simp only; split <;> simp [goto_thread, requestOf, left]
    | rx1 p => simp [goto_thread, requestOf, left]
    | m0 p v => simp only; split <;> simp [goto_thread, requestOf, left]
    | m1 p v => simp only; split <;> simp [goto_thread, requestOf, left]
    | m2 p v => simp [goto_thread, requestOf, left]
    | m3 p v b => simp [goto_thread, requestOf, left]
    | t0 id => simp only; split <;> simp [goto_thread, requestOf, left]
    | t1 id => simp [goto_thread, requestOf, left]
    | t2 id r => simp [goto_thread, requestOf, left]
    | rxDone p r => simp [ht, left]
    | mDone p v b => simp [ht, left]
    | tDone id r => simp [ht, left]
  · refine ⟨?_, fun _ => ?_, fun h => absurd h e⟩
    all_goals
      cases ht : s.threads i with
      | rx0 p => simp only; split <;> simp [goto_thread, e]
      | rx1 p => simp [goto_thread, e, k2]
      | m0 p v => simp only; split <;> simp [goto_thread, e]
      | m1 p v => simp only; split <;> simp [goto_thread, e]
      | m2 p v => simp [goto_thread, e, k2]
      | m3 p v b => simp [goto_thread, e, storeMatch]
      | t0 id => simp only; split <;> simp [goto_thread, e]
      | t1 id => simp [goto_thread, e]
      | t2 id r => simp [goto_thread, e, k3]
      | rxDone p r => rfl
      | mDone p v b => rfl
      | tDone id r => rfl

theorem exec_thread {L : Lib} : ∀ (is : List Nat) (s : State L) (j : Nat),
    requestOf ((exec s is).threads j) = requestOf (s.threads j) ∧ left ((exec s is).threads j) ≤ left (s.threads j) - is.count j
  | [], s, j => ⟨rfl, Nat.le_refl _⟩
  | i :: is, s, j => by
    obtain ⟨h1, h2, h3⟩ := step_thread s i j
    obtain ⟨h4, h5⟩ := exec_thread is (step s i) j
    refine ⟨h4.trans h1, ?_⟩
    show left ((exec (step s i) is).threads j) ≤ _
    by_cases e : j = i
    · subst e
      have := h3 rfl
      rw [List.count_cons_self]; omega
    · rw [h2 e] at h5
      rw [List.count_cons_of_ne (fun h => e h.symm)]; exact h5

/-- The answer a goroutine must get: for a pattern, an object compiled from it or the failure to
compile it; for a match, the uncached result; for a type, an object parsed from it. -/
def Answered {L : Lib} (s : State L) : Request → Thread → Prop
  | .regex p, t => (L.compile p = none ∧ t = .rxDone p none) ∨ ∃ r re, t = .rxDone p (some r) ∧ L.compile p = some re ∧ s.regexes[r]? = some re
  | .match p v, t => t = .mDone p v (matches' L p v)
  | .typeRef id, t => ∃ r, t = .tDone id r ∧ s.refs[r]? = some (L.parse id)

theorem answered_of_done {L : Lib} {s : State L} (h : Inv s) (i : Nat) (hl : left (s.threads i) = 0) : Answered s (requestOf (s.threads i)) (s.threads i) := by
  have hi := h.th i
  cases ht : s.threads i with
  | rxDone p r =>
    rw [ht] at hi
    cases r with
    | none => exact .inl ⟨hi, rfl⟩
    | some r =>
      obtain ⟨re, h1, h2⟩ := h.rx p r hi
      exact .inr ⟨r, re, rfl, h1, h2⟩
  | mDone p v b => rw [ht] at hi; exact congrArg _ hi
  | tDone id r => rw [ht] at hi; exact ⟨r, rfl, h.tr id r hi⟩
  | rx0 p => rw [ht] at hl; cases hl
  | rx1 p => rw [ht] at hl; cases hl
  | m0 p v => rw [ht] at hl; cases hl
  | m1 p v => rw [ht] at hl; cases hl
  | m2 p v => rw [ht] at hl; cases hl
  | m3 p v b => rw [ht] at hl; cases hl
  | t0 id => rw [ht] at hl; cases hl
  | t1 id => rw [ht] at hl; cases hl
  | t2 id r => rw [ht] at hl; cases hl

theorem request_begin : ∀ r, requestOf (begin r) = r ∧ left (begin r) ≤ 4
  | .regex _ => ⟨rfl, by simp [begin, left]⟩
  | .match _ _ => ⟨rfl, by simp [begin, left]⟩
  | .typeRef _ => ⟨rfl, by simp [begin, left]⟩

/-- **C36 (transparent).** Whatever goroutines there are and however they interleave, a goroutine that has
moved four times has returned, with the answer an uncached computation gives. -/
theorem C36_transparent (L : Lib) (req : Nat → Request) (is : List Nat) (i : Nat) (h : 4 ≤ is.count i) :
    Answered (exec (start L req) is) (req i) ((exec (start L req) is).threads i) := by
  obtain ⟨h1, h2⟩ := exec_thread is (start L req) i
  have hr : requestOf ((start L req).threads i) = req i := (request_begin (req i)).1
  have hl : left ((start L req).threads i) ≤ 4 := (request_begin (req i)).2
  have := answered_of_done (exec_inv is (start_inv L req)).1 i (by omega)
  rw [h1, hr] at this
  exact this

/-- **C36 (shared).** Two goroutines that looked up the same pattern, or the same type, were given the same
object. -/
theorem C36_shared (L : Lib) (req : Nat → Request) (is : List Nat) (i j : Nat) :
    (∀ p r r', (exec (start L req) is).threads i = .rxDone p r → (exec (start L req) is).threads j = .rxDone p r' → r = r') ∧
    (∀ id r r', (exec (start L req) is).threads i = .tDone id r → (exec (start L req) is).threads j = .tDone id r' → r = r') := by
  have h := (exec_inv is (start_inv L req)).1
  constructor
  · intro p r r' hi hj
    have h1 := h.th i
    have h2 := h.th j
    rw [hi] at h1
    rw [hj] at h2
    cases r with
    | none => cases r' with
      | none => rfl
      | some r' => obtain ⟨re, e, _⟩ := h.rx p r' h2; rw [show L.compile p = none from h1] at e; cases e
    | some r => cases r' with
      | none => obtain ⟨re, e, _⟩ := h.rx p r h1; rw [show L.compile p = none from h2] at e; cases e
      | some r' => have h1 : mget _ p = some r := h1; have h2 : mget _ p = some r' := h2; rw [h1] at h2; exact h2
  · intro id r r' hi hj
    have h1 := h.th i
    have h2 := h.th j
    rw [hi] at h1
    rw [hj] at h2
    have h1 : mget _ id = some r := h1
    have h2 : mget _ id = some r' := h2
    rw [h1] at h2; cases h2; rfl

/-- **C36 (stable).** What is cached for a pattern or a type stays cached, whatever happens later. -/
theorem C36_stable (L : Lib) (req : Nat → Request) (is is' : List Nat) :
    (∀ p r, mget (exec (start L req) is).rxCache p = some r → mget (exec (exec (start L req) is) is').rxCache p = some r) ∧
    (∀ id r, mget (exec (start L req) is).refCache id = some r → mget (exec (exec (start L req) is) is').refCache id = some r) ∧
    (∀ p v b b', cachedResult (exec (start L req) is) p v = some b → cachedResult (exec (exec (start L req) is) is') p v = some b' → b = b') := by
  have h := (exec_inv is (start_inv L req)).1
  obtain ⟨h1, h2⟩ := exec_inv is' h
  exact ⟨h2.rx, h2.tr, fun p v b b' hb hb' => (h.mc p v b hb).trans (h1.mc p v b' hb').symm⟩

/-- Goroutines asking at once for one pattern, for one type (both parse it) and for a bad pattern. -/
def toy : Lib := ⟨String, Nat, fun p => if p = "(" then none else some p, fun re v => re == v, fun n => n⟩
def toyReq : Nat → Request
  | 0 => .match "a" "a"
  | 1 => .regex "a"
  | 2 => .typeRef 7
  | 3 => .typeRef 7
  | _ => .regex "("

example : (exec (start toy toyReq) [0, 1, 0, 0, 1, 2, 3, 2, 3, 2, 3, 0]).threads 0 = .mDone "a" "a" true ∧
    (exec (start toy toyReq) [0, 1, 0, 0, 1, 2, 3, 2, 3, 2, 3, 0]).threads 1 = .rxDone "a" (some 0) ∧
    (exec (start toy toyReq) [0, 1, 0, 0, 1, 2, 3, 2, 3, 2, 3, 0]).threads 2 = .tDone 7 0 ∧
    (exec (start toy toyReq) [0, 1, 0, 0, 1, 2, 3, 2, 3, 2, 3, 0]).threads 3 = .tDone 7 0 ∧
    (exec (start toy toyReq) [0, 1, 0, 0, 1, 2, 3, 2, 3, 2, 3, 0]).refs = ([7, 7] : List Nat) := ⟨rfl, rfl, rfl, rfl, rfl⟩

/-- **C36, negation (string pool).** The string pool behind the type and position lookups has no lock: two
goroutines interning different strings at the same time can be given the same index. -/
theorem C36_pool_race :
    (poolExec ⟨[], [], [.g0 "a", .g0 "b"]⟩ [0, 1, 0, 1, 0, 1, 0, 1]).threads = [.gDone "a" 0, .gDone "b" 0] ∧
    (poolExec ⟨[], [], [.g0 "a", .g0 "b"]⟩ [0, 0, 0, 0, 1, 1, 1, 1]).threads = [.gDone "a" 0, .gDone "b" 1] := by decide

end Verif.ConcModel
