import Verif.ResponsesSpec
/-! # Properties C10, C11, C12 -/

namespace Verif.Responses
open Verif.Common

/-! ## C12: choosing between observations -/

theorem atLeast_refl (r : Resp) : AtLeast r r := ⟨id, fun _ => String.le_refl _⟩

theorem atLeast_trans {a b c : Resp} (h1 : AtLeast a b) (h2 : AtLeast b c) : AtLeast a c := by
  refine ⟨fun h => h1.1 (h2.1 h), fun h => ?_⟩
  have hb : a.concrete = b.concrete := by
    have := h1.1; have := h2.1
    cases ha : a.concrete <;> cases hb : b.concrete <;> cases hc : c.concrete <;> simp_all
  exact String.le_trans (h1.2 hb) (h2.2 (hb ▸ h))

theorem pick_cases (c n : Resp) : pickResp c n = c ∨ pickResp c n = n := by
  unfold pickResp; split <;> split <;> simp

theorem str_le_of_lt {a b : String} (h : a < b) : a ≤ b :=
  (String.le_total a b).elim id (fun h' => absurd h (String.not_lt.2 h'))

theorem pick_best (c n : Resp) : AtLeast (pickResp c n) c ∧ AtLeast (pickResp c n) n := by
  unfold pickResp AtLeast
  have le_refl := String.le_refl
  split
  · next h =>
    cases hc : c.concrete <;> cases hn : n.concrete <;> simp_all
  · next h =>
    split
    · next hl =>
      exact ⟨⟨by simp_all, fun _ => str_le_of_lt hl⟩, ⟨id, fun _ => le_refl _⟩⟩
    · next hl =>
      exact ⟨⟨id, fun _ => le_refl _⟩, ⟨by simp_all, fun _ => String.not_lt.1 hl⟩⟩

theorem foldl_prefer (l : List Resp) : ∀ (a : Resp),
    ∃ r, l.foldl (fun acc r => preferResp acc (some r)) (some a) = some r ∧ r ∈ a :: l ∧ ∀ c ∈ a :: l, AtLeast r c := by
  induction l with
  | nil => intro a; exact ⟨a, rfl, by simp, by simp [atLeast_refl]⟩
  | cons x l ih =>
    intro a
    obtain ⟨r, h1, h2, h3⟩ := ih (pickResp a x)
    refine ⟨r, h1, ?_, ?_⟩
    · rcases pick_cases a x with e | e <;> rw [e] at h2 <;> simp only [List.mem_cons] at h2 ⊢ <;> grind
    · intro c hc
      have hp := h3 (pickResp a x) (by simp)
      simp only [List.mem_cons] at hc
      rcases hc with rfl | rfl | hc
      · exact atLeast_trans hp (pick_best _ _).1
      · exact atLeast_trans hp (pick_best _ _).2
      · exact h3 c (by simp [hc])

/-- **C12.** The choice among observations of one response is one of them; it is concrete
if any is, and among the equally concrete ones it has the smallest type name. -/
theorem C12_best_chosen (l : List Resp) (hne : l ≠ []) :
    ∃ r, choose l = some r ∧ r ∈ l ∧ ∀ c ∈ l, AtLeast r c := by
  cases l with
  | nil => exact absurd rfl hne
  | cons a l => exact foldl_prefer l a

/-- **C12.** Whatever the order the observations are met in, a response of the same
concreteness and Go type is chosen; if observations of one Go type are equal, it is the
very same response. -/
theorem C12_order_independent (l l' : List Resp) (hp : l.Perm l') (r r' : Resp)
    (hr : choose l = some r) (hr' : choose l' = some r') :
    r.concrete = r'.concrete ∧ r.bodyType = r'.bodyType ∧
    ((∀ a ∈ l, ∀ b ∈ l, a.concrete = b.concrete → a.bodyType = b.bodyType → a = b) → r = r') := by
  have hne : l ≠ [] := by rintro rfl; cases hr
  have hne' : l' ≠ [] := by rintro rfl; cases hr'
  obtain ⟨q, h1, h2, h3⟩ := C12_best_chosen l hne
  obtain ⟨q', h1', h2', h3'⟩ := C12_best_chosen l' hne'
  rw [hr] at h1; cases h1
  rw [hr'] at h1'; cases h1'
  have a := h3 r' (hp.mem_iff.2 h2')
  have b := h3' r (hp.mem_iff.1 h2)
  have hc : r.concrete = r'.concrete := by
    have := a.1; have := b.1
    cases h : r.concrete <;> cases h' : r'.concrete <;> simp_all
  have hb : r.bodyType = r'.bodyType := String.le_antisymm (a.2 hc) (b.2 hc.symm)
  exact ⟨hc, hb, fun h => h r h2 r' (hp.mem_iff.2 h2') hc hb⟩

theorem pick_assoc (a b c : Resp) : pickResp (pickResp a b) c = pickResp a (pickResp b c) := by
  have hlt : ∀ x y z : String, x < y → y < z → x < z := fun _ _ _ => String.lt_trans
  have hle : ∀ x y z : String, ¬ x < y → ¬ y < z → ¬ x < z := by
    intro x y z h1 h2; rw [String.not_lt] at *; exact String.le_trans h2 h1
  have e1 := hlt c.bodyType b.bodyType a.bodyType
  have e2 := hle c.bodyType b.bodyType a.bodyType
  clear hlt hle
  unfold pickResp
  grind

/-- **C12.** Choosing is associative: it does not matter in which groups observations
are reconciled. -/
theorem C12_assoc (a b c : Option Resp) : preferResp (preferResp a b) c = preferResp a (preferResp b c) := by
  cases a <;> cases b <;> cases c <;> simp [preferResp, pick_assoc]

/-- **C12 fails on ties**: two observations of one Go type with different media types, and
the one seen first is documented (extractor.go:1637-1640). -/
theorem C12_tie_order_dependent :
    let a : Resp := { bodyType := "User", contentType := "application/json", status := 200 }
    let b : Resp := { bodyType := "User", contentType := "application/xml", status := 200 }
    choose [a, b] = some a ∧ choose [b, a] = some b ∧ a ≠ b := by decide

/-- **C12 for requests fails**: two equally concrete request bodies, and the one seen last
is documented (extractor.go:1586). -/
theorem C12_request_order_dependent :
    let a : Req := { schema := some { hasRef := true }, bodyType := "A" }
    let b : Req := { schema := some { hasRef := true }, bodyType := "B" }
    preferReq (some a) (some b) = some b ∧ preferReq (some b) (some a) = some a ∧ a ≠ b := by decide

/-- **C12 for requests, what holds.** A concrete request body is never displaced by a
generic one, in either order. -/
theorem C12_request_concrete_wins_partial (a b : Req) (ha : a.concrete = true) (hb : b.concrete = false) :
    preferReq (some a) (some b) = some a ∧ preferReq (some b) (some a) = some a := by
  simp [preferReq, ha, hb]

/-- Two observations of one status, one generic, met in either order. -/
example : choose [{ schema := some { type := "object" }, bodyType := "any", status := 200 },
      { schema := some { hasRef := true }, bodyType := "User", status := 200 }] =
    some { schema := some { hasRef := true }, bodyType := "User", status := 200 } := by decide

/-! ### Slots -/

theorem slot_inj {a b : Int} : slot a = slot b ↔ a = b := Int.repr_inj

theorem atLeastBody_refl (r : Resp) : AtLeastBody r r := ⟨id, fun _ => atLeast_refl r⟩

theorem atLeastBody_trans {a b c : Resp} (h1 : AtLeastBody a b) (h2 : AtLeastBody b c) : AtLeastBody a c := by
  refine ⟨fun h => h1.1 (h2.1 h), fun h => ?_⟩
  have hb : b.bodyType = "" ↔ a.bodyType = "" := by
    have x := h1.1; have y := h2.1
    by_cases ha : a.bodyType = "" <;> by_cases hb : b.bodyType = "" <;> by_cases hc : c.bodyType = "" <;> simp_all
  exact atLeast_trans (h1.2 hb) (h2.2 (h.trans hb.symm))

theorem storeIn_cases (e : Option Resp) (r : Resp) : storeIn e r = r ∨ e = some (storeIn e r) := by
  unfold storeIn
  cases e with
  | none => simp
  | some e =>
    dsimp only
    split
    · simp
    · split
      · simp
      · rcases pick_cases e r with h | h <;> simp [h]

theorem storeIn_best (e : Option Resp) (r : Resp) :
    AtLeastBody (storeIn e r) r ∧ ∀ x, e = some x → AtLeastBody (storeIn e r) x := by
  unfold storeIn
  cases e with
  | none => simp [atLeastBody_refl]
  | some e =>
    dsimp only
    split
    · next h =>
      refine ⟨atLeastBody_refl _, ?_⟩
      rintro x ⟨⟩
      exact ⟨fun _ => h.2, fun hh => absurd (hh.1 h.1) h.2⟩
    · next h =>
      split
      · next h' =>
        refine ⟨⟨fun hn => absurd h'.2 hn, fun hh => absurd (hh.1 h'.2) h'.1⟩, ?_⟩
        rintro x ⟨⟩
        exact atLeastBody_refl _
      · next h' =>
        have hb : e.bodyType = "" ↔ r.bodyType = "" := by
          by_cases h1 : e.bodyType = "" <;> by_cases h2 : r.bodyType = "" <;> simp_all
        obtain ⟨p1, p2⟩ := pick_best e r
        constructor
        · refine ⟨?_, fun _ => p2⟩
          intro hr
          rcases pick_cases e r with h | h <;> rw [h]
          · exact fun he => hr (hb.1 he)
          · exact hr
        · rintro x ⟨⟩
          refine ⟨?_, fun _ => p1⟩
          intro he
          rcases pick_cases e r with h | h <;> rw [h]
          · exact he
          · exact fun hr => he (hb.2 hr)

theorem mget_store (m : RespMap) (r : Resp) (k : String) :
    mget (store m r) k = if k = slot r.status then some (storeIn (mget m (slot r.status)) r) else mget m k := by
  unfold store; exact mget_mset _ _ _ _

theorem slotsOk_store (m : RespMap) (r : Resp) (h : SlotsOk m) : SlotsOk (store m r) := by
  refine ⟨nodup_mset _ _ _ h.1, ?_⟩
  intro k q hq
  have := mget_of_mem (nodup_mset _ _ _ h.1) hq
  rw [mget_mset] at this
  split at this
  · next e =>
    simp only [Option.some.injEq] at this
    subst this
    rcases storeIn_cases (mget m (slot r.status)) r with h' | h'
    · rw [h']; exact e
    · rw [e]
      exact h.2 _ _ (mem_of_mget h')
  · exact h.2 _ _ (mem_of_mget this)

/-- All the stores so far, and the table they leave: each slot holds one of the responses
stored for that status, at least as good as each of them. -/
theorem foldl_store (l : List Resp) : ∀ (m : RespMap), SlotsOk m →
    SlotsOk (l.foldl store m) ∧
    ∀ k, (∀ q, mget (l.foldl store m) k = some q → q ∈ l ∨ mget m k = some q) ∧
      (∀ r ∈ l, k = slot r.status → ∃ q, mget (l.foldl store m) k = some q ∧ AtLeastBody q r) ∧
      (∀ r, mget m k = some r → ∃ q, mget (l.foldl store m) k = some q ∧ AtLeastBody q r) := by
  induction l with
  | nil =>
    intro m hm
    exact ⟨hm, fun k => ⟨fun q hq => .inr hq, by simp, fun r hr => ⟨r, hr, atLeastBody_refl r⟩⟩⟩
  | cons x l ih =>
    intro m hm
    obtain ⟨h1, h2⟩ := ih (store m x) (slotsOk_store m x hm)
    refine ⟨h1, fun k => ?_⟩
    obtain ⟨a, b, c⟩ := h2 k
    rw [List.foldl_cons]
    have hb := storeIn_best (mget m (slot x.status)) x
    refine ⟨?_, ?_, ?_⟩
    · intro q hq
      rcases a q hq with h | h
      · exact .inl (by simp [h])
      · rw [mget_store] at h
        split at h
        · next e =>
          simp only [Option.some.injEq] at h
          rcases storeIn_cases (mget m (slot x.status)) x with h' | h'
          · exact .inl (by rw [← h, h']; simp)
          · exact .inr (by rw [e, h', h])
        · exact .inr h
    · intro r hr hk
      rcases List.mem_cons.1 hr with rfl | hr
      · obtain ⟨q, hq, hq'⟩ := c (storeIn (mget m (slot r.status)) r) (by rw [mget_store, if_pos hk])
        exact ⟨q, hq, atLeastBody_trans hq' hb.1⟩
      · exact b r hr hk
    · intro r hr
      by_cases e : k = slot x.status
      · obtain ⟨q, hq, hq'⟩ := c (storeIn (mget m (slot x.status)) x) (by rw [mget_store, if_pos e])
        exact ⟨q, hq, atLeastBody_trans hq' (hb.2 r (e ▸ hr))⟩
      · exact c r (by rw [mget_store, if_neg e, hr])

/-- **C12 for slots.** Whatever the order responses are stored in, each status slot holds
one of the responses stored for it, with a body if any has one, concrete if any of those
is, and then with the smallest type name. -/
theorem C12_slot_best (l : List Resp) (k : String) :
    (∀ q, mget (l.foldl store []) k = some q → q ∈ l ∧ k = slot q.status ∧
      ∀ r ∈ l, r.status = q.status → AtLeastBody q r) ∧
    (mget (l.foldl store []) k = none → ∀ r ∈ l, k ≠ slot r.status) := by
  have h0 : SlotsOk [] := ⟨by simp, by simp⟩
  obtain ⟨h1, h2⟩ := foldl_store l [] h0
  obtain ⟨a, b, _⟩ := h2 k
  constructor
  · intro q hq
    have hk := h1.2 k q (mem_of_mget hq)
    refine ⟨(a q hq).resolve_right (by simp), hk, ?_⟩
    intro r hr he
    obtain ⟨q', hq', hb⟩ := b r hr (by rw [hk, he])
    rw [hq] at hq'; cases hq'
    exact hb
  · intro hn r hr he
    obtain ⟨q', hq', _⟩ := b r hr he
    rw [hn] at hq'; cases hq'

/-! ## C10: pairing -/

theorem known_iff (f : Frag) : f.known = true ↔ 100 ≤ f.resp.status ∧ f.resp.status < 600 := by
  simp [Frag.known]

/-- What the loop variables say after the fragments `before`. -/
structure PairInv (saved : RespMap) (before : List Frag) (st : PairState) : Prop where
  resps : st.resps = (directFrom [] before).foldl store saved
  unpaired : st.unpaired = leftFrom [] before
  pending : ∀ c, mget st.pending c = claimed before c
  unresolved : ∀ c, c ∈ st.unresolved ↔ ∃ g ∈ before, g.chain = c ∧ Unreadable g

theorem directFrom_snoc (b : List Frag) : ∀ (fs : List Frag) (f : Frag),
    directFrom b (fs ++ [f]) = directFrom b fs ++ directFrom (b ++ fs) [f] := by
  intro fs
  induction fs generalizing b with
  | nil => intro f; simp [directFrom]
  | cons x fs ih =>
    intro f
    conv => { rhs; lhs; rw [directFrom] }
    rw [List.cons_append, directFrom, ih]; simp

theorem leftFrom_snoc (b : List Frag) : ∀ (fs : List Frag) (f : Frag),
    leftFrom b (fs ++ [f]) = leftFrom b fs ++ leftFrom (b ++ fs) [f] := by
  intro fs
  induction fs generalizing b with
  | nil => intro f; simp [leftFrom]
  | cons x fs ih =>
    intro f
    conv => { rhs; lhs; rw [leftFrom] }
    rw [List.cons_append, leftFrom, ih]; simp

theorem claimed_snoc_other (before : List Frag) (f : Frag) (c : String)
    (h : ¬ (f.chain = c ∧ (StatusOnly f ∨ BodyOnly f))) : claimed (before ++ [f]) c = claimed before c := by
  unfold claimed
  rw [List.filter_append]
  simp [h]

theorem claimed_snoc_status (before : List Frag) (f : Frag) (h : StatusOnly f) :
    claimed (before ++ [f]) f.chain = some f.resp.status := by
  unfold claimed
  rw [List.filter_append]
  simp [h]

theorem claimed_snoc_body (before : List Frag) (f : Frag) (h : BodyOnly f) :
    claimed (before ++ [f]) f.chain = none := by
  have hs : ¬ StatusOnly f := fun hs => h.1 hs.1
  unfold claimed
  rw [List.filter_append]
  simp [h, hs]

theorem pairInv_step (saved : RespMap) (before : List Frag) (st : PairState) (f : Frag)
    (inv : PairInv saved before st) : PairInv saved (before ++ [f]) (pairStep st f) := by
  obtain ⟨i1, i2, i3, i4⟩ := inv
  have hunres : ∀ (h : ¬ Unreadable f), ∀ c, c ∈ st.unresolved ↔ ∃ g ∈ before ++ [f], g.chain = c ∧ Unreadable g := by
    intro h c
    rw [i4]
    constructor
    · rintro ⟨g, hg, hh⟩; exact ⟨g, by simp [hg], hh⟩
    · rintro ⟨g, hg, hh⟩
      rcases List.mem_append.1 hg with hg | hg
      · exact ⟨g, hg, hh⟩
      · rw [List.mem_singleton.1 hg] at hh; exact absurd hh.2 h
  unfold pairStep
  by_cases hk : 100 ≤ f.resp.status ∧ f.resp.status < 600
  · have hkn : f.known = true := (known_iff f).2 hk
    have hnb : ¬ BodyOnly f := fun h => h.1 hk
    have hnu : ¬ Unreadable f := fun h => h.1 hk
    by_cases hb : f.resp.bodyType = ""
    · have hso : StatusOnly f := ⟨hk, hb⟩
      rw [if_pos (by simp [hkn, hb])]
      refine ⟨?_, ?_, ?_, hunres hnu⟩
      · rw [directFrom_snoc]; simp [directFrom, hk, List.foldl_append, i1]
      · rw [leftFrom_snoc]; simp [leftFrom, hnb, i2]
      · intro c
        show mget (mset st.pending f.chain f.resp.status) c = _
        rw [mget_mset]
        split
        · next e => subst e; rw [claimed_snoc_status _ _ hso]
        · next e => rw [claimed_snoc_other _ _ _ (fun h => e h.1.symm), i3]
    · have hso : ¬ StatusOnly f := fun h => hb h.2
      rw [if_neg (by simp [hb]), if_pos hkn]
      refine ⟨?_, ?_, ?_, hunres hnu⟩
      · rw [directFrom_snoc]; simp [directFrom, hk, List.foldl_append, i1]
      · rw [leftFrom_snoc]; simp [leftFrom, hnb, i2]
      · intro c
        rw [claimed_snoc_other _ _ _ (fun h => h.2.elim hso hnb)]
        exact i3 c
  · have hkn : ¬ f.known = true := fun h => hk ((known_iff f).1 h)
    have hso : ¬ StatusOnly f := fun h => hk h.1
    rw [if_neg (by simp [hkn]), if_neg hkn]
    by_cases hu : f.resp.statusUnresolved = true
    · have hun : Unreadable f := ⟨hk, hu⟩
      have hnb : ¬ BodyOnly f := fun h => by rw [h.2.1] at hu; cases hu
      rw [if_pos hu]
      refine ⟨?_, ?_, ?_, ?_⟩
      · rw [directFrom_snoc]; simp [directFrom, hk, hnb, i1]
      · rw [leftFrom_snoc]; simp [leftFrom, hnb, i2]
      · intro c
        rw [claimed_snoc_other _ _ _ (fun h => h.2.elim hso hnb)]
        exact i3 c
      · intro c
        show c ∈ f.chain :: st.unresolved ↔ _
        rw [List.mem_cons, i4]
        constructor
        · rintro (rfl | ⟨g, hg, hh⟩)
          · exact ⟨f, by simp, rfl, hun⟩
          · exact ⟨g, by simp [hg], hh⟩
        · rintro ⟨g, hg, hh⟩
          rcases List.mem_append.1 hg with hg | hg
          · exact .inr ⟨g, hg, hh⟩
          · rw [List.mem_singleton.1 hg] at hh; exact .inl hh.1.symm
    · have hu' : f.resp.statusUnresolved = false := by simpa using hu
      have hnu : ¬ Unreadable f := fun h => hu h.2
      rw [if_neg hu]
      by_cases hb : f.resp.bodyType ≠ ""
      · have hbo : BodyOnly f := ⟨hk, hu', hb⟩
        rw [if_pos hb]
        have heff : (if f.chain ∈ st.unresolved then { f.resp with implicit := 0 } else f.resp) = effective before f := by
          unfold effective
          have : (f.chain ∈ st.unresolved) ↔ (before.any fun g => decide (g.chain = f.chain ∧ Unreadable g)) = true := by
            rw [i4]; simp
          by_cases hm : f.chain ∈ st.unresolved
          · rw [if_pos hm, if_pos (this.1 hm)]
          · rw [if_neg hm, if_neg (fun h => hm (this.2 h))]
        dsimp only
        rw [heff, i3 f.chain]
        have hpend : ∀ c, mget (mdel st.pending f.chain) c = claimed (before ++ [f]) c := by
          intro c
          rw [mget_mdel]
          split
          · next e => subst e; rw [claimed_snoc_body _ _ hbo]
          · next e => rw [claimed_snoc_other _ _ _ (fun h => e h.1.symm), i3]
        cases hc : claimed before f.chain with
        | some s =>
          refine ⟨?_, ?_, hpend, hunres hnu⟩
          · rw [directFrom_snoc]; simp [directFrom, hk, hbo, hc, List.foldl_append, i1]
          · rw [leftFrom_snoc]; simp [leftFrom, hbo, hc, i2]
        | none =>
          refine ⟨?_, ?_, ?_, hunres hnu⟩
          · rw [directFrom_snoc]; simp [directFrom, hk, hbo, hc, i1]
          · rw [leftFrom_snoc]; simp [leftFrom, hbo, hc, i2]
          · intro c
            by_cases e : c = f.chain
            · subst e; rw [claimed_snoc_body _ _ hbo]; show mget st.pending _ = none; rw [i3, hc]
            · rw [claimed_snoc_other _ _ _ (fun h => e h.1.symm)]; exact i3 c
      · have hnb : ¬ BodyOnly f := fun h => hb h.2.2
        rw [if_neg hb]
        refine ⟨?_, ?_, ?_, hunres hnu⟩
        · rw [directFrom_snoc]; simp [directFrom, hk, hnb, i1]
        · rw [leftFrom_snoc]; simp [leftFrom, hnb, i2]
        · intro c
          rw [claimed_snoc_other _ _ _ (fun h => h.2.elim hso hnb)]
          exact i3 c

theorem pairInv_all (saved : RespMap) (fs : List Frag) : ∀ (before : List Frag) (st : PairState),
    PairInv saved before st → PairInv saved (before ++ fs) (fs.foldl pairStep st) := by
  induction fs with
  | nil => intro b st h; simpa using h
  | cons f fs ih =>
    intro b st h
    have := ih (b ++ [f]) _ (pairInv_step saved b st f h)
    simpa using this

theorem pairInv_run (saved : RespMap) (fs : List Frag) :
    PairInv saved fs (fs.foldl pairStep ⟨saved, [], [], []⟩) := by
  have := pairInv_all saved fs [] ⟨saved, [], [], []⟩
    ⟨rfl, rfl, fun c => by simp [claimed], fun c => by simp⟩
  simpa using this

theorem storeUnpaired_eq (fs : List Frag) : ∀ (m : RespMap) (n : Nat),
    storeUnpaired m n fs = (leftResps n fs).foldl store m := by
  induction fs with
  | nil => intro m n; rfl
  | cons f fs ih => intro m n; unfold storeUnpaired leftResps; split <;> simp [ih]

theorem minDepth_le (depths : String → Option Nat) (l : List Frag) : ∀ g ∈ l, minDepth depths l ≤ depthOf depths g := by
  match l with
  | [] => simp
  | [f] => simp [minDepth]
  | f :: g :: fs =>
    intro x hx
    have ih := minDepth_le depths (g :: fs)
    rw [minDepth]
    rcases List.mem_cons.1 hx with rfl | hx
    · exact Nat.min_le_left _ _
    · exact Nat.le_trans (Nat.min_le_right _ _) (ih x hx)

theorem minDepth_attained (depths : String → Option Nat) (l : List Frag) (h : l ≠ []) :
    ∃ g ∈ l, depthOf depths g = minDepth depths l := by
  match l, h with
  | [f], _ => exact ⟨f, by simp, rfl⟩
  | f :: g :: fs, _ =>
    obtain ⟨x, hx, hd⟩ := minDepth_attained depths (g :: fs) (by simp)
    rw [minDepth]
    by_cases hle : depthOf depths f ≤ minDepth depths (g :: fs)
    · exact ⟨f, by simp, by rw [Nat.min_eq_left hle]⟩
    · exact ⟨x, by simp at hx ⊢; exact .inr hx, by rw [hd, Nat.min_eq_right (by omega)]⟩

theorem shallow_eq (depths : String → Option Nat) (l : List Frag) :
    (l.filter fun f => decide (depthOf depths f = minDepth depths l)) = shallow depths l := by
  unfold shallow
  apply List.filter_congr
  intro f hf
  rw [decide_eq_decide]
  constructor
  · intro h g hg; rw [h]; exact minDepth_le depths l g hg
  · intro h
    obtain ⟨g, hg, he⟩ := minDepth_attained depths l (by rintro rfl; simp at hf)
    exact Nat.le_antisymm (he ▸ h g hg) (minDepth_le depths l f hf)

/-- **C10, exactly.** The response table is what results from storing, in source order:
every response with a readable status under that status, every body under the status
last written on its call chain (`claimed`), and then the remaining bodies that were
written closest to the handler, under their framework's implicit status or -1, -2, …. -/
theorem C10_pairing_exact (depths : String → Option Nat) (saved : RespMap) (cands : List Candidate) :
    pairAndFill depths saved cands =
      (directFrom [] (fragments cands) ++ leftResps 0 (shallow depths (leftFrom [] (fragments cands)))).foldl store saved := by
  unfold pairAndFill
  have inv := pairInv_run saved (fragments cands)
  dsimp only
  rw [inv.resps, inv.unpaired, shallow_eq, storeUnpaired_eq, List.foldl_append]

theorem mem_directFrom (fs : List Frag) : ∀ (b : List Frag) (r : Resp), r ∈ directFrom b fs ↔
    ∃ pre f post, fs = pre ++ f :: post ∧
      (((100 ≤ f.resp.status ∧ f.resp.status < 600) ∧ r = f.resp) ∨
       (BodyOnly f ∧ ∃ s, claimed (b ++ pre) f.chain = some s ∧ r = { effective (b ++ pre) f with status := s })) := by
  induction fs with
  | nil => intro b r; simp [directFrom]
  | cons x fs ih =>
    intro b r
    rw [directFrom, List.mem_append, ih]
    constructor
    · rintro (h | ⟨pre, f, post, e, h⟩)
      · refine ⟨[], x, fs, rfl, ?_⟩
        split at h
        · next hk => exact .inl ⟨hk, by simpa using h⟩
        · split at h
          · next hb =>
            rw [List.append_nil]
            cases hc : claimed b x.chain with
            | none => rw [hc] at h; simp at h
            | some s => rw [hc] at h; exact .inr ⟨hb, s, rfl, by simpa using h⟩
          · simp at h
      · exact ⟨x :: pre, f, post, by simp [e], by simpa using h⟩
    · rintro ⟨pre, f, post, e, h⟩
      cases pre with
      | nil =>
        simp only [List.nil_append, List.cons.injEq] at e
        obtain ⟨rfl, rfl⟩ := e
        left
        rcases h with ⟨hk, rfl⟩ | ⟨hb, s, hc, rfl⟩
        · simp [hk]
        · rw [List.append_nil] at hc
          have hk : ¬ (100 ≤ x.resp.status ∧ x.resp.status < 600) := hb.1
          rw [if_neg hk, if_pos hb, hc]; simp
      | cons y pre =>
        simp only [List.cons_append, List.cons.injEq] at e
        obtain ⟨rfl, rfl⟩ := e
        right
        exact ⟨pre, f, post, rfl, by simpa using h⟩

theorem mem_leftFrom (fs : List Frag) : ∀ (b : List Frag) (g : Frag), g ∈ leftFrom b fs ↔
    ∃ pre f post, fs = pre ++ f :: post ∧ BodyOnly f ∧ claimed (b ++ pre) f.chain = none ∧
      g = { f with resp := effective (b ++ pre) f } := by
  induction fs with
  | nil => intro b r; simp [leftFrom]
  | cons x fs ih =>
    intro b r
    rw [leftFrom, List.mem_append, ih]
    constructor
    · rintro (h | ⟨pre, f, post, e, h⟩)
      · split at h
        · next hb => exact ⟨[], x, fs, rfl, hb.1, by simpa using hb.2, by simpa using h⟩
        · simp at h
      · exact ⟨x :: pre, f, post, by simp [e], by simpa using h⟩
    · rintro ⟨pre, f, post, e, h1, h2, h3⟩
      cases pre with
      | nil =>
        simp only [List.nil_append, List.cons.injEq] at e
        obtain ⟨rfl, rfl⟩ := e
        left
        rw [List.append_nil] at h2 h3
        rw [if_pos ⟨h1, h2⟩, h3]; simp
      | cons y pre =>
        simp only [List.cons_append, List.cons.injEq] at e
        obtain ⟨rfl, rfl⟩ := e
        right
        exact ⟨pre, f, post, rfl, h1, by simpa using h2, by simpa using h3⟩

/-- Fragments come from what the matchers extracted. -/
theorem mem_fragments (cands : List Candidate) (f : Frag) (h : f ∈ fragments cands) :
    ∃ c ∈ cands, ∃ r, some r ∈ c.resps ∧ fragOf c (some r) = some f := by
  unfold fragments at h
  rw [mem_isort] at h
  have h := (dedupBy_sublist _ _).subset h
  rw [List.mem_flatMap] at h
  obtain ⟨c, hc, h⟩ := h
  rw [List.mem_filterMap] at h
  obtain ⟨o, ho, h⟩ := h
  cases o with
  | none => cases h
  | some r => exact ⟨c, hc, r, ho, h⟩

/-- Every extracted entry that says something is represented by a fragment on the same
chain with the same status and body. -/
theorem fragments_complete (cands : List Candidate) (c : Candidate) (hc : c ∈ cands) (r : Resp) (hr : some r ∈ c.resps)
    (hk : r.bodyType ≠ "" ∨ 100 ≤ r.status ∨ r.statusUnresolved = true) :
    ∃ f ∈ fragments cands, f.chain = c.chain ∧ f.site = c.site ∧
      f.resp.status = (if r.status < 0 then -1 else r.status) ∧ f.resp.bodyType = r.bodyType := by
  unfold fragments
  have hf : ∃ g, fragOf c (some r) = some g ∧ g.key = (c.chain, c.site, (if r.status < 0 then -1 else r.status), r.bodyType) := by
    unfold fragOf
    dsimp only
    rw [if_neg]
    · exact ⟨_, rfl, rfl⟩
    · rintro ⟨h1, h2, h3⟩
      rcases hk with h | h | h
      · exact h h1
      · omega
      · rw [h3] at h; cases h
  obtain ⟨g, hg, hgk⟩ := hf
  have hm : g ∈ cands.flatMap fun c => c.resps.filterMap (fragOf c) :=
    List.mem_flatMap.2 ⟨c, hc, List.mem_filterMap.2 ⟨_, hr, hg⟩⟩
  have hk := (mem_map_dedupBy Frag.key (cands.flatMap fun c => c.resps.filterMap (fragOf c)) g.key).2 (List.mem_map.2 ⟨g, hm, rfl⟩)
  obtain ⟨f, hf, hfk⟩ := List.mem_map.1 hk
  rw [hgk] at hfk
  simp only [Frag.key, Prod.mk.injEq] at hfk
  exact ⟨f, by rw [mem_isort]; exact hf, hfk.1, hfk.2.1, hfk.2.2.1, hfk.2.2.2⟩

/-- `f` stands before `g` in the source (files compared by name). -/
def Before (f g : Frag) : Prop :=
  f.file < g.file ∨ (f.file = g.file ∧ (f.line < g.line ∨ (f.line = g.line ∧ f.col < g.col)))

theorem posLe_iff (f g : Frag) : posLe f g = true ↔ ¬ Before g f := by
  unfold posLe Before
  have hirr : ∀ x : String, ¬ x < x := fun x => String.lt_irrefl x
  have hle : ∀ x y : String, x < y → ¬ y < x := fun x y h => String.not_lt.2 (str_le_of_lt h)
  have htot : ∀ x y : String, x ≠ y → ¬ x < y → y < x := by
    intro x y hne hn
    rcases String.le_total x y with h | h
    · apply Classical.not_not.1
      intro hn'
      exact hne (String.le_antisymm h (String.not_lt.1 hn))
    · apply Classical.not_not.1
      intro hn'
      exact hne (String.le_antisymm (String.not_lt.1 hn') h)
  by_cases h1 : f.file = g.file
  · simp only [h1, ne_eq, not_true_eq_false, if_false, hirr, false_or, true_and]
    by_cases h2 : f.line = g.line
    · simp [h2]
    · simp only [h2, not_false_eq_true, if_true, decide_eq_true_eq]; omega
  · simp only [h1, ne_eq, not_false_eq_true, if_true, decide_eq_true_eq, Ne.symm h1, false_and, or_false]
    exact ⟨hle _ _, fun h => Classical.not_not.1 fun hn => h (htot _ _ h1 hn)⟩

theorem before_trans' {a b c : Frag} (h1 : ¬ Before b a) (h2 : ¬ Before c b) : ¬ Before c a := by
  unfold Before at *
  have htr : ∀ x y z : String, ¬ x < y → ¬ y < z → ¬ x < z := by
    intro x y z h1 h2; rw [String.not_lt] at *; exact String.le_trans h2 h1
  have hanti : ∀ x y : String, ¬ x < y → ¬ y < x → x = y := by
    intro x y h1 h2; rw [String.not_lt] at *; exact String.le_antisymm h2 h1
  simp only [not_or, not_and] at *
  obtain ⟨p1, p2⟩ := h1
  obtain ⟨q1, q2⟩ := h2
  refine ⟨htr _ _ _ q1 p1, ?_⟩
  intro hca
  by_cases hba : b.file = a.file
  · have hcb : c.file = b.file := hca.trans hba.symm
    obtain ⟨p3, p4⟩ := p2 hba
    obtain ⟨q3, q4⟩ := q2 hcb
    refine ⟨by omega, fun h => ?_⟩
    have := p4 (by omega)
    have := q4 (by omega)
    omega
  · exfalso
    rw [hca] at q1
    exact hba (hanti _ _ p1 q1)

/-- **C10, order.** Writes are paired in source order, and each distinct write once. -/
theorem C10_source_order (cands : List Candidate) :
    (fragments cands).Pairwise (fun f g => ¬ Before g f) ∧
    (fragments cands).Pairwise (fun f g => (f.chain, f.site, f.resp.status, f.resp.bodyType) ≠ (g.chain, g.site, g.resp.status, g.resp.bodyType)) := by
  have hpre : TotalPre posLe := by
    constructor
    · intro a b c h1 h2
      rw [posLe_iff] at *
      exact before_trans' h1 h2
    · intro a b
      rw [posLe_iff, posLe_iff]
      apply Classical.not_not.1
      intro hn
      simp only [not_or, Classical.not_not] at hn
      obtain ⟨h1, h2⟩ := hn
      unfold Before at h1 h2
      have hirr : ∀ x y : String, x < y → ¬ y < x := fun x y h => String.not_lt.2 (str_le_of_lt h)
      rcases h1 with h1 | ⟨e, h1⟩
      · rcases h2 with h2 | ⟨e', _⟩
        · exact hirr _ _ h1 h2
        · rw [e'] at h1; exact String.lt_irrefl _ h1
      · rcases h2 with h2 | ⟨_, h2⟩
        · rw [e] at h2; exact String.lt_irrefl _ h2
        · omega
  constructor
  · exact (isort_pairwise hpre _).imp fun h => (posLe_iff _ _).1 h
  · have hn := dedupBy_nodup Frag.key (cands.flatMap fun c => c.resps.filterMap (fragOf c))
    have hp := (isort_perm posLe (dedupBy Frag.key (cands.flatMap fun c => c.resps.filterMap (fragOf c)))).map Frag.key
    have := hp.nodup_iff.2 hn
    rw [List.nodup_iff_pairwise_ne, List.pairwise_map] at this
    exact this

theorem slotsOk_result (depths : String → Option Nat) (saved : RespMap) (cands : List Candidate) (h : SlotsOk saved) :
    SlotsOk (pairAndFill depths saved cands) := by
  rw [C10_pairing_exact]; exact (foldl_store _ _ h).1

/-- **C10.** Every slot of the table holds a response of that status. -/
theorem C10_slots_consistent (depths : String → Option Nat) (cands : List Candidate) (k : String) (r : Resp)
    (h : mget (pairAndFill depths [] cands) k = some r) : k = slot r.status :=
  (slotsOk_result depths [] cands ⟨by simp, by simp⟩).2 k r (mem_of_mget h)

/-- **C10.** Every response the handler writes with a readable status code is documented
under exactly that code, with a body if it has one. -/
theorem C10_known_status_documented (depths : String → Option Nat) (cands : List Candidate)
    (c : Candidate) (hc : c ∈ cands) (r : Resp) (hr : some r ∈ c.resps) (hs : 100 ≤ r.status ∧ r.status < 600) :
    ∃ q, mget (pairAndFill depths [] cands) (slot r.status) = some q ∧ q.status = r.status ∧
      (r.bodyType ≠ "" → q.bodyType ≠ "") := by
  obtain ⟨f, hf, _, _, h1, h2⟩ := fragments_complete cands c hc r hr (.inr (.inl hs.1))
  rw [if_neg (by omega)] at h1
  obtain ⟨pre, post, e⟩ := List.append_of_mem hf
  have hd : f.resp ∈ directFrom [] (fragments cands) :=
    (mem_directFrom _ _ _).2 ⟨pre, f, post, e, .inl ⟨by rw [h1]; exact hs, rfl⟩⟩
  have hst := foldl_store (directFrom [] (fragments cands) ++ leftResps 0 (shallow depths (leftFrom [] (fragments cands))))
    [] ⟨by simp, by simp⟩
  obtain ⟨q, hq, hb⟩ := (hst.2 (slot r.status)).2.1 f.resp (List.mem_append_left _ hd) (by rw [h1])
  refine ⟨q, by rw [C10_pairing_exact]; exact hq, ?_, fun h => hb.1 (by rw [h2]; exact h)⟩
  exact (slot_inj.1 (hst.1.2 _ _ (mem_of_mget hq))).symm

/-- **C10.** A body written without a status is documented under the status last written
on its call chain: if `g` is a status-only write, `f` a later body-only write on the same
chain, and between them the chain has neither a status-only nor a body-only write, then
the response documented for `g`'s status has a body (`f`'s, or one at least as good). -/
theorem C10_body_takes_status (depths : String → Option Nat) (cands : List Candidate) (pre mid post : List Frag) (g f : Frag)
    (hfr : fragments cands = pre ++ g :: (mid ++ f :: post)) (hch : g.chain = f.chain) (hg : StatusOnly g) (hf : BodyOnly f)
    (hmid : ∀ x ∈ mid, x.chain = f.chain → ¬ StatusOnly x ∧ ¬ BodyOnly x) :
    ∃ q, mget (pairAndFill depths [] cands) (slot g.resp.status) = some q ∧ q.status = g.resp.status ∧
      q.bodyType ≠ "" ∧ AtLeast q f.resp := by
  have hcl : claimed (pre ++ g :: mid) f.chain = some g.resp.status := by
    have : ∀ m, (∀ x ∈ m, x.chain = f.chain → ¬ StatusOnly x ∧ ¬ BodyOnly x) →
        claimed (pre ++ [g] ++ m) f.chain = some g.resp.status := by
      intro m hm
      unfold claimed
      rw [List.filter_append, List.filter_append]
      have e1 : (m.filter fun g => decide (g.chain = f.chain ∧ (StatusOnly g ∨ BodyOnly g))) = [] := by
        rw [List.filter_eq_nil_iff]
        intro x hx hd
        simp only [decide_eq_true_eq] at hd
        exact hd.2.elim (hm x hx hd.1).1 (hm x hx hd.1).2
      rw [e1]
      simp [hch, hg]
    have := this mid hmid
    simpa using this
  have hd : ({ effective (pre ++ g :: mid) f with status := g.resp.status } : Resp) ∈ directFrom [] (fragments cands) :=
    (mem_directFrom _ _ _).2 ⟨pre ++ g :: mid, f, post, by simp [hfr], .inr ⟨hf, _, by simpa using hcl, by simp⟩⟩
  have hst := foldl_store (directFrom [] (fragments cands) ++ leftResps 0 (shallow depths (leftFrom [] (fragments cands))))
    [] ⟨by simp, by simp⟩
  obtain ⟨q, hq, hb⟩ := (hst.2 (slot g.resp.status)).2.1 _ (List.mem_append_left _ hd) rfl
  have eb : (effective (pre ++ g :: mid) f).bodyType = f.resp.bodyType := by unfold effective; split <;> rfl
  have es : (effective (pre ++ g :: mid) f).schema = f.resp.schema := by unfold effective; split <;> rfl
  have hqb : q.bodyType ≠ "" := hb.1 (by show (effective _ f).bodyType ≠ ""; rw [eb]; exact hf.2.2)
  refine ⟨q, by rw [C10_pairing_exact]; exact hq, (slot_inj.1 (hst.1.2 _ _ (mem_of_mget hq))).symm, hqb, ?_⟩
  have hal := hb.2 ⟨fun h => absurd (show (effective _ f).bodyType = "" from h) (by rw [eb]; exact hf.2.2), fun h => absurd h hqb⟩
  unfold AtLeast at hal ⊢
  simp only [Resp.concrete] at hal ⊢
  rw [es] at hal
  rw [← eb]
  exact hal

theorem mem_leftResps (fs : List Frag) : ∀ (n : Nat) (r : Resp), r ∈ leftResps n fs →
    ∃ f ∈ fs, (f.resp.implicit > 0 ∧ r = { f.resp with status := f.resp.implicit }) ∨
      (¬ f.resp.implicit > 0 ∧ ∃ j : Nat, r = { f.resp with status := -((j : Int) + 1) }) := by
  induction fs with
  | nil => intro n r h; simp [leftResps] at h
  | cons f fs ih =>
    intro n r h
    unfold leftResps at h
    split at h
    · next hi =>
      rcases List.mem_cons.1 h with rfl | h
      · exact ⟨f, by simp, .inl ⟨hi, rfl⟩⟩
      · obtain ⟨g, hg, hh⟩ := ih _ _ h; exact ⟨g, by simp [hg], hh⟩
    · next hi =>
      rcases List.mem_cons.1 h with rfl | h
      · exact ⟨f, by simp, .inr ⟨hi, n, rfl⟩⟩
      · obtain ⟨g, hg, hh⟩ := ih _ _ h; exact ⟨g, by simp [hg], hh⟩

/-- **C10, nothing invented.** A status is documented only if some write on the handler's
paths states it, or it is the implicit status of the framework pattern of a body that no
status write claimed and whose chain has no unreadable status write before it; everything
else is documented under a negative slot, i.e. as the `default` response. -/
theorem C10_no_status_invented (depths : String → Option Nat) (cands : List Candidate) (k : String) (q : Resp)
    (h : mget (pairAndFill depths [] cands) k = some q) :
    (∃ c ∈ cands, ∃ r, some r ∈ c.resps ∧ q.status = r.status ∧ 100 ≤ r.status ∧ r.status < 600) ∨
    (∃ pre f post, fragments cands = pre ++ f :: post ∧ BodyOnly f ∧ claimed pre f.chain = none ∧
      (∀ g ∈ pre, g.chain = f.chain → ¬ Unreadable g) ∧ f.resp.implicit > 0 ∧ q.status = f.resp.implicit) ∨
    q.status < 0 := by
  rw [C10_pairing_exact] at h
  have hst := foldl_store (directFrom [] (fragments cands) ++ leftResps 0 (shallow depths (leftFrom [] (fragments cands))))
    [] ⟨by simp, by simp⟩
  have hq := ((hst.2 k).1 q h).resolve_right (by simp)
  have known : ∀ f ∈ fragments cands, 100 ≤ f.resp.status → f.resp.status < 600 →
      ∃ c ∈ cands, ∃ r, some r ∈ c.resps ∧ f.resp.status = r.status ∧ 100 ≤ r.status ∧ r.status < 600 := by
    intro f hf h1 h2
    obtain ⟨c, hc, r, hr, e⟩ := mem_fragments cands f hf
    refine ⟨c, hc, r, hr, ?_⟩
    unfold fragOf at e
    dsimp only at e
    split at e
    · cases e
    · simp only [Option.some.injEq] at e
      subst e
      dsimp only at h1 h2 ⊢
      split at h1
      · omega
      · next hn => rw [if_neg hn] at h2 ⊢; exact ⟨rfl, h1, h2⟩
  rcases List.mem_append.1 hq with hq | hq
  · obtain ⟨pre, f, post, e, h⟩ := (mem_directFrom _ _ _).1 hq
    left
    rcases h with ⟨hk, rfl⟩ | ⟨hb, s, hcl, rfl⟩
    · exact known f (by rw [e]; simp) hk.1 hk.2
    · simp only [List.nil_append] at hcl
      unfold claimed at hcl
      split at hcl
      · next g hg =>
        split at hcl
        · next hso =>
          have hgm : g ∈ pre := (List.mem_filter.1 (List.mem_of_getLast? hg)).1
          simp only [Option.some.injEq] at hcl
          have := known g (by rw [e]; simp [hgm]) hso.1.1 hso.1.2
          rw [hcl] at this
          exact this
        · cases hcl
      · cases hcl
  · obtain ⟨g, hg, hh⟩ := mem_leftResps _ _ _ hq
    have hg : g ∈ leftFrom [] (fragments cands) := (List.mem_filter.1 hg).1
    obtain ⟨pre, f, post, e, hb, hcl, rfl⟩ := (mem_leftFrom _ _ _).1 hg
    simp only [List.nil_append] at hcl hh
    rcases hh with ⟨hi, rfl⟩ | ⟨_, j, rfl⟩
    · right; left
      have hun : ¬ ((pre.any fun g => decide (g.chain = f.chain ∧ Unreadable g)) = true) := by
        intro hany
        simp only [effective, hany, if_true] at hi
        exact absurd hi (by decide)
      have heff : effective pre f = f.resp := by unfold effective; rw [if_neg hun]
      rw [heff] at hi
      refine ⟨pre, f, post, e, hb, hcl, ?_, hi, by rw [heff]⟩
      intro g hg hc hu
      apply hun
      rw [List.any_eq_true]
      exact ⟨g, hg, by simp [hc, hu]⟩
    · right; right
      show -((j : Int) + 1) < 0
      omega

/-- **C10, unclaimed bodies.** A body no status write claims, written at least as close to
the handler as every other such body, is documented: under its implicit status if it has
one and no unreadable status write precedes it on its chain, else under a negative slot
(which the document shows as `default`). -/
theorem C10_unclaimed_body_documented (depths : String → Option Nat) (cands : List Candidate) (pre post : List Frag) (f : Frag)
    (hfr : fragments cands = pre ++ f :: post) (hf : BodyOnly f) (hcl : claimed pre f.chain = none)
    (hdepth : ∀ g ∈ leftFrom [] (fragments cands), depthOf depths f ≤ depthOf depths g) :
    ((f.resp.implicit > 0 ∧ (∀ g ∈ pre, g.chain = f.chain → ¬ Unreadable g)) →
      ∃ q, mget (pairAndFill depths [] cands) (slot f.resp.implicit) = some q ∧ q.bodyType ≠ "") ∧
    (¬ (f.resp.implicit > 0 ∧ (∀ g ∈ pre, g.chain = f.chain → ¬ Unreadable g)) →
      ∃ n : Int, n < 0 ∧ ∃ q, mget (pairAndFill depths [] cands) (slot n) = some q ∧ q.bodyType ≠ "" ∧ AtLeast q f.resp) := by
  have hst := foldl_store (directFrom [] (fragments cands) ++ leftResps 0 (shallow depths (leftFrom [] (fragments cands))))
    [] ⟨by simp, by simp⟩
  have hl : ({ f with resp := effective pre f } : Frag) ∈ leftFrom [] (fragments cands) :=
    (mem_leftFrom _ _ _).2 ⟨pre, f, post, hfr, hf, by simpa using hcl, by simp⟩
  have hsh : ({ f with resp := effective pre f } : Frag) ∈ shallow depths (leftFrom [] (fragments cands)) := by
    unfold shallow
    rw [List.mem_filter]
    refine ⟨hl, ?_⟩
    simp only [decide_eq_true_eq]
    exact hdepth
  have eb : (effective pre f).bodyType = f.resp.bodyType := by unfold effective; split <;> rfl
  have es : (effective pre f).schema = f.resp.schema := by unfold effective; split <;> rfl
  have hin : ∀ (l : List Frag) (n : Nat) (g : Frag), g ∈ l →
      (g.resp.implicit > 0 → ({ g.resp with status := g.resp.implicit } : Resp) ∈ leftResps n l) ∧
      (¬ g.resp.implicit > 0 → ∃ j : Nat, ({ g.resp with status := -((j : Int) + 1) } : Resp) ∈ leftResps n l) := by
    intro l
    induction l with
    | nil => intro n g h; simp at h
    | cons x l ih =>
      intro n g hg
      unfold leftResps
      rcases List.mem_cons.1 hg with rfl | hg
      · constructor
        · intro hi; rw [if_pos hi]; simp
        · intro hi; rw [if_neg hi]; exact ⟨n, by simp⟩
      · split
        · obtain ⟨a, b⟩ := ih n g hg
          exact ⟨fun h => List.mem_cons_of_mem _ (a h), fun h => by obtain ⟨j, hj⟩ := b h; exact ⟨j, List.mem_cons_of_mem _ hj⟩⟩
        · obtain ⟨a, b⟩ := ih (n + 1) g hg
          exact ⟨fun h => List.mem_cons_of_mem _ (a h), fun h => by obtain ⟨j, hj⟩ := b h; exact ⟨j, List.mem_cons_of_mem _ hj⟩⟩
  obtain ⟨h1, h2⟩ := hin _ 0 _ hsh
  have hany : (pre.any fun g => decide (g.chain = f.chain ∧ Unreadable g)) = true ↔ ¬ ∀ g ∈ pre, g.chain = f.chain → ¬ Unreadable g := by
    rw [List.any_eq_true]
    constructor
    · rintro ⟨g, hg, hd⟩ hall
      simp only [decide_eq_true_eq] at hd
      exact hall g hg hd.1 hd.2
    · intro hn
      apply Classical.not_not.1
      intro hne
      exact hn (fun g hg hc hu => hne ⟨g, hg, by simp [hc, hu]⟩)
  constructor
  · rintro ⟨hi, hall⟩
    have heff : effective pre f = f.resp := by
      unfold effective; rw [if_neg (fun h => hany.1 h hall)]
    rw [heff] at h1
    obtain ⟨q, hq, hb⟩ := (hst.2 (slot f.resp.implicit)).2.1 _ (List.mem_append_right _ (h1 hi)) rfl
    exact ⟨q, by rw [C10_pairing_exact]; exact hq, hb.1 hf.2.2⟩
  · intro hn
    have hi : ¬ (effective pre f).implicit > 0 := by
      unfold effective
      split
      · exact Int.lt_irrefl 0
      · next hna =>
        intro h
        exact hn ⟨h, by
          intro g hg hc hu
          exact hna (by rw [List.any_eq_true]; exact ⟨g, hg, by simp [hc, hu]⟩)⟩
    obtain ⟨j, hj⟩ := h2 hi
    refine ⟨-((j : Int) + 1), by omega, ?_⟩
    obtain ⟨q, hq, hb⟩ := (hst.2 (slot (-((j : Int) + 1)))).2.1 _ (List.mem_append_right _ hj) rfl
    have hqb : q.bodyType ≠ "" := hb.1 (by show (effective pre f).bodyType ≠ ""; rw [eb]; exact hf.2.2)
    refine ⟨q, by rw [C10_pairing_exact]; exact hq, hqb, ?_⟩
    have hal := hb.2 ⟨fun h => absurd (show (effective pre f).bodyType = "" from h) (by rw [eb]; exact hf.2.2), fun h => absurd h hqb⟩
    unfold AtLeast at hal ⊢
    simp only [Resp.concrete] at hal ⊢
    rw [es] at hal
    rw [← eb]
    exact hal

/-- `c.Status(404)` then `c.JSON(err)` in one branch, `c.JSON(user)` at the end. -/
def demoCands : List Candidate :=
  [⟨"h", "json@9", "H", "f.go", 9, 1, [some { bodyType := "User", status := -1, implicit := 200, schema := some { hasRef := true } }]⟩,
   ⟨"h", "status@4", "H", "f.go", 4, 1, [some { status := 404 }]⟩,
   ⟨"h", "json@5", "H", "f.go", 5, 1, [some { bodyType := "Err", status := -7, schema := some { hasRef := true } }]⟩]

example : (pairAndFill (fun _ => some 0) [] demoCands).map (fun x => (x.1, x.2.bodyType, x.2.status)) =
    [("404", "Err", 404), ("200", "User", 200)] := by decide
example : (fragments demoCands).map (fun f => (f.resp.bodyType, f.line)) = [("", 4), ("Err", 5), ("User", 9)] := by decide

/-- **C10 fails** where an unreadable status write follows a readable one on the chain:
`w.WriteHeader(400)` (in a branch that returns), `w.WriteHeader(computed())`, body. The
body is documented under 400, not under an undetermined status (extractor.go:1429-1443
never clears the pending status). -/
theorem C10_unreadable_status_ignored :
    let cands : List Candidate :=
      [⟨"h", "w@3", "H", "f.go", 3, 1, [some { status := 400 }]⟩,
       ⟨"h", "w@6", "H", "f.go", 6, 1, [some { status := -1, statusUnresolved := true }]⟩,
       ⟨"h", "j@7", "H", "f.go", 7, 1, [some { bodyType := "User", status := -1, implicit := 200 }]⟩]
    (pairAndFill (fun _ => some 0) [] cands).map (fun x => (x.1, x.2.bodyType)) = [("400", "User")] := by decide

end Verif.Responses
