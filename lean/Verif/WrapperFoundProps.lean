import Verif.WrapperApplyProps

/-!
# C84: responders, decoders and readers of the project are found and applied

The other direction of `C84_context_partial`: a method of the project that hands a parameter of its own to a
call the configuration names ends up in the configuration.
-/

namespace Verif.Wrappers
open Verif.Common

/-! ## The entry of one method -/

def entryOf (m : Id) (es : List Entry) : Option Entry := es.find? fun x => x.id = m

theorem entryOf_upsert_same {m : Id} {via : String} {f : Entry → Entry} (hf : ∀ x, (f x).id = x.id) : ∀ es : List Entry,
    ∃ y, entryOf m (upsert m via f es) = some (f y) ∧ (∀ x, entryOf m es = some x → y = x)
  | [] => ⟨{ id := m, via := via }, by unfold entryOf; simp [upsert, hf], fun x h => by cases h⟩
  | z :: zs => by
    unfold upsert
    by_cases h : z.id = m
    · refine ⟨z, ?_, ?_⟩
      · unfold entryOf; rw [if_pos h, List.find?_cons_of_pos (by simp [hf, h])]
      · intro x hx
        unfold entryOf at hx
        rw [List.find?_cons_of_pos (by simp [h])] at hx
        exact Option.some.inj hx
    · obtain ⟨y, h1, h2⟩ := entryOf_upsert_same (m := m) (via := via) hf zs
      refine ⟨y, ?_, ?_⟩
      · unfold entryOf at h1 ⊢; rw [if_neg h, List.find?_cons_of_neg (by simp [h])]; exact h1
      · intro x hx
        unfold entryOf at hx
        rw [List.find?_cons_of_neg (by simp [h])] at hx
        exact h2 x hx

theorem entryOf_upsert_other {m w : Id} {via : String} {f : Entry → Entry} (hf : ∀ x, (f x).id = x.id) (hw : w ≠ m) : ∀ es : List Entry,
    entryOf m (upsert w via f es) = entryOf m es
  | [] => by unfold entryOf; simp [upsert, hf, hw]
  | z :: zs => by
    unfold upsert
    by_cases h : z.id = w
    · have : z.id ≠ m := fun c => hw (h.symm.trans c)
      unfold entryOf
      rw [if_pos h, List.find?_cons_of_neg (by simp [hf, this]), List.find?_cons_of_neg (by simp [this])]
    · rw [if_neg h]
      have ih := entryOf_upsert_other (f := f) (via := via) hf hw zs
      unfold entryOf at ih ⊢
      rw [List.find?_cons, List.find?_cons, ih]

/-- The entry of `m` satisfies `Q`. -/
def Entered (m : Id) (Q : Entry → Prop) (es : List Entry) : Prop := ∃ x, entryOf m es = some x ∧ Q x

theorem entered_upsert {m w : Id} {Q : Entry → Prop} {via : String} {f : Entry → Entry} (hf : ∀ x, (f x).id = x.id)
    (hq : w = m → ∀ x, Q x → Q (f x)) {es : List Entry} (h : Entered m Q es) : Entered m Q (upsert w via f es) := by
  obtain ⟨x, hx, hQ⟩ := h
  by_cases hw : w = m
  · subst hw
    obtain ⟨y, h1, h2⟩ := entryOf_upsert_same (m := w) (via := via) hf es
    exact ⟨f y, h1, h2 x hx ▸ hq rfl x hQ⟩
  · exact ⟨x, (entryOf_upsert_other hf hw es).trans hx, hQ⟩

theorem entered_upsert_new {m : Id} {Q : Entry → Prop} {via : String} {f : Entry → Entry} (hf : ∀ x, (f x).id = x.id)
    (hq : ∀ x, Q (f x)) (es : List Entry) : Entered m Q (upsert m via f es) := by
  obtain ⟨y, h1, _⟩ := entryOf_upsert_same (m := m) (via := via) hf es
  exact ⟨f y, h1, hq y⟩

theorem foldl_keeps {α : Type} {Q : List Entry → Prop} {f : List Entry → α → List Entry} : ∀ (l : List α) (es : List Entry),
    (∀ a ∈ l, ∀ es, Q es → Q (f es a)) → Q es → Q (l.foldl f es)
  | [], _, _, h => h
  | a :: l, es, hf, h => foldl_keeps l _ (fun b hb => hf b (.tail _ hb)) (hf a (.head _) es h)

theorem foldl_gets {α : Type} {Q : List Entry → Prop} {f : List Entry → α → List Entry} {a : α} : ∀ (l : List α) (es : List Entry),
    (∀ b ∈ l, ∀ es, Q es → Q (f es b)) → a ∈ l → (∀ es, Q (f es a)) → Q (l.foldl f es)
  | b :: l, es, hf, ha, hn => by
    rcases List.mem_cons.1 ha with rfl | ha
    · exact foldl_keeps l _ (fun b hb => hf b (.tail _ hb)) (hn es)
    · exact foldl_gets l _ (fun b hb => hf b (.tail _ hb)) ha hn

/-! ## Three kinds of entries -/

/-- What each derivation does to the entry of `m`. -/
structure Stable (P : Prog) (m : Id) (Q : Entry → Prop) : Prop where
  request : ∀ x i, Q x → Q { x with request := some ⟨ownScope P m, some i⟩, complete := true }
  param : ∀ x l i, Q x → Q { x with param := some ⟨ownScope P m, l, false, i⟩, complete := true }

theorem deriveRequest_keeps {P : Prog} {m : Id} {Q : Entry → Prop} (hQ : Stable P m Q) (p : ReqPat) (e : Edge) {es : List Entry}
    (h : Entered m Q es) : Entered m Q (deriveRequest P p e es) := by
  unfold deriveRequest
  split
  · exact h
  · refine entered_upsert ?_ ?_ h
    · exact fun x => rfl
    · exact fun hm x hx => hm ▸ hQ.request x _ hx

theorem deriveParam_keeps {P : Prog} {m : Id} {Q : Entry → Prop} (hQ : Stable P m Q) (p : ParPat) (e : Edge) {es : List Entry}
    (h : Entered m Q es) : Entered m Q (deriveParam P p e es) := by
  unfold deriveParam
  split
  · exact h
  · split
    · exact h
    · refine entered_upsert ?_ ?_ h
      · exact fun x => rfl
      · exact fun hm x hx => hm ▸ hQ.param x _ _ hx

theorem mergeResponse_keeps {P : Prog} {m : Id} {Q : Entry → Prop} (p : RespPat) (e : Edge) {es : List Entry}
    (hr : e.caller = m → ∀ x, Q x → Q { x with
      response := some (mergeResp P p e (x.response.getD { scope := ownScope P e.caller })),
      complete := (mergeResp P p e (x.response.getD { scope := ownScope P e.caller })).body.isSome })
    (h : Entered m Q es) : Entered m Q (mergeResponse P p e es) := by
  unfold mergeResponse
  exact entered_upsert (f := _) (fun x => by rfl) hr h

/-- No response call, or one that keeps `Q`. -/
def Calm (P : Prog) (fw : Nat → Edge → Bool) (s : Seeds) (m : Id) (Q : Entry → Prop) (e : Edge) : Prop :=
  ∀ p ∈ s.resp, p.scope.hits fw e = true → e.caller = m → ∀ x, Q x → Q { x with
      response := some (mergeResp P p e (x.response.getD { scope := ownScope P e.caller })),
      complete := (mergeResp P p e (x.response.getD { scope := ownScope P e.caller })).body.isSome }

theorem visitValue_keeps {P : Prog} {fw : Nat → Edge → Bool} {s : Seeds} {m : Id} {Q : Entry → Prop} (hQ : Stable P m Q) {e : Edge}
    (hc : Calm P fw s m Q e) {es : List Entry} (h : Entered m Q es) : Entered m Q (visitValue P fw s es e) := by
  unfold visitValue
  split
  · exact h
  · simp only []
    refine foldl_keeps _ _ (fun p _ es h => deriveParam_keeps hQ p e h) ?_
    refine foldl_keeps _ _ (fun p _ es h => deriveRequest_keeps hQ p e h) ?_
    refine foldl_keeps _ _ (fun p hp es h => mergeResponse_keeps p e ?_ h) h
    obtain ⟨h1, h2⟩ := List.mem_filter.1 hp
    exact hc p h1 h2

theorem valueRound_keeps {P : Prog} {fw : Nat → Edge → Bool} {s : Seeds} {m : Id} {Q : Entry → Prop} (hQ : Stable P m Q)
    (hc : ∀ e ∈ P.edges, Calm P fw s m Q e) {es : List Entry} (h : Entered m Q es) : Entered m Q (valueRound P fw s es) := by
  unfold valueRound
  exact foldl_keeps _ _ (fun e he es h => visitValue_keeps hQ (hc e he) h) h

/-- A method answers requests: it calls something configured as a response, or a method
of that name and package that does. -/
inductive Responds (P : Prog) (fw : Nat → Edge → Bool) (cfg : List RespPat) : Id → Prop where
  | direct {e : Edge} {p : RespPat} : e ∈ P.edges → p ∈ cfg → p.scope.hits fw e = true → Responds P fw cfg e.caller
  | through {e : Edge} {w : Id} {r : String} : e ∈ P.edges → Responds P fw cfg w → (w.pkg, r) ∈ e.forms → e.name = w.name →
      Responds P fw cfg e.caller

theorem embedPass_keeps (ts : List Emb) (pkg n : String) : ∀ (names : List String), n ∈ names → n ∈ embedPass ts pkg names := by
  unfold embedPass
  induction ts with
  | nil => exact fun _ h => h
  | cons t ts ih =>
    intro names h
    rw [List.foldl_cons]
    apply ih
    split
    · exact List.mem_append_left _ h
    · exact h

theorem embedding_self (P : Prog) (w : Id) : w.recv ∈ embedding P w := by
  unfold embedding
  rw [mem_sortStrings]
  exact embedPass_keeps _ _ _ _ (embedPass_keeps _ _ _ _ (embedPass_keeps _ _ _ _ (embedPass_keeps _ _ _ _ (List.mem_singleton_self _))))

/-- Every response pattern belongs to a method that answers. -/
def AllOwn (R : Id → Prop) (es : List Entry) : Prop :=
  ∀ x ∈ es, ∀ p, x.response = some p → R x.id ∧ ∃ rs, p.scope = .own x.id.pkg rs [x.id.name] ∧ x.id.recv ∈ rs

/-- Every response seed hits only calls in methods of `R`. -/
def SeedsIn (R : Id → Prop) (P : Prog) (fw : Nat → Edge → Bool) (s : Seeds) : Prop :=
  ∀ p ∈ s.resp, ∀ e ∈ P.edges, p.scope.hits fw e = true → R e.caller

theorem allOwn_upsert {R : Id → Prop} {w : Id} {via : String} {f : Entry → Entry}
    (hid : ∀ x, (f x).id = x.id)
    (hf : ∀ x, x.id = w → (∀ p, x.response = some p → R x.id ∧ ∃ rs, p.scope = .own x.id.pkg rs [x.id.name] ∧ x.id.recv ∈ rs) →
      ∀ p, (f x).response = some p → R x.id ∧ ∃ rs, p.scope = .own x.id.pkg rs [x.id.name] ∧ x.id.recv ∈ rs) :
    ∀ {es : List Entry}, AllOwn R es → AllOwn R (upsert w via f es)
  | [], _ => by
    intro x hx
    simp only [upsert, List.mem_singleton] at hx
    subst hx
    rw [hid]
    exact hf _ rfl fun p hp => by cases hp
  | z :: zs, h => by
    intro x hx
    unfold upsert at hx
    split at hx
    · next hz =>
      cases hx with
      | head => rw [hid]; exact hf z hz (h z (.head _))
      | tail _ hx => exact h x (.tail _ hx)
    · cases hx with
      | head => exact h z (.head _)
      | tail _ hx => exact allOwn_upsert hid hf (fun y hy => h y (.tail _ hy)) x hx

theorem mergeResp_scope (P : Prog) (p : RespPat) (e : Edge) (r : RespPat) : (mergeResp P p e r).scope = r.scope := by
  unfold mergeResp
  simp only []
  split <;> split <;> split <;> rfl

theorem visitValue_own {R : Id → Prop} {P : Prog} {fw : Nat → Edge → Bool} {s : Seeds} (hs : SeedsIn R P fw s) {e : Edge} (he : e ∈ P.edges)
    {es : List Entry} (h : AllOwn R es) : AllOwn R (visitValue P fw s es e) := by
  unfold visitValue
  split
  · exact h
  · simp only []
    refine foldl_keeps _ _ (fun p _ es h => ?_) ?_
    · unfold deriveParam
      split
      · exact h
      · split
        · exact h
        · refine allOwn_upsert ?_ ?_ h
          · exact fun x => rfl
          · exact fun x _ hx p hp => hx p hp
    refine foldl_keeps _ _ (fun p _ es h => ?_) ?_
    · unfold deriveRequest
      split
      · exact h
      · refine allOwn_upsert ?_ ?_ h
        · exact fun x => rfl
        · exact fun x _ hx p hp => hx p hp
    refine foldl_keeps _ _ (fun p hp es h => ?_) h
    obtain ⟨h1, h2⟩ := List.mem_filter.1 hp
    unfold mergeResponse
    refine allOwn_upsert ?_ ?_ h
    · exact fun x => rfl
    · intro x hid hx q hq
      cases hq
      rw [mergeResp_scope]
      refine ⟨hid ▸ hs p h1 e he h2, ?_⟩
      cases hx' : x.response with
      | none => exact ⟨_, by rw [hid]; rfl, by rw [hid]; exact embedding_self P e.caller⟩
      | some r => exact (hx r hx').2

theorem valueRound_own {R : Id → Prop} {P : Prog} {fw : Nat → Edge → Bool} {s : Seeds} (hs : SeedsIn R P fw s) {es : List Entry}
    (h : AllOwn R es) : AllOwn R (valueRound P fw s es) := by
  unfold valueRound
  exact foldl_keeps _ _ (fun e he es h => visitValue_own hs he h) h

theorem seedsFrom_own {R : Id → Prop} {P : Prog} {fw : Nat → Edge → Bool}
    (hR : ∀ e ∈ P.edges, ∀ w r, R w → (w.pkg, r) ∈ e.forms → e.name = w.name → R e.caller) :
    ∀ {es : List Entry}, AllOwn R es → SeedsIn R P fw (seedsFrom es)
  | [], _, p, hp => by simp [seedsFrom] at hp
  | x :: xs, h, p, hp => by
    have ih := seedsFrom_own (fw := fw) hR (es := xs) (fun y hy => h y (.tail _ hy))
    unfold seedsFrom at hp
    simp only [] at hp
    split at hp
    · split at hp
      · next q _ _ hq =>
        cases hp with
        | head =>
          intro e he hh
          obtain ⟨hr, rs, hsc, _⟩ := h x (.head _) _ hq
          rw [hsc] at hh
          simp only [Scope.hits, Bool.and_eq_true, List.any_eq_true, List.contains_iff_mem, List.mem_singleton, beq_iff_eq] at hh
          obtain ⟨hn, f, hf, hp, _⟩ := hh
          exact hR e he x.id f.2 hr (by rw [← hp]; exact hf) hn
        | tail _ hp => exact ih p hp
      · exact ih p hp
      · exact ih p hp
      · exact ih p hp
    · exact ih p hp

/-- What the first round finds is there at the end. -/
theorem values_entered {R : Id → Prop} {P : Prog} {fw : Nat → Edge → Bool} {shuffle : List Entry → List Entry}
    (hsh : ∀ es x, x ∈ shuffle es → x ∈ es)
    (hR : ∀ e ∈ P.edges, ∀ w r, R w → (w.pkg, r) ∈ e.forms → e.name = w.name → R e.caller)
    {s : Seeds} (hs : SeedsIn R P fw s) {m : Id} {Q : Entry → Prop} (hQ : Stable P m Q)
    (hc : ∀ s' : Seeds, SeedsIn R P fw s' → ∀ e ∈ P.edges, Calm P fw s' m Q e)
    (h1 : Entered m Q (valueRound P fw s [])) : Entered m Q (values P fw shuffle s) ∧ AllOwn R (values P fw shuffle s) := by
  have rest : ∀ n s' es, SeedsIn R P fw s' → AllOwn R es → Entered m Q es →
      Entered m Q (valueRounds P fw shuffle n s' es) ∧ AllOwn R (valueRounds P fw shuffle n s' es) := by
    intro n
    induction n with
    | zero => exact fun _ _ _ ho h => ⟨h, ho⟩
    | succ n ih =>
      intro s' es hs ho h
      have h' := valueRound_keeps hQ (hc s' hs) h
      have ho' := valueRound_own hs ho
      unfold valueRounds
      simp only []
      split
      · exact ⟨h', ho'⟩
      · exact ih _ _ (seedsFrom_own hR fun x hx => ho' x (hsh _ x hx)) ho' h'
  have ho : AllOwn R (valueRound P fw s []) := valueRound_own hs fun x hx => by cases hx
  unfold values
  show Entered m Q (valueRounds P fw shuffle (3 + 1) s []) ∧ AllOwn R (valueRounds P fw shuffle (3 + 1) s [])
  unfold valueRounds
  simp only []
  split
  · exact ⟨h1, ho⟩
  · exact rest _ _ _ (seedsFrom_own hR fun x hx => ho x (hsh _ x hx)) ho h1

/-! ## From the entry to the configuration -/

theorem entry_mem {m : Id} {Q : Entry → Prop} {es : List Entry} (h : Entered m Q es) : ∃ x ∈ es, x.id = m ∧ Q x := by
  obtain ⟨x, hx, hQ⟩ := h
  unfold entryOf at hx
  exact ⟨x, List.mem_of_find?_eq_some hx, by simpa using List.find?_some hx, hQ⟩

/-- A pattern for the calls of `m`: its package, its receiver type among those named, its
name. -/
def For (m : Id) (s : Scope) : Prop := ∃ rs, s = .own m.pkg rs [m.name] ∧ m.recv ∈ rs

theorem ownScope_for (P : Prog) (m : Id) : For m (ownScope P m) := ⟨_, rfl, embedding_self P m⟩

theorem role_plain {P : Prog} (hu : Declared P) {m : Meth} (hm : m ∈ P.meths) {e : Edge} (hec : e.caller = m.id) {a i : Nat} {x : String}
    (hx : e.args[a]? = some (.node x [])) (hi : At m x i) : roleOf P e.caller e (some a) = some i := by
  obtain ⟨hne, ⟨k, hk⟩, hone⟩ := hi
  show indexOf P e.caller e.args[a]? = some i
  rw [hx, hec]
  exact C84_supplied_plain hu hm hk hne hone

theorem responds_seeds {P : Prog} {fw : Nat → Edge → Bool} (s : Seeds) : SeedsIn (Responds P fw s.resp) P fw s :=
  fun _ hp _ he hh => .direct he hp hh

theorem responds_closed {P : Prog} {fw : Nat → Edge → Bool} {cfg : List RespPat} :
    ∀ e ∈ P.edges, ∀ w r, Responds P fw cfg w → (w.pkg, r) ∈ e.forms → e.name = w.name → Responds P fw cfg e.caller :=
  fun _ he _ _ hw hf hn => .through he hw hf hn

/-- **C84.** A method of the project that hands one of its parameters, as it is, to what
is configured as a decoder, and that answers nothing itself, is a decoder after a run. -/
theorem C84_decoder_applied {P : Prog} (hu : Declared P) {fw : Nat → Edge → Bool} {shuffle : List Entry → List Entry}
    (hsh : ∀ es x, x ∈ shuffle es → x ∈ es) (c : Config) {m : Meth} (hm : m ∈ P.meths) (hin : InProject P m.id) {e : Edge}
    (he : e ∈ P.edges) (hec : e.caller = m.id) {p : ReqPat} (hp : p ∈ c.seeds.req) (hh : p.scope.hits fw e = true) {a i : Nat}
    (ha : p.body = some a) {x : String} (hx : e.args[a]? = some (.node x [])) (hi : At m x i)
    (hno : ¬Responds P fw c.seeds.resp m.id) :
    ∃ q ∈ (detectAndApply P fw shuffle c).seeds.req, For m.id q.scope := by
  have role : roleOf P e.caller e p.body = some i := ha ▸ role_plain hu hm hec hx hi
  let Q : Entry → Prop := fun x => x.complete = true ∧ ∃ q, x.request = some q ∧ For m.id q.scope
  have hQ : Stable P m.id Q := ⟨fun x i _ => ⟨rfl, _, rfl, ownScope_for P m.id⟩, fun x l i hx => ⟨rfl, hx.2⟩⟩
  have hc : ∀ s' : Seeds, SeedsIn (Responds P fw c.seeds.resp) P fw s' → ∀ e ∈ P.edges, Calm P fw s' m.id Q e := by
    intro s' hs e he q hq hh hec
    exact absurd (hec ▸ hs q hq e he hh) hno
  have h1 : Entered m.id Q (valueRound P fw c.seeds []) := by
    unfold valueRound
    refine foldl_gets (a := e) _ _ (fun e' he' es h => visitValue_keeps hQ (hc _ (responds_seeds _) e' he') h) he fun es => ?_
    unfold visitValue
    rw [if_neg (by rw [hec, (inModule_iff P _).mpr hin]; decide)]
    simp only []
    refine foldl_keeps _ _ (fun p _ es h => deriveParam_keeps hQ p e h) ?_
    refine foldl_gets (a := p) _ _ (fun p _ es h => deriveRequest_keeps hQ p e h) (List.mem_filter.2 ⟨hp, hh⟩) fun es => ?_
    unfold deriveRequest
    rw [role, hec]
    refine entered_upsert_new ?_ ?_ es
    · exact fun x => rfl
    · exact fun x => ⟨rfl, _, rfl, ownScope_for P m.id⟩
  obtain ⟨y, hy, _, hyc, q, hq, hf⟩ := entry_mem (values_entered hsh responds_closed (responds_seeds _) hQ hc h1).1
  obtain ⟨r, hr, he⟩ := (applyAll_has (groupWrappers (findWrappers P fw c.routes)) (mounts P (groupWrappers (findWrappers P fw c.routes)))
    (values P fw shuffle c.seeds) c).req y hy hyc q hq
  exact ⟨r, hr, he ▸ hf⟩

/-- **C84.** The same for what is configured as reading a parameter, when it says where
the parameter is and does not read a whole map. -/
theorem C84_reader_applied {P : Prog} (hu : Declared P) {fw : Nat → Edge → Bool} {shuffle : List Entry → List Entry}
    (hsh : ∀ es x, x ∈ shuffle es → x ∈ es) (c : Config) {m : Meth} (hm : m ∈ P.meths) (hin : InProject P m.id) {e : Edge}
    (he : e ∈ P.edges) (hec : e.caller = m.id) {p : ParPat} (hp : p ∈ c.seeds.par) (hh : p.scope.hits fw e = true)
    (hl : p.loc ≠ "") (hk : p.mapKey = false) {i : Nat}
    {x : String} (hx : e.args[p.arg]? = some (.node x [])) (hi : At m x i) (hno : ¬Responds P fw c.seeds.resp m.id) :
    ∃ q ∈ (detectAndApply P fw shuffle c).seeds.par, For m.id q.scope := by
  have role : roleOf P e.caller e (some p.arg) = some i := role_plain hu hm hec hx hi
  let Q : Entry → Prop := fun x => x.complete = true ∧ ∃ q, x.param = some q ∧ For m.id q.scope
  have hQ : Stable P m.id Q := ⟨fun x i hx => ⟨rfl, hx.2⟩, fun x l i _ => ⟨rfl, _, rfl, ownScope_for P m.id⟩⟩
  have hc : ∀ s' : Seeds, SeedsIn (Responds P fw c.seeds.resp) P fw s' → ∀ e ∈ P.edges, Calm P fw s' m.id Q e := by
    intro s' hs e he q hq hh hec
    exact absurd (hec ▸ hs q hq e he hh) hno
  have h1 : Entered m.id Q (valueRound P fw c.seeds []) := by
    unfold valueRound
    refine foldl_gets (a := e) _ _ (fun e' he' es h => visitValue_keeps hQ (hc _ (responds_seeds _) e' he') h) he fun es => ?_
    unfold visitValue
    rw [if_neg (by rw [hec, (inModule_iff P _).mpr hin]; decide)]
    simp only []
    refine foldl_gets (a := p) _ _ (fun p _ es h => deriveParam_keeps hQ p e h) (List.mem_filter.2 ⟨hp, hh⟩) fun es => ?_
    unfold deriveParam
    rw [if_neg (by simp [hl, hk]), role, hec]
    refine entered_upsert_new ?_ ?_ es
    · exact fun x => rfl
    · exact fun x => ⟨rfl, _, rfl, ownScope_for P m.id⟩
  obtain ⟨y, hy, _, hyc, q, hq, hf⟩ := entry_mem (values_entered hsh responds_closed (responds_seeds _) hQ hc h1).1
  obtain ⟨r, hr, he⟩ := (applyAll_has (groupWrappers (findWrappers P fw c.routes)) (mounts P (groupWrappers (findWrappers P fw c.routes)))
    (values P fw shuffle c.seeds) c).par y hy hyc q hq
  exact ⟨r, hr, he ▸ hf⟩

theorem mergeResp_body {P : Prog} {p : RespPat} {e : Edge} {r : RespPat} (h : r.body.isSome = true ∨ ∃ i, roleOf P e.caller e p.body = some i) :
    (mergeResp P p e r).body.isSome = true := by
  have hb : (mergeResp P p e r).body = if r.body.isSome then r.body else roleOf P e.caller e p.body := by
    unfold mergeResp
    cases h1 : r.status <;> cases h2 : r.body <;> by_cases h3 : p.deflt = 0 <;> by_cases h4 : r.deflt = 0 <;> simp [h1, h2, h3, h4]
  rw [hb]
  split
  · assumption
  · rcases h with h | ⟨i, hi⟩
    · contradiction
    · rw [hi]; rfl

/-- **C84.** A method of the project that hands one of its parameters, as it is, to what
is configured as writing a response body, is a responder after a run, whatever else
it does. -/
theorem C84_responder_applied {P : Prog} (hu : Declared P) {fw : Nat → Edge → Bool} {shuffle : List Entry → List Entry}
    (hsh : ∀ es x, x ∈ shuffle es → x ∈ es) (c : Config) {m : Meth} (hm : m ∈ P.meths) (hin : InProject P m.id) {e : Edge}
    (he : e ∈ P.edges) (hec : e.caller = m.id) {p : RespPat} (hp : p ∈ c.seeds.resp) (hh : p.scope.hits fw e = true) {a i : Nat}
    (ha : p.body = some a) {x : String} (hx : e.args[a]? = some (.node x [])) (hi : At m x i) :
    ∃ q ∈ (detectAndApply P fw shuffle c).seeds.resp, For m.id q.scope := by
  have role : roleOf P e.caller e p.body = some i := ha ▸ role_plain hu hm hec hx hi
  let Q : Entry → Prop := fun x => x.complete = true ∧ ∃ q, x.response = some q ∧ q.body.isSome = true
  have hQ : Stable P m.id Q := ⟨fun x i hx => ⟨rfl, hx.2⟩, fun x l i hx => ⟨rfl, hx.2⟩⟩
  have hc : ∀ s' : Seeds, SeedsIn (fun _ => True) P fw s' → ∀ e ∈ P.edges, Calm P fw s' m.id Q e := by
    intro s' _ e _ q _ _ _ x hx
    obtain ⟨_, r, hr, hb⟩ := hx
    have : (mergeResp P q e (x.response.getD { scope := ownScope P e.caller })).body.isSome = true := by
      rw [hr]; exact mergeResp_body (.inl hb)
    exact ⟨this, _, rfl, this⟩
  have hs : ∀ s, SeedsIn (fun _ => True) P fw s := fun _ _ _ _ _ _ => trivial
  have h1 : Entered m.id Q (valueRound P fw c.seeds []) := by
    unfold valueRound
    refine foldl_gets (a := e) _ _ (fun e' he' es h => visitValue_keeps hQ (hc _ (hs _) e' he') h) he fun es => ?_
    unfold visitValue
    rw [if_neg (by rw [hec, (inModule_iff P _).mpr hin]; decide)]
    simp only []
    refine foldl_keeps _ _ (fun p _ es h => deriveParam_keeps hQ p e h) ?_
    refine foldl_keeps _ _ (fun p _ es h => deriveRequest_keeps hQ p e h) ?_
    refine foldl_gets (a := p) _ _ (fun p hp es h => mergeResponse_keeps p e ?_ h) (List.mem_filter.2 ⟨hp, hh⟩) fun es => ?_
    · obtain ⟨h1, h2⟩ := List.mem_filter.1 hp
      exact hc _ (hs _) e he p h1 h2
    · unfold mergeResponse
      have hb := fun r => mergeResp_body (r := r) (.inr ⟨i, role⟩)
      revert hb
      rw [hec]
      intro hb
      refine entered_upsert_new ?_ ?_ es
      · exact fun x => rfl
      · exact fun x => ⟨hb _, _, rfl, hb _⟩
  obtain ⟨h2, h3⟩ := values_entered hsh (fun _ _ _ _ _ _ _ => trivial) (hs _) hQ hc h1
  obtain ⟨y, hy, hid, hyc, q, hq, hb⟩ := entry_mem h2
  obtain ⟨r, hr, he⟩ := (applyAll_has (groupWrappers (findWrappers P fw c.routes)) (mounts P (groupWrappers (findWrappers P fw c.routes)))
    (values P fw shuffle c.seeds) c).resp y hy hyc q hq (by rw [hb]; rfl)
  obtain ⟨_, rs, hrs, hmem⟩ := h3 y hy q hq
  exact ⟨r, hr, rs, by rw [he, hrs, hid], hid ▸ hmem⟩

/-! ## Cases -/

namespace Apply

/-- `func (c *Ctx) Bind(dst any) error { return json.NewDecoder(c.r.Body).Decode(dst) }`,
`func (c *Ctx) Param(name string) string { return chi.URLParam(c.r, name) }` and
`func (c *Ctx) encode(v any) { json.NewEncoder(c.w).Encode(v) }`. -/
def bindOnly : Meth := ⟨ctx "Bind", [("dst", .other)], []⟩
def threeProg : Prog :=
  ⟨"app", [bindOnly, paramMeth, encodeMeth], [], [], [fwCall (ctx "Bind") "Decode" [.id "dst"], readCall, encCall]⟩

theorem three_declared : Declared threeProg where
  unique := by
    intro m hm m' hm'
    simp only [threeProg, List.mem_cons, List.not_mem_nil, or_false] at hm hm'
    rcases hm with rfl | rfl | rfl <;> rcases hm' with rfl | rfl | rfl <;> first | (intro; rfl) | (intro h; exact absurd h (by decide))
  apart := by intro _ _ _ h; cases h

theorem three_in (n : String) : InProject threeProg (ctx n) := 
  ⟨show "Ctx" ≠ "" by decide, show "app" ≠ "" by decide, by decide, [], show "app".toList = "app".toList ++ [] by decide⟩

theorem three_quiet {w : Id} (h : Responds threeProg fw framework.resp w) : w = ctx "encode" := by
  cases h with
  | direct he hp hh =>
    have : ∀ e ∈ threeProg.edges, ∀ p ∈ framework.resp, p.scope.hits fw e = true → e.caller = ctx "encode" := by decide
    exact this _ he _ hp hh
  | through he _ hf _ =>
    have : ∀ e ∈ threeProg.edges, e.forms = [] := by decide
    rw [this _ he] at hf
    cases hf

example (sh : List Entry → List Entry) (hsh : ∀ es x, x ∈ sh es → x ∈ es) :
    (∃ q ∈ (detectAndApply threeProg fw sh { seeds := framework }).seeds.req, For (ctx "Bind") q.scope) ∧
    (∃ q ∈ (detectAndApply threeProg fw sh { seeds := framework }).seeds.par, For (ctx "Param") q.scope) ∧
    ∃ q ∈ (detectAndApply threeProg fw sh { seeds := framework }).seeds.resp, For (ctx "encode") q.scope := by
  have at0 : At bindOnly "dst" 0 := ⟨by decide, ⟨_, rfl⟩, fun i k h => by rcases i with _ | i <;> simp [bindOnly] at h ⊢⟩
  have at1 : At paramMeth "name" 0 := ⟨by decide, ⟨_, rfl⟩, fun i k h => by rcases i with _ | i <;> simp [paramMeth] at h ⊢⟩
  have at2 : At encodeMeth "v" 0 := ⟨by decide, ⟨_, rfl⟩, fun i k h => by rcases i with _ | i <;> simp [encodeMeth] at h ⊢⟩
  refine ⟨?_, ?_, ?_⟩
  · exact C84_decoder_applied three_declared hsh _ (m := bindOnly) (.head _) (three_in _) (e := fwCall (ctx "Bind") "Decode" [.id "dst"])
      (.head _) rfl (p := { scope := .configured 4, body := some 0 }) (by decide) (by decide) rfl rfl at0
      (fun h => absurd (three_quiet h) (by decide))
  · exact C84_reader_applied three_declared hsh _ (m := paramMeth) (.tail _ (.head _)) (three_in _) (e := readCall)
      (.tail _ (.head _)) rfl (p := { scope := .configured 2, loc := "path", arg := 1 }) (by decide) (by decide) (by decide) rfl rfl at1
      (fun h => absurd (three_quiet h) (by decide))
  · exact C84_responder_applied three_declared hsh _ (m := encodeMeth) (.tail _ (.tail _ (.head _))) (three_in _) (e := encCall)
      (.tail _ (.tail _ (.head _))) rfl (p := { scope := .configured 1, body := some 0 }) (by decide) (by decide) rfl rfl at2

end Apply

end Verif.Wrappers
