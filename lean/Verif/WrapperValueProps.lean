import Verif.WrapperRouteProps
import Verif.ValidateProps

/-!
# C84: the project's own contexts, grouping and applying

Responders, decoders and parameter readers of the project; whether the result depends
on the order in which maps are iterated; what is done to the configuration.
-/

namespace Verif.Wrappers
open Verif.Common

/-! ## Specification -/

/-- The type `a` of the package embeds `b`, directly or through others. -/
inductive EmbedsStar (P : Prog) (pkg : String) : String → String → Prop where
  | same (a : String) : EmbedsStar P pkg a a
  | embeds (t : Emb) (a b : String) : t ∈ P.types → t.pkg = pkg → a ∈ t.embeds → EmbedsStar P pkg a b → EmbedsStar P pkg t.name b

/-- The call is one of the method `w`, on its own type or on one that embeds it. -/
def CallsOf (P : Prog) (e : Edge) (w : Id) : Prop :=
  e.name = w.name ∧ ∃ t, (w.pkg, t) ∈ e.forms ∧ EmbedsStar P w.pkg t w.recv

/-- The four things a context method may hand on. -/
inductive Role where
  | status | body | input | name
deriving DecidableEq

/-- Calling `w` with `vs` hands the value `v` to the framework; `role e` is the
position where a call of the framework takes it. -/
inductive Feeds {V : Type} (P : Prog) (role : Edge → Option Nat) (ev : Meth → List V → Expr → V → Prop) :
    Id → List V → V → Prop where
  | direct (m : Meth) (e : Edge) (vs : List V) (i : Nat) (a : Expr) (v : V) :
      m ∈ P.meths → e ∈ P.edges → e.caller = m.id → role e = some i → e.args[i]? = some a → ev m vs a v →
      Feeds P role ev m.id vs v
  | through (m : Meth) (e : Edge) (w : Id) (vs ws : List V) (v : V) :
      m ∈ P.meths → e ∈ P.edges → e.caller = m.id → CallsOf P e w →
      (∀ (k : Nat) (v : V), ws[k]? = some v → ∃ a, e.args[k]? = some a ∧ ev m vs a v) →
      Feeds P role ev w ws v → Feeds P role ev m.id vs v

/-- The methods that hand something on. -/
inductive Feeder (P : Prog) (role : Edge → Option Nat) : Id → Prop where
  | direct (e : Edge) : e ∈ P.edges → role e ≠ none → Feeder P role e.caller
  | through (e : Edge) (w : Id) : e ∈ P.edges → CallsOf P e w → Feeder P role w → Feeder P role e.caller

/-- The call hands something on. -/
def Hands (P : Prog) (role : Edge → Option Nat) (e : Edge) : Prop := role e ≠ none ∨ ∃ w, CallsOf P e w ∧ Feeder P role w

/-- As `Plain`, for one role. -/
structure PlainRole (P : Prog) (role : Edge → Option Nat) : Prop where
  declared : Declared P
  once : ∀ e ∈ P.edges, ∀ e' ∈ P.edges, e.caller = e'.caller → Hands P role e → Hands P role e' → e = e'
  target : ∀ e ∈ P.edges, ∀ w w', CallsOf P e w → CallsOf P e w' → Feeder P role w → Feeder P role w' → w = w'
  framework : ∀ e ∈ P.edges, ∀ w, role e ≠ none → CallsOf P e w → ¬ Feeder P role w
  args : ∀ m ∈ P.meths, ∀ e ∈ P.edges, e.caller = m.id → Hands P role e → ∀ a ∈ e.args,
    (∃ x k, (x, k) ∈ m.params ∧ a = .node x []) ∨
    ∀ x k, (x, k) ∈ m.params → ¬ Reaches (fun y v => (y, v) ∈ m.assigns) 3 a x

/-- The position of a role in what is derived for a method. -/
def position (r : Role) (x : Entry) : Option Nat :=
  match r with
  | .status => x.response.bind (·.status)
  | .body => x.response.bind (·.body)
  | .input => x.request.bind (·.body)
  | .name => x.param.map (·.arg)

/-- The calls and positions that patterns name for a role. -/
def named (r : Role) (s : Seeds) : List (Scope × Option Nat) :=
  match r with
  | .status => s.resp.map fun p => (p.scope, p.status)
  | .body => s.resp.map fun p => (p.scope, p.body)
  | .input => s.req.map fun p => (p.scope, p.body)
  | .name => (s.par.filter fun p => p.loc != "" && !p.mapKey).map fun p => (p.scope, some p.arg)

/-- The configured patterns describe the framework, as far as the role goes. -/
def FaithfulRole (P : Prog) (fw : Nat → Edge → Bool) (role : Edge → Option Nat) (r : Role) (s : Seeds) : Prop :=
  ∀ q ∈ named r s, ∃ k, q.1 = .configured k ∧ ∀ e ∈ P.edges, fw k e = true → ∀ i, q.2 = some i → role e = some i

/-! ## Helper lemmas: embedding -/

theorem embedPass_sound {P : Prog} {pkg b : String} : ∀ (ts : List Emb) (names : List String), (∀ t ∈ ts, t ∈ P.types) →
    (∀ n ∈ names, EmbedsStar P pkg n b) → ∀ n ∈ embedPass ts pkg names, EmbedsStar P pkg n b
  | [], names, _, h, n, hn => h n hn
  | t :: ts, names, ht, h, n, hn => by
    unfold embedPass at hn
    rw [List.foldl_cons] at hn
    refine embedPass_sound ts _ (fun t' h' => ht t' (.tail _ h')) ?_ n hn
    intro m hm
    split at hm
    · rename_i hc
      simp only [Bool.and_eq_true, beq_iff_eq, List.any_eq_true, List.contains_iff_mem] at hc
      obtain ⟨⟨h1, _⟩, a, ha, ha'⟩ := hc
      simp only [List.mem_append, List.mem_singleton] at hm
      rcases hm with hm | rfl
      · exact h m hm
      · exact .embeds t a b (ht t (.head _)) h1 ha (h a ha')
    · exact h m hm

theorem embedding_sound {P : Prog} {w : Id} {t : String} (h : t ∈ embedding P w) : EmbedsStar P w.pkg t w.recv := by
  unfold embedding at h
  rw [mem_sortStrings] at h
  have step : ∀ names : List String, (∀ n ∈ names, EmbedsStar P w.pkg n w.recv) →
      ∀ n ∈ embedPass P.types w.pkg names, EmbedsStar P w.pkg n w.recv :=
    fun names hn => embedPass_sound P.types names (fun _ h => h) hn
  exact step _ (step _ (step _ (step _ (by
    intro n hn
    rw [List.mem_singleton] at hn
    subst hn
    exact .same _)))) t h

theorem ownScope_hits {P : Prog} {fw : Nat → Edge → Bool} {e : Edge} {w : Id} (h : (ownScope P w).hits fw e = true) :
    CallsOf P e w := by
  unfold ownScope Scope.hits at h
  simp only [Bool.and_eq_true, List.contains_iff_mem, List.mem_singleton, List.any_eq_true, beq_iff_eq] at h
  obtain ⟨h1, f, hf, h2, h3⟩ := h
  refine ⟨h1, f.2, ?_, embedding_sound h3⟩
  rw [← h2]
  exact hf

/-! ## Helper lemmas: one round -/

/-- The patterns of an entry are those of its method, and the position of the role
satisfies `ok`. -/
def Inv (P : Prog) (r : Role) (ok : Id → Nat → Prop) (x : Entry) : Prop :=
  (∀ p, x.response = some p → p.scope = ownScope P x.id) ∧
  (∀ p, x.request = some p → p.scope = ownScope P x.id) ∧
  (∀ p, x.param = some p → p.scope = ownScope P x.id) ∧
  ∀ i, position r x = some i → ok x.id i

theorem inv_empty (P : Prog) (r : Role) (ok : Id → Nat → Prop) (w : Id) (via : String) : Inv P r ok { id := w, via := via } := by
  refine ⟨fun p h => (by cases h), fun p h => (by cases h), fun p h => (by cases h), ?_⟩
  intro i h
  cases r <;> cases h

theorem upsert_inv {P : Prog} {r : Role} {ok : Id → Nat → Prop} {w : Id} {via : String} {f : Entry → Entry}
    (hf : ∀ x, x.id = w → Inv P r ok x → Inv P r ok (f x)) : ∀ (es : List Entry), (∀ x ∈ es, Inv P r ok x) →
    ∀ x ∈ upsert w via f es, Inv P r ok x
  | [], _, x, hx => by
    simp only [upsert, List.mem_singleton] at hx
    subst hx
    exact hf _ rfl (inv_empty P r ok w via)
  | y :: ys, h, x, hx => by
    unfold upsert at hx
    split at hx
    · rename_i hy
      cases hx with
      | head => exact hf y hy (h y (.head _))
      | tail _ hx => exact h x (.tail _ hx)
    · cases hx with
      | head => exact h y (.head _)
      | tail _ hx => exact upsert_inv hf ys (fun x hx => h x (.tail _ hx)) x hx

/-- What the patterns named for the role give at the call `e` satisfies `ok`. -/
def StepOk (P : Prog) (fw : Nat → Edge → Bool) (r : Role) (ok : Id → Nat → Prop) (s : Seeds) (e : Edge) : Prop :=
  ∀ q ∈ named r s, q.1.hits fw e = true → ∀ i, roleOf P e.caller e q.2 = some i → ok e.caller i

theorem mergeResp_parts (P : Prog) (inner : RespPat) (e : Edge) (r : RespPat) :
    (mergeResp P inner e r).scope = r.scope ∧
    ((mergeResp P inner e r).status = r.status ∨ (mergeResp P inner e r).status = roleOf P e.caller e inner.status) ∧
    ((mergeResp P inner e r).body = r.body ∨ (mergeResp P inner e r).body = roleOf P e.caller e inner.body) := by
  unfold mergeResp
  simp only
  split <;> split <;> split <;> simp

theorem mergeResponse_inv {P : Prog} {r : Role} {ok : Id → Nat → Prop} {fw : Nat → Edge → Bool} {s : Seeds} {e : Edge}
    (hs : StepOk P fw r ok s e) {p : RespPat} (hp : p ∈ s.resp) (hh : p.scope.hits fw e = true) {es : List Entry}
    (h : ∀ x ∈ es, Inv P r ok x) : ∀ x ∈ mergeResponse P p e es, Inv P r ok x := by
  unfold mergeResponse
  refine upsert_inv ?_ es h
  intro x hid hx
  obtain ⟨h1, h2, h3, h4⟩ := hx
  obtain ⟨k1, k2, k3⟩ := mergeResp_parts P p e (x.response.getD { scope := ownScope P e.caller })
  simp only
  generalize mergeResp P p e (x.response.getD { scope := ownScope P e.caller }) = r' at k1 k2 k3
  refine ⟨?_, h2, h3, ?_⟩
  · intro q hq
    cases hq
    rw [k1]
    cases hr : x.response with
    | none => simp only [Option.getD_none]; exact (congrArg (ownScope P) hid).symm
    | some q => exact h1 q hr
  · intro i hi
    cases r with
    | status =>
      have hi : r'.status = some i := hi
      rcases k2 with k | k
      · cases hr : x.response with
        | none => rw [hr] at k; rw [k] at hi; cases hi
        | some q =>
          rw [hr] at k
          simp only [Option.getD_some] at k
          exact h4 i (by simp only [position, hr, Option.bind_some]; rw [← k]; exact hi)
      · rw [k] at hi
        have := hs (p.scope, p.status) (List.mem_map.mpr ⟨p, hp, rfl⟩) hh i hi
        simp only
        rw [hid]
        exact this
    | body =>
      have hi : r'.body = some i := hi
      rcases k3 with k | k
      · cases hr : x.response with
        | none => rw [hr] at k; rw [k] at hi; cases hi
        | some q =>
          rw [hr] at k
          simp only [Option.getD_some] at k
          exact h4 i (by simp only [position, hr, Option.bind_some]; rw [← k]; exact hi)
      · rw [k] at hi
        have := hs (p.scope, p.body) (List.mem_map.mpr ⟨p, hp, rfl⟩) hh i hi
        simp only
        rw [hid]
        exact this
    | input => exact h4 i hi
    | name => exact h4 i hi

theorem deriveRequest_inv {P : Prog} {r : Role} {ok : Id → Nat → Prop} {fw : Nat → Edge → Bool} {s : Seeds} {e : Edge}
    (hs : StepOk P fw r ok s e) {p : ReqPat} (hp : p ∈ s.req) (hh : p.scope.hits fw e = true) {es : List Entry}
    (h : ∀ x ∈ es, Inv P r ok x) : ∀ x ∈ deriveRequest P p e es, Inv P r ok x := by
  unfold deriveRequest
  cases hj : roleOf P e.caller e p.body with
  | none => exact h
  | some j =>
    refine upsert_inv ?_ es h
    intro x hid hx
    obtain ⟨h1, h2, h3, h4⟩ := hx
    refine ⟨h1, ?_, h3, ?_⟩
    · intro q hq
      cases hq
      exact (congrArg (ownScope P) hid).symm
    · intro i hi
      cases r with
      | input =>
        have hi : some j = some i := hi
        cases hi
        have := hs (p.scope, p.body) (List.mem_map.mpr ⟨p, hp, rfl⟩) hh j hj
        simp only
        rw [hid]
        exact this
      | status => exact h4 i hi
      | body => exact h4 i hi
      | name => exact h4 i hi

theorem deriveParam_inv {P : Prog} {r : Role} {ok : Id → Nat → Prop} {fw : Nat → Edge → Bool} {s : Seeds} {e : Edge}
    (hs : StepOk P fw r ok s e) {p : ParPat} (hp : p ∈ s.par) (hh : p.scope.hits fw e = true) {es : List Entry}
    (h : ∀ x ∈ es, Inv P r ok x) : ∀ x ∈ deriveParam P p e es, Inv P r ok x := by
  unfold deriveParam
  split
  · exact h
  · rename_i hn
    cases hj : roleOf P e.caller e (some p.arg) with
    | none => exact h
    | some j =>
      refine upsert_inv ?_ es h
      intro x hid hx
      obtain ⟨h1, h2, h3, h4⟩ := hx
      refine ⟨h1, h2, ?_, ?_⟩
      · intro q hq
        cases hq
        exact (congrArg (ownScope P) hid).symm
      · intro i hi
        cases r with
        | name =>
          have hi : some j = some i := hi
          cases hi
          have := hs (p.scope, some p.arg) (List.mem_map.mpr ⟨p, List.mem_filter.mpr ⟨hp, by
            simp only [not_or, Bool.not_eq_true] at hn
            simp [hn.1, hn.2]⟩, rfl⟩) hh j hj
          simp only
          rw [hid]
          exact this
        | status => exact h4 i hi
        | body => exact h4 i hi
        | input => exact h4 i hi

theorem foldl_inv {α : Type} {I : List Entry → Prop} {f : List Entry → α → List Entry} : ∀ (l : List α) (es : List Entry),
    (∀ a ∈ l, ∀ es, I es → I (f es a)) → I es → I (l.foldl f es)
  | [], _, _, h => h
  | a :: l, es, hf, h => foldl_inv l (f es a) (fun a ha => hf a (.tail _ ha)) (hf a (.head _) es h)

theorem visitValue_inv {P : Prog} {r : Role} {ok : Id → Nat → Prop} {fw : Nat → Edge → Bool} {s : Seeds} {e : Edge}
    (hs : StepOk P fw r ok s e) {es : List Entry} (h : ∀ x ∈ es, Inv P r ok x) :
    ∀ x ∈ visitValue P fw s es e, Inv P r ok x := by
  unfold visitValue
  split
  · exact h
  · refine foldl_inv (I := fun es => ∀ x ∈ es, Inv P r ok x) _ _ ?_ (foldl_inv (I := fun es => ∀ x ∈ es, Inv P r ok x) _ _ ?_
      (foldl_inv (I := fun es => ∀ x ∈ es, Inv P r ok x) _ _ ?_ h))
    · intro p hp es he
      obtain ⟨hp, hh⟩ := List.mem_filter.mp hp
      exact deriveParam_inv hs hp hh he
    · intro p hp es he
      obtain ⟨hp, hh⟩ := List.mem_filter.mp hp
      exact deriveRequest_inv hs hp hh he
    · intro p hp es he
      obtain ⟨hp, hh⟩ := List.mem_filter.mp hp
      exact mergeResponse_inv hs hp hh he

theorem valueRound_inv {P : Prog} {r : Role} {ok : Id → Nat → Prop} {fw : Nat → Edge → Bool} {s : Seeds}
    (hs : ∀ e ∈ P.edges, StepOk P fw r ok s e) {es : List Entry} (h : ∀ x ∈ es, Inv P r ok x) :
    ∀ x ∈ valueRound P fw s es, Inv P r ok x :=
  foldl_inv (I := fun es => ∀ x ∈ es, Inv P r ok x) P.edges es (fun e he _ h => visitValue_inv (hs e he) h) h

theorem named_seedsFrom {P : Prog} {r : Role} {ok : Id → Nat → Prop} : ∀ (es : List Entry), (∀ x ∈ es, Inv P r ok x) →
    ∀ q ∈ named r (seedsFrom es), ∃ x ∈ es, q.1 = ownScope P x.id ∧ (∀ i, q.2 = some i → ok x.id i)
  | [], _, q, hq => by cases r <;> cases hq
  | x :: xs, h, q, hq => by
    have ih := named_seedsFrom xs (fun x hx => h x (.tail _ hx))
    have lift : q ∈ named r (seedsFrom xs) → ∃ x' ∈ x :: xs, q.1 = ownScope P x'.id ∧ (∀ i, q.2 = some i → ok x'.id i) := by
      intro hq
      obtain ⟨x', hx', r'⟩ := ih q hq
      exact ⟨x', .tail _ hx', r'⟩
    obtain ⟨h1, h2, h3, h4⟩ := h x (.head _)
    unfold seedsFrom at hq
    simp only at hq
    split at hq
    · split at hq
      · rename_i _ _ _ p hr
        cases r with
        | status =>
          cases hq with
          | head => exact ⟨x, .head _, h1 p hr, fun i hi => h4 i (by simp only [position, hr, Option.bind_some]; exact hi)⟩
          | tail _ hq => exact lift hq
        | body =>
          cases hq with
          | head => exact ⟨x, .head _, h1 p hr, fun i hi => h4 i (by simp only [position, hr, Option.bind_some]; exact hi)⟩
          | tail _ hq => exact lift hq
        | input => exact lift hq
        | name => exact lift hq
      · rename_i _ _ p _ hr
        cases r with
        | input =>
          cases hq with
          | head => exact ⟨x, .head _, h2 p hr, fun i hi => h4 i (by simp only [position, hr, Option.bind_some]; exact hi)⟩
          | tail _ hq => exact lift hq
        | status => exact lift hq
        | body => exact lift hq
        | name => exact lift hq
      · rename_i p _ _ hr
        cases r with
        | name =>
          simp only [named, List.filter_cons] at hq
          split at hq
          · cases hq with
            | head => exact ⟨x, .head _, h3 p hr, fun i hi => h4 i (by simp only [position, hr, Option.map_some]; exact hi)⟩
            | tail _ hq => exact lift hq
          · exact lift hq
        | status => exact lift hq
        | body => exact lift hq
        | input => exact lift hq
      · exact lift hq
    · exact lift hq

/-! ## Helper lemmas: soundness -/

theorem feeds_feeder {V : Type} {P : Prog} {role : Edge → Option Nat} {ev : Meth → List V → Expr → V → Prop}
    {w : Id} {vs : List V} {v : V} (hr : Feeds P role ev w vs v) : Feeder P role w := by
  induction hr with
  | direct m e _ _ _ _ _ h2 h3 h4 => rw [← h3]; exact .direct e h2 (by rw [h4]; intro c; cases c)
  | through m e w _ _ _ _ h2 h3 h4 _ _ ih => rw [← h3]; exact .through e w h2 h4 ih

theorem plain_arg {V : Type} {P : Prog} {role : Edge → Option Nat} {ev : Meth → List V → Expr → V → Prop}
    (hp : PlainRole P role) (hk : Kept P ev) {m : Meth} (hm : m ∈ P.meths) {e : Edge} (he : e ∈ P.edges) (hc : e.caller = m.id)
    (hr : Hands P role e) {k i : Nat} (hi : roleOf P e.caller e (some k) = some i) {a : Expr} (ha : e.args[k]? = some a)
    {vs : List V} {v : V} (hv : ev m vs a v) : vs[i]? = some v := by
  have hi' : indexOf P m.id (some a) = some i := by
    have : roleOf P e.caller e (some k) = indexOf P e.caller e.args[k]? := rfl
    rw [this, ha, hc] at hi
    exact hi
  rcases hp.args m hm e he hc hr a (List.mem_of_getElem? ha) with ⟨y, ky, hy, rfl⟩ | hno
  · exact plain_value hp.declared hk hm hy hi' hv
  · obtain ⟨x, kd, hx, hreach⟩ := indexOf_sound hp.declared hm hi'
    exact absurd hreach (hno x kd (List.mem_of_getElem? hx))

/-- The claim about one position. -/
def Ok {V : Type} (P : Prog) (role : Edge → Option Nat) (ev : Meth → List V → Expr → V → Prop) (w : Id) (i : Nat) : Prop :=
  Feeder P role w ∧ ∀ vs v, Feeds P role ev w vs v → vs[i]? = some v

theorem stepOk_framework {V : Type} {P : Prog} {role : Edge → Option Nat} {ev : Meth → List V → Expr → V → Prop}
    (hp : PlainRole P role) (hk : Kept P ev) {e : Edge} (he : e ∈ P.edges) {k i : Nat} (hr : role e = some k)
    (hi : roleOf P e.caller e (some k) = some i) : Ok P role ev e.caller i := by
  have hne : role e ≠ none := by rw [hr]; intro c; cases c
  refine ⟨.direct e he hne, ?_⟩
  intro vs v hf
  generalize hcal : e.caller = cal at hf
  cases hf with
  | direct m e' _ i0 a _ hm he' hc' hr' ha hva =>
    have := hp.once e' he' e he (hc'.trans hcal.symm) (.inl (by rw [hr']; intro c; cases c)) (.inl hne)
    subst this
    rw [hr] at hr'
    cases hr'
    exact plain_arg hp hk hm he hcal (.inl hne) hi ha hva
  | through m e' w _ ws _ hm he' hc' hcalls hargs hf =>
    have hw := feeds_feeder hf
    have := hp.once e' he' e he (hc'.trans hcal.symm) (.inr ⟨w, hcalls, hw⟩) (.inl hne)
    subst this
    exact absurd hw (hp.framework e' he w hne hcalls)

theorem stepOk_own {V : Type} {P : Prog} {role : Edge → Option Nat} {ev : Meth → List V → Expr → V → Prop}
    (hp : PlainRole P role) (hk : Kept P ev) {e : Edge} (he : e ∈ P.edges) {w0 : Id} {k i : Nat} (hok : Ok P role ev w0 k)
    (hcalls : CallsOf P e w0) (hi : roleOf P e.caller e (some k) = some i) : Ok P role ev e.caller i := by
  have hh : Hands P role e := .inr ⟨w0, hcalls, hok.1⟩
  refine ⟨.through e w0 he hcalls hok.1, ?_⟩
  intro vs v hf
  generalize hcal : e.caller = cal at hf
  cases hf with
  | direct m e' _ i0 a _ hm he' hc' hr' ha hva =>
    have hne : role e' ≠ none := by rw [hr']; intro c; cases c
    have := hp.once e' he' e he (hc'.trans hcal.symm) (.inl hne) hh
    subst this
    exact absurd hok.1 (hp.framework e' he w0 hne hcalls)
  | through m e' w _ ws _ hm he' hc' hcalls' hargs hf =>
    have hw := feeds_feeder hf
    have := hp.once e' he' e he (hc'.trans hcal.symm) (.inr ⟨w, hcalls', hw⟩) hh
    subst this
    have := hp.target e' he w w0 hcalls' hcalls hw hok.1
    subst this
    obtain ⟨a, ha, hva⟩ := hargs k v (hok.2 ws v hf)
    exact plain_arg hp hk hm he hcal hh hi ha hva

theorem valueRounds_inv {P : Prog} {r : Role} {ok : Id → Nat → Prop} {fw : Nat → Edge → Bool}
    {shuffle : List Entry → List Entry} (hsh : ∀ es x, x ∈ shuffle es → x ∈ es)
    (hown : ∀ e ∈ P.edges, ∀ w k i, ok w k → CallsOf P e w → roleOf P e.caller e (some k) = some i → ok e.caller i) :
    ∀ (n : Nat) (s : Seeds) (es : List Entry), (∀ e ∈ P.edges, StepOk P fw r ok s e) → (∀ x ∈ es, Inv P r ok x) →
    ∀ x ∈ valueRounds P fw shuffle n s es, Inv P r ok x
  | 0, _, _, _, h => h
  | n + 1, s, es, hs, h => by
    have h' := valueRound_inv hs h
    unfold valueRounds
    simp only
    split
    · exact h'
    · refine valueRounds_inv hsh hown n _ _ ?_ h'
      intro e he q hq hh i hi
      obtain ⟨x, hx, hsc, hok⟩ := named_seedsFrom (shuffle (valueRound P fw s es)) (fun x hx => h' x (hsh _ x hx)) q hq
      rw [hsc] at hh
      cases hq2 : q.2 with
      | none => rw [hq2] at hi; cases hi
      | some k =>
        rw [hq2] at hi
        exact hown e he x.id k i (hok k hq2) (ownScope_hits hh) hi

/-! ## Theorems: contexts -/

/-- **C84 (partial: plain contexts).** What is documented for a call of a responder,
decoder or parameter reader of the project is what the call hands on: for each of the
status, the body, the request body and the parameter name, the argument at the derived
position is the value that reaches the framework, whatever the order in which maps are
iterated.  Missing: methods that hand a role on in more than one place, and arguments
computed from parameters. -/
theorem C84_context_partial {V : Type} {P : Prog} {fw : Nat → Edge → Bool} {shuffle : List Entry → List Entry}
    (hsh : ∀ es x, x ∈ shuffle es → x ∈ es) {cfg : Seeds} {r : Role} {role : Edge → Option Nat}
    {ev : Meth → List V → Expr → V → Prop} (hfw : FaithfulRole P fw role r cfg) (hp : PlainRole P role) (hk : Kept P ev)
    {x : Entry} (hx : x ∈ values P fw shuffle cfg) {i : Nat} (hi : position r x = some i) {vs : List V} {v : V}
    (hf : Feeds P role ev x.id vs v) : vs[i]? = some v := by
  have h := valueRounds_inv (r := r) (ok := Ok P role ev) hsh (fun e he w k i hok hc hi => stepOk_own hp hk he hok hc hi) 4 cfg [] ?_
    (fun x hx => by cases hx) x hx
  · exact (h.2.2.2 i hi).2 vs v hf
  · intro e he q hq hh i hi
    obtain ⟨k, hk', hr⟩ := hfw q hq
    rw [hk'] at hh
    cases hq2 : q.2 with
    | none => rw [hq2] at hi; cases hi
    | some a =>
      rw [hq2] at hi
      exact stepOk_framework hp hk he (hr e he hh a hq2) hi

end Verif.Wrappers
