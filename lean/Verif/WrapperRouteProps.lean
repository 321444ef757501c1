import Verif.WrapperParamProps

/-!
# C84: the routes registered through the project's own router

What a derived pattern documents is what a call of the method registers.
-/

namespace Verif.Wrappers
open Verif.Common

/-! ## Specification -/

/-- The call is one of the method `w`. -/
def Calls (e : Edge) (w : Id) : Prop := e.name = w.name ∧ (w.pkg, w.recv) ∈ e.forms

/-- The method belongs to the project: its package path starts with the path of the
module. -/
def InProject (P : Prog) (w : Id) : Prop :=
  w.recv ≠ "" ∧ w.pkg ≠ "" ∧ P.module ≠ "" ∧ ∃ rest, w.pkg.toList = P.module.toList ++ rest

/-- Running a method.  `role e` says which arguments of a call of the framework are
the path and the handler (`none`: the call registers nothing), `ev m vs a v` that the
expression `a` has the value `v` in `m` called with `vs`.  `Runs w vs p h`: calling `w`
with the arguments `vs` registers the handler `h` at the path `p`. -/
inductive Runs {V : Type} (P : Prog) (role : Edge → Option (Nat × Nat)) (ev : Meth → List V → Expr → V → Prop) :
    Id → List V → V → V → Prop where
  | direct (m : Meth) (e : Edge) (vs : List V) (i j : Nat) (a b : Expr) (p h : V) :
      m ∈ P.meths → e ∈ P.edges → e.caller = m.id → role e = some (i, j) →
      e.args[i]? = some a → e.args[j]? = some b → ev m vs a p → ev m vs b h → Runs P role ev m.id vs p h
  | through (m : Meth) (e : Edge) (w : Id) (vs ws : List V) (p h : V) :
      m ∈ P.meths → e ∈ P.edges → e.caller = m.id → Calls e w →
      (∀ (k : Nat) (v : V), ws[k]? = some v → ∃ a, e.args[k]? = some a ∧ ev m vs a v) →
      Runs P role ev w ws p h → Runs P role ev m.id vs p h

/-- The methods that register something, themselves or through others. -/
inductive Registrar (P : Prog) (role : Edge → Option (Nat × Nat)) : Id → Prop where
  | direct (e : Edge) : e ∈ P.edges → role e ≠ none → Registrar P role e.caller
  | through (e : Edge) (w : Id) : e ∈ P.edges → Calls e w → Registrar P role w → Registrar P role e.caller

/-- The call registers something. -/
def Registers (P : Prog) (role : Edge → Option (Nat × Nat)) (e : Edge) : Prop :=
  role e ≠ none ∨ ∃ w, Calls e w ∧ Registrar P role w

/-- The configured patterns describe the framework: a call they match registers the
arguments they name, and every registration is matched. -/
structure Faithful (P : Prog) (fw : Nat → Edge → Bool) (role : Edge → Option (Nat × Nat)) (routes : List RoutePat) : Prop where
  right : ∀ p ∈ routes, ∃ k, p.scope = .configured k ∧ ∀ e ∈ P.edges, fw k e = true →
    ∃ i j, role e = some (i, j) ∧ p.path = some i ∧ p.handler = some j
  all : ∀ e ∈ P.edges, role e ≠ none → ∃ p ∈ routes, ∃ k, p.scope = .configured k ∧ fw k e = true

/-- Plain routers: a method registers in one place, a call that registers is of one
method, and what it passes on is a parameter as it is or something that no parameter
reaches. -/
structure Plain (P : Prog) (role : Edge → Option (Nat × Nat)) : Prop where
  declared : Declared P
  methods : ∀ e ∈ P.edges, Registers P role e → e.caller.recv ≠ "" → ∃ m ∈ P.meths, m.id = e.caller
  once : ∀ e ∈ P.edges, ∀ e' ∈ P.edges, e.caller = e'.caller → Registers P role e → Registers P role e' → e = e'
  target : ∀ e ∈ P.edges, ∀ w w', Calls e w → Calls e w' → Registrar P role w → Registrar P role w' → w = w'
  framework : ∀ e ∈ P.edges, ∀ w, role e ≠ none → Calls e w → ¬ Registrar P role w
  args : ∀ m ∈ P.meths, ∀ e ∈ P.edges, e.caller = m.id → Registers P role e → ∀ a ∈ e.args,
    (∃ x k, (x, k) ∈ m.params ∧ a = .node x []) ∨
    ∀ x k, (x, k) ∈ m.params → ¬ Reaches (fun y v => (y, v) ∈ m.assigns) 3 a x

/-- A parameter has the value of the argument at its position: none is assigned to. -/
def Kept {V : Type} (P : Prog) (ev : Meth → List V → Expr → V → Prop) : Prop :=
  ∀ m ∈ P.meths, ∀ (i : Nat) (x : String) (k : Kind), m.params[i]? = some (x, k) → ∀ (vs : List V) (v : V),
    ev m vs (.node x []) v → vs[i]? = some v

/-- `x` is the parameter of `m` at position `i`, and no other. -/
def At (m : Meth) (x : String) (i : Nat) : Prop :=
  x ≠ "" ∧ (∃ k, m.params[i]? = some (x, k)) ∧ ∀ i' k', m.params[i']? = some (x, k') → i' = i

/-- `Chain P role n w i j`: the parameters of `w` at `i` and `j` are handed on through
`n` calls, the last of them of the framework, as path and handler. -/
inductive Chain (P : Prog) (role : Edge → Option (Nat × Nat)) : Nat → Id → Nat → Nat → Prop where
  | direct (m : Meth) (e : Edge) (a b i j : Nat) (x y : String) :
      m ∈ P.meths → e ∈ P.edges → e.caller = m.id → InProject P m.id → role e = some (a, b) →
      e.args[a]? = some (.node x []) → e.args[b]? = some (.node y []) → At m x i → At m y j → Chain P role 1 m.id i j
  | through (n : Nat) (w : Id) (m : Meth) (e : Edge) (a b i j : Nat) (x y : String) :
      Chain P role n w a b → m ∈ P.meths → e ∈ P.edges → e.caller = m.id → InProject P m.id → Calls e w →
      e.args[a]? = some (.node x []) → e.args[b]? = some (.node y []) → At m x i → At m y j → Chain P role (n + 1) m.id i j

/-! ## Helper lemmas -/

theorem inModule_iff (P : Prog) (w : Id) : inModule P w = true ↔ InProject P w := by
  unfold inModule InProject
  simp only [Bool.and_eq_true, bne_iff_ne, ne_eq, List.isPrefixOf_iff_prefix]
  constructor
  · rintro ⟨⟨⟨h1, h2⟩, h3⟩, t, h4⟩
    exact ⟨h1, h2, h3, t, h4.symm⟩
  · rintro ⟨h1, h2, h3, t, h4⟩
    exact ⟨⟨⟨h1, h2⟩, h3⟩, t, h4.symm⟩

theorem own_hits (fw : Nat → Edge → Bool) (e : Edge) (w : Id) :
    (Scope.own w.pkg [w.recv] [w.name]).hits fw e = true ↔ Calls e w := by
  unfold Scope.hits Calls
  simp only [Bool.and_eq_true, List.contains_iff_mem, List.mem_singleton, List.any_eq_true, beq_iff_eq]
  constructor
  · rintro ⟨h, f, hf, h1, h2⟩
    refine ⟨h, ?_⟩
    rw [← h1, ← h2]
    exact hf
  · rintro ⟨h, hf⟩
    exact ⟨h, (w.pkg, w.recv), hf, rfl, rfl⟩

theorem visit_some {P : Prog} {fw : Nat → Edge → Bool} {seeds : List RoutePat} {e : Edge} {found : List Wrapper} {w : Wrapper}
    (h : visit P fw seeds e found = some w) :
    InProject P e.caller ∧ (∀ f ∈ found, f.id ≠ e.caller) ∧ ∃ p ∈ seeds, p.scope.hits fw e = true ∧ w = derive P p e := by
  unfold visit at h
  split at h
  · cases h
  · rename_i h1
    split at h
    · cases h
    · rename_i h2
      split at h
      · cases h
      · rename_i p hp
        cases h
        refine ⟨(inModule_iff P _).mp (by simpa using h1), ?_, p, List.mem_of_find?_eq_some hp, by simpa using List.find?_some hp, rfl⟩
        intro f hf c
        apply h2
        simp only [List.any_eq_true, beq_iff_eq]
        exact ⟨f, hf, c⟩

theorem visit_none {P : Prog} {fw : Nat → Edge → Bool} {seeds : List RoutePat} {e : Edge} {found : List Wrapper}
    (h : visit P fw seeds e found = none) (hin : InProject P e.caller) (p : RoutePat) (hp : p ∈ seeds)
    (hh : p.scope.hits fw e = true) : ∃ f ∈ found, f.id = e.caller := by
  unfold visit at h
  rw [if_neg (by simp [(inModule_iff P _).mpr hin])] at h
  split at h
  · rename_i h2
    simp only [List.any_eq_true, beq_iff_eq] at h2
    exact h2
  · split at h
    · rename_i hf
      rw [List.find?_eq_none] at hf
      exact absurd hh (hf p hp)
    · cases h

theorem round_spec (P : Prog) (fw : Nat → Edge → Bool) (seeds : List RoutePat) : ∀ (es : List Edge) (found : List Wrapper),
    (∀ w ∈ found, w ∈ (round P fw seeds es found).1) ∧
    (∀ w ∈ (round P fw seeds es found).1, w ∈ found ∨ ((∀ f ∈ found, f.id ≠ w.id) ∧ ∃ e ∈ es, InProject P e.caller ∧
      ∃ p ∈ seeds, p.scope.hits fw e = true ∧ w = derive P p e)) ∧
    (∀ q ∈ (round P fw seeds es found).2, ∃ w ∈ (round P fw seeds es found).1, (∀ f ∈ found, f.id ≠ w.id) ∧
      w.complete = true ∧ q = w.pat) ∧
    (∀ w ∈ (round P fw seeds es found).1, (∀ f ∈ found, f.id ≠ w.id) → w.complete = true →
      w.pat ∈ (round P fw seeds es found).2) ∧
    (∀ e ∈ es, InProject P e.caller → ∀ p ∈ seeds, p.scope.hits fw e = true →
      ∃ w ∈ (round P fw seeds es found).1, w.id = e.caller)
  | [], found => by
    refine ⟨fun w h => h, fun w h => .inl h, fun q h => ?_, fun w h hn _ => absurd rfl (hn w h), fun e h => ?_⟩
    · simp [round] at h
    · simp at h
  | e :: es, found => by
    unfold round
    cases hv : visit P fw seeds e found with
    | none =>
      obtain ⟨h1, h2, h3, h4, h5⟩ := round_spec P fw seeds es found
      refine ⟨h1, ?_, h3, h4, ?_⟩
      · intro w hw
        rcases h2 w hw with h | ⟨hn, e', he', r⟩
        · exact .inl h
        · exact .inr ⟨hn, e', .tail _ he', r⟩
      · intro e' he' hin p hp hh
        cases he' with
        | head =>
          obtain ⟨f, hf, e⟩ := visit_none hv hin p hp hh
          exact ⟨f, h1 f hf, e⟩
        | tail _ he' => exact h5 e' he' hin p hp hh
    | some w0 =>
      obtain ⟨hin0, hnew, p0, hp0, hh0, hw0⟩ := visit_some hv
      have hid0 : w0.id = e.caller := by rw [hw0]; rfl
      obtain ⟨h1, h2, h3, h4, h5⟩ := round_spec P fw seeds es (found ++ [w0])
      simp only
      have hsub : ∀ w ∈ found ++ [w0], w ∈ (round P fw seeds es (found ++ [w0])).1 := h1
      have hw0in : w0 ∈ (round P fw seeds es (found ++ [w0])).1 := hsub w0 (by simp)
      have hw0new : ∀ f ∈ found, f.id ≠ w0.id := fun f hf => hid0 ▸ hnew f hf
      refine ⟨fun w hw => hsub w (by simp [hw]), ?_, ?_, ?_, ?_⟩
      · intro w hw
        rcases h2 w hw with h | ⟨hn, e', he', r⟩
        · simp only [List.mem_append, List.mem_singleton] at h
          rcases h with h | h
          · exact .inl h
          · subst h
            exact .inr ⟨hw0new, e, .head _, hin0, p0, hp0, hh0, hw0⟩
        · exact .inr ⟨fun f hf => hn f (by simp [hf]), e', .tail _ he', r⟩
      · intro q hq
        have hq' : (w0.complete = true ∧ q = w0.pat) ∨ q ∈ (round P fw seeds es (found ++ [w0])).2 := by
          split at hq
          · rename_i hc
            cases hq with
            | head => exact .inl ⟨hc, rfl⟩
            | tail _ h => exact .inr h
          · exact .inr hq
        rcases hq' with ⟨hc, rfl⟩ | hq
        · exact ⟨w0, hw0in, hw0new, hc, rfl⟩
        · obtain ⟨w, hw, hn, r⟩ := h3 q hq
          exact ⟨w, hw, fun f hf => hn f (by simp [hf]), r⟩
      · intro w hw hn hc
        by_cases hww : w = w0
        · subst hww
          rw [if_pos hc]
          exact .head _
        · rcases h2 w hw with h | ⟨hn', _⟩
          · simp only [List.mem_append, List.mem_singleton] at h
            rcases h with h | h
            · exact absurd rfl (hn w h)
            · exact absurd h hww
          · have := h4 w hw hn' hc
            split
            · exact .tail _ this
            · exact this
      · intro e' he' hin p hp hh
        cases he' with
        | head => exact ⟨w0, hw0in, hid0⟩
        | tail _ he' => exact h5 e' he' hin p hp hh

/-! ### Soundness -/

/-- Where a wrapper comes from: a call in a method of the project that matches a
configured pattern or the pattern of another complete wrapper. -/
inductive Derived (P : Prog) (fw : Nat → Edge → Bool) (routes : List RoutePat) : Wrapper → Prop where
  | framework (e : Edge) (p : RoutePat) : e ∈ P.edges → InProject P e.caller → p ∈ routes → p.scope.hits fw e = true →
      Derived P fw routes (derive P p e)
  | wrapper (e : Edge) (w : Wrapper) : e ∈ P.edges → InProject P e.caller → Derived P fw routes w → w.complete = true →
      Calls e w.id → Derived P fw routes (derive P w.pat e)

theorem derive_scope (P : Prog) (p : RoutePat) (e : Edge) :
    (derive P p e).pat.scope = .own (derive P p e).id.pkg [(derive P p e).id.recv] [(derive P p e).id.name] := rfl

theorem derived_scope {P : Prog} {fw : Nat → Edge → Bool} {routes : List RoutePat} {w : Wrapper} (h : Derived P fw routes w) :
    w.pat.scope = .own w.id.pkg [w.id.recv] [w.id.name] := by
  cases h with
  | framework e p => exact derive_scope P p e
  | wrapper e w => exact derive_scope P w.pat e

/-- A pattern that a round starts from. -/
def Seed (P : Prog) (fw : Nat → Edge → Bool) (routes : List RoutePat) (p : RoutePat) : Prop :=
  p ∈ routes ∨ ∃ w, Derived P fw routes w ∧ w.complete = true ∧ p = w.pat

theorem derived_of_seed {P : Prog} {fw : Nat → Edge → Bool} {routes : List RoutePat} {p : RoutePat} {e : Edge}
    (hs : Seed P fw routes p) (he : e ∈ P.edges) (hin : InProject P e.caller) (hh : p.scope.hits fw e = true) :
    Derived P fw routes (derive P p e) := by
  rcases hs with h | ⟨w, hw, hc, rfl⟩
  · exact .framework e p he hin h hh
  · rw [derived_scope hw, own_hits] at hh
    exact .wrapper e w he hin hw hc hh

theorem rounds_derived (P : Prog) (fw : Nat → Edge → Bool) (routes : List RoutePat) : ∀ (n : Nat) (seeds : List RoutePat)
    (found : List Wrapper), (∀ p ∈ seeds, Seed P fw routes p) → (∀ w ∈ found, Derived P fw routes w) →
    ∀ w ∈ rounds P fw n seeds found, Derived P fw routes w
  | 0, _, _, _, hf => hf
  | n + 1, seeds, found, hs, hf => by
    obtain ⟨h1, h2, h3, h4, h5⟩ := round_spec P fw seeds P.edges found
    have hf' : ∀ w ∈ (round P fw seeds P.edges found).1, Derived P fw routes w := by
      intro w hw
      rcases h2 w hw with h | ⟨_, e, he, hin, p, hp, hh, rfl⟩
      · exact hf w h
      · exact derived_of_seed (hs p hp) he hin hh
    unfold rounds
    simp only
    split
    · exact hf'
    · refine rounds_derived P fw routes n _ _ ?_ hf'
      intro q hq
      obtain ⟨w, hw, _, hc, rfl⟩ := h3 q hq
      exact .inr ⟨w, hf' w hw, hc, rfl⟩

theorem found_derived {P : Prog} {fw : Nat → Edge → Bool} {routes : List RoutePat} {w : Wrapper}
    (h : w ∈ findWrappers P fw routes) : Derived P fw routes w :=
  rounds_derived P fw routes 4 routes [] (fun _ h => .inl h) (fun _ h => by cases h) w h

theorem derived_registers {P : Prog} {fw : Nat → Edge → Bool} {role : Edge → Option (Nat × Nat)} {routes : List RoutePat}
    (hfw : Faithful P fw role routes) {w : Wrapper} (h : Derived P fw routes w) : Registrar P role w.id := by
  induction h with
  | framework e p he _ hp hh =>
    obtain ⟨k, hk, hr⟩ := hfw.right p hp
    rw [hk] at hh
    obtain ⟨i, j, hij, _⟩ := hr e he hh
    exact .direct e he (by rw [hij]; intro c; cases c)
  | wrapper e w he _ _ _ hc ih => exact .through e w.id he hc ih

theorem plain_value {V : Type} {P : Prog} {ev : Meth → List V → Expr → V → Prop} (hu : Declared P) (hk : Kept P ev)
    {m : Meth} (hm : m ∈ P.meths) {y : String} {ky : Kind} (hy : (y, ky) ∈ m.params) {i : Nat}
    (hi' : indexOf P m.id (some (.node y [])) = some i) {vs : List V} {v : V} (hv : ev m vs (.node y []) v) :
    vs[i]? = some v := by
  obtain ⟨x, kd, hx, hreach⟩ := indexOf_sound hu hm hi'
  have hyx : y = x := by
    have hi2 := hi'
    unfold indexOf at hi2
    simp only at hi2
    split at hi2
    · cases hi2
    · have hpar := paramsOf_eq hu hm
      by_cases hne : y = ""
      · subst hne
        exfalso
        have : ∀ {n : Nat} {z : String}, ¬ Reaches (fun y v => (y, v) ∈ m.assigns) n (.node "" []) z := by
          intro n z h
          have none : ∀ {z : String}, ¬ Occurs 6 (.node "" []) z := by
            intro z h
            cases h with
            | here _ _ _ h => exact h rfl
            | inside _ _ _ _ k hk => cases hk
          cases h with
          | occurs _ _ _ h => exact none h
          | assigned _ _ _ _ _ h => exact none h
        exact this hreach
      · have hid : idents 6 (.node y []) = [y] := by simp [idents, identsAll, hne]
        rw [hid] at hi2
        unfold hops at hi2
        have hmem : y ∈ paramsOf P m.id := by
          rw [hpar]
          exact List.mem_map.mpr ⟨(y, ky), hy, rfl⟩
        cases hmp : matchParam (paramsOf P m.id) [y] with
        | none => exact absurd hmem (matchParam_none hmp y (.head _) hne)
        | some i' =>
          rw [hmp] at hi2
          cases hi2
          obtain ⟨z, hz, hz'⟩ := matchParam_some hmp
          rw [List.mem_singleton] at hz
          subst hz
          rw [hpar, List.getElem?_map, hx] at hz'
          exact (Option.some.inj hz').symm
  subst hyx
  exact hk m hm i y kd hx vs v hv

theorem roleOf_plain {V : Type} {P : Prog} {role : Edge → Option (Nat × Nat)} {ev : Meth → List V → Expr → V → Prop}
    (hp : Plain P role) (hk : Kept P ev) {m : Meth} (hm : m ∈ P.meths) {e : Edge} (he : e ∈ P.edges) (hc : e.caller = m.id)
    (hr : Registers P role e) {k i : Nat} (hi : roleOf P e.caller e (some k) = some i) {a : Expr} (ha : e.args[k]? = some a)
    {vs : List V} {v : V} (hv : ev m vs a v) : vs[i]? = some v := by
  have hi' : indexOf P m.id (some a) = some i := by
    have : roleOf P e.caller e (some k) = indexOf P e.caller e.args[k]? := rfl
    rw [this, ha, hc] at hi
    exact hi
  rcases hp.args m hm e he hc hr a (List.mem_of_getElem? ha) with ⟨y, ky, hy, rfl⟩ | hno
  · exact plain_value hp.declared hk hm hy hi' hv
  · obtain ⟨x, kd, hx, hreach⟩ := indexOf_sound hp.declared hm hi'
    exact absurd hreach (hno x kd (List.mem_of_getElem? hx))

theorem runs_registrar {V : Type} {P : Prog} {role : Edge → Option (Nat × Nat)} {ev : Meth → List V → Expr → V → Prop}
    {w : Id} {vs : List V} {p h : V} (hr : Runs P role ev w vs p h) : Registrar P role w := by
  induction hr with
  | direct m e _ _ _ _ _ _ _ _ h2 h3 h4 => rw [← h3]; exact .direct e h2 (by rw [h4]; intro c; cases c)
  | through m e w _ _ _ _ _ h2 h3 h4 _ _ ih => rw [← h3]; exact .through e w h2 h4 ih

theorem derived_runs {V : Type} {P : Prog} {fw : Nat → Edge → Bool} {role : Edge → Option (Nat × Nat)} {routes : List RoutePat}
    {ev : Meth → List V → Expr → V → Prop} (hfw : Faithful P fw role routes) (hp : Plain P role) (hk : Kept P ev)
    {w : Wrapper} (h : Derived P fw routes w) : w.complete = true → ∀ (vs : List V) (p q : V), Runs P role ev w.id vs p q →
    ∃ i j : Nat, w.pat.path = some i ∧ w.pat.handler = some j ∧ vs[i]? = some p ∧ vs[j]? = some q := by
  induction h with
  | framework e pt he hin hpt hh =>
    intro hcomp vs p q hrun
    obtain ⟨k, hk', hr⟩ := hfw.right pt hpt
    rw [hk'] at hh
    obtain ⟨i, j, hij, hpi, hpj⟩ := hr e he hh
    have hreg : Registers P role e := .inl (by rw [hij]; intro c; cases c)
    simp only [derive, Bool.and_eq_true, Option.isSome_iff_exists] at hcomp
    obtain ⟨⟨i', hi'⟩, j', hj'⟩ := hcomp
    rw [hpi] at hi'
    rw [hpj] at hj'
    refine ⟨i', j', by simp only [derive, hpi, hi'], by simp only [derive, hpj, hj'], ?_⟩
    have hid : (derive P pt e).id = e.caller := rfl
    rw [hid] at hrun
    generalize hcal : e.caller = cal at hrun
    cases hrun with
    | direct m e' _ i0 j0 a b _ _ hm he' hc' hr' ha hb hva hvb =>
      have := hp.once e' he' e he (hc'.trans hcal.symm) (.inl (by rw [hr']; intro c; cases c)) hreg
      subst this
      rw [hij] at hr'
      cases hr'
      exact ⟨roleOf_plain hp hk hm he hcal hreg hi' ha hva, roleOf_plain hp hk hm he hcal hreg hj' hb hvb⟩
    | through m e' w' _ ws _ _ hm he' hc' hcalls hargs hrun' =>
      have hregw := runs_registrar hrun'
      have := hp.once e' he' e he (hc'.trans hcal.symm) (.inr ⟨w', hcalls, hregw⟩) hreg
      subst this
      exact absurd hregw (hp.framework e' he w' (by rw [hij]; intro c; cases c) hcalls)
  | wrapper e w0 he hin hd hcw hcalls ih =>
    intro hcomp vs p q hrun
    have hregw0 := derived_registers hfw hd
    have hreg : Registers P role e := .inr ⟨w0.id, hcalls, hregw0⟩
    have hid : (derive P w0.pat e).id = e.caller := rfl
    rw [hid] at hrun
    generalize hcal : e.caller = cal at hrun
    cases hrun with
    | direct m e' _ i0 j0 a b _ _ hm he' hc' hr' ha hb hva hvb =>
      have hne : role e' ≠ none := by rw [hr']; intro c; cases c
      have := hp.once e' he' e he (hc'.trans hcal.symm) (.inl hne) hreg
      subst this
      exact absurd hregw0 (hp.framework e' he w0.id hne hcalls)
    | through m e' w' _ ws _ _ hm he' hc' hcalls' hargs hrun' =>
      have hregw := runs_registrar hrun'
      have := hp.once e' he' e he (hc'.trans hcal.symm) (.inr ⟨w', hcalls', hregw⟩) hreg
      subst this
      have := hp.target e' he w' w0.id hcalls' hcalls hregw hregw0
      subst this
      obtain ⟨i, j, hpi, hpj, hvi, hvj⟩ := ih hcw ws p q hrun'
      simp only [derive, Bool.and_eq_true, Option.isSome_iff_exists] at hcomp
      obtain ⟨⟨i', hi'⟩, j', hj'⟩ := hcomp
      rw [hpi] at hi'
      rw [hpj] at hj'
      obtain ⟨a, ha, hva⟩ := hargs i p hvi
      obtain ⟨b, hb, hvb⟩ := hargs j q hvj
      exact ⟨i', j', by simp only [derive, hpi, hi'], by simp only [derive, hpj, hj'],
        roleOf_plain hp hk hm he hcal hreg hi' ha hva, roleOf_plain hp hk hm he hcal hreg hj' hb hvb⟩

/-! ### Completeness -/

theorem chain_registrar {P : Prog} {role : Edge → Option (Nat × Nat)} {n : Nat} {w : Id} {i j : Nat}
    (h : Chain P role n w i j) : Registrar P role w := by
  induction h with
  | direct m e a b i j x y hm he hc _ hr => rw [← hc]; exact .direct e he (by rw [hr]; intro c; cases c)
  | through n w m e a b i j x y _ hm he hc _ hcalls _ _ _ _ ih => rw [← hc]; exact .through e w he hcalls ih

theorem chain_pred {P : Prog} {role : Edge → Option (Nat × Nat)} {n : Nat} {w : Id} {i j : Nat}
    (h : Chain P role n w i j) : ∀ r, 1 ≤ r → r ≤ n → ∃ w i j, Chain P role r w i j := by
  induction h with
  | direct m e a b i j x y h1 h2 h3 h4 h5 h6 h7 h8 h9 =>
    intro r h1' h2'
    have : r = 1 := by omega
    subst this
    exact ⟨_, _, _, .direct m e a b i j x y h1 h2 h3 h4 h5 h6 h7 h8 h9⟩
  | through n w m e a b i j x y h0 h1 h2 h3 h4 h5 h6 h7 h8 h9 ih =>
    intro r h1' h2'
    by_cases hr : r = n + 1
    · subst hr
      exact ⟨_, _, _, .through n w m e a b i j x y h0 h1 h2 h3 h4 h5 h6 h7 h8 h9⟩
    · exact ih r h1' (by omega)

theorem roleOf_at {P : Prog} (hu : Declared P) {m : Meth} (hm : m ∈ P.meths) {e : Edge} (hc : e.caller = m.id) {a i : Nat}
    {x : String} (ha : e.args[a]? = some (.node x [])) (hx : At m x i) : roleOf P e.caller e (some a) = some i := by
  obtain ⟨hne, ⟨k, hk⟩, hone⟩ := hx
  show indexOf P e.caller e.args[a]? = some i
  rw [ha, hc]
  exact C84_supplied_plain hu hm hk hne hone

/-- What a round starts from describes the last call of the chains of length `r`. -/
def Good (P : Prog) (fw : Nat → Edge → Bool) (role : Edge → Option (Nat × Nat)) (r : Nat) (seeds : List RoutePat) : Prop :=
  (∀ p ∈ seeds, ∀ e ∈ P.edges, p.scope.hits fw e = true → ∀ n i j, Chain P role n e.caller i j →
    n = r + 1 ∧ (derive P p e).complete = true ∧ (derive P p e).pat.path = some i ∧ (derive P p e).pat.handler = some j) ∧
  ∀ w i j, Chain P role (r + 1) w i j → ∃ e ∈ P.edges, e.caller = w ∧ InProject P w ∧ ∃ p ∈ seeds, p.scope.hits fw e = true

theorem derive_roles {P : Prog} {p : RoutePat} {e : Edge} {i j : Nat} (hi : roleOf P e.caller e p.path = some i)
    (hj : roleOf P e.caller e p.handler = some j) :
    (derive P p e).complete = true ∧ (derive P p e).pat.path = some i ∧ (derive P p e).pat.handler = some j := by
  refine ⟨?_, ?_, ?_⟩ <;> simp [derive, hi, hj]

theorem good_zero {P : Prog} {fw : Nat → Edge → Bool} {role : Edge → Option (Nat × Nat)} {routes : List RoutePat}
    (hfw : Faithful P fw role routes) (hp : Plain P role) : Good P fw role 0 routes := by
  constructor
  · intro p hpr e he hh n i j hch
    obtain ⟨k, hk, hr⟩ := hfw.right p hpr
    rw [hk] at hh
    obtain ⟨a, b, hab, hpa, hpb⟩ := hr e he hh
    have hne : role e ≠ none := by rw [hab]; intro c; cases c
    generalize hcal : e.caller = cal at hch
    cases hch with
    | direct m e' a' b' i j x y hm he' hc' hin hr' ha hb hx hy =>
      have := hp.once e' he' e he (hc'.trans hcal.symm) (.inl (by rw [hr']; intro c; cases c)) (.inl hne)
      subst this
      rw [hab] at hr'
      cases hr'
      refine ⟨rfl, derive_roles ?_ ?_⟩
      · rw [hpa]; exact roleOf_at hp.declared hm hcal ha hx
      · rw [hpb]; exact roleOf_at hp.declared hm hcal hb hy
    | through n w m e' a' b' i j x y h0 hm he' hc' hin hcalls ha hb hx hy =>
      have hreg := chain_registrar h0
      have := hp.once e' he' e he (hc'.trans hcal.symm) (.inr ⟨w, hcalls, hreg⟩) (.inl hne)
      subst this
      exact absurd hreg (hp.framework e' he w hne hcalls)
  · intro w i j hch
    generalize h1 : (0 + 1 : Nat) = n at hch
    cases hch with
    | direct m e a b i j x y hm he hc hin hr ha hb hx hy =>
      obtain ⟨p, hpr, k, hk, hh⟩ := hfw.all e he (by rw [hr]; intro c; cases c)
      exact ⟨e, he, hc, hin, p, hpr, by rw [hk]; exact hh⟩
    | through n w m e a b i j x y h0 =>
      have : n = 0 := by omega
      subst this
      cases h0

/-- What has been found after `r` rounds, as far as chains go. -/
def Found (P : Prog) (role : Edge → Option (Nat × Nat)) (r : Nat) (found : List Wrapper) : Prop :=
  (∀ f ∈ found, ∀ n i j, Chain P role n f.id i j → n ≤ r) ∧
  ∀ n w i j, n ≤ r → Chain P role n w i j → ∃ f ∈ found, f.id = w ∧ f.complete = true ∧ f.pat.path = some i ∧ f.pat.handler = some j

theorem chain_pos {P : Prog} {role : Edge → Option (Nat × Nat)} {n : Nat} {w : Id} {i j : Nat}
    (h : Chain P role n w i j) : 1 ≤ n := by cases h <;> omega

theorem rounds_chains {P : Prog} {fw : Nat → Edge → Bool} {role : Edge → Option (Nat × Nat)} {routes : List RoutePat}
    (hfw : Faithful P fw role routes) (hp : Plain P role) : ∀ (k r : Nat) (seeds : List RoutePat) (found : List Wrapper),
    (∀ p ∈ seeds, Seed P fw routes p) → (∀ w ∈ found, Derived P fw routes w) →
    Good P fw role r seeds → Found P role r found → Found P role (r + k) (rounds P fw k seeds found)
  | 0, r, _, _, _, _, _, hF => hF
  | k + 1, r, seeds, found, hs, hd, hg, hF => by
    obtain ⟨h1, h2, h3, h4, h5⟩ := round_spec P fw seeds P.edges found
    have hd' : ∀ w ∈ (round P fw seeds P.edges found).1, Derived P fw routes w := by
      intro w hw
      rcases h2 w hw with h | ⟨_, e, he, hin, p, hp, hh, rfl⟩
      · exact hd w h
      · exact derived_of_seed (hs p hp) he hin hh
    have hs' : ∀ q ∈ (round P fw seeds P.edges found).2, Seed P fw routes q := by
      intro q hq
      obtain ⟨w, hw, _, hc, rfl⟩ := h3 q hq
      exact .inr ⟨w, hd' w hw, hc, rfl⟩
    have hnew : ∀ w i j, Chain P role (r + 1) w i j → ∃ f ∈ (round P fw seeds P.edges found).1,
        (∀ g ∈ found, g.id ≠ f.id) ∧ f.id = w ∧ f.complete = true ∧ f.pat.path = some i ∧ f.pat.handler = some j := by
      intro w i j hch
      obtain ⟨e, he, hc, hin, p, hpm, hh⟩ := hg.2 w i j hch
      obtain ⟨f, hf, hfid⟩ := h5 e he (hc ▸ hin) p hpm hh
      have hfw' : f.id = w := hfid.trans hc
      rcases h2 f hf with hold | ⟨hn, e', he', hin', p', hp', hh', rfl⟩
      · have := hF.1 f hold (r + 1) i j (hfw' ▸ hch)
        omega
      · have hch' : Chain P role (r + 1) e'.caller i j := by
          have : e'.caller = w := hfw'
          rw [this]
          exact hch
        exact ⟨_, hf, hn, hfw', (hg.1 p' hp' e' he' hh' _ i j hch').2⟩
    have hF' : Found P role (r + 1) (round P fw seeds P.edges found).1 := by
      constructor
      · intro f hf n i j hch
        rcases h2 f hf with h | ⟨_, e, he, hin, p, hp, hh, rfl⟩
        · exact Nat.le_succ_of_le (hF.1 f h n i j hch)
        · exact Nat.le_of_eq (hg.1 p hp e he hh n i j hch).1
      · intro n w i j hn hch
        by_cases hr : n ≤ r
        · obtain ⟨f, hf, rest⟩ := hF.2 n w i j hr hch
          exact ⟨f, h1 f hf, rest⟩
        · have : n = r + 1 := by omega
          subst this
          obtain ⟨f, hf, _, rest⟩ := hnew w i j hch
          exact ⟨f, hf, rest⟩
    unfold rounds
    simp only
    split
    · rename_i hempty
      simp only [List.isEmpty_iff] at hempty
      have hno : ∀ n w i j, r < n → ¬ Chain P role n w i j := by
        intro n w i j hn hch
        obtain ⟨w', i', j', hch'⟩ := chain_pred hch (r + 1) (by omega) (by omega)
        obtain ⟨f, hf, hfn, _, hc, _⟩ := hnew w' i' j' hch'
        have := h4 f hf hfn hc
        rw [hempty] at this
        cases this
      constructor
      · intro f hf n i j hch
        have := hF'.1 f hf n i j hch
        omega
      · intro n w i j hn hch
        exact hF'.2 n w i j (by
          by_cases h : r < n
          · exact absurd hch (hno n w i j h)
          · omega) hch
    · have := rounds_chains hfw hp k (r + 1) _ _ hs' hd' ?_ hF'
      · have e : r + 1 + k = r + (k + 1) := by omega
        rw [e] at this
        exact this
      constructor
      · intro q hq e he hh n i j hch
        obtain ⟨f, hf, hfn, hcomp, rfl⟩ := h3 q hq
        rcases h2 f hf with hold | ⟨_, e0, he0, hin0, p0, hp0, hh0, rfl⟩
        · exact absurd rfl (hfn f hold)
        rw [derive_scope, own_hits] at hh
        have hregf : Registrar P role (derive P p0 e0).id := derived_registers hfw (hd' _ hf)
        have hrege : Registers P role e := .inr ⟨_, hh, hregf⟩
        generalize hcal : e.caller = cal at hch
        cases hch with
        | direct m e' a b i j x y hm he' hc' hin hr ha hb hx hy =>
          have hne : role e' ≠ none := by rw [hr]; intro c; cases c
          have := hp.once e' he' e he (hc'.trans hcal.symm) (.inl hne) hrege
          subst this
          exact absurd hregf (hp.framework e' he _ hne hh)
        | through n w m e' a b i j x y h0 hm he' hc' hin hcalls ha hb hx hy =>
          have hregw := chain_registrar h0
          have := hp.once e' he' e he (hc'.trans hcal.symm) (.inr ⟨w, hcalls, hregw⟩) hrege
          subst this
          have := hp.target e' he w _ hcalls hh hregw hregf
          subst this
          obtain ⟨hn, _, hpa, hpb⟩ := hg.1 p0 hp0 e0 he0 hh0 n a b h0
          refine ⟨by omega, derive_roles ?_ ?_⟩
          · rw [hpa]; exact roleOf_at hp.declared hm hcal ha hx
          · rw [hpb]; exact roleOf_at hp.declared hm hcal hb hy
      · intro w i j hch
        generalize h1 : (r + 1 + 1 : Nat) = n at hch
        cases hch with
        | direct => omega
        | through n w m e a b i j x y h0 hm he hc hin hcalls ha hb hx hy =>
          have : n = r + 1 := by omega
          subst this
          obtain ⟨f, hf, hfn, hfid, hcomp, _⟩ := hnew w a b h0
          refine ⟨e, he, hc, hin, f.pat, h4 f hf hfn hcomp, ?_⟩
          rw [derived_scope (hd' f hf), own_hits, hfid]
          exact hcalls

/-! ## Theorems -/

theorem round_ids {P : Prog} {fw : Nat → Edge → Bool} {seeds : List RoutePat} : ∀ (es : List Edge) (found : List Wrapper),
    (found.map (·.id)).Nodup → ((round P fw seeds es found).1.map (·.id)).Nodup
  | [], found, h => h
  | e :: es, found, h => by
    unfold round
    cases hv : visit P fw seeds e found with
    | none => exact round_ids es found h
    | some w =>
      obtain ⟨_, hnew, p, _, _, hw⟩ := visit_some hv
      refine round_ids es (found ++ [w]) ?_
      rw [List.map_append, List.nodup_append]
      refine ⟨h, by simp, ?_⟩
      rintro a ha b hb rfl
      obtain ⟨f, hf, rfl⟩ := List.mem_map.mp ha
      simp only [List.map_cons, List.map_nil, List.mem_singleton] at hb
      exact hnew f hf (by rw [hb, hw]; rfl)

theorem rounds_ids {P : Prog} {fw : Nat → Edge → Bool} : ∀ (n : Nat) (seeds : List RoutePat) (found : List Wrapper),
    (found.map (·.id)).Nodup → ((rounds P fw n seeds found).map (·.id)).Nodup
  | 0, _, _, h => h
  | n + 1, seeds, found, h => by
    have h' := round_ids (P := P) (fw := fw) (seeds := seeds) P.edges found h
    unfold rounds
    simp only
    split
    · exact h'
    · exact rounds_ids n _ _ h'

/-- **C84.** At most one pattern is derived for a method. -/
theorem C84_once_per_method (P : Prog) (fw : Nat → Edge → Bool) (routes : List RoutePat) :
    ((findWrappers P fw routes).map (·.id)).Nodup := rounds_ids 4 routes [] (by simp)

/-- **C84.** What is derived is for a method of the project, never for one of a
dependency or a plain function. -/
theorem C84_only_project_methods {P : Prog} {fw : Nat → Edge → Bool} {routes : List RoutePat} {w : Wrapper}
    (h : w ∈ findWrappers P fw routes) : InProject P w.id := by
  cases found_derived h with
  | framework e p _ hin => exact hin
  | wrapper e w _ hin => exact hin

/-- **C84 (partial: plain routers).** What is documented for a call of a method of the
project's router is what the call registers: the path is the argument at the position
of the derived path, the handler that at the position of the derived handler.  Missing:
methods that register more than once, and arguments that are computed from parameters;
for these it is false (`C84_prefix_wrong`, `C84_first_call_wrong`). -/
theorem C84_registered_partial {V : Type} {P : Prog} {fw : Nat → Edge → Bool} {role : Edge → Option (Nat × Nat)}
    {routes : List RoutePat} {ev : Meth → List V → Expr → V → Prop} (hfw : Faithful P fw role routes) (hp : Plain P role)
    (hk : Kept P ev) {w : Wrapper} (hw : w ∈ findWrappers P fw routes) (hc : w.complete = true) {vs : List V} {p h : V}
    (hr : Runs P role ev w.id vs p h) :
    ∃ i j : Nat, w.pat.path = some i ∧ w.pat.handler = some j ∧ vs[i]? = some p ∧ vs[j]? = some h :=
  derived_runs hfw hp hk (found_derived hw) hc vs p h hr

/-- **C84 (partial: plain routers).** A method that hands its parameters on through `n`
calls is found, with their positions, if and only if `n` is at most four; with more
than four calls in between nothing at all is derived for it. -/
theorem C84_depth_partial {P : Prog} {fw : Nat → Edge → Bool} {role : Edge → Option (Nat × Nat)}
    {routes : List RoutePat} (hfw : Faithful P fw role routes) (hp : Plain P role) {n : Nat} {w : Id} {i j : Nat}
    (hch : Chain P role n w i j) :
    (n ≤ 4 → ∃ f ∈ findWrappers P fw routes, f.id = w ∧ f.complete = true ∧ f.pat.path = some i ∧ f.pat.handler = some j) ∧
    (4 < n → ∀ f ∈ findWrappers P fw routes, f.id ≠ w) := by
  have h := rounds_chains hfw hp 4 0 routes [] (fun _ h => .inl h) (fun _ h => by cases h) (good_zero hfw hp)
    ⟨fun f hf => (by cases hf), fun n w i j hn hch => (by have := chain_pos hch; omega)⟩
  constructor
  · exact fun hn => h.2 n w i j (by omega) hch
  · rintro hn f hf rfl
    have := h.1 f hf n i j hch
    omega

/-- **C84.** A method that registers a path of its own making is not applied: when no
parameter reaches the path of the calls that match a pattern, or none reaches the
handler, what is derived is incomplete. -/
theorem C84_own_path_not_applied {P : Prog} (hu : Declared P) {m : Meth} (hm : m ∈ P.meths) {p : RoutePat} {e : Edge}
    (hc : e.caller = m.id) {i : Nat} (hi : p.path = some i ∨ p.handler = some i) {a : Expr} (ha : e.args[i]? = some a)
    (hno : ∀ x k, (x, k) ∈ m.params → ¬ Reaches (fun y v => (y, v) ∈ m.assigns) 3 a x) :
    (derive P p e).complete = false := by
  have hnone : roleOf P e.caller e (some i) = none := by
    show indexOf P e.caller e.args[i]? = none
    rw [ha, hc]
    cases h : indexOf P m.id (some a) with
    | none => rfl
    | some j =>
      obtain ⟨x, k, hx, hr⟩ := indexOf_sound hu hm h
      exact absurd hr (hno x k (List.mem_of_getElem? hx))
  rcases hi with hi | hi
  · simp only [derive, hi, hnone, Option.isSome_none, Bool.false_and]
  · simp only [derive, hi, hnone, Option.isSome_none, Bool.and_false]

/-- **C84.** The verb is documented as an argument of the method only when a parameter,
the one at that position, reaches the argument that the inner pattern takes for the
verb; otherwise it is the name of the method if that is a verb. -/
theorem C84_verb {P : Prog} (hu : Declared P) {m : Meth} (hm : m ∈ P.meths) {p : RoutePat} {e : Edge} (hc : e.caller = m.id) :
    ((derive P p e).pat.verbFromArg = true → p.verbFromCall = false ∧ p.verbElsewhere = false ∧ ∃ a x k,
      e.args[p.verbArg]? = some a ∧ m.params[(derive P p e).pat.verbArg]? = some (x, k) ∧
      Reaches (fun y v => (y, v) ∈ m.assigns) 3 a x) ∧
    ((derive P p e).pat.verbFromCall = true → (derive P p e).pat.verbFromArg = false ∧
      m.id.name.toUpper ∈ ["GET", "POST", "PUT", "DELETE", "PATCH", "OPTIONS", "HEAD", "CONNECT", "TRACE"]) ∧
    (p.verbFromArg = true → p.verbFromCall = false → p.verbElsewhere = false → ∀ a, e.args[p.verbArg]? = some a →
      (∃ x k, (x, k) ∈ m.params ∧ Reaches (fun y v => (y, v) ∈ m.assigns) 3 a x) → (derive P p e).pat.verbFromArg = true) := by
  refine ⟨?_, ?_, ?_⟩
  · intro h
    simp only [derive] at h ⊢
    cases hv : verbIndex p with
    | none => rw [hv] at h; cases h
    | some i =>
      rw [hv] at h
      have hi : i = p.verbArg ∧ p.verbFromCall = false ∧ p.verbElsewhere = false := by
        unfold verbIndex at hv
        split at hv
        · cases hv
        · rename_i hf
          simp only [Bool.or_eq_true, not_or, Bool.not_eq_true] at hf
          split at hv
          · cases hv; exact ⟨rfl, hf⟩
          · split at hv
            · cases hv
            · split at hv
              · cases hv
              · cases hv; exact ⟨rfl, hf⟩
      obtain ⟨rfl, h1, h2⟩ := hi
      refine ⟨h1, h2, ?_⟩
      cases hr : roleOf P e.caller e (some p.verbArg) with
      | none => rw [hr] at h; cases h
      | some j =>
        have hr' : indexOf P e.caller e.args[p.verbArg]? = some j := hr
        rw [hc] at hr'
        cases ha : e.args[p.verbArg]? with
        | none => rw [ha] at hr'; cases hr'
        | some a =>
          rw [ha] at hr'
          obtain ⟨x, k, hx, hreach⟩ := indexOf_sound hu hm hr'
          exact ⟨a, x, k, rfl, hx, hreach⟩
  · intro h
    simp only [derive, Bool.and_eq_true, Bool.not_eq_true'] at h ⊢
    refine ⟨h.1, ?_⟩
    have h2 := h.2
    unfold isVerb at h2
    rw [hc] at h2
    simp only [List.any_cons, List.any_nil, Bool.or_false, List.contains_iff_mem] at h2
    exact h2
  · rintro h1 h2 h3 a ha ⟨x, k, hx, hr⟩
    obtain ⟨i, hi⟩ := indexOf_complete hu hm hx hr
    have hv : verbIndex p = some p.verbArg := by simp [verbIndex, h1, h2, h3]
    have : roleOf P e.caller e (some p.verbArg) = some i := by
      show indexOf P e.caller e.args[p.verbArg]? = some i
      rw [ha, hc]
      exact hi
    simp only [derive, hv, this, Option.isSome_some]

/-! ## A router that meets the hypotheses -/

/-- The framework: one configured pattern, for `mux.Method(verb, pattern, handler)`. -/
def chiRoute : RoutePat := { scope := .configured 0, path := some 1, handler := some 2, verbFromArg := true }
def chiHits : Nat → Edge → Bool := fun _ e => e.pkg == "chi" && e.name == "Method"
def chiRole : Edge → Option (Nat × Nat) := fun e => if e.pkg == "chi" && e.name == "Method" then some (1, 2) else none

def methodsId : Id := ⟨"app/web", "Router", "Methods"⟩
def getId : Id := ⟨"app/web", "Router", "Get"⟩

/-- `func (r *Router) Methods(verb, pattern string, h http.HandlerFunc) { r.mux.Method(verb,
pattern, h) }`, `func (r *Router) Get(pattern string, h http.HandlerFunc) { r.Methods("GET",
pattern, h) }` and a registration through it. -/
def methodsMeth : Meth := { id := methodsId, params := [("verb", .string), ("pattern", .string), ("h", .other)] }
def getM : Meth := { id := getId, params := [("pattern", .string), ("h", .other)] }
def eChi : Edge := ⟨methodsId, "chi", [("chi", "Mux")], "Method", [.id "verb", .id "pattern", .id "h"]⟩
def eGet : Edge := ⟨getId, "app/web", [("app/web", "Router")], "Methods", [.lit, .id "pattern", .id "h"]⟩
def eMain : Edge := ⟨⟨"app", "", "main"⟩, "app/web", [("app/web", "Router")], "Get", [.lit, .id "list"]⟩
def routerProg : Prog := { module := "app", meths := [methodsMeth, getM], edges := [eMain, eGet, eChi] }

example : (findWrappers routerProg chiHits [chiRoute]).map (fun w => (w.id.name, w.pat.path, w.pat.handler)) =
    [("Methods", some 1, some 2), ("Get", some 0, some 1)] := by decide +kernel
example : (findWrappers routerProg chiHits [chiRoute]).map (fun w => (w.complete, w.pat.verbFromArg, w.pat.verbFromCall)) =
    [(true, true, false), (true, false, true)] := by decide +kernel

theorem router_edges {e : Edge} (h : e ∈ routerProg.edges) : e = eMain ∨ e = eGet ∨ e = eChi := by
  simpa [routerProg] using h

theorem router_registrar {w : Id} (h : Registrar routerProg chiRole w) : w = eMain.caller ∨ w = getId ∨ w = methodsId := by
  cases h with
  | direct e he => rcases router_edges he with rfl | rfl | rfl <;> simp [eMain, eGet, eChi]
  | through e w he => rcases router_edges he with rfl | rfl | rfl <;> simp [eMain, eGet, eChi]

theorem router_calls {e : Edge} (h : e ∈ routerProg.edges) {w : Id} (hc : Calls e w) (hr : Registrar routerProg chiRole w) :
    (e = eMain ∧ w = getId) ∨ (e = eGet ∧ w = methodsId) := by
  obtain ⟨h1, h2⟩ := hc
  rcases router_edges h with rfl | rfl | rfl <;> rcases router_registrar hr with rfl | rfl | rfl <;>
    simp_all [eMain, eGet, eChi, getId, methodsId]

theorem router_faithful : Faithful routerProg chiHits chiRole [chiRoute] where
  right := by
    intro p hp
    simp only [List.mem_singleton] at hp
    subst hp
    refine ⟨0, rfl, fun e _ hh => ⟨1, 2, ?_, rfl, rfl⟩⟩
    simp only [chiRole]
    simp only [chiHits] at hh
    rw [hh]
    rfl
  all := by
    intro e _ hr
    refine ⟨chiRoute, .head _, 0, rfl, ?_⟩
    simp only [chiRole] at hr
    simp only [chiHits]
    split at hr
    · assumption
    · exact absurd rfl hr

theorem router_plain : Plain routerProg chiRole where
  declared :=
    { unique := by
        intro m hm m' hm' h
        simp only [routerProg, List.mem_cons, List.not_mem_nil, or_false] at hm hm'
        rcases hm with rfl | rfl <;> rcases hm' with rfl | rfl <;>
          first | rfl | exact absurd h (by decide)
      apart := by intro m _ f hf; simp [routerProg] at hf }
  methods := by
    intro e he _ hne
    rcases router_edges he with rfl | rfl | rfl
    · exact absurd rfl hne
    · exact ⟨getM, by simp [routerProg], rfl⟩
    · exact ⟨methodsMeth, by simp [routerProg], rfl⟩
  once := by
    intro e he e' he' hc _ _
    rcases router_edges he with rfl | rfl | rfl <;> rcases router_edges he' with rfl | rfl | rfl <;>
      first | rfl | exact absurd hc (by decide)
  target := by
    intro e he w w' hc hc' hr hr'
    rcases router_calls he hc hr with ⟨rfl, rfl⟩ | ⟨rfl, rfl⟩ <;> rcases router_calls he hc' hr' with ⟨h, rfl⟩ | ⟨h, rfl⟩
    · rfl
    · exact absurd (congrArg Edge.name h) (by decide)
    · exact absurd (congrArg Edge.name h) (by decide)
    · rfl
  framework := by
    intro e he w hne hc hr
    rcases router_calls he hc hr with ⟨rfl, rfl⟩ | ⟨rfl, rfl⟩
    · exact hne (by decide)
    · exact hne (by decide)
  args := by
    intro m hm e he hc _ a ha
    simp only [routerProg, List.mem_cons, List.not_mem_nil, or_false] at hm
    have none : ∀ {n : Nat} {s : String → Expr → Prop} {z : String}, ¬ Reaches s n .lit z := by
      intro n s z h
      have none : ∀ {z : String}, ¬ Occurs 6 .lit z := by
        intro z h
        generalize he : Expr.lit = l at h
        cases h with
        | here _ _ _ h => cases he; exact h rfl
        | inside _ _ _ _ k hk => cases he; cases hk
      generalize he : Expr.lit = l at h
      cases h with
      | occurs _ _ _ h => exact none (he ▸ h)
      | assigned _ _ _ _ _ h => exact none (he ▸ h)
    rcases router_edges he with rfl | rfl | rfl <;> rcases hm with rfl | rfl
    · exact absurd hc (by decide)
    · exact absurd hc (by decide)
    · exact absurd hc (by decide)
    · simp only [eGet, List.mem_cons, List.not_mem_nil, or_false] at ha
      rcases ha with rfl | rfl | rfl
      · exact .inr fun x k _ h => none h
      · exact .inl ⟨"pattern", .string, by simp [getM], rfl⟩
      · exact .inl ⟨"h", .other, by simp [getM], rfl⟩
    · simp only [eChi, List.mem_cons, List.not_mem_nil, or_false] at ha
      rcases ha with rfl | rfl | rfl
      · exact .inl ⟨"verb", .string, by simp [methodsMeth], rfl⟩
      · exact .inl ⟨"pattern", .string, by simp [methodsMeth], rfl⟩
      · exact .inl ⟨"h", .other, by simp [methodsMeth], rfl⟩
    · exact absurd hc (by decide)

theorem at_of {m : Meth} {x : String} {i : Nat} (hne : x ≠ "") (h : (m.params.map (·.1))[i]? = some x)
    (hn : (m.params.map (·.1)).Nodup) : At m x i := by
  refine ⟨hne, ?_, ?_⟩
  · rw [List.getElem?_map] at h
    cases hp : m.params[i]? with
    | none => rw [hp] at h; cases h
    | some p => rw [hp] at h; cases h; exact ⟨p.2, rfl⟩
  · intro i' k' hi'
    have h' : (m.params.map (·.1))[i']? = some x := by rw [List.getElem?_map, hi']; rfl
    obtain ⟨l1, e1⟩ := List.getElem?_eq_some_iff.mp h
    obtain ⟨l2, e2⟩ := List.getElem?_eq_some_iff.mp h'
    exact (List.getElem_inj hn).mp (e2.trans e1.symm)

theorem router_chain : Chain routerProg chiRole 2 getId 0 1 := by
  have h1 : Chain routerProg chiRole 1 methodsId 1 2 :=
    .direct methodsMeth eChi 1 2 1 2 "pattern" "h" (by simp [routerProg]) (by simp [routerProg]) rfl
      ⟨by decide, by decide, by decide, "/web".toList, by decide⟩ rfl rfl rfl
      (at_of (by decide) (by decide) (by decide)) (at_of (by decide) (by decide) (by decide))
  exact .through 1 methodsId getM eGet 1 2 0 1 "pattern" "h" h1 (by simp [routerProg]) (by simp [routerProg]) rfl
      ⟨by decide, by decide, by decide, "/web".toList, by decide⟩ ⟨rfl, by simp [eGet, methodsId]⟩ rfl rfl
      (at_of (by decide) (by decide) (by decide)) (at_of (by decide) (by decide) (by decide))

example : ∃ f ∈ findWrappers routerProg chiHits [chiRoute], f.id = getId ∧ f.complete = true ∧ f.pat.path = some 0 ∧
    f.pat.handler = some 1 := (C84_depth_partial router_faithful router_plain router_chain).1 (by omega)

/-! ## Where it fails -/

/-- One method of the project's own that calls `mux.Method` as in the edges given. -/
def oneMethod (name : String) (params : List (String × Kind)) (calls : List (List Expr)) : Prog :=
  { module := "app", meths := [{ id := ⟨"app", "R", name⟩, params := params }]
    edges := calls.map fun args => ⟨⟨"app", "R", name⟩, "chi", [("chi", "Mux")], "Method", args⟩ }

/-- **C84.** A helper that takes a prefix and a service, `func (r *R) Mount(prefix string,
svc *Service) { r.mux.Method("GET", prefix+"/users", svc.List) }`, passes for a wrapper:
a call `r.Mount("/api", svc)` is documented as a route at the path `/api` with the
handler `svc`, while the route registered is `/api/users`. -/
theorem C84_prefix_wrong :
    (findWrappers (oneMethod "Mount" [("prefix", .string), ("svc", .other)]
      [[.lit, .node "" [.id "prefix", .lit], .node "" [.id "svc", .id "List"]]]) chiHits [chiRoute]).map
      (fun w => (w.complete, w.pat.path, w.pat.handler)) = [(true, some 0, some 1)] := by decide +kernel

/-- **C84.** Only the first registration in a method counts.  A method that registers a
fixed path before it registers what it is given is not derived at all, though with the
two calls swapped it is; of two handlers registered, the first is documented. -/
theorem C84_first_call_wrong :
    (findWrappers (oneMethod "Add" [("p", .string), ("h", .other)]
      [[.lit, .lit, .id "health"], [.lit, .id "p", .id "h"]]) chiHits [chiRoute]).map (·.complete) = [false] ∧
    (findWrappers (oneMethod "Add" [("p", .string), ("h", .other)]
      [[.lit, .id "p", .id "h"], [.lit, .lit, .id "health"]]) chiHits [chiRoute]).map (·.complete) = [true] ∧
    (findWrappers (oneMethod "Both" [("p", .string), ("read", .other), ("write", .other)]
      [[.lit, .id "p", .id "read"], [.lit, .id "p", .id "write"]]) chiHits [chiRoute]).map
      (fun w => (w.complete, w.pat.handler)) = [(true, some 1)] := by decide +kernel

/-- **C84.** The module is recognised by a prefix of its path that may end within a name:
a type of the module `example.com/application` counts as one of `example.com/app`. -/
theorem C84_module_wrong :
    InProject { module := "example.com/app", meths := [], edges := [] } ⟨"example.com/application/web", "Router", "Get"⟩ :=
  ⟨by decide, by decide, by decide, "lication/web".toList, by decide⟩

/-- **C84.** A wrapper whose verb is neither a parameter nor its name loses it: `Register`
that calls `mux.Method("PUT", p, h)` is documented with the default verb. -/
theorem C84_verb_lost :
    (findWrappers (oneMethod "Register" [("p", .string), ("h", .other)] [[.lit, .id "p", .id "h"]]) chiHits [chiRoute]).map
      (fun w => (w.complete, w.pat.verbFromArg, w.pat.verbFromCall)) = [(true, false, false)] := by decide +kernel

end Verif.Wrappers
