import Verif.ScopeModel
/-!
# Properties: which calls a pattern matches
-/

namespace Verif.ScopeModel
open Verif.Common

/-! ## Specification -/

/-- A regular expression that compiles and matches. -/
def Hits (compile : Engine) (pattern value : String) : Prop := ∃ re, compile pattern = some re ∧ re value = true

/-- A list of alternatives admits a value: there are none, or one of them, not the empty one, matches. -/
def Admits (compile : Engine) (patterns : List String) (value : String) : Prop := patterns = [] ∨ ∃ p ∈ patterns, p ≠ "" ∧ Hits compile p value

/-- How an owner is spelled: the package and the receiver, the one there is if the other is missing. -/
inductive Owner : String → String → String → Prop
  | method {pkg recv} : pkg ≠ "" → recv ≠ "" → Owner pkg recv (pkg ++ "." ++ recv)
  | func {pkg} : Owner pkg "" pkg
  | bare {recv} : recv ≠ "" → Owner "" recv recv

/-- The receivers a call goes by: as recorded and as written. -/
def GoesBy (c : Call) (form : String) : Prop := Owner c.pkg c.recv form ∨ ∃ w, c.written = some w ∧ Owner c.pkg w form

/-! ## Proofs -/

theorem owner_iff (pkg recv f : String) : Owner pkg recv f ↔ f = qualifyOwner pkg recv := by
  constructor
  · intro h
    cases h with
    | method h1 h2 => rw [qualifyOwner, if_pos ⟨h1, h2⟩]
    | func => rw [qualifyOwner, if_neg (fun h => h.2 rfl), if_neg (fun h => h rfl)]
    | bare h => rw [qualifyOwner, if_neg (fun h => h.1 rfl), if_pos h]
  · rintro rfl
    unfold qualifyOwner
    split
    · next h => exact .method h.1 h.2
    · next h =>
      split
      · next h2 =>
        by_cases hp : pkg = ""
        · subst hp; exact .bare h2
        · exact absurd ⟨hp, h2⟩ h
      · next h2 =>
        have : recv = "" := Decidable.not_not.mp h2
        subst this
        exact .func

theorem hits_iff (compile : Engine) (p v : String) : (match compile p with | some re => re v | none => false) = true ↔ Hits compile p v := by
  unfold Hits
  cases compile p with
  | none => simp
  | some re => simp

theorem admits_iff (compile : Engine) (ps : List String) (v : String) : matchesAny compile ps v = true ↔ Admits compile ps v := by
  unfold matchesAny Admits
  cases ps with
  | nil => simp
  | cons p ps =>
    rw [if_neg (by simp), List.any_eq_true]
    constructor
    · rintro ⟨q, hq, h⟩
      right
      refine ⟨q, hq, ?_⟩
      split at h
      · cases h
      · next hne => exact ⟨hne, (hits_iff compile q v).mp h⟩
    · rintro (h | ⟨q, hq, hne, h⟩)
      · cases h
      · exact ⟨q, hq, by rw [if_neg hne]; exact (hits_iff compile q v).mpr h⟩

/-- **C51.** A scope admits a call exactly when each of its four lists admits what it is about: the caller's
package and owner, the callee's package and owner.  A scope without lists admits everything, one with a list
needs a call. -/
theorem C51_scope (compile : Engine) (edge : Option Edge) (s : CallScope) : matchCallScope compile edge s = true ↔
    (s.callerPkg = [] ∧ s.callerRecvType = [] ∧ s.calleePkg = [] ∧ s.calleeRecvType = []) ∨
    ∃ e, edge = some e ∧ Admits compile s.callerPkg e.caller.pkg ∧ (∃ o, Owner e.caller.pkg e.caller.recv o ∧ Admits compile s.callerRecvType o) ∧
      Admits compile s.calleePkg e.callee.pkg ∧ (∃ o, Owner e.callee.pkg e.callee.recv o ∧ Admits compile s.calleeRecvType o) := by
  have he : s.empty = true ↔ (s.callerPkg = [] ∧ s.callerRecvType = [] ∧ s.calleePkg = [] ∧ s.calleeRecvType = []) := by
    unfold CallScope.empty
    simp only [Bool.and_eq_true, List.isEmpty_iff]
    exact ⟨fun ⟨⟨⟨a, b⟩, c⟩, d⟩ => ⟨a, b, c, d⟩, fun ⟨a, b, c, d⟩ => ⟨⟨⟨a, b⟩, c⟩, d⟩⟩
  unfold matchCallScope
  split
  · next h => exact ⟨fun _ => .inl (he.mp h), fun _ => rfl⟩
  · next h =>
    have hn : ¬ _ := fun x => h (he.mpr x)
    cases edge with
    | none =>
      constructor
      · intro h; cases h
      · rintro (h | ⟨_, h, _⟩)
        · exact absurd h hn
        · cases h
    | some e =>
      simp only [Bool.and_eq_true, admits_iff]
      constructor
      · rintro ⟨⟨⟨a, b⟩, c⟩, d⟩
        exact .inr ⟨e, rfl, a, ⟨_, (owner_iff _ _ _).mpr rfl, b⟩, c, ⟨_, (owner_iff _ _ _).mpr rfl, d⟩⟩
      · rintro (h | ⟨e', h, a, ⟨o, ho, b⟩, c, ⟨o', ho', d⟩⟩)
        · exact absurd h hn
        · injection h with h
          subst h
          rw [owner_iff] at ho ho'
          subst ho ho'
          exact ⟨⟨⟨a, b⟩, c⟩, d⟩

/-- An engine for the examples: `!` does not compile, every other pattern is a prefix. -/
def prefixEngine : Engine := fun p => if p = "!" then none else some fun v => p.toList.isPrefixOf v.toList

def getCall : Edge := ⟨⟨"Routes", "app/api", "", none⟩, ⟨"Get", "chi", "*Mux", none⟩, []⟩

example : matchCallScope prefixEngine (some getCall) ⟨["app/web", "app/api"], [], [], ["chi.*"]⟩ = true ∧
    matchCallScope prefixEngine (some getCall) ⟨["app/web"], [], [], ["chi.*"]⟩ = false ∧
    matchCallScope prefixEngine none ⟨["app"], [], [], []⟩ = false := by decide

/-- **C51 (bad patterns).** Adding patterns that are empty or do not compile never admits a call. -/
theorem C51_bad_patterns (compile : Engine) (edge : Option Edge) (s t : CallScope)
    (hb : ∀ l l' : List String, (l, l') ∈ [(s.callerPkg, t.callerPkg), (s.callerRecvType, t.callerRecvType), (s.calleePkg, t.calleePkg), (s.calleeRecvType, t.calleeRecvType)] →
      ∃ bad, l' = l ++ bad ∧ ∀ p ∈ bad, p = "" ∨ compile p = none)
    (h : matchCallScope compile edge t = true) : matchCallScope compile edge s = true := by
  have key : ∀ l l' v, (∃ bad, l' = l ++ bad ∧ ∀ p ∈ bad, p = "" ∨ compile p = none) → Admits compile l' v → Admits compile l v := by
    rintro l _ v ⟨bad, rfl, hbad⟩ (h | ⟨p, hp, hne, hh⟩)
    · exact .inl (List.append_eq_nil_iff.mp h).1
    · rcases List.mem_append.mp hp with hp | hp
      · exact .inr ⟨p, hp, hne, hh⟩
      · rcases hbad p hp with h | h
        · exact absurd h hne
        · obtain ⟨re, e, _⟩ := hh
          rw [h] at e; cases e
  rw [C51_scope] at h ⊢
  rcases h with ⟨h1, h2, h3, h4⟩ | ⟨e, he, a, ⟨o, ho, b⟩, c, ⟨o', ho', d⟩⟩
  · left
    refine ⟨?_, ?_, ?_, ?_⟩
    · obtain ⟨_, e, _⟩ := hb _ _ (List.mem_cons_self ..); rw [h1] at e; exact (List.append_eq_nil_iff.mp e.symm).1
    · obtain ⟨_, e, _⟩ := hb _ _ (List.mem_cons_of_mem _ (List.mem_cons_self ..)); rw [h2] at e; exact (List.append_eq_nil_iff.mp e.symm).1
    · obtain ⟨_, e, _⟩ := hb _ _ (List.mem_cons_of_mem _ (List.mem_cons_of_mem _ (List.mem_cons_self ..))); rw [h3] at e; exact (List.append_eq_nil_iff.mp e.symm).1
    · obtain ⟨_, e, _⟩ := hb _ _ (List.mem_cons_of_mem _ (List.mem_cons_of_mem _ (List.mem_cons_of_mem _ (List.mem_cons_self ..)))); rw [h4] at e; exact (List.append_eq_nil_iff.mp e.symm).1
  · exact .inr ⟨e, he, key _ _ _ (hb _ _ (List.mem_cons_self ..)) a, ⟨o, ho, key _ _ _ (hb _ _ (List.mem_cons_of_mem _ (List.mem_cons_self ..))) b⟩,
      key _ _ _ (hb _ _ (List.mem_cons_of_mem _ (List.mem_cons_of_mem _ (List.mem_cons_self ..)))) c,
      ⟨o', ho', key _ _ _ (hb _ _ (List.mem_cons_of_mem _ (List.mem_cons_of_mem _ (List.mem_cons_of_mem _ (List.mem_cons_self ..))))) d⟩⟩

/-- **C51 (only bad patterns).** A list of only such patterns admits nothing. -/
theorem C51_only_bad (compile : Engine) (edge : Option Edge) (s : CallScope) (l : List String) (hl : l ∈ [s.callerPkg, s.callerRecvType, s.calleePkg, s.calleeRecvType]) (hne : l ≠ [])
    (hb : ∀ p ∈ l, p = "" ∨ compile p = none) : matchCallScope compile edge s = false := by
  cases hm : matchCallScope compile edge s with
  | false => rfl
  | true =>
    exfalso
    have key : ∀ v, ¬ Admits compile l v := by
      rintro v (h | ⟨p, hp, hp', re, hre, _⟩)
      · exact hne h
      · rcases hb p hp with h | h
        · exact hp' h
        · rw [h] at hre; cases hre
    rw [C51_scope] at hm
    simp only [List.mem_cons, List.not_mem_nil, or_false] at hl
    rcases hm with ⟨h1, h2, h3, h4⟩ | ⟨e, he, a, ⟨o, _, b⟩, c, ⟨o', _, d⟩⟩
    · rcases hl with rfl | rfl | rfl | rfl
      · exact hne h1
      · exact hne h2
      · exact hne h3
      · exact hne h4
    · rcases hl with rfl | rfl | rfl | rfl
      · exact key _ a
      · exact key _ b
      · exact key _ c
      · exact key _ d

example : matchCallScope prefixEngine (some getCall) ⟨["!", ""], [], [], []⟩ = false := by decide

theorem mem_forms (c : Call) (f : String) (hf : f ≠ "") : f ∈ recvForms c ↔ GoesBy c f := by
  have e1 : ∀ g, Owner c.pkg c.recv g ↔ g = fqOwner c := fun g => owner_iff _ _ _
  unfold recvForms GoesBy
  simp only [e1]
  cases hw : c.written with
  | none =>
    simp only
    split
    · next h =>
      constructor
      · intro h; cases h
      · rintro (h' | ⟨w, hw, _⟩)
        · exact absurd (h'.trans h) hf
        · cases hw
    · constructor
      · intro h; exact .inl (List.mem_singleton.mp h)
      · rintro (h' | ⟨w, hw, _⟩)
        · exact List.mem_singleton.mpr h'
        · cases hw
  | some w =>
    have e2 : (∃ w', some w = some w' ∧ Owner c.pkg w' f) ↔ f = qualifyOwner c.pkg w :=
      ⟨fun ⟨w', h, ho⟩ => by injection h with h; subst h; exact (owner_iff _ _ _).mp ho, fun h => ⟨w, rfl, (owner_iff _ _ _).mpr h⟩⟩
    rw [e2]
    simp only
    split
    · next h =>
      split
      · next h2 => exact ⟨fun h => (by cases h), fun h' => by rcases h' with h' | h'; exact absurd (h'.trans h) hf; exact absurd (h'.trans h2) hf⟩
      · exact ⟨fun h' => .inr (List.mem_singleton.mp h'), fun h' => by rcases h' with h' | h'; exact absurd (h'.trans h) hf; exact List.mem_singleton.mpr h'⟩
    · split
      · next h2 =>
        constructor
        · intro h'; exact .inl (List.mem_singleton.mp h')
        · rintro (h' | h')
          · exact List.mem_singleton.mpr h'
          · rcases h2 with h2 | h2
            · exact absurd (h'.trans h2) hf
            · exact List.mem_singleton.mpr (h'.trans h2)
      · simp only [List.mem_cons, List.not_mem_nil, or_false]

theorem forms_empty (c : Call) : recvForms c = [] ↔ ∀ f, GoesBy c f → f = "" := by
  constructor
  · intro h f hg
    by_cases hf : f = ""
    · exact hf
    · have := (mem_forms c f hf).mpr hg
      rw [h] at this; cases this
  · intro h
    cases hr : recvForms c with
    | nil => rfl
    | cons f fs =>
      have hm : f ∈ recvForms c := by rw [hr]; exact List.mem_cons_self ..
      by_cases hf : f = ""
      · exfalso
        subst hf
        unfold recvForms at hm
        dsimp only at hm
        split at hm
        · split at hm
          · cases hm
          · next hn => exact hn (List.mem_singleton.mp hm).symm
        · split at hm
          · split at hm
            · cases hm
            · next hn => exact hn (List.mem_singleton.mp hm).symm
          · next hn =>
            split at hm
            · exact hn (List.mem_singleton.mp hm).symm
            · next hn2 =>
              simp only [List.mem_cons, List.not_mem_nil, or_false] at hm
              rcases hm with hm | hm
              · exact hn hm.symm
              · exact hn2 (.inl hm.symm)
      · exact absurd (h f ((mem_forms c f hf).mp hm)) hf

theorem no_empty_form (c : Call) : "" ∉ recvForms c := by
  intro hm
  unfold recvForms at hm
  dsimp only at hm
  split at hm
  · split at hm
    · cases hm
    · next hn => exact hn (List.mem_singleton.mp hm).symm
  · split at hm
    · split at hm
      · cases hm
      · next hn => exact hn (List.mem_singleton.mp hm).symm
    · next hn =>
      split at hm
      · exact hn (List.mem_singleton.mp hm).symm
      · next hn2 =>
        simp only [List.mem_cons, List.not_mem_nil, or_false] at hm
        rcases hm with hm | hm
        · exact hn hm.symm
        · exact hn2 (.inl hm.symm)

/-- The receivers a scoped pattern is compared with: those the call goes by; the empty text for a call that
goes by none. -/
def Compared (c : Call) (f : String) : Prop := (f ≠ "" ∧ GoesBy c f) ∨ (f = "" ∧ ∀ g, GoesBy c g → g = "")

theorem mem_compared (c : Call) (f : String) : f ∈ (if (recvForms c).isEmpty then [""] else recvForms c) ↔ Compared c f := by
  unfold Compared
  split
  · next h =>
    rw [List.isEmpty_iff] at h
    have h' := (forms_empty c).mp h
    constructor
    · intro hf; exact .inr ⟨List.mem_singleton.mp hf, h'⟩
    · rintro (⟨hf, hg⟩ | ⟨hf, _⟩)
      · exact absurd (h' f hg) hf
      · exact List.mem_singleton.mpr hf
  · next h =>
    rw [List.isEmpty_iff] at h
    constructor
    · intro hf
      have hne : f ≠ "" := fun e => no_empty_form c (e ▸ hf)
      exact .inl ⟨hne, (mem_forms c f hne).mp hf⟩
    · rintro (⟨hf, hg⟩ | ⟨_, hg⟩)
      · exact (mem_forms c f hf).mpr hg
      · exact absurd ((forms_empty c).mpr hg) h

/-- **C51 (receiver).** The receiver part of a pattern: unset it matches; a regular expression decides when
there is one, the exact text otherwise; a receiver counts as recorded or as written. -/
theorem C51_receiver (compile : Engine) (c : Call) (exact regex : String) : matchesRecvType compile c exact regex = true ↔
    (regex = "" ∧ exact = "") ∨ (regex ≠ "" ∧ ∃ f, Compared c f ∧ Hits compile regex f) ∨ (regex = "" ∧ exact ≠ "" ∧ GoesBy c exact) := by
  unfold matchesRecvType
  split
  · next h => exact ⟨fun _ => .inl h, fun _ => rfl⟩
  · next h =>
    simp only
    split
    · next hr =>
      unfold Hits
      cases hc : compile regex with
      | none =>
        constructor
        · intro h; cases h
        · rintro (h' | ⟨_, f, _, re, h', _⟩ | ⟨h', _⟩)
          · exact absurd h' h
          · cases h'
          · exact absurd h' hr
      | some re =>
        simp only [List.any_eq_true, mem_compared]
        constructor
        · rintro ⟨f, hf, hre⟩
          exact .inr (.inl ⟨hr, f, hf, re, rfl, hre⟩)
        · rintro (h' | ⟨_, f, hf, re', h', hre⟩ | ⟨h', _⟩)
          · exact absurd h' h
          · injection h' with h'; subst h'; exact ⟨f, hf, hre⟩
          · exact absurd h' hr
    · next hr =>
      have hr : regex = "" := Decidable.not_not.mp hr
      have hx : exact ≠ "" := fun e => h ⟨hr, e⟩
      simp only [List.any_eq_true, mem_compared, decide_eq_true_eq]
      constructor
      · rintro ⟨f, hf, rfl⟩
        rcases hf with ⟨_, hg⟩ | ⟨hf, _⟩
        · exact .inr (.inr ⟨hr, hx, hg⟩)
        · exact absurd hf hx
      · rintro (h' | ⟨h', _⟩ | ⟨_, _, hg⟩)
        · exact absurd h' h
        · exact absurd hr h'
        · exact ⟨_, .inl ⟨hx, hg⟩, rfl⟩

theorem matchPattern_iff (compile : Engine) (p v : String) (h : p ≠ "") : matchPattern compile p v = true ↔ Hits compile p v := by
  rw [matchPattern, if_neg h]
  exact hits_iff compile p v

/-- **C51 (patterns).** A pattern matches a node exactly when the node is a call, the scope admits it, and
the regular expressions for the called function, the calling function and the receiver match, those that are
set. -/
theorem C51_pattern (compile : Engine) (p : Pattern) (edge : Option Edge) : matchNode compile p edge = true ↔
    ∃ e, edge = some e ∧ matchCallScope compile (some e) p.scope = true ∧ (p.callRegex = "" ∨ Hits compile p.callRegex e.callee.name) ∧
      (p.functionNameRegex = "" ∨ Hits compile p.functionNameRegex e.caller.name) ∧ matchesRecvType compile e.callee p.recvType p.recvTypeRegex = true := by
  have unset : ∀ (q v : String), (decide (q ≠ "") && !matchPattern compile q v) = true ↔ ¬ (q = "" ∨ Hits compile q v) := by
    intro q v
    by_cases h : q = ""
    · simp [h]
    · have := matchPattern_iff compile q v h
      simp only [h, ne_eq, not_false_eq_true, decide_true, Bool.true_and, Bool.not_eq_true', false_or, ← this, Bool.not_eq_true]
  cases edge with
  | none =>
    constructor
    · intro h; cases h
    · rintro ⟨_, h, _⟩; cases h
  | some e =>
    rw [matchNode]
    split
    · next h =>
      refine ⟨fun h => (by cases h), ?_⟩
      rintro ⟨_, he, h1, _⟩
      injection he with he; subst he
      rw [h1] at h; cases h
    · next h =>
      split
      · next h2 =>
        refine ⟨fun h => (by cases h), ?_⟩
        rintro ⟨_, he, _, h', _⟩
        injection he with he; subst he
        exact absurd h' ((unset _ _).mp h2)
      · next h2 =>
        split
        · next h3 =>
          refine ⟨fun h => (by cases h), ?_⟩
          rintro ⟨_, he, _, _, h', _⟩
          injection he with he; subst he
          exact absurd h' ((unset _ _).mp h3)
        · next h3 =>
          split
          · next h4 =>
            refine ⟨fun h => (by cases h), ?_⟩
            rintro ⟨_, he, _, _, _, h'⟩
            injection he with he; subst he
            rw [h'] at h4; cases h4
          · next h4 =>
            refine ⟨fun _ => ⟨e, rfl, ?_, ?_, ?_, ?_⟩, fun _ => rfl⟩
            · cases hh : matchCallScope compile (some e) p.scope with
              | true => rfl
              | false => rw [hh] at h; exact absurd rfl h
            · exact Classical.not_not.mp fun hn => h2 ((unset _ _).mpr hn)
            · exact Classical.not_not.mp fun hn => h3 ((unset _ _).mpr hn)
            · cases hh : matchesRecvType compile e.callee p.recvType p.recvTypeRegex with
              | true => rfl
              | false => rw [hh] at h4; exact absurd rfl h4

example : matchNode prefixEngine ⟨"Get", "", "", "chi.", ⟨["app"], [], [], []⟩⟩ (some getCall) = true ∧
    matchNode prefixEngine ⟨"Get", "Main", "", "chi.", ⟨["app"], [], [], []⟩⟩ (some getCall) = false := by decide

/-- **C51 (mounts).** A mount pattern matches exactly the calls the common part matches, if it is a mount and
the router argument (or, for a call, one of its arguments) has a matching type when that is asked for. -/
theorem C51_mount (compile : Engine) (p : Pattern) (rr : String) (ri : Int) (isMount : Bool) (edge : Option Edge) : matchMount compile p rr ri isMount edge = true ↔
    matchNode compile p edge = true ∧ isMount = true ∧
      (rr = "" ∨ ∃ e a re, edge = some e ∧ 0 ≤ ri ∧ e.args[ri.toNat]? = some a ∧ compile rr = some re ∧ (re a.type = true ∨ ∃ t ∈ a.inner, re t = true)) := by
  have arg : ∀ e, routerArgIsRouter compile rr ri e = true ↔ ∃ a re, 0 ≤ ri ∧ e.args[ri.toNat]? = some a ∧ compile rr = some re ∧ (re a.type = true ∨ ∃ t ∈ a.inner, re t = true) := by
    intro e
    unfold routerArgIsRouter
    split
    · next h =>
      refine ⟨fun h => (by cases h), ?_⟩
      rintro ⟨a, re, h0, ha, _⟩
      have := (List.getElem?_eq_some_iff.mp ha).1
      omega
    · next h =>
      cases hc : compile rr with
      | none => exact ⟨fun h => (by cases h), fun ⟨_, _, _, _, h, _⟩ => by cases h⟩
      | some re =>
        simp only
        cases ha : e.args[ri.toNat]? with
        | none => exact ⟨fun h => (by cases h), fun ⟨_, _, _, h, _⟩ => by cases h⟩
        | some a =>
          simp only [Bool.or_eq_true, List.any_eq_true]
          constructor
          · intro h'; exact ⟨a, re, by omega, rfl, rfl, h'⟩
          · rintro ⟨_, _, _, h1, h2, h3⟩
            injection h1 with h1; injection h2 with h2
            subst h1 h2
            exact h3
  cases edge with
  | none => exact ⟨fun h => (by cases h), fun h => by cases h.1⟩
  | some e =>
    rw [matchMount]
    cases hm : matchNode compile p (some e) with
    | false => simp
    | true =>
      by_cases hr : rr = ""
      · simp [hr]
      · have := arg e
        cases hx : routerArgIsRouter compile rr ri e with
        | false =>
          simp only [Bool.not_true, Bool.false_eq_true, if_false, ne_eq, hr, not_false_eq_true, decide_true, Bool.not_false, Bool.and_self, if_true, true_and, false_or]
          refine ⟨fun h => (by cases h), ?_⟩
          rintro ⟨_, e', a, re, he, h⟩
          injection he with he; subst he
          rw [this.mpr ⟨a, re, h⟩] at hx; cases hx
        | true =>
          obtain ⟨a, re, h⟩ := this.mp hx
          simp only [Bool.not_true, Bool.false_eq_true, if_false, ne_eq, hr, not_false_eq_true, decide_true, Bool.and_false, true_and, false_or]
          exact ⟨fun hi => ⟨hi, e, a, re, rfl, h⟩, fun hi => hi.1⟩

/-- **C51 (parameters).** A parameter pattern matches exactly the calls the common part matches whose
receiver does not come from an excluded type.  An exclusion that does not compile excludes nothing. -/
theorem C51_param (compile : Engine) (p : Pattern) (ex : String) (origins : List String) (edge : Option Edge) : matchParam compile p ex origins edge = true ↔
    matchNode compile p edge = true ∧ (ex = "" ∨ ∀ o ∈ origins, ¬ Hits compile ex o) := by
  unfold matchParam
  cases matchNode compile p edge with
  | false => simp
  | true =>
    by_cases he : ex = ""
    · simp [he]
    · unfold Hits
      cases hc : compile ex with
      | none => simp [he]
      | some re => simp [he]

/-- **C51 (written receivers).** The list of callee receivers is not the same question as the receiver
expression: it sees only the recorded receiver, so the interface a call was written against matches one and
not the other. -/
theorem C51_written_receiver : let c : Call := ⟨"Header", "net/http", "writer", some "ResponseWriter"⟩
    matchesRecvType prefixEngine c "" "net/http.ResponseWriter" = true ∧
    matchCallScope prefixEngine (some ⟨⟨"h", "app", "", none⟩, c, []⟩) ⟨[], [], [], ["net/http.ResponseWriter"]⟩ = false := by decide

end Verif.ScopeModel
