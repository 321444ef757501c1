import Verif.SecCheckModel
import Verif.SecurityProps
/-!
# C104: the check of the security configuration
-/

namespace Verif.SecCheck
open Verif.Security

/-! ### Specification -/

/-- A regular expression that is given and does not compile. -/
def Broken (s : Std) (e : String) : Prop := e ≠ "" ∧ s.compiles e = false

/-- What can be wrong with a pattern. -/
inductive PatternMistake (s : Std) (p : Pattern) : String → Prop
  | scope : p.scope ≠ "router" → p.scope ≠ "subtree" → p.scope ≠ "route" → p.scope ≠ "wrapper" → PatternMistake s p "scope"
  | matcher : p.call = "" → p.fn = "" → p.recv = "" → p.recvRe = "" → PatternMistake s p "matcher"
  | regex (e : String) : (e = p.call ∨ e = p.fn ∨ e = p.recvRe) → Broken s e → PatternMistake s p "regex"

/-- A scheme named with nothing but white space. -/
def Blank (s : Std) (r : SecReq) : Prop := ∃ n scopes, (n, scopes) ∈ r ∧ ∀ c ∈ n.toList, s.space c = true

/-- What can be wrong with a mapping. -/
inductive MappingMistake (s : Std) (m : Mapping) : String → Prop
  | matcher : m.fnRe = "" → m.pkgRe = "" → m.recvRe = "" → MappingMistake s m "matcher"
  | skip : m.skip = true → (m.isPublic = true ∨ m.schemes ≠ [] ∨ m.anyOf ≠ []) → MappingMistake s m "skip"
  | nothing : m.skip = false → m.isPublic = false → m.schemes = [] → m.anyOf = [] → MappingMistake s m "nothing"
  | blank (r : SecReq) : r ∈ m.schemes → Blank s r → MappingMistake s m "blank"
  | blankAlt (g : List SecReq) (r : SecReq) : g ∈ m.anyOf → r ∈ g → Blank s r → MappingMistake s m "blank"
  | regex (e : String) : (e = m.fnRe ∨ e = m.pkgRe ∨ e = m.recvRe) → Broken s e → MappingMistake s m "regex"

/-- There is nothing wrong with the configuration. -/
def Sound (s : Std) (c : Conf) : Prop :=
  (∀ p ∈ c.patterns, ∀ w, ¬ PatternMistake s p w) ∧ ∀ m ∈ c.mappings, ∀ w, ¬ MappingMistake s m w

/-! ### Lemmas -/

theorem badRegex_iff (s : Std) (e : String) : badRegex s e = true ↔ Broken s e := by
  unfold badRegex Broken
  simp only [Bool.and_eq_true, decide_eq_true_eq, Bool.not_eq_true']

theorem anyBad_iff (s : Std) (a b d : String) : [a, b, d].any (badRegex s) = true ↔ ∃ e, (e = a ∨ e = b ∨ e = d) ∧ Broken s e := by
  rw [List.any_eq_true]
  constructor
  · rintro ⟨e, he, hb⟩
    exact ⟨e, by simpa using he, (badRegex_iff s e).mp hb⟩
  · rintro ⟨e, he, hb⟩
    exact ⟨e, by simpa using he, (badRegex_iff s e).mpr hb⟩

theorem blankIn_iff (s : Std) (r : SecReq) : blankIn s r = true ↔ Blank s r := by
  unfold blankIn blankName Blank
  rw [List.any_eq_true]
  constructor
  · rintro ⟨⟨n, v⟩, he, hb⟩
    exact ⟨n, v, he, fun c hc => List.all_eq_true.mp hb c hc⟩
  · rintro ⟨n, v, he, hb⟩
    exact ⟨(n, v), he, List.all_eq_true.mpr hb⟩

theorem scope_iff (x : String) : x ∉ scopes ↔ x ≠ "router" ∧ x ≠ "subtree" ∧ x ≠ "route" ∧ x ≠ "wrapper" := by
  unfold scopes
  simp only [List.mem_cons, List.not_mem_nil, or_false, not_or, ne_eq]

theorem checkPattern_some (s : Std) (p : Pattern) (w : String) (h : checkPattern s p = some w) : PatternMistake s p w := by
  unfold checkPattern at h
  by_cases h1 : p.scope ∉ scopes
  · rw [if_pos h1] at h
    obtain ⟨a, b, c, d⟩ := (scope_iff _).mp h1
    injection h with h; subst h
    exact .scope a b c d
  · rw [if_neg h1] at h
    by_cases h2 : p.call = "" ∧ p.fn = "" ∧ p.recv = "" ∧ p.recvRe = ""
    · rw [if_pos h2] at h
      injection h with h; subst h
      exact .matcher h2.1 h2.2.1 h2.2.2.1 h2.2.2.2
    · rw [if_neg h2] at h
      by_cases h3 : [p.call, p.fn, p.recvRe].any (badRegex s) = true
      · rw [if_pos h3] at h
        injection h with h; subst h
        obtain ⟨e, he, hb⟩ := (anyBad_iff s _ _ _).mp h3
        exact .regex e he hb
      · rw [if_neg h3] at h; exact absurd h (by simp)

theorem checkPattern_none (s : Std) (p : Pattern) (h : checkPattern s p = none) (w : String) : ¬ PatternMistake s p w := by
  unfold checkPattern at h
  by_cases h1 : p.scope ∉ scopes
  · rw [if_pos h1] at h; exact absurd h (by simp)
  rw [if_neg h1] at h
  by_cases h2 : p.call = "" ∧ p.fn = "" ∧ p.recv = "" ∧ p.recvRe = ""
  · rw [if_pos h2] at h; exact absurd h (by simp)
  rw [if_neg h2] at h
  by_cases h3 : [p.call, p.fn, p.recvRe].any (badRegex s) = true
  · rw [if_pos h3] at h; exact absurd h (by simp)
  intro hm
  cases hm with
  | scope a b c d => exact h1 ((scope_iff _).mpr ⟨a, b, c, d⟩)
  | matcher a b c d => exact h2 ⟨a, b, c, d⟩
  | regex e he hb => exact h3 ((anyBad_iff s _ _ _).mpr ⟨e, he, hb⟩)

theorem checkMapping_some (s : Std) (m : Mapping) (w : String) (h : checkMapping s m = some w) : MappingMistake s m w := by
  unfold checkMapping at h
  by_cases h1 : m.fnRe = "" ∧ m.pkgRe = "" ∧ m.recvRe = ""
  · rw [if_pos h1] at h; injection h with h; subst h; exact .matcher h1.1 h1.2.1 h1.2.2
  rw [if_neg h1] at h
  by_cases h2 : m.skip = true ∧ (m.isPublic = true ∨ m.schemes ≠ [] ∨ m.anyOf ≠ [])
  · rw [if_pos h2] at h; injection h with h; subst h; exact .skip h2.1 h2.2
  rw [if_neg h2] at h
  by_cases h3 : m.skip = false ∧ m.isPublic = false ∧ m.schemes = [] ∧ m.anyOf = []
  · rw [if_pos h3] at h; injection h with h; subst h; exact .nothing h3.1 h3.2.1 h3.2.2.1 h3.2.2.2
  rw [if_neg h3] at h
  by_cases h4 : m.schemes.any (blankIn s) = true
  · rw [if_pos h4] at h; injection h with h; subst h
    obtain ⟨r, hr, hb⟩ := List.any_eq_true.mp h4
    exact .blank r hr ((blankIn_iff s r).mp hb)
  rw [if_neg h4] at h
  by_cases h5 : m.anyOf.any (fun g => g.any (blankIn s)) = true
  · rw [if_pos h5] at h; injection h with h; subst h
    obtain ⟨g, hg, hb⟩ := List.any_eq_true.mp h5
    obtain ⟨r, hr, hb⟩ := List.any_eq_true.mp hb
    exact .blankAlt g r hg hr ((blankIn_iff s r).mp hb)
  rw [if_neg h5] at h
  by_cases h6 : [m.fnRe, m.pkgRe, m.recvRe].any (badRegex s) = true
  · rw [if_pos h6] at h; injection h with h; subst h
    obtain ⟨e, he, hb⟩ := (anyBad_iff s _ _ _).mp h6
    exact .regex e he hb
  rw [if_neg h6] at h; exact absurd h (by simp)

theorem checkMapping_none (s : Std) (m : Mapping) (h : checkMapping s m = none) (w : String) : ¬ MappingMistake s m w := by
  unfold checkMapping at h
  by_cases h1 : m.fnRe = "" ∧ m.pkgRe = "" ∧ m.recvRe = ""
  · rw [if_pos h1] at h; exact absurd h (by simp)
  rw [if_neg h1] at h
  by_cases h2 : m.skip = true ∧ (m.isPublic = true ∨ m.schemes ≠ [] ∨ m.anyOf ≠ [])
  · rw [if_pos h2] at h; exact absurd h (by simp)
  rw [if_neg h2] at h
  by_cases h3 : m.skip = false ∧ m.isPublic = false ∧ m.schemes = [] ∧ m.anyOf = []
  · rw [if_pos h3] at h; exact absurd h (by simp)
  rw [if_neg h3] at h
  by_cases h4 : m.schemes.any (blankIn s) = true
  · rw [if_pos h4] at h; exact absurd h (by simp)
  rw [if_neg h4] at h
  by_cases h5 : m.anyOf.any (fun g => g.any (blankIn s)) = true
  · rw [if_pos h5] at h; exact absurd h (by simp)
  rw [if_neg h5] at h
  by_cases h6 : [m.fnRe, m.pkgRe, m.recvRe].any (badRegex s) = true
  · rw [if_pos h6] at h; exact absurd h (by simp)
  intro hm
  cases hm with
  | matcher a b c => exact h1 ⟨a, b, c⟩
  | skip a b => exact h2 ⟨a, b⟩
  | nothing a b c d => exact h3 ⟨a, b, c, d⟩
  | blank r hr hb => exact h4 (List.any_eq_true.mpr ⟨r, hr, (blankIn_iff s r).mpr hb⟩)
  | blankAlt g r hg hr hb => exact h5 (List.any_eq_true.mpr ⟨g, hg, List.any_eq_true.mpr ⟨r, hr, (blankIn_iff s r).mpr hb⟩⟩)
  | regex e he hb => exact h6 ((anyBad_iff s _ _ _).mpr ⟨e, he, hb⟩)

theorem firstErr_none {α : Type} (list : String) (check : α → Option String) : ∀ (l : List α) (i : Nat),
    firstErr list check i l = none ↔ ∀ a ∈ l, check a = none
  | [], i => by simp [firstErr]
  | a :: l, i => by
    unfold firstErr
    cases h : check a with
    | some w => simp [h]
    | none => simp only [firstErr_none list check l (i + 1), List.mem_cons, forall_eq_or_imp, h, true_and]

theorem firstErr_some {α : Type} (list : String) (check : α → Option String) : ∀ (l : List α) (i : Nat) (e : Err),
    firstErr list check i l = some e → e.list = list ∧ ∃ before a after, l = before ++ a :: after ∧ e.index = i + before.length ∧
      check a = some e.what ∧ ∀ b ∈ before, check b = none
  | [], i, e => by simp [firstErr]
  | a :: l, i, e => by
    unfold firstErr
    cases h : check a with
    | some w =>
      intro he
      simp only [Option.some.injEq] at he
      subst he
      exact ⟨rfl, [], a, l, rfl, rfl, h, by simp⟩
    | none =>
      intro he
      obtain ⟨hl, before, x, after, hs, hi, hc, hb⟩ := firstErr_some list check l (i + 1) e he
      refine ⟨hl, a :: before, x, after, by rw [hs]; rfl, by rw [hi, List.length_cons]; omega, hc, ?_⟩
      intro b hb'
      rcases List.mem_cons.mp hb' with rfl | hb'
      · exact h
      · exact hb b hb'

/-! ### The properties -/

/-- A configuration is accepted exactly when there is nothing wrong with any of its patterns and mappings. -/
theorem C104_accepts (s : Std) (c : Conf) : validate s c = none ↔ Sound s c := by
  unfold validate Sound
  constructor
  · intro h
    cases hp : firstErr "securityPatterns" (checkPattern s) 0 c.patterns with
    | some e => rw [hp] at h; exact absurd h (by simp)
    | none =>
      rw [hp] at h
      exact ⟨fun p hpm w => checkPattern_none s p ((firstErr_none _ _ _ _).mp hp p hpm) w,
        fun m hm w => checkMapping_none s m ((firstErr_none _ _ _ _).mp h m hm) w⟩
  · rintro ⟨hp, hm⟩
    have h1 : firstErr "securityPatterns" (checkPattern s) 0 c.patterns = none := by
      refine (firstErr_none _ _ _ _).mpr (fun p hpm => ?_)
      cases hc : checkPattern s p with
      | none => rfl
      | some w => exact absurd (checkPattern_some s p w hc) (hp p hpm w)
    rw [h1]
    refine (firstErr_none _ _ _ _).mpr (fun m hmm => ?_)
    cases hc : checkMapping s m with
    | none => rfl
    | some w => exact absurd (checkMapping_some s m w hc) (hm m hmm w)

/-- The error names an entry, what is wrong with that entry, and everything before it is right: patterns before
mappings, each in order. -/
theorem C104_reports (s : Std) (c : Conf) (e : Err) (h : validate s c = some e) :
    (e.list = "securityPatterns" ∧ ∃ before p after, c.patterns = before ++ p :: after ∧ e.index = before.length ∧
      PatternMistake s p e.what ∧ ∀ q ∈ before, ∀ w, ¬ PatternMistake s q w) ∨
    (e.list = "securityMappings" ∧ (∀ q ∈ c.patterns, ∀ w, ¬ PatternMistake s q w) ∧
      ∃ before m after, c.mappings = before ++ m :: after ∧ e.index = before.length ∧
      MappingMistake s m e.what ∧ ∀ q ∈ before, ∀ w, ¬ MappingMistake s q w) := by
  unfold validate at h
  cases hp : firstErr "securityPatterns" (checkPattern s) 0 c.patterns with
  | some e' =>
    rw [hp] at h
    injection h with h; subst h
    obtain ⟨hl, b, p, a, hs, hi, hc, hb⟩ := firstErr_some _ _ _ _ _ hp
    exact Or.inl ⟨hl, b, p, a, hs, by omega, checkPattern_some s p _ hc, fun q hq w => checkPattern_none s q (hb q hq) w⟩
  | none =>
    rw [hp] at h
    obtain ⟨hl, b, m, a, hs, hi, hc, hb⟩ := firstErr_some _ _ _ _ _ h
    exact Or.inr ⟨hl, fun q hq w => checkPattern_none s q ((firstErr_none _ _ _ _).mp hp q hq) w, b, m, a, hs, by omega,
      checkMapping_some s m _ hc, fun q hq w => checkMapping_none s q (hb q hq) w⟩

abbrev demoStd : Std := ⟨fun e => decide (e ≠ "("), fun c => decide (c = ' ')⟩
abbrev demoOk : Mapping := { fnRe := "^Auth$", schemes := [[("bearer", [])]] }
example : validate demoStd ⟨[⟨"^Use$", "", "", "", "router"⟩], [demoOk, { fnRe := "(", schemes := [[("bearer", [])]] }]⟩
      = some ⟨"securityMappings", 1, "regex"⟩ ∧
    validate demoStd ⟨[⟨"^Use$", "", "", "", "router"⟩], [demoOk]⟩ = none ∧
    validate demoStd ⟨[⟨"^Use$", "", "", "", "routes"⟩], [demoOk]⟩ = some ⟨"securityPatterns", 0, "scope"⟩ ∧
    validate demoStd ⟨[], [demoOk, { fnRe := "x", schemes := [[(" ", [])]] }]⟩ = some ⟨"securityMappings", 1, "blank"⟩ := by decide

/-- Whichever way a configuration comes in — a file, text from the UI, or composed by the UI — a run only starts with
one that has nothing wrong; and it is the one that was given. -/
theorem C104_ways_in (s : Std) :
    (∀ parsed c, loaded s parsed = some c ↔ parsed = some c ∧ Sound s c) ∧
    (∀ base patterns mappings c, composed s base patterns mappings = some c ↔
      c = ⟨patterns.getD base.patterns, mappings ++ base.mappings⟩ ∧ Sound s c) := by
  constructor
  · intro parsed c
    unfold loaded
    cases parsed with
    | none => simp
    | some d =>
      dsimp only
      by_cases h : validate s d = none
      · rw [if_pos h]
        constructor
        · intro hh; injection hh with hh; subst hh; exact ⟨rfl, (C104_accepts s _).mp h⟩
        · rintro ⟨hh, _⟩; exact hh
      · rw [if_neg h]
        constructor
        · intro hh; exact absurd hh (by simp)
        · rintro ⟨hh, hs⟩
          injection hh with hh; subst hh
          exact absurd ((C104_accepts s _).mpr hs) h
  · intro base patterns mappings c
    unfold composed
    dsimp only
    by_cases h : validate s ⟨patterns.getD base.patterns, mappings ++ base.mappings⟩ = none
    · rw [if_pos h]
      constructor
      · intro hh; injection hh with hh; subst hh; exact ⟨rfl, (C104_accepts s _).mp h⟩
      · rintro ⟨hh, _⟩; rw [hh]
    · rw [if_neg h]
      constructor
      · intro hh; exact absurd hh (by simp)
      · rintro ⟨hh, hs⟩
        subst hh
        exact absurd ((C104_accepts s _).mpr hs) h

example : ∃ c, composed demoStd ⟨[⟨"^Use$", "", "", "", "router"⟩], []⟩ none [demoOk] = some c ∧ c.mappings = [demoOk] :=
  ⟨⟨[⟨"^Use$", "", "", "", "router"⟩], [demoOk]⟩, by rfl, rfl⟩

/-- In an accepted configuration every mapping says something: middleware it matches is not reported as unknown, and
unless it is to be skipped the operation is public or demands something — provided its requirements are not empty. -/
theorem C104_effect_partial (s : Std) (rx : String → String → Bool) (c : Conf) (hc : validate s c = none) (refs : List Ref) (r : Ref) (hr : r ∈ refs)
    (m : Mapping) (hm : m ∈ c.mappings) (hmatch : m.matchesRef rx r = true) :
    r ∉ (resolveSecurity rx refs c.mappings).2.2 ∧
    (m.skip = false → (∀ o ∈ m.schemes, o ≠ []) → (∀ g ∈ m.anyOf, ∃ o ∈ g, o ≠ []) →
      (resolveSecurity rx refs c.mappings).2.1 = true ∨ (resolveSecurity rx refs c.mappings).1 ≠ []) := by
  constructor
  · rw [resolve_unresolved]
    intro h
    have := (List.mem_filter.mp h).2
    have ha : anyMatches rx c.mappings r = true := List.any_eq_true.mpr ⟨m, hm, hmatch⟩
    rw [ha] at this
    exact absurd this (by decide)
  · intro hs hne hnea
    have hsound := ((C104_accepts s c).mp hc).2 m hm
    have hact : m ∈ acting rx refs c.mappings := by
      refine List.mem_flatMap.mpr ⟨r, hr, List.mem_filter.mpr ⟨hm, ?_⟩⟩
      rw [hmatch, hs]; rfl
    by_cases hp : m.isPublic = true
    · left
      rw [resolve_public]
      obtain ⟨r', hr', ha⟩ := (mem_acting _ _ _ _).1 hact
      exact ⟨r', hr', m, ha, hp⟩
    · right
      have hp : m.isPublic = false := by simpa using hp
      rw [resolve_reqs, ne_eq, dedupReqs_eq_nil, List.append_eq_nil_iff]
      rintro ⟨h1, h2⟩
      by_cases hsch : m.schemes = []
      · by_cases hany : m.anyOf = []
        · exact hsound "nothing" (.nothing hs hp hsch hany)
        · obtain ⟨g, hg⟩ := List.exists_mem_of_ne_nil _ hany
          have : mergeReqs [] g ∈ (acting rx refs c.mappings).flatMap fun m => (m.anyOf.map (mergeReqs [])).filter fun alt => !alt.isEmpty := by
            refine List.mem_flatMap.2 ⟨m, hact, List.mem_filter.2 ⟨List.mem_map.2 ⟨g, hg, rfl⟩, ?_⟩⟩
            rw [isEmpty_false_iff, mergeReqs_ne_nil]
            exact Or.inr (hnea g hg)
          rw [h2] at this
          exact absurd this (by simp)
      · obtain ⟨o, ho⟩ := List.exists_mem_of_ne_nil _ hsch
        have hn : mergeReqs [] ((acting rx refs c.mappings).flatMap Mapping.schemes) ≠ [] :=
          (mergeReqs_ne_nil _ _).mpr (Or.inr ⟨o, List.mem_flatMap.mpr ⟨m, hact, ho⟩, hne o ho⟩)
        cases hq : mergeReqs [] ((acting rx refs c.mappings).flatMap Mapping.schemes) with
        | nil => exact hn hq
        | cons x l => rw [hq] at h1; exact absurd h1 (by simp)

abbrev eqRx : String → String → Bool := fun p t => decide (p = t)
example : validate demoStd ⟨[], [{ fnRe := "Auth", schemes := [[("bearer", [])]] }]⟩ = none ∧
    (resolveSecurity eqRx [{ fn := "Auth" }] [{ fnRe := "Auth", schemes := [[("bearer", [])]] }]).1 = [[("bearer", [])]] := by decide

/-! ### What does not hold -/

/-- What is missing above: a mapping to an empty requirement is accepted, and middleware it matches leaves no trace —
the operation demands nothing, is not public, and the middleware is not reported. -/
theorem C104_empty_requirement : ∃ m : Mapping, m.skip = false ∧ validate demoStd ⟨[], [m]⟩ = none ∧
    resolveSecurity eqRx [{ fn := "Auth" }] [m] = ([], false, []) :=
  ⟨{ fnRe := "Auth", schemes := [[]] }, by decide⟩

/-- Putting a request's mappings before the built-in ones gives them no precedence: all that match are applied.
Middleware the user wants skipped is still documented with the built-in scheme, and for one scheme the built-in scopes
replace the user's. -/
theorem C104_no_precedence : ∃ user preset : Mapping, user.skip = true ∧
    composed demoStd ⟨[], [preset]⟩ none [user] = some ⟨[], [user, preset]⟩ ∧
    (resolveSecurity eqRx [{ fn := "Auth" }] [user, preset]).1 = [[("bearer", [])]] ∧
    (resolveSecurity eqRx [{ fn := "Auth" }] [{ fnRe := "Auth", schemes := [[("bearer", ["admin"])]] }, preset]).1 = [[("bearer", [])]] :=
  ⟨{ fnRe := "Auth", skip := true }, { fnRe := "Auth", schemes := [[("bearer", [])]] }, rfl, by rfl, by decide, by decide⟩

/-- A scheme that is defined nowhere is accepted: the check does not look at the definitions. -/
theorem C104_undefined_scheme (s : Std) (fn : String) (hf : fn ≠ "") (hok : s.compiles fn = true) (scheme : String)
    (hb : ∃ c ∈ scheme.toList, s.space c = false) : validate s ⟨[], [{ fnRe := fn, schemes := [[(scheme, [])]] }]⟩ = none := by
  rw [C104_accepts]
  refine ⟨by simp, fun m hm w hw => ?_⟩
  rw [List.mem_singleton] at hm
  subst hm
  cases hw with
  | matcher a _ _ => exact hf a
  | skip a _ => exact Bool.noConfusion a
  | nothing _ _ c _ => exact absurd c (by simp)
  | blank r hr hbl =>
    rw [List.mem_singleton] at hr
    subst hr
    obtain ⟨n, v, hn, hall⟩ := hbl
    rw [List.mem_singleton] at hn
    injection hn with hn _
    subst hn
    obtain ⟨c, hc, hcs⟩ := hb
    rw [hall c hc] at hcs
    exact absurd hcs (by decide)
  | blankAlt g r hg _ _ => exact absurd hg (by simp)
  | regex e he hbr =>
    obtain ⟨h1, h2⟩ := hbr
    rcases he with rfl | rfl | rfl
    · rw [hok] at h2; exact absurd h2 (by decide)
    · exact h1 rfl
    · exact h1 rfl

example : validate demoStd ⟨[], [{ fnRe := "^Auth$", schemes := [[("no such scheme", [])]] }]⟩ = none := by decide

end Verif.SecCheck
