import Verif.GateModel
import Verif.ReachProps
/-!
# C105: what counts as a registration before routes are looked for
-/

namespace Verif.Gate
open Verif.ScopeModel Verif.Reach Verif.GraphSpec Verif.ReachSpec

/-! ### Specification -/

/-- The text matches the expression; one that does not compile matches nothing. -/
def Matches (compile : Engine) (e text : String) : Prop := ∃ re, compile e = some re ∧ re text = true

/-- The receiver recorded for the call, with its package. -/
def Recorded (c : Call) (r : String) : Prop :=
  (c.pkg ≠ "" ∧ c.recv ≠ "" ∧ r = c.pkg ++ "." ++ c.recv) ∨ (c.pkg = "" ∧ r = c.recv) ∨ (c.recv = "" ∧ r = c.pkg)

/-- The name and the recorded receiver are what the pattern asks for. -/
def Fits (compile : Engine) (p : Pattern) (c : Call) : Prop :=
  p.callRegex ≠ "" ∧ Matches compile p.callRegex c.name ∧
  (p.recvTypeRegex ≠ "" → ∃ r, Recorded c r ∧ Matches compile p.recvTypeRegex r) ∧
  (p.recvTypeRegex = "" → p.recvType ≠ "" → Recorded c p.recvType)

/-! ### Lemmas -/

theorem rx_iff (compile : Engine) (e text : String) : rx compile e text = true ↔ Matches compile e text := by
  unfold rx Matches
  cases h : compile e with
  | none => simp
  | some re => simp

theorem recorded_owner (c : Call) : Recorded c (owner c) := by
  unfold Recorded owner
  by_cases h1 : c.pkg = "" <;> by_cases h2 : c.recv = "" <;> simp [h1, h2]

theorem recorded_unique (c : Call) (r : String) (h : Recorded c r) : r = owner c := by
  unfold owner
  rcases h with ⟨h1, h2, h⟩ | ⟨h1, h⟩ | ⟨h1, h⟩
  · rw [if_pos ⟨h1, h2⟩]; exact h
  · rw [if_neg (by simp [h1])]
    by_cases h2 : c.recv = ""
    · rw [if_neg (by simp [h2]), h, h2, h1]
    · rw [if_pos h2]; exact h
  · rw [if_neg (by simp [h1]), if_neg (by simp [h1])]; exact h

theorem gateOk_iff (compile : Engine) (c : Call) (p : Pattern) (hp : p.callRegex ≠ "") :
    gateOk compile c ⟨p.callRegex, p.recvTypeRegex, p.recvType⟩ = true ↔ Fits compile p c := by
  unfold gateOk Fits
  dsimp only
  by_cases h1 : rx compile p.callRegex c.name = true
  · have h1' := (rx_iff _ _ _).mp h1
    rw [h1, if_neg (by simp)]
    by_cases h2 : p.recvTypeRegex = ""
    · rw [if_neg (by simp [h2])]
      by_cases h3 : p.recvType = ""
      · rw [if_neg (by simp [h3])]
        simp only [true_iff]
        exact ⟨hp, h1', fun h => absurd h2 h, fun _ h => absurd h3 h⟩
      · rw [if_pos h3, decide_eq_true_eq]
        constructor
        · intro h
          exact ⟨hp, h1', fun h' => absurd h2 h', fun _ _ => h ▸ recorded_owner c⟩
        · rintro ⟨_, _, _, h⟩
          exact recorded_unique c _ (h h2 h3)
    · rw [if_pos h2, rx_iff]
      constructor
      · intro h
        exact ⟨hp, h1', fun _ => ⟨owner c, recorded_owner c, h⟩, fun h' => absurd h' h2⟩
      · rintro ⟨_, _, h, _⟩
        obtain ⟨r, hr, hm⟩ := h h2
        rw [← recorded_unique c r hr]; exact hm
  · have h1n : rx compile p.callRegex c.name = false := by simpa using h1
    rw [h1n]
    simp only [Bool.not_false, if_true]
    constructor
    · intro h; exact absurd h (by simp)
    · rintro ⟨_, h, _⟩; exact absurd ((rx_iff _ _ _).mpr h) h1

theorem mem_gatesOf (ps : List Pattern) (g : Gate) :
    g ∈ gatesOf ps ↔ ∃ p ∈ ps, p.callRegex ≠ "" ∧ g = ⟨p.callRegex, p.recvTypeRegex, p.recvType⟩ := by
  unfold gatesOf
  rw [List.mem_map]
  constructor
  · rintro ⟨p, hp, rfl⟩
    obtain ⟨h1, h2⟩ := List.mem_filter.mp hp
    exact ⟨p, h1, by simpa using h2, rfl⟩
  · rintro ⟨p, h1, h2, rfl⟩
    exact ⟨p, List.mem_filter.mpr ⟨h1, by simpa using h2⟩, rfl⟩

theorem fqOwner_eq (c : Call) : fqOwner c = owner c := rfl

/-! ### The properties -/

/-- A call counts as a registration exactly when it has a name and fits a route pattern, or, where mounts count, a
mount pattern.  Nothing else about the call or the pattern is looked at. -/
theorem C105_exact (compile : Engine) (routes mounts : List Pattern) (includeMounts : Bool) (e : Edge) :
    registers compile routes mounts includeMounts e = true ↔
      e.callee.name ≠ "" ∧ ((∃ p ∈ routes, Fits compile p e.callee) ∨ (includeMounts = true ∧ ∃ p ∈ mounts, Fits compile p e.callee)) := by
  have key : ∀ ps : List Pattern, (gatesOf ps).any (gateOk compile e.callee) = true ↔ ∃ p ∈ ps, Fits compile p e.callee := by
    intro ps
    rw [List.any_eq_true]
    constructor
    · rintro ⟨g, hg, hok⟩
      obtain ⟨p, hp, hc, rfl⟩ := (mem_gatesOf ps g).mp hg
      exact ⟨p, hp, (gateOk_iff compile _ p hc).mp hok⟩
    · rintro ⟨p, hp, hf⟩
      exact ⟨_, (mem_gatesOf ps _).mpr ⟨p, hp, hf.1, rfl⟩, (gateOk_iff compile _ p hf.1).mpr hf⟩
  unfold registers gates
  by_cases hn : e.callee.name = ""
  · rw [if_pos hn]; simp [hn]
  · rw [if_neg hn, List.any_append, Bool.or_eq_true, key routes]
    cases includeMounts with
    | false => simp [hn]
    | true => simp only [if_true, key mounts, true_and, ne_eq, hn, not_false_eq_true]

/-- A call the route or mount patterns recognise counts as a registration, if the pattern has an expression for the
call and the receiver the call was written on is the one recorded. -/
theorem C105_recognised_partial (compile : Engine) (routes mounts : List Pattern) (e : Edge) (hname : e.callee.name ≠ "") (hw : e.callee.written = none) :
    (∀ p ∈ routes, p.callRegex ≠ "" → matchNode compile p (some e) = true → ∀ b, registers compile routes mounts b e = true) ∧
    (∀ p ∈ mounts, p.callRegex ≠ "" → ∀ rr ri im, matchMount compile p rr ri im (some e) = true → registers compile routes mounts true e = true) := by
  have fits : ∀ p : Pattern, p.callRegex ≠ "" → matchNode compile p (some e) = true → Fits compile p e.callee := by
    intro p hp h
    unfold matchNode at h
    dsimp only at h
    split at h
    · exact absurd h (by simp)
    split at h
    · exact absurd h (by simp)
    rename_i hcall
    split at h
    · exact absurd h (by simp)
    split at h
    · exact absurd h (by simp)
    rename_i hrecv
    have hcall : matchPattern compile p.callRegex e.callee.name = true := by
      cases hh : matchPattern compile p.callRegex e.callee.name with
      | true => rfl
      | false => rw [hh] at hcall; exact absurd (by simp [hp]) hcall
    have hrecv : matchesRecvType compile e.callee p.recvType p.recvTypeRegex = true := by
      cases hh : matchesRecvType compile e.callee p.recvType p.recvTypeRegex with
      | true => rfl
      | false => rw [hh] at hrecv; exact absurd rfl hrecv
    have hm : Matches compile p.callRegex e.callee.name := by
      unfold matchPattern at hcall
      rw [if_neg hp] at hcall
      cases hc : compile p.callRegex with
      | none => rw [hc] at hcall; exact absurd hcall (by simp)
      | some re => rw [hc] at hcall; exact ⟨re, hc, hcall⟩
    have hforms0 : recvForms e.callee = if owner e.callee = "" then [] else [owner e.callee] := by
      unfold recvForms
      rw [hw, fqOwner_eq]
    have hforms : (if (recvForms e.callee).isEmpty then [""] else recvForms e.callee) = [owner e.callee] := by
      by_cases ho : owner e.callee = ""
      · rw [hforms0, ho]; simp
      · rw [hforms0]; simp [ho]
    unfold matchesRecvType at hrecv
    refine ⟨hp, hm, fun hr => ?_, fun hr he => ?_⟩
    · rw [if_neg (by simp [hr])] at hrecv
      dsimp only at hrecv
      rw [hforms, if_pos hr] at hrecv
      cases hc : compile p.recvTypeRegex with
      | none => rw [hc] at hrecv; exact absurd hrecv (by simp)
      | some re =>
        rw [hc] at hrecv
        exact ⟨owner e.callee, recorded_owner _, re, hc, by simpa using hrecv⟩
    · rw [if_neg (by simp [he])] at hrecv
      dsimp only at hrecv
      rw [hforms, if_neg (by simp [hr])] at hrecv
      have : p.recvType = owner e.callee := by simpa using hrecv
      rw [this]; exact recorded_owner _
  constructor
  · intro p hp hc hm b
    exact (C105_exact _ _ _ _ _).mpr ⟨hname, Or.inl ⟨p, hp, fits p hc hm⟩⟩
  · intro p hp hc rr ri im hm
    refine (C105_exact _ _ _ _ _).mpr ⟨hname, Or.inr ⟨rfl, p, hp, fits p hc ?_⟩⟩
    unfold matchMount at hm
    dsimp only at hm
    cases hh : matchNode compile p (some e) with
    | true => rfl
    | false => rw [hh] at hm; exact absurd hm (by simp)

/-- A declared command that `main` does not call but that leads to a call the route patterns recognise is expanded
(with the same conditions). -/
theorem C105_command_partial (compile : Engine) (routes mounts : List Pattern) (view : CallEdge → Edge) (edges : List CallEdge)
    (candidates : List String) (k : String) (hk : k ∈ candidates) (hmain : ¬ MainReaches edges k)
    (hocc : Occurs (pairs edges) k) (e : CallEdge) (he : e ∈ edges) (hreach : Reach (Calls (pairs edges)) k e.caller)
    (hname : (view e).callee.name ≠ "") (hw : (view e).callee.written = none)
    (p : Pattern) (hp : p ∈ routes) (hcall : p.callRegex ≠ "") (hm : matchNode compile p (some (view e)) = true) :
    k ∈ (entrypointRoots edges candidates (fun e => registers compile routes mounts true (view e))).1 := by
  have h := (C105_recognised_partial compile routes mounts (view e) hname hw).1 p hp hcall hm true
  have hc := (C24_gate_exact edges candidates (fun e => registers compile routes mounts true (view e))).2.1 k hmain
    ⟨hocc, e, he, h, hreach⟩
  have hpos : 0 < candidates.count k := List.count_pos_iff.mpr hk
  exact List.count_pos_iff.mp (by rw [hc]; exact hpos)

/-- A group or mount never gets a budget of its own because of the mount patterns, whatever they are. -/
theorem C105_terminal (compile : Engine) (routes mounts mounts' : List Pattern) (e : Edge) :
    registers compile routes mounts false e = registers compile routes mounts' false e := by
  rw [Bool.eq_iff_iff, C105_exact, C105_exact]
  simp

/-! ### Instances -/

abbrev eqEngine : Engine := fun e => some (fun t => decide (e = t))
abbrev noScope : CallScope := ⟨[], [], [], []⟩
abbrev ginGet : Pattern := ⟨"GET", "", "", "gin.*Engine", noScope⟩
abbrev ginGroup : Pattern := ⟨"Group", "", "", "gin.*Engine", noScope⟩
def reg (name recv : String) (written : Option String) : Edge := ⟨⟨"serve", "app", "", none⟩, ⟨name, "gin", recv, written⟩, []⟩

example : registers eqEngine [ginGet] [ginGroup] true (reg "GET" "*Engine" none) = true ∧
    registers eqEngine [ginGet] [ginGroup] true (reg "Group" "*Engine" none) = true ∧
    registers eqEngine [ginGet] [ginGroup] false (reg "Group" "*Engine" none) = false ∧
    registers eqEngine [ginGet] [ginGroup] true (reg "GET" "*Cache" none) = false ∧
    matchNode eqEngine ginGet (some (reg "GET" "*Engine" none)) = true := by decide

/-! ### What does not hold -/

/-- What is missing above, first: where the call graph was resolved and the receiver replaced by a concrete type, the
patterns still recognise the call by the type it was written on, but it does not count as a registration — so a
command whose only registrations are of this kind is not expanded and none of its routes are documented. -/
theorem C105_written_missed : ∃ (compile : Engine) (p : Pattern) (e : Edge), p.callRegex ≠ "" ∧ e.callee.name ≠ "" ∧
    matchNode compile p (some e) = true ∧ registers compile [p] [] true e = false ∧
    (entrypointRoots [⟨"serve", "gin.*impl.GET", none, "serve", 0⟩] ["serve"] (fun _ => registers compile [p] [] true e)).1 = [] :=
  ⟨eqEngine, ⟨"GET", "", "", "gin.IRoutes", noScope⟩, reg "GET" "*impl" (some "IRoutes"), by decide, by decide, by decide, by decide, by decide⟩

/-- Second: a pattern that names only a receiver or a calling function recognises calls that do not count. -/
theorem C105_no_call_missed : ∃ (compile : Engine) (p : Pattern) (e : Edge), e.callee.written = none ∧ e.callee.name ≠ "" ∧
    matchNode compile p (some e) = true ∧ registers compile [p] [] true e = false :=
  ⟨eqEngine, ⟨"", "serve", "", "gin.*Engine", noScope⟩, reg "GET" "*Engine" none, by decide⟩

/-- The other way round it is only an approximation: a call in a package the pattern excludes counts. -/
theorem C105_scope_ignored : ∃ (compile : Engine) (p : Pattern) (e : Edge),
    matchNode compile p (some e) = false ∧ registers compile [p] [] true e = true :=
  ⟨eqEngine, ⟨"GET", "", "", "gin.*Engine", ⟨["other"], [], [], []⟩⟩, reg "GET" "*Engine" none, by decide⟩

end Verif.Gate
