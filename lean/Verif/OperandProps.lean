import Verif.OperandModel
/-!
# C112: a part of a path is documented with the value it has
-/

namespace Verif.Operand
open Verif.Common

/-! ### Specification -/

/-- One run of the registration: what the parameters in scope were bound to by the call that led there. -/
abbrev Run := Str → Option Arg

/-- `a` is the literal `elts`, or its address and the like. -/
inductive IsLit : Arg → List (Option Str × Arg) → Prop
  | lit (elts) : IsLit (.comp elts) elts
  | wrap (x elts) : IsLit x elts → IsLit (.wrap x) elts

/-- The value of a field of a literal: the one given for its name; if it is not given, the empty one.  `promoted` tells the
fields of embedded structs, whose values are inside other elements. -/
inductive FieldVal (const : Arg → Option Str) (promoted : Str → Prop) (elts : List (Option Str × Arg)) (f : Str) : Str → Prop
  | given (e : Arg) (v : Str) : (some f, e) ∈ elts → const e = some v → FieldVal const promoted elts f v
  | zero : (∀ x ∈ elts, x.1 ≠ none ∧ x.1 ≠ some f) → ¬ promoted f → FieldVal const promoted elts f []

/-- The value an expression has in a run: constants, parameters bound to constants, fields of literals, given directly or
as the argument of a parameter. -/
inductive Val (const : Arg → Option Str) (promoted : Str → Prop) (ρ : Run) : Arg → Str → Prop
  | const (a : Arg) (v : Str) : const a = some v → Val const promoted ρ a v
  | param (n : Str) (b : Arg) (v : Str) : ρ n = some b → const b = some v → Val const promoted ρ (.ident n) v
  | field (n f : Str) (b : Arg) (elts : List (Option Str × Arg)) (v : Str) : ρ n = some b → IsLit b elts → FieldVal const promoted elts f v →
      Val const promoted ρ (.sel (.ident n) f) v
  | litField (x : Arg) (f : Str) (elts : List (Option Str × Arg)) (v : Str) : IsLit x elts → FieldVal const promoted elts f v → Val const promoted ρ (.sel x f) v

/-- What is recorded about the call fits the run: what a parameter is traced to is what it is bound to; the first frame
that enters the enclosing function binds as the run does; the run enters the enclosing function by one of the recorded
calls; no parameter is traced to a name of another function. -/
structure Fits (nd : Node) (ρ : Run) : Prop where
  traced : ∀ n b, nd.resolved n = some b → ρ n = some b ∧ ∀ n', b ≠ .ident n'
  frame : ∀ e ps before after, nd.parent = some e → nd.frames = before ++ (e, some ps) :: after → (∀ p ∈ before, p.1 = e → p.2 = none) →
    ∀ n, mget ps n = ρ n
  entered : ∀ f, (nd.parent = some f ∨ (nd.parent = none ∧ f = nd.caller)) → ∃ s ∈ nd.callees f, ∀ n, mget s n = ρ n
  named : nd.parent ≠ some []

/-! ### Lemmas -/

theorem unwrap_lit : ∀ (a : Arg) (elts : List (Option Str × Arg)), unwrapComposite a = .comp elts → IsLit a elts
  | .wrap x, elts, h => .wrap x elts (unwrap_lit x elts h)
  | .ident _, _, h => by cases h
  | .sel _ _, _, h => by cases h
  | .comp _, _, h => by cases h; exact .lit _
  | .other _ _, _, h => by cases h

theorem caller_ident (const : Arg → Option Str) (nd : Node) (n : Str) : callerArgFor const nd (.ident n) =
    (match nd.resolved n with
    | some (.ident n') => callerArgOfName const nd n'
    | some a => some a
    | none => callerArgOfName const nd n) := rfl

theorem struct_sel (const : Arg → Option Str) (nd : Node) (x : Arg) (f : Str) : structFieldValue const nd (.sel x f) =
    if f = [] then none
    else match unwrapComposite ((callerArgFor const nd x).getD x) with
      | .comp elts => fieldOf const f elts
      | _ => none := rfl

theorem fieldOf_sound (const : Arg → Option Str) (promoted : Str → Prop) (f : Str) (hp : ¬ promoted f) : ∀ (elts all : List (Option Str × Arg)) (v : Str),
    (∀ x ∈ elts, x ∈ all) → (∀ x ∈ all, x ∈ elts ∨ (x.1 ≠ none ∧ x.1 ≠ some f)) → fieldOf const f elts = some v → FieldVal const promoted all f v := by
  intro elts
  induction elts with
  | nil =>
    intro all v _ h2 h
    cases h
    exact .zero (fun x hx => by rcases h2 x hx with h | h; cases h; exact h) hp
  | cons e es ih =>
    obtain ⟨k, a⟩ := e
    intro all v h1 h2 h
    cases k with
    | none => cases h
    | some k =>
      unfold fieldOf at h
      by_cases hk : k = f
      · rw [if_neg (by simpa using hk)] at h
        subst hk
        exact .given a v (h1 _ List.mem_cons_self) h
      · rw [if_pos hk] at h
        refine ih all v (fun x hx => h1 x (List.mem_cons_of_mem _ hx)) (fun x hx => ?_) h
        rcases h2 x hx with h3 | h3
        · rcases List.mem_cons.1 h3 with rfl | h3
          · exact Or.inr ⟨by simp, by simpa using hk⟩
          · exact Or.inl h3
        · exact Or.inr h3

theorem agree_iff (const : Arg → Option Str) (n : Str) : ∀ (ss : List (List (Str × Arg))) (a0 : Arg) (w : Str),
    const a0 = some w →
    (∀ a v, agree const n (some (a0, w)) ss = some (a, v) → v = w ∧ const a = some w ∧ ∀ s ∈ ss, ∃ b, mget s n = some b ∧ const b = some w) ∧
    ((∀ s ∈ ss, ∃ b, mget s n = some b ∧ const b = some w) → ∃ a, agree const n (some (a0, w)) ss = some (a, w)) := by
  intro ss
  induction ss with
  | nil =>
    intro a0 w h0
    constructor
    · intro a v h; cases h; exact ⟨rfl, h0, by simp⟩
    · intro _; exact ⟨a0, rfl⟩
  | cons s ss ih =>
    intro a0 w h0
    constructor
    · intro a v h
      unfold agree at h
      cases hb : mget s n with
      | none => rw [hb] at h; cases h
      | some b =>
        rw [hb] at h
        dsimp only at h
        cases hv : const b with
        | none => rw [hv] at h; cases h
        | some v' =>
          rw [hv] at h
          dsimp only at h
          by_cases hw : v' = w
          · subst hw
            rw [if_neg (by simp)] at h
            obtain ⟨h1, h2, h3⟩ := (ih b v' hv).1 a v h
            refine ⟨h1, h2, fun x hx => ?_⟩
            rcases List.mem_cons.1 hx with rfl | hx
            · exact ⟨b, hb, hv⟩
            · exact h3 x hx
          · rw [if_pos hw] at h; cases h
    · intro hall
      obtain ⟨b, hb, hv⟩ := hall s List.mem_cons_self
      unfold agree
      rw [hb]
      dsimp only
      rw [hv]
      dsimp only
      rw [if_neg (by simp)]
      exact (ih b w hv).2 (fun x hx => hall x (List.mem_cons_of_mem _ hx))

theorem find_first {α : Type} (p : α → Bool) (l : List α) (x : α) (h : l.find? p = some x) :
    ∃ before after, l = before ++ x :: after ∧ p x = true ∧ ∀ y ∈ before, p y = false := by
  obtain ⟨h1, as, bs, h2, h3⟩ := List.find?_eq_some_iff_append.mp h
  exact ⟨as, bs, h2, h1, fun y hy => by simpa using h3 y hy⟩

/-! ### The properties -/

/-- A parameter is resolved from the calls of its function exactly if there are calls and all of them pass a constant with
one value; and that is the value. -/
theorem C112_unique (const : Arg → Option Str) (nd : Node) (n f : Str) (hn : n ≠ []) (hf : f ≠ [])
    (henc : nd.parent = some f ∨ (nd.parent = none ∧ f = nd.caller)) (v : Str) :
    ((uniqueCallerArg const nd n).bind const = some v ↔ nd.callees f ≠ [] ∧ ∀ s ∈ nd.callees f, ∃ b, mget s n = some b ∧ const b = some v) := by
  have hid : enclosingFuncID nd = f := by
    unfold enclosingFuncID
    rcases henc with h | ⟨h, h'⟩
    · rw [h]; dsimp only; rw [if_pos hf]
    · rw [h, h']
  unfold uniqueCallerArg
  rw [hid, if_neg (by simp [hn, hf])]
  cases hs : nd.callees f with
  | nil => simp [agree]
  | cons s ss =>
    unfold agree
    cases hb : mget s n with
    | none => simp [hb]
    | some b =>
      dsimp only
      cases hv : const b with
      | none =>
        simp only [Option.map_none, Option.bind_none]
        constructor
        · intro h; cases h
        · rintro ⟨_, h⟩
          obtain ⟨b', h1, h2⟩ := h s List.mem_cons_self
          rw [hb] at h1; cases h1; rw [hv] at h2; cases h2
      | some w =>
        dsimp only
        obtain ⟨k1, k2⟩ := agree_iff const n ss b w hv
        constructor
        · intro h
          cases ha : agree const n (some (b, w)) ss with
          | none => rw [ha] at h; cases h
          | some p =>
            obtain ⟨a, x⟩ := p
            obtain ⟨h1, h2, h3⟩ := k1 a x ha
            rw [ha] at h
            have h : const a = some v := h
            rw [h2] at h; cases h
            refine ⟨by simp, fun y hy => ?_⟩
            rcases List.mem_cons.1 hy with rfl | hy
            · exact ⟨b, hb, hv⟩
            · exact h3 y hy
        · rintro ⟨_, h⟩
          obtain ⟨b', h1, h2⟩ := h s List.mem_cons_self
          rw [hb] at h1; cases h1; rw [hv] at h2; cases h2
          obtain ⟨a, ha⟩ := k2 (fun y hy => h y (List.mem_cons_of_mem _ hy))
          rw [ha]
          exact (k1 a v ha).2.1

/-- What is found for a parameter has, if it is a constant, the value the parameter has in the run. -/
theorem caller_val (const : Arg → Option Str) (nd : Node) (ρ : Run) (h : Fits nd ρ) (n : Str) (a : Arg) (ha : callerArgFor const nd (.ident n) = some a) :
    ρ n = some a ∨ ∃ b v, ρ n = some b ∧ const b = some v ∧ const a = some v := by
  rw [caller_ident] at ha
  have named : ∀ m, callerArgOfName const nd m = some a → ρ m = some a ∨ ∃ b v, ρ m = some b ∧ const b = some v ∧ const a = some v := by
    intro m hm
    unfold callerArgOfName at hm
    cases hp : paramArgOfEnclosingFunc nd m with
    | some x =>
      rw [hp] at hm; cases hm
      unfold paramArgOfEnclosingFunc at hp
      cases hpar : nd.parent with
      | none => rw [hpar] at hp; cases hp
      | some e =>
        rw [hpar] at hp
        dsimp only at hp
        split at hp
        · cases hp
        · split at hp
          · next q ps hfind =>
            obtain ⟨before, after, h1, h2, h3⟩ := find_first _ _ _ hfind
            have hq : q = e := by simpa using h2
            subst hq
            left
            rw [← h.frame q ps before after hpar h1 (fun p hp hpe => by
              have := h3 p hp
              cases hp2 : p.2 with
              | none => rfl
              | some z => rw [hp2] at this; simp [hpe] at this) m]
            exact hp
          · cases hp
    | none =>
      rw [hp] at hm
      dsimp only at hm
      right
      unfold uniqueCallerArg at hm
      split at hm
      · cases hm
      · next hc =>
        have hc' : m ≠ [] ∧ enclosingFuncID nd ≠ [] := by simpa [not_or] using hc
        have henc : nd.parent = some (enclosingFuncID nd) ∨ (nd.parent = none ∧ enclosingFuncID nd = nd.caller) := by
          unfold enclosingFuncID
          cases hpar : nd.parent with
          | none => exact Or.inr ⟨rfl, rfl⟩
          | some e =>
            dsimp only
            have hne : e ≠ [] := by rintro rfl; exact h.named hpar
            rw [if_pos hne]
            exact Or.inl rfl
        obtain ⟨s, hs, hbind⟩ := h.entered (enclosingFuncID nd) henc
        have hcon : ∃ v, const a = some v := by
          cases hss : nd.callees (enclosingFuncID nd) with
          | nil => rw [hss] at hs; cases hs
          | cons s' ss =>
            rw [hss] at hm
            unfold agree at hm
            cases hb : mget s' m with
            | none => rw [hb] at hm; cases hm
            | some b =>
              rw [hb] at hm
              dsimp only at hm
              cases hv : const b with
              | none => rw [hv] at hm; cases hm
              | some w =>
                rw [hv] at hm
                dsimp only at hm
                cases hag : agree const m (some (b, w)) ss with
                | none => rw [hag] at hm; cases hm
                | some p =>
                  obtain ⟨x, y⟩ := p
                  rw [hag] at hm
                  have : x = a := Option.some.inj hm
                  subst this
                  exact ⟨w, ((agree_iff const m ss b w hv).1 x y hag).2.1⟩
        obtain ⟨v, hv⟩ := hcon
        have hall := (C112_unique const nd m (enclosingFuncID nd) hc'.1 hc'.2 henc v).mp (by
          unfold uniqueCallerArg
          rw [if_neg hc, hm]
          exact hv)
        obtain ⟨b, hb, hbv⟩ := hall.2 s hs
        exact ⟨b, v, (hbind m) ▸ hb, hbv, hv⟩
  cases hr : nd.resolved n with
  | none => rw [hr] at ha; exact named n ha
  | some x =>
    have hx := h.traced n x hr
    rw [hr] at ha
    cases x with
    | ident n' => exact absurd rfl (hx.2 n')
    | sel y f => cases ha; exact Or.inl hx.1
    | wrap y => cases ha; exact Or.inl hx.1
    | comp y => cases ha; exact Or.inl hx.1
    | other i y => cases ha; exact Or.inl hx.1

/-- A value that is written into the path is the value the part has, in every run that fits what was recorded.  Literals
are not constants; the field is not one of an embedded struct.  Missing: `C112_promoted_dropped`, `C112_names_mixed`. -/
theorem C112_value_partial (const : Arg → Option Str) (promoted : Str → Prop) (nd : Node) (ρ : Run) (h : Fits nd ρ) (a : Arg) (v : Str)
    (hlit : ∀ x elts, IsLit x elts → const x = none)
    (hp : ∀ x f, a = .sel x f → ¬ promoted f) (hv : resolvePathOperand const nd a = (v, none)) : Val const promoted ρ a v := by
  unfold resolvePathOperand at hv
  cases hc : const a with
  | some w => rw [hc] at hv; cases hv; exact .const a _ hc
  | none =>
    rw [hc] at hv
    dsimp only at hv
    cases hb : (callerArgFor const nd a).bind const with
    | some w =>
      rw [hb] at hv
      have hv : w = v := congrArg Prod.fst hv
      subst hv
      cases hca : callerArgFor const nd a with
      | none => rw [hca] at hb; cases hb
      | some x =>
        rw [hca] at hb
        have hb : const x = some w := hb
        cases a with
        | ident n =>
          rcases caller_val const nd ρ h n x hca with h1 | ⟨b, v', h1, h2, h3⟩
          · exact .param n x _ h1 hb
          · rw [hb] at h3; cases h3; exact .param n b _ h1 h2
        | sel x f => cases hca
        | wrap x => cases hca
        | comp e => cases hca
        | other i n => cases hca
    | none =>
      rw [hb] at hv
      dsimp only at hv
      cases hs : structFieldValue const nd a with
      | none => rw [hs] at hv; simp at hv
      | some w =>
        rw [hs] at hv
        have hv : w = v := congrArg Prod.fst hv
        subst hv
        cases a with
        | sel x f =>
          have hpf := hp x f rfl
          rw [struct_sel] at hs
          split at hs
          · cases hs
          · split at hs
            · next elts hu =>
              have hval := fieldOf_sound const promoted f hpf elts elts w (fun _ h => h) (fun _ h => Or.inl h) hs
              have hl := unwrap_lit _ _ hu
              cases hca : callerArgFor const nd x with
              | none => rw [hca] at hl; exact .litField x f elts w hl hval
              | some y =>
                rw [hca] at hl
                have hl : IsLit y elts := hl
                cases x with
                | ident n =>
                  rcases caller_val const nd ρ h n y hca with h1 | ⟨b, v', h1, h2, h3⟩
                  · exact .field n f y elts w h1 hl hval
                  · rw [hlit y elts hl] at h3; cases h3
                | sel x f => cases hca
                | wrap x => cases hca
                | comp e => cases hca
                | other i n => cases hca
            · cases hs
        | ident n => cases hs
        | wrap x => cases hs
        | comp e => cases hs
        | other i n => cases hs

/-- A part without a known value leaves a parameter in the path, with a name. -/
theorem C112_placeholder (const : Arg → Option Str) (nd : Node) (a : Arg) (t n : Str) (h : resolvePathOperand const nd a = (t, some n)) :
    n ≠ [] ∧ t = '{' :: n ++ ['}'] ∧ const a = none := by
  have hne : placeholderName a ≠ [] := by
    unfold placeholderName
    split <;> (try split) <;> simp_all
  unfold resolvePathOperand at h
  split at h
  · cases h
  · next hc =>
    split at h
    · cases h
    · split at h
      · cases h
      · cases h; exact ⟨hne, rfl, hc⟩

/-! ### Instances and what does not hold -/

abbrev c (s : String) : Str := s.toList

/-- Constants: the atoms 1 to 4. -/
abbrev demoConst : Arg → Option Str
  | .other 1 _ => some (c "/v1")
  | .other 2 _ => some (c "/v2")
  | .other 3 _ => some (c "/api")
  | _ => none

/-- A server `reg(r, base, opts)`, called once. -/
abbrev demo : Node :=
  ⟨fun _ => none, none, c "app.reg", [], fun f => if f = c "app.reg" then
    [[(c "base", .other 1 []), (c "opts", .wrap (.comp [(some (c "BaseURL"), .other 3 [])]))]] else []⟩

example : resolvePathOperand demoConst demo (.ident (c "base")) = (c "/v1", none) ∧
    resolvePathOperand demoConst demo (.ident (c "name")) = (c "{name}", some (c "name")) ∧
    resolvePathOperand demoConst demo (.sel (.comp [(some (c "BaseURL"), .other 3 [])]) (c "Middlewares")) = ([], none) := by decide

example : Fits demo (fun n => if n = c "base" then some (.other 1 []) else if n = c "opts" then some (.wrap (.comp [(some (c "BaseURL"), .other 3 [])])) else none) where
  traced := by intro n b h; cases h
  frame := by intro e ps before after h; cases h
  entered := by
    rintro f (h | ⟨_, rfl⟩)
    · cases h
    · refine ⟨_, List.mem_cons_self, fun n => ?_⟩
      by_cases h1 : n = c "base"
      · subst h1; rfl
      · by_cases h2 : n = c "opts"
        · subst h2; rfl
        · rw [mget_cons, if_neg (fun h => h1 h.symm), mget_cons, if_neg (fun h => h2 h.symm), if_neg h1, if_neg h2]; rfl
  named := by decide

/-- Two callers with different values: a placeholder. -/
example : resolvePathOperand demoConst ⟨fun _ => none, none, c "app.reg", [], fun _ => [[(c "base", .other 1 [])], [(c "base", .other 2 [])]]⟩
    (.ident (c "base")) = (c "{base}", some (c "base")) := by decide

/-- A field of an embedded struct, `Options{Base: Base{URL: "/api"}}.URL`, is taken for one that is not set: the prefix is
dropped from the path without a trace. -/
theorem C112_promoted_dropped :
    let inner : Arg := .comp [(some (c "URL"), .other 3 [])]
    let lit : Arg := .comp [(some (c "Base"), inner)]
    resolvePathOperand demoConst demo (.sel lit (c "URL")) = ([], none) ∧
    Val demoConst (fun _ => False) (fun _ => none) (.sel inner (c "URL")) (c "/api") := by
  refine ⟨by decide, .litField _ _ _ _ (.lit _) (.given (.other 3 []) _ List.mem_cons_self rfl)⟩

/-- `setup(prefix)` calls `reg(r, prefix, "/v2")`, and the second parameter of `reg(r, base, prefix)` has the name of the
variable that is passed as the first: `base` is taken for it. -/
theorem C112_names_mixed : ∃ nd : Node, nd.resolved (c "base") = some (.ident (c "prefix")) ∧
    nd.callees (c "app.reg") = [[(c "base", .ident (c "prefix")), (c "prefix", .other 2 [])]] ∧
    resolvePathOperand demoConst nd (.ident (c "base")) = (c "/v2", none) :=
  ⟨⟨fun n => if n = c "base" then some (.ident (c "prefix")) else none, none, c "app.reg", [],
    fun f => if f = c "app.reg" then [[(c "base", .ident (c "prefix")), (c "prefix", .other 2 [])]] else []⟩, by simp, by simp, by decide⟩

end Verif.Operand
