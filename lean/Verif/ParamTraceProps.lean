import Verif.ProvenanceModel

/-!
# C74: a helper's parameter is followed to what the route passes

`c.Bind(v)` in a helper `bind(c, v)` binds whatever the handler passes for `v`.  The specification is the call
stack: a parameter has the value of the argument in the call at the top, evaluated in the calling function.
-/

namespace Verif.Provenance

/-! ## Specification -/

/-- `Value fn S a k fn' b`: the expression `a` in the function `fn`, which was called by the calls of `S`,
innermost first, is what `b` is in `fn'`: each of the `k` steps replaces a parameter by the argument of the
call, and at the end is no parameter. -/
inductive Value : String → List Frame → Arg → Nat → String → Arg → Prop
  | stop {fn S a} : (∀ i x t r f rest, a = .ident i x t r → S = f :: rest → ∀ b, (x, b) ∉ f.params) →
      Value fn S a 0 fn a
  | hop {fn f rest i x t r b k fn' c} : (x, b) ∈ f.params → Value f.caller rest b k fn' c →
      Value fn (f :: rest) (.ident i x t r) (k + 1) fn' c

/-- The way up from a node of a call in `fn`.  It has the calls of the stack, in order, and between them
other calls: of the functions a receiver was made by.  None of those has a parameter with a name in `X`. -/
inductive Way (X : List String) : String → List Frame → List Frame → Prop
  | top {fn up} : (∀ f ∈ up, f.callee ≠ fn) → (∀ f ∈ up, ∀ p ∈ f.params, p.1 ∉ X) → Way X fn up []
  | producer {fn p up S} : p.callee ≠ fn → (∀ q ∈ p.params, q.1 ∉ X) → Way X fn up S → Way X fn (p :: up) S
  | call {f up S} : f.caller ≠ "" → (f.params.map (·.1)).Nodup → Way X f.caller up S → Way X f.callee (f :: up) (f :: S)

/-- `X` has the names of the variables that are passed on. -/
def Names (X : List String) (S : List Frame) (a : Arg) : Prop :=
  (∀ i x t r, a = .ident i x t r → x ∈ X) ∧
  ∀ f ∈ S, ∀ p ∈ f.params, ∀ i x t r, p.2 = .ident i x t r → x ∈ X

/-! ## Proof -/

theorem param_some {f : Frame} (h : (f.params.map (·.1)).Nodup) {x : String} {b : Arg} (hb : (x, b) ∈ f.params) :
    f.param x = some b := by
  unfold Frame.param
  generalize f.params = l at h hb
  induction l with
  | nil => simp at hb
  | cons p l ih =>
    simp only [List.map_cons, List.nodup_cons] at h
    rcases List.mem_cons.1 hb with rfl | hb
    · simp
    · have : p.1 ≠ x := fun e => h.1 (List.mem_map.2 ⟨_, hb, e.symm⟩)
      rw [List.find?_cons_of_neg (by simpa using this)]
      exact ih h.2 hb

theorem param_none {f : Frame} {x : String} (h : ∀ b, (x, b) ∉ f.params) : f.param x = none := by
  unfold Frame.param
  rw [Option.map_eq_none_iff, List.find?_eq_none]
  rintro ⟨y, b⟩ hp e
  simp only [decide_eq_true_eq] at e
  subst e
  exact h b hp

theorem nearest_way {X : List String} {x : String} {fn : String} {up S : List Frame} (h : Way X fn up S) :
    (∀ f rest, S = f :: rest → ∃ up', nearestCall fn x up = (f.param x).map (fun a => (a, f :: up')) ∧ Way X f.caller up' rest) ∧
    (S = [] → nearestCall fn x up = none) := by
  induction h with
  | @top fn up h1 h2 =>
    refine ⟨by simp, fun _ => ?_⟩
    induction up with
    | nil => rfl
    | cons f up ih =>
      rw [nearestCall, if_pos (h1 f (by simp))]
      exact ih (fun f hf => h1 f (by simp [hf])) (fun f hf => h2 f (by simp [hf]))
  | @producer fn p up S h1 h2 _ ih =>
    rw [nearestCall, if_pos h1]; exact ih
  | @call f up S hc hn hw _ =>
    refine ⟨?_, by simp⟩
    intro g rest e
    simp only [List.cons.injEq] at e
    obtain ⟨rfl, rfl⟩ := e
    exact ⟨up, by rw [nearestCall, if_neg (by simp)], hw⟩

theorem step_way {X : List String} {x i t r : String} {here : Frame} {up S : List Frame} (hx : x ∈ X)
    (hc : here.caller ≠ "") (h : Way X here.caller up S) :
    (∀ f rest, S = f :: rest → f.caller ≠ "" ∧ (f.params.map (·.1)).Nodup ∧
      ∃ up', argViaParent here up (.ident i x t r) = (f.param x).map (fun a => (a, f :: up')) ∧ Way X f.caller up' rest) ∧
    (S = [] → argViaParent here up (.ident i x t r) = none) := by
  have hp : ∀ (p : Frame), (∀ q ∈ p.params, q.1 ∉ X) → p.param x = none := fun p hq =>
    param_none fun b hb => hq _ hb hx
  have side : ∀ {fn up S}, Way X fn up S → ∀ f rest, S = f :: rest → f.caller ≠ "" ∧ (f.params.map (·.1)).Nodup := by
    intro fn up S hw
    induction hw with
    | top => intro f rest e; simp at e
    | producer _ _ _ ih => exact ih
    | call h1 h2 _ _ => intro f rest e; simp only [List.cons.injEq] at e; rw [← e.1]; exact ⟨h1, h2⟩
  have hs := side h
  generalize hfn : here.caller = fn at h hc
  cases h with
  | top h1 h2 =>
    refine ⟨by simp, fun _ => ?_⟩
    cases up with
    | nil => rfl
    | cons p up =>
      rw [argViaParent, hp p (h2 p (by simp))]
      dsimp only
      rw [hfn, if_neg hc]
      exact (nearest_way (.top h1 h2)).2 rfl
  | @producer _ p up _ h1 h2 hw =>
    have key : argViaParent here (p :: up) (.ident i x t r) = nearestCall fn x (p :: up) := by
      rw [argViaParent, hp p h2]
      dsimp only
      rw [hfn, if_neg hc]
    rw [key]
    obtain ⟨n1, n2⟩ := nearest_way (x := x) (.producer h1 h2 hw)
    exact ⟨fun f rest e => ⟨(hs f rest e).1, (hs f rest e).2, n1 f rest e⟩, n2⟩
  | @call f up S h1 h2 hw =>
    refine ⟨?_, by simp⟩
    intro g rest e
    refine ⟨(hs g rest e).1, (hs g rest e).2, up, ?_⟩
    simp only [List.cons.injEq] at e
    obtain ⟨rfl, rfl⟩ := e
    refine ⟨?_, hw⟩
    rw [argViaParent]
    cases hf : f.param x with
    | some a => rfl
    | none =>
      dsimp only
      rw [hfn, if_neg hc, nearestCall, if_neg (by simp), hf]

theorem hops_way {X : List String} : ∀ {k : Nat} {S : List Frame} {a b : Arg} {fn fn' : String} {n : Nat} {here : Frame} {up : List Frame},
    Value fn S a k fn' b → fn = here.caller → k ≤ n → fn ≠ "" → Way X fn up S → Names X S a →
    (resolveHops n here up a).1 = b ∧ (resolveHops n here up a).2.caller = fn' := by
  intro k S a b fn fn' n here up hv
  induction hv generalizing n here up with
  | @stop fn S a hstop =>
    intro hfn hn hne hw hX
    cases n with
    | zero => exact ⟨rfl, hfn.symm⟩
    | succ n =>
      have : argViaParent here up a = none := by
        cases a with
        | ident i x t r =>
          have hx : x ∈ X := hX.1 i x t r rfl
          subst hfn
          obtain ⟨s1, s2⟩ := step_way (i := i) (t := t) (r := r) hx hne hw
          cases S with
          | nil => exact s2 rfl
          | cons f rest =>
            obtain ⟨_, _, up', e, _⟩ := s1 f rest rfl
            rw [e, param_none (hstop i x t r f rest rfl rfl)]; rfl
        | _ => rfl
      rw [resolveHops, this]
      exact ⟨rfl, hfn.symm⟩
  | @hop fn f rest i x t r b k fn' c hb _ ih =>
    intro hfn hn hne hw hX
    cases n with
    | zero => omega
    | succ n =>
      subst hfn
      obtain ⟨s1, _⟩ := step_way (i := i) (t := t) (r := r) (hX.1 i x t r rfl) hne hw
      obtain ⟨h1, h2, up', e, hw'⟩ := s1 f rest rfl
      rw [param_some h2 hb] at e
      rw [resolveHops, e]
      dsimp only [Option.map_some]
      refine ih rfl (by omega) h1 hw' ⟨fun i x t r e => hX.2 f (by simp) _ hb i x t r e, fun g hg => hX.2 g (by simp [hg])⟩

/-- **Parameters are followed.**  If at most eight parameters are passed on and no call in between has a
parameter of such a name, the result is what the call stack says, in the function where it is written. -/
theorem C74_followed_partial {X : List String} {here : Frame} {up S : List Frame} {a b : Arg} {fn' : String} {k : Nat}
    (hw : Way X here.caller up S) (hX : Names X S a) (hc : here.caller ≠ "")
    (h : Value here.caller S a k fn' b) (hk : k ≤ 8) :
    (resolveArgThroughParams here up a).1 = b ∧ (resolveArgThroughParams here up a).2.caller = fn' :=
  hops_way h rfl hk hc hw hX

/-- The call stack says something for every expression. -/
theorem C74_value_exists (fn : String) (S : List Frame) (a : Arg) : ∃ k fn' b, k ≤ S.length ∧ Value fn S a k fn' b := by
  induction S generalizing fn a with
  | nil => exact ⟨0, fn, a, by simp, .stop (by simp)⟩
  | cons f rest ih =>
    by_cases h : ∃ i x t r b, a = Arg.ident i x t r ∧ (x, b) ∈ f.params
    · obtain ⟨i, x, t, r, b, rfl, hb⟩ := h
      obtain ⟨k, fn', c, hk, hv⟩ := ih f.caller b
      exact ⟨k + 1, fn', c, by simpa using hk, .hop hb hv⟩
    · refine ⟨0, fn, a, by simp, .stop ?_⟩
      intro i x t r g rest' e e' b hb
      simp only [List.cons.injEq] at e'
      obtain ⟨rfl, rfl⟩ := e'
      exact h ⟨i, x, t, r, b, e, hb⟩

/-- So nothing is lost through helpers that are nested at most eight deep. -/
theorem C74_depth_partial {X : List String} {here : Frame} {up S : List Frame} {a : Arg}
    (hw : Way X here.caller up S) (hX : Names X S a) (hc : here.caller ≠ "") (hS : S.length ≤ 8) :
    ∃ k, Value here.caller S a k (resolveArgThroughParams here up a).2.caller (resolveArgThroughParams here up a).1 := by
  obtain ⟨k, fn', b, hk, hv⟩ := C74_value_exists here.caller S a
  obtain ⟨h1, h2⟩ := C74_followed_partial hw hX hc hv (by omega)
  exact ⟨k, by rw [h1, h2]; exact hv⟩

/-! ## Examples -/

/-- `&User{}` in the handler. -/
def userArg : Arg := .wrap .unary (.other "User{}@1" "" "")

def named (x : String) : Arg := .ident x x "" ""

/-- `func handler(c) { read(c, &User{}) }`, `func read(c, v) { d := NewDecoder(c); bind(d, v) }`,
`func bind(d, dst) { d.Decode(dst) }` -/
def exStack : List Frame :=
  [⟨"read", "bind", [("d", named "d"), ("dst", named "v")]⟩, ⟨"handler", "read", [("c", named "c"), ("v", userArg)]⟩]

/-- The way up from `d.Decode(dst)`: it hangs below the call that made `d`. -/
def exWay : List Frame := ⟨"read", "NewDecoder", [("r", named "c")]⟩ :: exStack

theorem exWay_way : Way ["dst", "v", "c", "d"] "bind" exWay exStack :=
  .producer (by decide) (by decide)
    (.call (f := ⟨"read", "bind", _⟩) (by decide) (by decide)
      (.call (f := ⟨"handler", "read", _⟩) (by decide) (by decide) (.top (by simp) (by simp))))

theorem exStack_names : Names ["dst", "v", "c", "d"] exStack (named "dst") := by
  refine ⟨by intro i x t r e; simp only [named, Arg.ident.injEq] at e; rw [← e.2.1]; decide, ?_⟩
  intro f hf p hp i x t r e
  simp only [exStack, List.mem_cons, List.not_mem_nil, or_false] at hf
  rcases hf with rfl | rfl <;> simp only [List.mem_cons, List.not_mem_nil, or_false] at hp <;> rcases hp with rfl | rfl <;>
    simp only [named, userArg, Arg.ident.injEq, reduceCtorEq] at e <;> rw [← e.2.1] <;> decide

/-- Two parameters followed, past the call that made the decoder. -/
example : (resolveArgThroughParams ⟨"bind", "Decode", []⟩ exWay (named "dst")).1 = userArg :=
  (C74_followed_partial (here := ⟨"bind", "Decode", []⟩) (S := exStack) (fn' := "handler") (k := 2) exWay_way exStack_names (by decide)
    (.hop (f := ⟨"read", "bind", _⟩) (b := named "v") (by simp [named]) (.hop (f := ⟨"handler", "read", _⟩) (b := userArg) (by simp)
      (.stop (by simp [userArg])))) (by decide)).1

/-- **A parameter of the decoder's maker.**  `func decode(r io.Reader, v any) { dec := json.NewDecoder(r); dec.Decode(v) }`
and the same with the names exchanged, `func decode(v io.Reader, r any) { dec := json.NewDecoder(v); dec.Decode(r) }`:
`json.NewDecoder` calls its own parameter `r`, and so `r` becomes the reader, not what the route passes. -/
theorem C74_producer_parameter :
    Value "decode" [⟨"handler", "decode", [("v", named "body"), ("r", userArg)]⟩] (named "r") 1 "handler" userArg ∧
    resolveArgThroughParams ⟨"decode", "Decode", []⟩
      [⟨"decode", "NewDecoder", [("r", named "v")]⟩, ⟨"handler", "decode", [("v", named "body"), ("r", userArg)]⟩] (named "r")
      = (named "body", ⟨"handler", "decode", [("v", named "body"), ("r", userArg)]⟩) := by
  refine ⟨.hop (f := ⟨"handler", "decode", _⟩) (b := userArg) (by simp [userArg]) (.stop (by simp)), ?_⟩
  rfl

/-- `n` helpers that pass on their parameter, the outermost called by the handler. -/
def passedOn : Nat → List Frame
  | 0 => [⟨"handler", "f", [("v", userArg)]⟩]
  | n + 1 => ⟨"f", "f", [("v", named "v")]⟩ :: passedOn n

/-- **Nine helpers.**  The ninth parameter is not followed. -/
theorem C74_nine_helpers :
    Value "f" (passedOn 8) (named "v") 9 "handler" userArg ∧
    (resolveArgThroughParams ⟨"f", "Bind", []⟩ (passedOn 8) (named "v")).1 = named "v" ∧
    (resolveArgThroughParams ⟨"f", "Bind", []⟩ (passedOn 7) (named "v")).1 = userArg := by
  refine ⟨?_, rfl, rfl⟩
  have h : ∀ n, Value "f" (passedOn n) (named "v") (n + 1) "handler" userArg := by
    intro n
    induction n with
    | zero => exact .hop (f := ⟨"handler", "f", _⟩) (b := userArg) (by simp) (.stop (by simp))
    | succ n ih => exact .hop (f := ⟨"f", "f", _⟩) (b := named "v") (by simp) ih
  exact h 8

end Verif.Provenance
