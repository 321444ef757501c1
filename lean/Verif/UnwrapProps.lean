import Verif.UnwrapModel
/-!
# C99: a wrapped handler is documented as itself
-/

namespace Verif.Unwrap

/-! ## Specification -/

mutual
/-- No function is named anywhere in the expression. -/
def NoFn : Ex → Prop
  | .name _ fn => fn = false
  | .lit _ => False
  | .conv _ args => NoFns args
  | .call _ _ args => NoFns args
  | .other _ => True
def NoFns : List Ex → Prop
  | [] => True
  | e :: es => NoFn e ∧ NoFns es
end

/-- A middleware: a function of one parameter whose result has the same type as the parameter.  The package of
the parameter may be missing in the record. -/
def Middleware (s : Option Sig) : Prop :=
  ∃ (t : TRef) (pkg : String), t.name ≠ "" ∧ (pkg = t.pkg ∨ pkg = "") ∧ s = some ⟨[some ⟨pkg, t.name⟩], some t⟩

/-- A name of a function, or a function literal. -/
inductive Function : Ex → Prop
  | name (i : String) : Function (.name i true)
  | lit (i : String) : Function (.lit i)

/-- `Serves e h n`: requests to a route registered with `e` end in the handler `h`, through `n` conversions and
wrappers.  The other arguments of a wrapper are no functions. -/
inductive Serves : Ex → Ex → Nat → Prop
  | plain {h} (hf : Function h) : Serves h h 0
  | conv {h} (i : String) (hf : Function h) : Serves (.conv i [h]) h 1
  | wrapConv {h} (i j : String) (s : Option Sig) (a b : List Ex) (hf : Function h) (ha : NoFns a) (hb : NoFns b) :
      Serves (.call i s (a ++ .conv j [h] :: b)) h 1
  | wrapPlain {h} (i : String) (s : Option Sig) (hm : Middleware s) (hf : Function h) : Serves (.call i s [h]) h 1
  | wrapWrap {h n} (i j : String) (s t : Option Sig) (a b c : List Ex) (ha : NoFns a) (hb : NoFns b) (hs : Serves (.call j t c) h n) :
      Serves (.call i s (a ++ .call j t c :: b)) h (n + 1)

/-- `x` is a part of `e`. -/
inductive Part : Ex → Ex → Prop
  | refl (e) : Part e e
  | conv {x e} (i : String) (args : List Ex) (he : e ∈ args) (h : Part x e) : Part x (.conv i args)
  | call {x e} (i : String) (s : Option Sig) (args : List Ex) (he : e ∈ args) (h : Part x e) : Part x (.call i s args)

/-! ## Proofs -/

theorem noFns_iff : ∀ {l : List Ex}, NoFns l ↔ ∀ e ∈ l, NoFn e
  | [] => by simp [NoFns]
  | e :: es => by
    rw [NoFns, noFns_iff]
    simp

theorem converted_mem {l : List Ex} {x : Ex} (h : converted l = some x) : l = [x] := by
  match l, h with
  | [.name _ _], h => cases h; rfl
  | [.lit _], h => cases h; rfl

theorem namesFn_noFn {e : Ex} (h : NoFn e) : namesFn e = false := by
  cases e with
  | name i f => exact h
  | lit i => exact h.elim
  | conv => rfl
  | call => rfl
  | other => rfl

theorem wrapped_noFn : ∀ (k : Nat) (e : Ex), NoFn e → wrapped k e = none
  | 0, e, _ => by cases e <;> rfl
  | k + 1, .name .., _ => rfl
  | k + 1, .lit _, _ => rfl
  | k + 1, .conv .., _ => rfl
  | k + 1, .other _, _ => rfl
  | k + 1, .call i s args, h => by
    rw [wrapped]
    have : args.filterMap (cand (fun e => (wrapped k e).isSome) (shaped s)) = [] := by
      rw [List.filterMap_eq_nil_iff]
      intro e he
      have hn := noFns_iff.1 (show NoFns args from h) e he
      cases e with
      | name i f => simp [cand, namesFn, show f = false from hn]
      | lit i => exact hn.elim
      | conv i as =>
        rw [cand]
        cases hc : converted as with
        | none => rfl
        | some x =>
          have := converted_mem hc
          subst this
          simp [namesFn_noFn (noFns_iff.1 (show NoFns [x] from hn) x (List.mem_cons_self ..))]
      | call j t c => simp [cand, wrapped_noFn k (.call j t c) hn]
      | other i => simp [cand, namesFn]
    rw [this]; rfl

theorem cand_noFn (k : Nat) (sh : Bool) (e : Ex) (hn : NoFn e) : cand (fun e => (wrapped k e).isSome) sh e = none := by
  cases e with
  | name i f => simp [cand, namesFn, show f = false from hn]
  | lit i => exact hn.elim
  | conv i as =>
    rw [cand]
    cases hc : converted as with
    | none => rfl
    | some x =>
      have := converted_mem hc
      subst this
      simp [namesFn_noFn (noFns_iff.1 (show NoFns [x] from hn) x (List.mem_cons_self ..))]
  | call j t c => simp [cand, wrapped_noFn k (.call j t c) hn]
  | other i => simp [cand, namesFn]

theorem filter_one (k : Nat) (sh : Bool) (a b : List Ex) (x y : Ex) (ha : NoFns a) (hb : NoFns b)
    (hx : cand (fun e => (wrapped k e).isSome) sh x = some y) :
    only ((a ++ x :: b).filterMap (cand (fun e => (wrapped k e).isSome) sh)) = some y := by
  have h1 : a.filterMap (cand (fun e => (wrapped k e).isSome) sh) = [] :=
    List.filterMap_eq_nil_iff.2 fun e he => cand_noFn k sh e (noFns_iff.1 ha e he)
  have h2 : b.filterMap (cand (fun e => (wrapped k e).isSome) sh) = [] :=
    List.filterMap_eq_nil_iff.2 fun e he => cand_noFn k sh e (noFns_iff.1 hb e he)
  rw [List.filterMap_append, List.filterMap_cons, hx, h1, h2]
  rfl

theorem function_names {h : Ex} (hf : Function h) : namesFn h = true ∧ converted [h] = some h ∧ (∀ w sh, cand w sh h = if sh then some h else none) := by
  cases hf <;> refine ⟨rfl, rfl, fun w sh => ?_⟩ <;> cases sh <;> rfl

theorem shaped_middleware {s : Option Sig} (h : Middleware s) : shaped s = true := by
  obtain ⟨t, pkg, ht, h | h, rfl⟩ := h <;> subst h <;> simp [shaped, ht]

/-- A call that serves a handler through `n` layers is seen through, one layer at a time. -/
theorem wrapped_serves {e h : Ex} {n : Nat} (hs : Serves e h n) : ∀ i s args, e = .call i s args → ∀ k, n ≤ k →
    ∃ x m, wrapped k e = some x ∧ Serves x h m ∧ m < n := by
  induction hs with
  | plain hf => intro i s args e; subst e; cases hf
  | conv => intro i s args e; cases e
  | wrapConv i j s a b hf ha hb =>
    intro i' s' args e k hk
    obtain ⟨k, rfl⟩ : ∃ k', k = k' + 1 := ⟨k - 1, by omega⟩
    refine ⟨_, 0, ?_, .plain hf, by omega⟩
    rw [wrapped]
    apply filter_one _ _ _ _ _ _ ha hb
    obtain ⟨h1, h2, _⟩ := function_names hf
    rw [cand, h2]
    simp [h1]
  | wrapPlain i s hm hf =>
    intro i' s' args e k hk
    obtain ⟨k, rfl⟩ : ∃ k', k = k' + 1 := ⟨k - 1, by omega⟩
    refine ⟨_, 0, ?_, .plain hf, by omega⟩
    rw [wrapped]
    apply filter_one _ _ [] [] _ _ trivial trivial
    obtain ⟨_, _, h3⟩ := function_names hf
    rw [h3, shaped_middleware hm]; rfl
  | @wrapWrap h n i j s t a b c ha hb hs ih =>
    intro i' s' args e k hk
    obtain ⟨k, rfl⟩ : ∃ k', k = k' + 1 := ⟨k - 1, by omega⟩
    refine ⟨_, n, ?_, hs, by omega⟩
    rw [wrapped]
    apply filter_one _ _ _ _ _ _ ha hb
    obtain ⟨x, m, hw, _⟩ := ih j t c rfl k (by omega)
    rw [cand, if_pos (by rw [hw]; rfl)]

theorem peel_serves : ∀ (k : Nat) (e h : Ex) (n : Nat), Serves e h n → n ≤ k → n ≤ maxUnwraps → peel k e = h := by
  intro k
  induction k with
  | zero =>
    intro e h n hs hk _
    have hn : n = 0 := by omega
    subst hn
    cases hs; rfl
  | succ k ih =>
    intro e h n hs hk hm
    match e, hs with
    | .name i f, hs => cases hs; rfl
    | .lit i, hs => cases hs; rfl
    | .conv i args, hs =>
      cases hs with
      | plain hf => cases hf
      | conv _ hf =>
        rw [peel, (function_names hf).2.1]
        exact ih _ _ 0 (.plain hf) (by omega) (by omega)
    | .call i s args, hs =>
      obtain ⟨x, m, hw, hx, hlt⟩ := wrapped_serves hs i s args rfl maxUnwraps hm
      rw [peel, hw]
      exact ih _ _ m hx (by omega) (by omega)
    | .other i, hs => cases hs with | plain hf => cases hf

/-- **C99 (partial).**  A handler passed through conversions (`http.HandlerFunc(h)`), middleware and adapters,
nested up to eight deep, is the handler documented.  A wrapper may have further arguments that are no
functions, if the handler is converted or wrapped again; for a plain function, the wrapper must be known to
take and return the same type.  Missing: the cases refuted below. -/
theorem C99_unwrapped_partial (e h : Ex) (n : Nat) (hs : Serves e h n) (hn : n ≤ 8) : handlerValue e = h :=
  peel_serves 8 e h n hs hn hn

/-- `withLogging(db, withAuth(getItem))` -/
example : handlerValue (.call "withLogging(db, withAuth(getItem))" none
    [.name "db" false, .call "withAuth(getItem)" (some ⟨[some ⟨"net/http", "Handler"⟩], some ⟨"net/http", "Handler"⟩⟩) [.name "getItem" true]]) = .name "getItem" true :=
  C99_unwrapped_partial _ _ 2
    (.wrapWrap _ _ _ _ [.name "db" false] [] _ ⟨rfl, trivial⟩ trivial (.wrapPlain _ _ ⟨⟨"net/http", "Handler"⟩, "net/http", by decide, .inl rfl, rfl⟩ (.name "getItem"))) (by decide)

/-- Neither a conversion nor a call. -/
def atom : Ex → Bool
  | .conv .. => false
  | .call .. => false
  | _ => true

theorem cand_atom {w : Ex → Bool} {sh : Bool} {a x : Ex} (ha : atom a = true) (h : cand w sh a = some x) : x = a := by
  cases a with
  | conv => cases ha
  | call => cases ha
  | name i f => simp only [cand] at h; split at h <;> cases h; rfl
  | lit i => simp only [cand] at h; split at h <;> cases h; rfl
  | other i => simp only [cand] at h; split at h <;> cases h; rfl

theorem wrapped_part : ∀ (k : Nat) (e x : Ex), wrapped k e = some x → ∃ i s args a, e = .call i s args ∧ a ∈ args ∧ (x = a ∨ ∃ j, a = .conv j [x])
  | 0, e, x, h => by cases e <;> cases h
  | k + 1, .name .., x, h => by cases h
  | k + 1, .lit _, x, h => by cases h
  | k + 1, .conv .., x, h => by cases h
  | k + 1, .other _, x, h => by cases h
  | k + 1, .call i s args, x, h => by
    rw [wrapped] at h
    have hmem : x ∈ args.filterMap (cand (fun e => (wrapped k e).isSome) (shaped s)) := by
      generalize args.filterMap (cand (fun e => (wrapped k e).isSome) (shaped s)) = l at h
      match l, h with
      | [y], h => cases h; exact List.mem_cons_self ..
    obtain ⟨a, ha, hc⟩ := List.mem_filterMap.1 hmem
    refine ⟨i, s, args, a, rfl, ha, ?_⟩
    cases a with
    | name j f => exact .inl (cand_atom (by simp [atom]) hc)
    | lit j => exact .inl (cand_atom (by simp [atom]) hc)
    | conv j as =>
      rw [cand] at hc
      cases hcv : converted as with
      | none => rw [hcv] at hc; cases hc
      | some y =>
        rw [hcv] at hc
        have := converted_mem hcv
        subst this
        split at hc
        · next h => cases h; split at hc <;> cases hc; exact .inr ⟨j, rfl⟩
        · cases hc
    | call j t c => rw [cand] at hc; split at hc <;> cases hc; exact .inl rfl
    | other j => exact .inl (cand_atom (by simp [atom]) hc)

/-- **C99, nothing is invented.**  What is documented is the registered expression or a part of it. -/
theorem C99_part (e : Ex) : Part (handlerValue e) e := by
  have key : ∀ (k : Nat) (e : Ex), Part (peel k e) e := by
    intro k
    induction k with
    | zero => intro e; exact .refl e
    | succ k ih =>
      intro e
      match e with
      | .name i f => exact .refl _
      | .lit i => exact .refl _
      | .other i => exact .refl _
      | .conv i args =>
        rw [peel]
        cases hc : converted args with
        | none => exact .refl _
        | some x => rw [converted_mem hc]; exact .conv i [x] (List.mem_cons_self ..) (ih x)
      | .call i s args =>
        rw [peel]
        cases hc : wrapped maxUnwraps (.call i s args) with
        | none => exact .refl _
        | some x =>
          obtain ⟨i', s', args', a, e1, ha, hx⟩ := wrapped_part _ _ _ hc
          cases e1
          refine .call i s args ha ?_
          rcases hx with e | ⟨j, e⟩
          · rw [← e]; exact ih x
          · rw [e]; exact .conv j [x] (List.mem_cons_self ..) (ih x)
  exact key 8 e

/-- **C99, a factory stays.**  A call none of whose arguments is a function (`h.Create(db)`) is itself the
handler. -/
theorem C99_factory (i : String) (s : Option Sig) (args : List Ex) (h : NoFns args) : handlerValue (.call i s args) = .call i s args := by
  show peel (7 + 1) _ = _
  rw [peel, wrapped_noFn _ (.call i s args) h]

/-- **C99, an adapter stays.**  A function whose parameter and result have types of different names
(`adapt : func(Logic) http.Handler`) is itself the handler; the function it is given is not. -/
theorem C99_adapter (i : String) (p r : TRef) (h : Ex) (hf : Function h) (hne : p.name ≠ r.name) :
    handlerValue (.call i (some ⟨[some p], some r⟩) [h]) = .call i (some ⟨[some p], some r⟩) [h] := by
  show peel (7 + 1) _ = _
  have : wrapped maxUnwraps (.call i (some ⟨[some p], some r⟩) [h]) = none := by
    show wrapped (7 + 1) _ = _
    have hs : shaped (some ⟨[some p], some r⟩) = false := by simp [shaped, hne]
    rw [wrapped, List.filterMap_cons, (function_names hf).2.2, hs]; rfl
  rw [peel, this]

/-- **C99, types of different packages.** -/
theorem C99_adapter_package (i : String) (p r : TRef) (h : Ex) (hf : Function h) (hp : p.pkg ≠ "") (hr : r.pkg ≠ "") (hne : p.pkg ≠ r.pkg) :
    handlerValue (.call i (some ⟨[some p], some r⟩) [h]) = .call i (some ⟨[some p], some r⟩) [h] := by
  show peel (7 + 1) _ = _
  have : wrapped maxUnwraps (.call i (some ⟨[some p], some r⟩) [h]) = none := by
    show wrapped (7 + 1) _ = _
    have hs : shaped (some ⟨[some p], some r⟩) = false := by simp [shaped, hne, hp, hr]
    rw [wrapped, List.filterMap_cons, (function_names hf).2.2, hs]; rfl
  rw [peel, this]

example : handlerValue (.call "HandleRequest(create)" (some ⟨[some ⟨"", "Logic"⟩], some ⟨"net/http", "HandlerFunc"⟩⟩) [.name "create" true])
    = .call "HandleRequest(create)" (some ⟨[some ⟨"", "Logic"⟩], some ⟨"net/http", "HandlerFunc"⟩⟩) [.name "create" true] :=
  C99_adapter _ _ _ _ (.name _) (by decide)

/-- **C99, two handlers are not guessed between.**  With two converted functions among the arguments, the call
itself is documented. -/
theorem C99_ambiguous (i j k : String) (s : Option Sig) (a b c : List Ex) (x y : Ex) (hx : Function x) (hy : Function y) :
    handlerValue (.call i s (a ++ .conv j [x] :: (b ++ .conv k [y] :: c))) = .call i s (a ++ .conv j [x] :: (b ++ .conv k [y] :: c)) := by
  show peel (7 + 1) _ = _
  have : wrapped maxUnwraps (.call i s (a ++ .conv j [x] :: (b ++ .conv k [y] :: c))) = none := by
    show wrapped (7 + 1) _ = _
    rw [wrapped]
    obtain ⟨h1, h3, _⟩ := function_names hx
    obtain ⟨h2, h4, _⟩ := function_names hy
    have hcx : ∀ w sh, cand w sh (.conv j [x]) = some x := fun w sh => by rw [cand, h3]; simp [h1]
    have hcy : ∀ w sh, cand w sh (.conv k [y]) = some y := fun w sh => by rw [cand, h4]; simp [h2]
    rw [List.filterMap_append, List.filterMap_cons, hcx, List.filterMap_append, List.filterMap_cons, hcy]
    generalize a.filterMap _ = u
    generalize b.filterMap _ = v
    generalize c.filterMap _ = w
    match u with
    | [] => cases v <;> rfl
    | p :: u => cases u <;> rfl
  rw [peel, this]

/-! ## What is not seen through -/

/-- **C99 fails for functions of libraries**: the signature of `gin.WrapF`, not part of the program, is not
known, so `gin.WrapF(getItem)` documents `gin.WrapF`. -/
theorem C99_library_wrapper (i : String) (h : Ex) (hf : Function h) : handlerValue (.call i none [h]) = .call i none [h] := by
  show peel (7 + 1) _ = _
  have : wrapped maxUnwraps (.call i none [h]) = none := by
    show wrapped (7 + 1) _ = _
    rw [wrapped, List.filterMap_cons, (function_names hf).2.2]; rfl
  rw [peel, this]

/-- **C99 fails for middleware with parameters**: in `withAuth(db, getItem)` the wrapper has two parameters;
it is documented instead of the handler. -/
theorem C99_two_parameters (i : String) (p q : Option TRef) (r : Option TRef) (a h : Ex) (ha : NoFn a) (hf : Function h) :
    handlerValue (.call i (some ⟨[p, q], r⟩) [a, h]) = .call i (some ⟨[p, q], r⟩) [a, h] := by
  show peel (7 + 1) _ = _
  have : wrapped maxUnwraps (.call i (some ⟨[p, q], r⟩) [a, h]) = none := by
    show wrapped (7 + 1) _ = _
    have hs : shaped (some ⟨[p, q], r⟩) = false := by cases p <;> rfl
    rw [wrapped, List.filterMap_cons, cand_noFn _ _ a ha, List.filterMap_cons, (function_names hf).2.2, hs]; rfl
  rw [peel, this]

/-- **C99 fails for a wrapped factory**: `withAuth(h.Create(db))` documents the middleware `withAuth`. -/
theorem C99_wrapped_factory (i j : String) (s t : Option Sig) (args : List Ex) (h : NoFns args) :
    handlerValue (.call i s [.call j t args]) = .call i s [.call j t args] :=
  C99_factory i s _ ⟨h, trivial⟩

/-- **C99 fails for a converted call**: `http.Handler(withAuth(getItem))` documents the conversion. -/
theorem C99_converted_call (i j : String) (s : Option Sig) (args : List Ex) : handlerValue (.conv i [.call j s args]) = .conv i [.call j s args] := rfl

/-- `h` under `n` wrappers. -/
def layers (h : Ex) : Nat → Ex
  | 0 => .conv "http.HandlerFunc(h)" [h]
  | n + 1 => .call "mw" none [layers h n]

/-- **C99 fails beyond eight layers.** -/
theorem C99_too_deep : handlerValue (layers (.name "h" true) 8) = .name "h" true ∧ ∀ x, handlerValue (layers (.name "h" true) 9) = .name x true → False := by
  refine ⟨C99_unwrapped_partial _ _ 8 ?_ (by decide), ?_⟩
  · exact .wrapWrap (n := 7) _ _ _ _ [] [] _ trivial trivial (.wrapWrap (n := 6) _ _ _ _ [] [] _ trivial trivial (.wrapWrap (n := 5) _ _ _ _ [] [] _ trivial trivial
      (.wrapWrap (n := 4) _ _ _ _ [] [] _ trivial trivial (.wrapWrap (n := 3) _ _ _ _ [] [] _ trivial trivial (.wrapWrap (n := 2) _ _ _ _ [] [] _ trivial trivial
      (.wrapWrap (n := 1) _ _ _ _ [] [] _ trivial trivial (.wrapConv _ _ _ [] [] (.name "h") trivial trivial)))))))
  · intro x h
    have : handlerValue (layers (.name "h" true) 9) = layers (.name "h" true) 9 := rfl
    rw [this] at h
    cases h

/-- **C99 fails for an adapter of a type of the same name**: packages are compared only when both are
recorded, so `adapt(businessLogic)` with `adapt : func(Handler) http.Handler` is taken for middleware and the
function it adapts for the handler. -/
theorem C99_same_name : handlerValue (.call "adapt(logic)" (some ⟨[some ⟨"", "Handler"⟩], some ⟨"net/http", "Handler"⟩⟩) [.name "logic" true]) = .name "logic" true := rfl

end Verif.Unwrap
