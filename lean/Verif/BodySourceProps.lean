import Verif.ProvenanceModel

/-!
# C72: what is decoded is documented as request body exactly if it comes from the request

The specification executes the function: a body is a list of assignments, and a variable holds the body of
the request if the expression last assigned to it did when it was assigned.  The code follows the recorded
assignments backwards instead.
-/

namespace Verif.Provenance

/-! ## Specification -/

/-- The identifier named `y` with type `t` and resolved type `r` occurs in an expression. -/
inductive IdentIn (y t r : String) : Arg → Prop
  | here (i) : IdentIn y t r (.ident i y t r)
  | sel {x} (i n a b) : IdentIn y t r x → IdentIn y t r (.sel i x n a b)
  | callFn {f} (i as a b) : IdentIn y t r f → IdentIn y t r (.call i f as a b)
  | callArg {e as} (i f a b) : e ∈ as → IdentIn y t r e → IdentIn y t r (.call i f as a b)
  | wrap {x} (w) : IdentIn y t r x → IdentIn y t r (.wrap w x)
  | litType {ty} (i es a b) : IdentIn y t r ty → IdentIn y t r (.lit i ty es a b)
  | litElt {e es} (i ty a b) : e ∈ es → IdentIn y t r e → IdentIn y t r (.lit i ty es a b)
  | key {k} (i v) : IdentIn y t r k → IdentIn y t r (.kv i k v)
  | value {v} (i k) : IdentIn y t r v → IdentIn y t r (.kv i k v)

/-- The variable `y` occurs in an expression. -/
def Occurs (y : String) (a : Arg) : Prop := ∃ t r, IdentIn y t r a

/-- `a` is `x.s₁.s₂…`, each step a field or a method call. -/
inductive Chain (x : String) : List Seg → Arg → Prop
  | root (i t r) : Chain x [] (.ident i x t r)
  | field {s a} (i f t r) : Chain x s a → Chain x (s ++ [⟨f, false⟩]) (.sel i a f t r)
  | method {s a} (i j m as t r t' r') :
      Chain x s a → Chain x (s ++ [⟨m, true⟩]) (.call i (.sel j a m t' r') as t r)

/-- The path of a chain as it is written: fields and, with parentheses, method calls, with dots between. -/
def path (segs : List Seg) : String :=
  ".".intercalate (segs.map fun s => if s.isCall then s.name ++ "()" else s.name)

/-- The value of the expression comes from the body of the request, when the variables that hold (part of)
the body are those in `env`: it is read from a request (`r.Body`), it is such a variable or something got
from it, or the result of a function that was given such a value. -/
inductive FromBody (Γ : String → String) (c : ReqCfg) (env : String → Prop) : Arg → Prop
  | read {x s a} : Chain x s a → s ≠ [] → c.types (Γ x) = true → c.accessor (path s) = true → FromBody Γ c env a
  | derived {x s a} : Chain x s a → env x → FromBody Γ c env a
  | wrapped {a} (w) : FromBody Γ c env a → FromBody Γ c env (.wrap w a)
  | passed {e as} (i f t r) : e ∈ as → FromBody Γ c env e → FromBody Γ c env (.call i f as t r)

/-- Which variables hold the body after the assignments have been executed one after the other. -/
def after (Γ : String → String) (c : ReqCfg) : (String → Prop) → List (String × Asg) → String → Prop
  | env, [] => env
  | env, (x, a) :: body => after Γ c (fun y => if y = x then FromBody Γ c env a.value else env y) body

/-- No variable holds the body before the function runs. -/
def noVars : String → Prop := fun _ => False

/-- The call is written in a function whose assignments are `body`: directly, in a closure in the function,
or in a closure in a method.  The callee's own body is not known (it is a library's). -/
inductive Written (W : World) (body : List (String × Asg)) : Prop
  | function (f : Fn) : W.edge.amap = [] → W.edge.callerName ≠ "" → W.edge.parent = none →
      f ∈ W.decls.funcs → f.pkg = W.edge.callerPkg → f.name = W.edge.callerName →
      (∀ g ∈ W.decls.funcs, g.pkg = f.pkg → g.name = f.name → g = f) →
      f.amap = collect body → Written W body
  | closure (f : Fn) (p : Parent) : W.edge.amap = [] → W.edge.parent = some p → p.name ≠ "" →
      (∀ g ∈ W.decls.funcs, g.name ≠ W.edge.callerName) →
      f ∈ W.decls.funcs → f.pkg = p.pkg → f.name = p.name →
      (∀ g ∈ W.decls.funcs, g.pkg = f.pkg → g.name = f.name → g = f) →
      (∀ g ∈ W.decls.meths, g.pkg = p.pkg → g.name ≠ p.name) →
      f.amap = collect body → Written W body
  | closureInMethod (f : Fn) (p : Parent) : W.edge.amap = [] → W.edge.parent = some p →
      p.name ≠ "" → p.recv ≠ "" →
      (∀ g ∈ W.decls.funcs, g.name ≠ W.edge.callerName ∧ g.name ≠ p.name) →
      f ∈ W.decls.meths → f.pkg = p.pkg → f.name = p.name → f.recv = p.recv →
      (∀ g ∈ W.decls.meths, g.pkg = f.pkg → g.name = f.name → g.recv = f.recv → g = f) →
      f.amap = collect body → Written W body

/-- Every variable is assigned once, and only variables assigned before are used: in `before`, which runs
before the call, in the expression `src`, which is decoded, and `later` is assigned only afterwards. -/
structure Once (before later : List (String × Asg)) (src : Arg) : Prop where
  named : ∀ s ∈ before ++ later, s.1 ≠ ""
  once : ((before ++ later).map (·.1)).Nodup
  order : ∀ pre x a post, before = pre ++ (x, a) :: post →
    ∀ y, Occurs y a.value → y ∉ ((x, a) :: post ++ later).map (·.1)
  src : ∀ y, Occurs y src → y ∉ later.map (·.1)

/-- Every identifier carries the type of its variable. -/
structure Typed (W : World) (Γ : String → String) (body : List (String × Asg)) (src : Arg) : Prop where
  node : ∀ a, a = src ∨ (∃ s ∈ body, s.2.value = a) →
    ∀ y t r, IdentIn y t r a → (if r ≠ "" then r else t) = Γ y
  untyped : ∀ y, Γ y = "" → W.origin y = none

/-- No parentheses and no function given anything but constants: the values that are followed. -/
def Plain : Arg → Prop
  | .wrap w x => w ≠ .paren ∧ Plain x
  | .call _ _ as _ _ => ∀ e ∈ as, ∃ i t r, e = Arg.other i t r
  | _ => True

/-- An expression without the address-of and dereference operators in front. -/
def core : Arg → Arg
  | .wrap w x => if w = .paren then .wrap w x else core x
  | a => a

/-- The expressions on the way have different ids: they are at different places in the source. -/
def Distinct (before : List (String × Asg)) (src : Arg) : Prop :=
  ((src :: before.map (·.2.value)).map fun a => (core a).id).Nodup

/-! ## The assignments that are found -/

theorem get_addAsg (m : AMap) (x : String) (a : Asg) (y : String) :
    (addAsg m x a).get y = m.get y ++ (if x = y then [a] else []) := by
  induction m with
  | nil => by_cases h : x = y <;> simp [addAsg, AMap.get, h]
  | cons p m ih =>
    obtain ⟨z, l⟩ := p
    simp only [addAsg]
    by_cases hz : z = x
    · by_cases h : x = y
      · simp [AMap.get, hz, h]
      · simp [AMap.get, hz, h]
    · rw [if_neg hz]
      by_cases hzy : z = y
      · have : ¬ x = y := fun e => hz (hzy.trans e.symm)
        simp [AMap.get, hzy, this]
      · simpa [AMap.get, hzy] using ih

theorem get_foldl (body : List (String × Asg)) (m : AMap) (y : String) :
    (body.foldl (fun m s => addAsg m s.1 s.2) m).get y
      = m.get y ++ (body.filter (fun s => decide (s.1 = y))).map (·.2) := by
  induction body generalizing m with
  | nil => simp
  | cons s b ih =>
    simp only [List.foldl_cons]
    rw [ih, get_addAsg]
    by_cases h : s.1 = y <;> simp [h]

/-- The recorded assignments of a variable are its assignments, in order. -/
theorem get_collect (body : List (String × Asg)) (y : String) :
    (collect body).get y = (body.filter (fun s => decide (s.1 = y))).map (·.2) := by
  rw [collect, get_foldl]; simp [AMap.get]

theorem find_unique {l : List Fn} {p : Fn → Bool} {f : Fn} (hf : f ∈ l) (hp : p f = true)
    (hu : ∀ g ∈ l, p g = true → g = f) : l.find? p = some f := by
  induction l with
  | nil => simp at hf
  | cons a l ih =>
    by_cases ha : p a = true
    · rw [List.find?_cons_of_pos ha, hu a (by simp) ha]
    · rw [List.find?_cons_of_neg ha]
      have : f ∈ l := by
        rcases List.mem_cons.1 hf with e | e
        · exact absurd (e ▸ hp) ha
        · exact e
      exact ih this (fun g hg => hu g (by simp [hg]))

theorem find_none {l : List Fn} {p : Fn → Bool} (h : ∀ g ∈ l, p g = false) : l.find? p = none := by
  simp only [List.find?_eq_none]
  intro g hg; simp [h g hg]

/-- In all three cases the assignment followed is the last one written in the function. -/
theorem latest_written {W : World} {body : List (String × Asg)} (h : Written W body) {x : String} (hx : x ≠ "") :
    W.latest x = ((body.filter (fun s => decide (s.1 = x))).map (·.2.value)).getLast? := by
  have key : assignmentsAt W.decls W.edge x = (body.filter (fun s => decide (s.1 = x))).map (·.2) := by
    rw [← get_collect]
    cases h with
    | function f h0 hn hp hf e1 e2 hu hm =>
      have hfind : findFunctionByName W.decls W.edge.callerPkg W.edge.callerName = some f := by
        rw [findFunctionByName, if_neg hn, find_unique (f := f) hf (by simp [e1, e2])]
        intro g hg hpg; simp at hpg; exact hu g hg (by rw [hpg.1, e1]) (by rw [hpg.2, e2])
      simp only [assignmentsAt, if_neg hx, h0, AMap.get, List.find?_nil, Option.map_none, Option.getD_none,
        List.isEmpty_nil, Bool.not_true, Bool.false_eq_true, if_false]
      rw [← AMap.get, ← AMap.get]
      rw [callerAssignmentMap, hfind, hp]
      by_cases he : (f.amap.get x).isEmpty
      · rw [Option.filter_some, he]
        simp only [Bool.not_true, Bool.false_eq_true, if_false, ← hm]
        rw [List.isEmpty_iff.1 he]; rfl
      · rw [Option.filter_some, if_pos (by simp [he])]
        simp only [hm]
    | closure f p h0 hp hpn hnone hf e1 e2 hu hmeth hm =>
      have h1 : findFunctionByName W.decls W.edge.callerPkg W.edge.callerName = none := by
        rw [findFunctionByName]; split
        · rfl
        · rw [find_none (fun g hg => by simp [hnone g hg]), find_none (fun g hg => by simp [hnone g hg])]
      have hfind : findFunctionByName W.decls p.pkg p.name = some f := by
        rw [findFunctionByName, if_neg hpn, find_unique (f := f) hf (by simp [e1, e2])]
        intro g hg hpg; simp at hpg; exact hu g hg (by rw [hpg.1, e1]) (by rw [hpg.2, e2])
      simp only [assignmentsAt, if_neg hx, h0, AMap.get, List.find?_nil, Option.map_none, Option.getD_none,
        List.isEmpty_nil, Bool.not_true, Bool.false_eq_true, if_false]
      rw [← AMap.get, ← AMap.get]
      rw [callerAssignmentMap, h1, hp]
      simp only [Option.filter_none, hfind]
      by_cases he : (f.amap.get x).isEmpty
      · rw [Option.filter_some, he]
        simp only [Bool.not_true, Bool.false_eq_true, if_false, ← hm]
        rw [List.isEmpty_iff.1 he, methodAssignmentMap, if_neg hpn, find_none]; · rfl
        intro g hg
        by_cases a1 : g.pkg = p.pkg
        · simp [hmeth g hg a1]
        · simp [a1]
      · rw [Option.filter_some, if_pos (by simp [he])]
        simp only [hm]
    | closureInMethod f p h0 hp hpn hpr hnone hf e1 e2 e3 hu hm =>
      have h1 : findFunctionByName W.decls W.edge.callerPkg W.edge.callerName = none := by
        rw [findFunctionByName]; split
        · rfl
        · rw [find_none (fun g hg => by simp [(hnone g hg).1]), find_none (fun g hg => by simp [(hnone g hg).1])]
      have h2 : findFunctionByName W.decls p.pkg p.name = none := by
        rw [findFunctionByName, if_neg hpn, find_none (fun g hg => by simp [(hnone g hg).2]),
          find_none (fun g hg => by simp [(hnone g hg).2])]
      simp only [assignmentsAt, if_neg hx, h0, AMap.get, List.find?_nil, Option.map_none, Option.getD_none,
        List.isEmpty_nil, Bool.not_true, Bool.false_eq_true, if_false]
      rw [← AMap.get, ← AMap.get]
      rw [callerAssignmentMap, h1, hp]
      simp only [Option.filter_none, h2]
      rw [methodAssignmentMap, if_neg hpn]
      by_cases he : (f.amap.get x).isEmpty
      · rw [find_none]
        · rw [← hm, List.isEmpty_iff.1 he]; rfl
        · intro g hg
          by_cases hgf : g = f
          · subst hgf; simp [he]
          · by_cases a1 : g.pkg = p.pkg
            · by_cases a2 : g.name = p.name
              · by_cases a3 : g.recv = p.recv
                · exact absurd (hu g hg (by rw [a1, e1]) (by rw [a2, e2]) (by rw [a3, e3])) hgf
                · simp [a3, hpr]
              · simp [a2]
            · simp [a1]
      · rw [find_unique (f := f) hf]
        · simp [hm]
        · simp [e1, e2, e3, he]
        · intro g hg hpg
          simp [hpr] at hpg
          exact hu g hg (by rw [hpg.1.1.1, e1]) (by rw [hpg.1.1.2, e2]) (by rw [hpg.1.2, e3])
  unfold World.latest latestAssignment
  rw [key]
  simp [List.getLast?_map, Function.comp_def]

/-- With one assignment per variable, that one. -/
theorem latest_once {W : World} {before later : List (String × Asg)} (h : Written W (before ++ later))
    (hn : ((before ++ later).map (·.1)).Nodup) {x : String} (hx : x ≠ "") :
    (∀ a, (x, a) ∈ before ++ later → W.latest x = some a.value) ∧
    ((∀ a, (x, a) ∉ before ++ later) → W.latest x = none) := by
  rw [latest_written h hx]
  generalize before ++ later = body at hn
  constructor
  · intro a ha
    have : (body.filter (fun s => decide (s.1 = x))) = [(x, a)] := by
      clear h
      induction body with
      | nil => simp at ha
      | cons s b ih =>
        simp only [List.map_cons, List.nodup_cons] at hn
        rcases List.mem_cons.1 ha with e | e
        · subst e
          have : b.filter (fun s => decide (s.1 = x)) = [] := by
            rw [List.filter_eq_nil_iff]; intro s hs
            simp only [decide_eq_true_eq]; intro e
            exact hn.1 (List.mem_map.2 ⟨s, hs, e⟩)
          simp [this]
        · have hne : ¬ s.1 = x := fun he => hn.1 (List.mem_map.2 ⟨(x, a), e, he.symm⟩)
          rw [List.filter_cons_of_neg (by simpa using hne)]
          exact ih hn.2 e
    rw [this]; rfl
  · intro hno
    have : (body.filter (fun s => decide (s.1 = x))) = [] := by
      rw [List.filter_eq_nil_iff]; rintro ⟨y, a⟩ hs
      simp only [decide_eq_true_eq]; rintro rfl
      exact hno a hs
    rw [this]; rfl

/-! ## Execution and the single assignment -/

theorem Chain.occurs {x : String} {s : List Seg} {a : Arg} (h : Chain x s a) : Occurs x a := by
  induction h with
  | root i t r => exact ⟨t, r, .here i⟩
  | field i f t r _ ih => obtain ⟨t, r, h⟩ := ih; exact ⟨t, r, .sel _ _ _ _ h⟩
  | method i j m as t r t' r' _ ih => obtain ⟨t, r, h⟩ := ih; exact ⟨t, r, .callFn _ _ _ _ (.sel _ _ _ _ h)⟩

theorem FromBody.mono {Γ : String → String} {c : ReqCfg} {e₁ e₂ : String → Prop} {a : Arg} (h : FromBody Γ c e₁ a)
    (he : ∀ y, Occurs y a → e₁ y → e₂ y) : FromBody Γ c e₂ a := by
  induction h with
  | read hc hs ht ha => exact .read hc hs ht ha
  | derived hc hx => exact .derived hc (he _ hc.occurs hx)
  | wrapped w _ ih => exact .wrapped w (ih fun y ⟨t, r, h⟩ => he y ⟨t, r, .wrap w h⟩)
  | passed i f t r hm _ ih =>
    exact .passed i f t r hm (ih fun y ⟨t', r', h⟩ => he y ⟨t', r', .callArg _ _ _ _ hm h⟩)

/-- Executing leaves alone what is not assigned. -/
theorem after_other (Γ : String → String) (c : ReqCfg) (body : List (String × Asg)) (env : String → Prop) {y : String}
    (h : y ∉ body.map (·.1)) : after Γ c env body y ↔ env y := by
  induction body generalizing env with
  | nil => exact Iff.rfl
  | cons s b ih =>
    obtain ⟨x, a⟩ := s
    simp only [List.map_cons, List.mem_cons, not_or] at h
    rw [after, ih _ h.2, if_neg h.1]

theorem after_append (Γ : String → String) (c : ReqCfg) (b₁ b₂ : List (String × Asg)) (env : String → Prop) :
    after Γ c env (b₁ ++ b₂) = after Γ c (after Γ c env b₁) b₂ := by
  induction b₁ generalizing env with
  | nil => rfl
  | cons s b ih => obtain ⟨x, a⟩ := s; simp only [List.cons_append, after]; exact ih _

/-- If every variable is assigned once and after those it uses, a variable holds the body at the end iff the
expression assigned to it does, at the end. -/
theorem after_once (Γ : String → String) (c : ReqCfg) {before later : List (String × Asg)} {src : Arg} (h : Once before later src)
    {x : String} {a : Asg} (hx : (x, a) ∈ before) :
    after Γ c noVars before x ↔ FromBody Γ c (after Γ c noVars before) a.value := by
  obtain ⟨pre, post, e⟩ := List.append_of_mem hx
  have hn : x ∉ post.map (·.1) := by
    have := h.once
    rw [e] at this
    simp only [List.append_assoc, List.cons_append, List.map_append, List.map_cons] at this
    have := (List.nodup_append.1 this).2.1
    rw [List.nodup_cons] at this
    intro hc; exact this.1 (by simp only [List.mem_append]; exact Or.inl hc)
  have hu : ∀ y, Occurs y a.value → y ∉ ((x, a) :: post).map (·.1) := fun y hy hc =>
    h.order pre x a post e y hy (by rw [List.map_append]; exact List.mem_append.2 (Or.inl hc))
  have h1 : after Γ c noVars before x ↔ FromBody Γ c (after Γ c noVars pre) a.value := by
    rw [e, after_append, after, after_other _ _ _ _ hn, if_pos rfl]
  have h2 : ∀ y, Occurs y a.value → (after Γ c noVars before y ↔ after Γ c noVars pre y) := by
    intro y hy
    rw [e, after_append, after_other _ _ _ _ (hu y hy)]
  rw [h1]
  exact ⟨fun hb => hb.mono fun y hy => (h2 y hy).2, fun hb => hb.mono fun y hy => (h2 y hy).1⟩

/-! ## Chains -/

theorem peel_chain : ∀ (a : Arg) {x t r s}, peel a = some ((x, t, r), s) → Chain x s a ∧ IdentIn x t r a
  | .nil, _, _, _, _, h => by simp [peel] at h
  | .ident i n t' r', x, t, r, s, h => by
    simp only [peel, Option.some.injEq, Prod.mk.injEq] at h
    obtain ⟨⟨rfl, rfl, rfl⟩, rfl⟩ := h
    exact ⟨.root _ _ _, .here _⟩
  | .sel i a n t' r', x, t, r, s, h => by
    simp only [peel, Option.map_eq_some_iff, Prod.mk.injEq] at h
    obtain ⟨⟨⟨x', t'', r''⟩, s'⟩, hp, ⟨rfl, rfl, rfl⟩, rfl⟩ := h
    have := peel_chain a hp
    exact ⟨.field _ _ _ _ this.1, .sel _ _ _ _ this.2⟩
  | .call i (.sel j a n t₁ r₁) as t' r', x, t, r, s, h => by
    simp only [peel, Option.map_eq_some_iff, Prod.mk.injEq] at h
    obtain ⟨⟨⟨x', t'', r''⟩, s'⟩, hp, ⟨rfl, rfl, rfl⟩, rfl⟩ := h
    have := peel_chain a hp
    exact ⟨.method _ _ _ _ _ _ _ _ this.1, .callFn _ _ _ _ (.sel _ _ _ _ this.2)⟩
  | .call i .nil as t' r', _, _, _, _, h => by simp [peel] at h
  | .call i (.ident ..) as t' r', _, _, _, _, h => by simp [peel] at h
  | .call i (.call ..) as t' r', _, _, _, _, h => by simp [peel] at h
  | .call i (.wrap ..) as t' r', _, _, _, _, h => by simp [peel] at h
  | .call i (.lit ..) as t' r', _, _, _, _, h => by simp [peel] at h
  | .call i (.kv ..) as t' r', _, _, _, _, h => by simp [peel] at h
  | .call i (.other ..) as t' r', _, _, _, _, h => by simp [peel] at h
  | .wrap w a, _, _, _, _, h => by simp [peel] at h
  | .lit .., _, _, _, _, h => by simp [peel] at h
  | .kv .., _, _, _, _, h => by simp [peel] at h
  | .other .., _, _, _, _, h => by simp [peel] at h

theorem chain_peel {x : String} {s : List Seg} {a : Arg} (h : Chain x s a) : ∃ t r, peel a = some ((x, t, r), s) := by
  induction h with
  | root i t r => exact ⟨t, r, rfl⟩
  | field i f t r _ ih => obtain ⟨t, r, h⟩ := ih; exact ⟨t, r, by simp [peel, h]⟩
  | method i j m as t r t' r' _ ih => obtain ⟨t, r, h⟩ := ih; exact ⟨t, r, by simp [peel, h]⟩

theorem Chain.unique {x y : String} {s u : List Seg} {a : Arg} (h : Chain x s a) (h' : Chain y u a) : x = y ∧ s = u := by
  obtain ⟨t, r, e⟩ := chain_peel h
  obtain ⟨t', r', e'⟩ := chain_peel h'
  rw [e] at e'; simp only [Option.some.injEq, Prod.mk.injEq] at e'
  exact ⟨e'.1.1, e'.2⟩

theorem accessorString_eq : ∀ s : List Seg, accessorString s = path s
  | [] => rfl
  | [s] => by
    simp only [accessorString, segString, path, List.map_cons, List.map_nil, String.intercalate_singleton]
    split <;> simp
  | s :: t :: l => by
    rw [accessorString, accessorString_eq (t :: l)]
    · simp only [path, List.map_cons]
      rw [String.intercalate_cons_cons (l := l.map _)]
      simp only [segString]; split <;> simp
    · simp

theorem Written.noEdge {W : World} {body : List (String × Asg)} (h : Written W body) : W.edge.amap = [] := by
  cases h <;> assumption

/-- The type that is read off an identifier is the type of its variable. -/
theorem identTypeBody_eq {W : World} {body : List (String × Asg)} (h : Written W body) {Γ : String → String}
    (hu : ∀ y, Γ y = "" → W.origin y = none) {y t r : String} (ht : (if r ≠ "" then r else t) = Γ y) :
    identTypeBody W y t r = Γ y := by
  have hk : knownType W y t r = Γ y := by
    rw [← ht]; unfold knownType
    by_cases hr : r = ""
    · by_cases h' : t = ""
      · simp [hr, h', h.noEdge, AMap.get]
      · simp [hr, h']
    · simp [hr]
  unfold identTypeBody
  rw [hk]; split
  · rfl
  · next hn => rw [hu y (by simpa using hn)]; simpa using (Decidable.not_not.1 hn).symm

/-! ## Soundness -/

theorem latest_empty (W : World) : W.latest "" = none := by
  simp [World.latest, latestAssignment, assignmentsAt]

theorem FromBody.of_strip {Γ : String → String} {c : ReqCfg} {env : String → Prop} :
    ∀ {a : Arg}, FromBody Γ c env (stripBody a) → FromBody Γ c env a
  | .wrap .unary x, h => .wrapped _ (FromBody.of_strip (a := x) (by simpa [stripBody] using h))
  | .wrap .star x, h => .wrapped _ (FromBody.of_strip (a := x) (by simpa [stripBody] using h))
  | .wrap .paren x, h => by simpa [stripBody] using h
  | .nil, h | .ident .., h | .sel .., h | .call .., h | .lit .., h | .kv .., h | .other .., h => by
    simpa [stripBody] using h

theorem IdentIn.of_strip {y t r : String} : ∀ {a : Arg}, IdentIn y t r (stripBody a) → IdentIn y t r a
  | .wrap .unary x, h => .wrap _ (IdentIn.of_strip (a := x) (by simpa [stripBody] using h))
  | .wrap .star x, h => .wrap _ (IdentIn.of_strip (a := x) (by simpa [stripBody] using h))
  | .wrap .paren x, h => by simpa [stripBody] using h
  | .nil, h | .ident .., h | .sel .., h | .call .., h | .lit .., h | .kv .., h | .other .., h => by
    simpa [stripBody] using h

/-- The variable followed was assigned before the call, and is followed to what it was assigned. -/
theorem followed {W : World} {before later : List (String × Asg)} {src : Arg} (hw : Written W (before ++ later))
    (ho : Once before later src) {x : String} (hx : x ∉ later.map (·.1)) {rhs : Arg} (h : W.latest x = some rhs) :
    ∃ a, (x, a) ∈ before ∧ rhs = a.value := by
  have hne : x ≠ "" := by rintro rfl; rw [latest_empty] at h; simp at h
  have hl := latest_once hw ho.once hne
  by_cases hex : ∃ a, (x, a) ∈ before ++ later
  · obtain ⟨a, ha⟩ := hex
    rw [hl.1 a ha] at h
    rcases List.mem_append.1 ha with h1 | h1
    · exact ⟨a, h1, by simpa using h.symm⟩
    · exact absurd (List.mem_map.2 ⟨_, h1, rfl⟩) hx
  · rw [hl.2 (fun a ha => hex ⟨a, ha⟩)] at h; simp at h

/-- What an assigned expression mentions was assigned before it. -/
theorem Once.later_free {before later : List (String × Asg)} {src : Arg} (ho : Once before later src) {x : String}
    {a : Asg} (hx : (x, a) ∈ before) {y : String} (hy : Occurs y a.value) : y ∉ later.map (·.1) := by
  obtain ⟨pre, post, e⟩ := List.append_of_mem hx
  intro hc
  exact ho.order pre x a post e y hy (by rw [List.map_append]; exact List.mem_append.2 (Or.inr hc))

theorem check_sound {W : World} {c : ReqCfg} {Γ : String → String} {before later : List (String × Asg)} {src : Arg}
    (hw : Written W (before ++ later)) (ho : Once before later src) (ht : Typed W Γ (before ++ later) src) :
    ∀ (n : Nat) (vis : List String) (a : Arg) (v : List String),
      (a = src ∨ ∃ s ∈ before, s.2.value = a) → check W c n vis a = some (true, v) →
      FromBody Γ c (after Γ c noVars before) a := by
  intro n
  induction n with
  | zero => intro vis a v _ h; simp [check] at h
  | succ n ih =>
    intro vis a v ha h
    have hocc : ∀ y, Occurs y a → y ∉ later.map (·.1) := by
      intro y hy
      rcases ha with rfl | ⟨⟨z, s⟩, hs, rfl⟩
      · exact ho.src y hy
      · exact ho.later_free hs hy
    have htyp : ∀ y t r, IdentIn y t r a → (if r ≠ "" then r else t) = Γ y := by
      refine ht.node a ?_
      rcases ha with rfl | ⟨s, hs, rfl⟩
      · exact Or.inl rfl
      · exact Or.inr ⟨s, by simp [hs], rfl⟩
    have step : ∀ {x rhs vis'}, Occurs x a → W.latest x = some rhs → check W c n vis' rhs = some (true, v) →
        after Γ c noVars before x := by
      intro x rhs vis' hx hl hc
      obtain ⟨b, hb, rfl⟩ := followed hw ho (hocc x hx) hl
      exact (after_once Γ c ho hb).2 (ih _ _ _ (Or.inr ⟨_, hb, rfl⟩) hc)
    apply FromBody.of_strip
    have hstr : ∀ {y t r}, IdentIn y t r (stripBody a) → IdentIn y t r a := fun h => h.of_strip
    rw [check] at h
    generalize stripBody a = b at h hstr
    have chain : ∀ vis', (match peel b with
        | none => some (false, b.id :: vis')
        | some r =>
          if chainMatches W c r then some (true, b.id :: vis')
          else match W.latest r.1.1 with
            | some rhs => check W c n (b.id :: vis') rhs
            | none => some (false, b.id :: vis')) = some (true, v) →
        FromBody Γ c (after Γ c noVars before) b := by
      intro vis' h
      cases hp : peel b with
      | none => rw [hp] at h; simp at h
      | some r =>
        obtain ⟨⟨x, t, r⟩, s⟩ := r
        rw [hp] at h
        have hc := peel_chain b hp
        by_cases hm : chainMatches W c ((x, t, r), s) = true
        · simp only [chainMatches, Bool.and_eq_true, Bool.not_eq_true', List.isEmpty_eq_false_iff] at hm
          have e := identTypeBody_eq hw ht.untyped (htyp x t r (hstr hc.2))
          rw [e, accessorString_eq] at hm
          exact .read hc.1 hm.1.1.1 hm.1.2 hm.2
        · simp only [hm] at h
          cases hl : W.latest x with
          | none => simp [hl] at h
          | some rhs =>
            simp only [hl] at h
            exact .derived hc.1 (step ⟨t, r, hstr hc.2⟩ hl (by simpa using h))
    cases b with
    | nil => simp at h
    | wrap w x => simp at h
    | ident i name t r =>
      dsimp only at h
      split at h
      · simp at h
      · cases hl : W.latest name with
        | none => simp [hl] at h
        | some rhs =>
          simp only [hl] at h
          exact .derived (.root _ _ _) (step ⟨t, r, hstr (.here _)⟩ hl h)
    | sel i x nm t r =>
      dsimp only at h; split at h
      · simp at h
      · exact chain vis h
    | call i f as t r =>
      dsimp only at h; split at h
      · simp at h
      · exact chain vis h
    | lit i ty es t r =>
      dsimp only at h; split at h
      · simp at h
      · exact chain vis h
    | kv i k v' =>
      dsimp only at h; split at h
      · simp at h
      · exact chain vis h
    | other i t r =>
      dsimp only at h; split at h
      · simp at h
      · exact chain vis h

/-- **Soundness.**  In a function in which every variable is assigned once, what is taken for the body of
the request comes from it. -/
theorem C72_sound_partial {W : World} {c : ReqCfg} {Γ : String → String} {before later : List (String × Asg)} {src : Arg}
    (hw : Written W (before ++ later)) (ho : Once before later src) (ht : Typed W Γ (before ++ later) src)
    {n : Nat} (h : isRequestSource W c n src = some true) :
    FromBody Γ c (after Γ c noVars before) src := by
  simp only [isRequestSource, Option.map_eq_some_iff, Prod.exists] at h
  obtain ⟨b, v, h, rfl⟩ := h
  exact check_sound hw ho ht n [] src v (Or.inl rfl) h

/-! ## Completeness -/

theorem stripBody_eq : ∀ a : Arg, stripBody a = core a
  | .wrap .unary x => by rw [stripBody, core, stripBody_eq x]; simp
  | .wrap .star x => by rw [stripBody, core, stripBody_eq x]; simp
  | .wrap .paren x => by simp [stripBody, core]
  | .nil | .ident .. | .sel .. | .call .. | .lit .. | .kv .. | .other .. => by simp [stripBody, core]

theorem not_fromBody_other {Γ : String → String} {c : ReqCfg} {env : String → Prop} {i t r : String} :
    ¬ FromBody Γ c env (.other i t r) := by
  intro h
  cases h with
  | read hc => cases hc
  | derived hc => cases hc

/-- A plain value of the body is, without operators, a chain that reads it or starts at a variable holding it. -/
theorem FromBody.core {Γ : String → String} {c : ReqCfg} {env : String → Prop} {a : Arg} (h : FromBody Γ c env a) (hp : Plain a) :
    ∃ x s, Chain x s (core a) ∧ Occurs x a ∧
      ((s ≠ [] ∧ c.types (Γ x) = true ∧ c.accessor (path s) = true) ∨ env x) := by
  induction h with
  | @read x s a hc hs ht ha =>
    refine ⟨x, s, ?_, hc.occurs, Or.inl ⟨hs, ht, ha⟩⟩
    cases hc <;> simpa [Provenance.core] using by first | exact .root .. | (constructor; assumption)
  | @derived x s a hc hx =>
    refine ⟨x, s, ?_, hc.occurs, Or.inr hx⟩
    cases hc <;> simpa [Provenance.core] using by first | exact .root .. | (constructor; assumption)
  | wrapped w _ ih =>
    obtain ⟨hw, hp⟩ := hp
    obtain ⟨x, s, hc, ⟨t, r, ho⟩, h⟩ := ih hp
    exact ⟨x, s, by simpa [Provenance.core, hw] using hc, ⟨t, r, .wrap _ ho⟩, h⟩
  | passed i f t r hm hf ih =>
    obtain ⟨_, _, _, rfl⟩ := hp _ hm
    exact absurd hf not_fromBody_other

theorem check_complete {W : World} {c : ReqCfg} {Γ : String → String} {before later : List (String × Asg)} {src : Arg}
    (hw : Written W (before ++ later)) (ho : Once before later src) (ht : Typed W Γ (before ++ later) src)
    (hc : c.types "" = false)
    (hp : Plain src ∧ ∀ s ∈ before, Plain s.2.value) :
    ∀ (pre post : List (String × Asg)) (n : Nat) (vis : List String) (a : Arg), before = pre ++ post → pre.length < n →
      (a = src ∨ ∃ s ∈ before, s.2.value = a) →
      (∀ y, Occurs y a → y ∈ before.map (·.1) → y ∈ pre.map (·.1)) →
      ((pre.map fun s => (core s.2.value).id)).Nodup →
      (core a).id ∉ vis → (core a).id ∉ pre.map (fun s => (core s.2.value).id) →
      (∀ i ∈ pre.map (fun s => (core s.2.value).id), i ∉ vis) →
      FromBody Γ c (after Γ c noVars before) a → ∃ v, check W c n vis a = some (true, v) := by
  suffices H : ∀ (k : Nat) (pre post : List (String × Asg)) (n : Nat) (vis : List String) (a : Arg), pre.length = k →
      before = pre ++ post → pre.length < n →
      (a = src ∨ ∃ s ∈ before, s.2.value = a) →
      (∀ y, Occurs y a → y ∈ before.map (·.1) → y ∈ pre.map (·.1)) →
      ((pre.map fun s => (core s.2.value).id)).Nodup →
      (core a).id ∉ vis → (core a).id ∉ pre.map (fun s => (core s.2.value).id) →
      (∀ i ∈ pre.map (fun s => (core s.2.value).id), i ∉ vis) →
      FromBody Γ c (after Γ c noVars before) a → ∃ v, check W c n vis a = some (true, v) from
    fun pre post n vis a => H _ pre post n vis a rfl
  intro k
  induction k using Nat.strongRecOn with
  | ind k IH =>
    intro pre post n vis a hk e hn ha hocc hnd hv1 hv2 hv3 hfb
    obtain ⟨n, rfl⟩ : ∃ m, n = m + 1 := ⟨n - 1, by omega⟩
    have hplain : Plain a := by
      rcases ha with rfl | ⟨s, hs, rfl⟩
      · exact hp.1
      · exact hp.2 s hs
    have htyp : ∀ y t r, IdentIn y t r a → (if r ≠ "" then r else t) = Γ y := by
      refine ht.node a ?_
      rcases ha with rfl | ⟨s, hs, rfl⟩
      · exact Or.inl rfl
      · exact Or.inr ⟨s, by simp [hs], rfl⟩
    obtain ⟨x, s, hch, hox, hor⟩ := hfb.core hplain
    -- following the variable the chain starts at
    have step : after Γ c noVars before x → ∃ rhs, W.latest x = some rhs ∧
        ∃ v, check W c n ((core a).id :: vis) rhs = some (true, v) := by
      intro hx
      have hxb : x ∈ before.map (·.1) := by
        false_or_by_contra; rename_i hno
        exact (after_other Γ c before noVars hno).1 hx
      have hxp := hocc x hox hxb
      obtain ⟨⟨x', b⟩, hb', ex⟩ := List.mem_map.1 hxp
      have hb : (x, b) ∈ pre := by cases ex; exact hb'
      obtain ⟨p1, p2, ep⟩ := List.append_of_mem hb
      have hbb : (x, b) ∈ before := by rw [e]; exact List.mem_append.2 (Or.inl hb)
      refine ⟨b.value, (latest_once hw ho.once (ho.named (x, b) (List.mem_append.2 (Or.inl hbb)))).1 b (List.mem_append.2 (Or.inl hbb)), ?_⟩
      have hfb' := (after_once Γ c ho hbb).1 hx
      have hid : (core b.value).id ∈ pre.map (fun s => (core s.2.value).id) := List.mem_map.2 ⟨_, hb, rfl⟩
      refine IH p1.length ?_ p1 ((x, b) :: p2 ++ post) n _ b.value rfl ?_ ?_ (Or.inr ⟨_, hbb, rfl⟩) ?_ ?_ ?_ ?_ ?_ hfb'
      · rw [← hk, ep]; simp
      · rw [e, ep]; simp
      · rw [ep] at hn; simp at hn; omega
      · intro y hy hyb
        have := ho.order p1 x b (p2 ++ post) (by rw [e, ep]; simp) y hy
        rw [e, ep] at hyb
        simp only [List.map_append, List.map_cons, List.mem_append, List.mem_cons, not_or, List.cons_append] at hyb this ⊢
        rcases hyb with (h | h | h) | h
        · exact h
        · exact absurd h this.1
        · exact absurd h this.2.1.1
        · exact absurd h this.2.1.2
      · rw [ep] at hnd; simp only [List.map_append] at hnd; exact (List.nodup_append.1 hnd).1
      · rw [List.mem_cons, not_or]
        exact ⟨fun h => hv2 (h ▸ hid), hv3 _ hid⟩
      · rw [ep] at hnd; simp only [List.map_append, List.map_cons] at hnd
        intro h; exact (List.nodup_append.1 hnd).2.2 _ h _ (by simp) rfl
      · intro i hi
        have hi' : i ∈ pre.map (fun s => (core s.2.value).id) := by
          rw [ep, List.map_append]; exact List.mem_append.2 (Or.inl hi)
        rw [List.mem_cons, not_or]
        exact ⟨fun h => hv2 (h ▸ hi'), hv3 _ hi'⟩
    obtain ⟨t, r, hpl⟩ := chain_peel hch
    have hid : IdentIn x t r a := by
      have := (peel_chain _ hpl).2
      rw [← stripBody_eq] at this; exact this.of_strip
    have ety := identTypeBody_eq hw ht.untyped (htyp x t r hid)
    rw [check, stripBody_eq]
    have chain : ∀ b, core a = b → ∃ v, (match peel b with
        | none => some (false, b.id :: vis)
        | some r =>
          if chainMatches W c r then some (true, b.id :: vis)
          else match W.latest r.1.1 with
            | some rhs => check W c n (b.id :: vis) rhs
            | none => some (false, b.id :: vis)) = some (true, v) := by
      rintro b rfl
      rw [hpl]; dsimp only
      by_cases hm : chainMatches W c ((x, t, r), s) = true
      · exact ⟨(core a).id :: vis, by rw [if_pos hm]⟩
      · rcases hor with h | h
        · exfalso; apply hm
          simp only [chainMatches, Bool.and_eq_true, Bool.not_eq_true', List.isEmpty_eq_false_iff, decide_eq_true_eq]
          rw [ety, accessorString_eq]
          refine ⟨⟨⟨h.1, ?_⟩, h.2.1⟩, h.2.2⟩
          intro h0; rw [h0, hc] at h; simp at h
        · obtain ⟨rhs, hl, v, hv⟩ := step h
          refine ⟨v, ?_⟩; rw [if_neg hm]; simp only [hl]; exact hv
    generalize eb : core a = b at hch hv1 chain step
    cases hch with
    | root i t r =>
      dsimp only
      rw [if_neg (by simpa [Arg.id] using hv1)]
      rcases hor with h | h
      · exact absurd rfl h.1
      · obtain ⟨rhs, hl, v, hv⟩ := step h
        exact ⟨v, by simpa [hl, Arg.id] using hv⟩
    | field i f t r h =>
      dsimp only; rw [if_neg hv1]; exact chain _ rfl
    | method i j m as t r t' r' h =>
      dsimp only; rw [if_neg hv1]; exact chain _ rfl

/-- **Completeness.**  If moreover functions are only given constants, no parentheses are used and the
expressions are told apart, everything that comes from the body of the request is recognised. -/
theorem C72_complete_partial {W : World} {c : ReqCfg} {Γ : String → String} {before later : List (String × Asg)} {src : Arg}
    (hw : Written W (before ++ later)) (ho : Once before later src) (ht : Typed W Γ (before ++ later) src)
    (hc : c.types "" = false) (hp : Plain src ∧ ∀ s ∈ before, Plain s.2.value) (hd : Distinct before src)
    (h : FromBody Γ c (after Γ c noVars before) src) {n : Nat} (hn : before.length < n) :
    isRequestSource W c n src = some true := by
  rw [Distinct, List.map_cons, List.nodup_cons, List.map_map] at hd
  obtain ⟨v, hv⟩ := check_complete hw ho ht hc hp before [] n [] src (by simp) hn (Or.inl rfl) (fun _ _ h => h)
    hd.2 (by simp) hd.1 (by simp) h
  simp [isRequestSource, hv]

/-! ## Termination -/

/-- Every right-hand side there is. -/
def allRhs (W : World) : List Arg :=
  (W.edge.amap ++ (W.decls.funcs ++ W.decls.meths).flatMap (·.amap)).flatMap fun p => p.2.map (·.value)

theorem get_mem {am : AMap} {x : String} {a : Asg} (h : a ∈ am.get x) : ∃ p ∈ am, a ∈ p.2 := by
  unfold AMap.get at h
  cases hf : am.find? (·.1 = x) with
  | none => rw [hf] at h; simp at h
  | some p => rw [hf] at h; exact ⟨p, List.mem_of_find?_eq_some hf, by simpa using h⟩

theorem findByName_mem {m : Meta} {p n : String} {f : Fn} (h : findFunctionByName m p n = some f) : f ∈ m.funcs := by
  unfold findFunctionByName at h
  split at h
  · simp at h
  · split at h
    · next hf => cases h; exact List.mem_of_find?_eq_some hf
    · exact List.mem_of_find?_eq_some h

theorem latest_mem {W : World} {x : String} {rhs : Arg} (h : W.latest x = some rhs) : rhs ∈ allRhs W := by
  simp only [World.latest, latestAssignment, Option.map_eq_some_iff] at h
  obtain ⟨a, ha, rfl⟩ := h
  have ha := List.mem_of_getLast? ha
  have use : ∀ p, (p ∈ W.edge.amap ∨ ∃ f, (f ∈ W.decls.funcs ∨ f ∈ W.decls.meths) ∧ p ∈ f.amap) → a ∈ p.2 → a.value ∈ allRhs W := by
    intro p hp hap
    refine List.mem_flatMap.2 ⟨p, ?_, List.mem_map.2 ⟨a, hap, rfl⟩⟩
    rcases hp with h | ⟨f, hf, h⟩
    · exact List.mem_append.2 (Or.inl h)
    · exact List.mem_append.2 (Or.inr (List.mem_flatMap.2 ⟨f, List.mem_append.2 hf, h⟩))
  unfold assignmentsAt at ha
  split at ha
  · simp at ha
  split at ha
  · obtain ⟨p, hp, h⟩ := get_mem ha; exact use p (Or.inl hp) h
  obtain ⟨p, hp, h⟩ := get_mem ha
  refine use p (Or.inr ?_) h
  unfold callerAssignmentMap at hp
  split at hp
  · next f hf =>
    rw [Option.filter_eq_some_iff] at hf
    exact ⟨f, Or.inl (findByName_mem hf.1), hp⟩
  split at hp
  · simp at hp
  split at hp
  · next f hf =>
    rw [Option.filter_eq_some_iff] at hf
    exact ⟨f, Or.inl (findByName_mem hf.1), hp⟩
  · unfold methodAssignmentMap at hp
    split at hp
    · simp at hp
    · rename_i q _ _ _ _
      cases hf : W.decls.meths.find? (fun f => decide (f.pkg = q.pkg) && decide (f.name = q.name) &&
          (decide (q.recv = "") || decide (f.recv = q.recv)) && !(f.amap.get x).isEmpty) with
      | none => rw [hf] at hp; simp at hp
      | some f => rw [hf] at hp; exact ⟨f, Or.inr (List.mem_of_find?_eq_some hf), by simpa using hp⟩

/-- The number of ids not visited yet. -/
def unseen : List String → List String → Nat
  | [], _ => 0
  | u :: U, vis => (if u ∈ vis then 0 else 1) + unseen U vis

theorem unseen_le (U vis : List String) (i : String) : unseen U (i :: vis) ≤ unseen U vis := by
  induction U with
  | nil => simp [unseen]
  | cons u U ih =>
    simp only [unseen, List.mem_cons]
    by_cases h1 : u ∈ vis
    · simp [h1]; omega
    · by_cases h2 : u = i
      · simp [h1, h2]; omega
      · simp [h1, h2]; omega

theorem unseen_lt {U vis : List String} {i : String} (hU : i ∈ U) (hv : i ∉ vis) : unseen U (i :: vis) < unseen U vis := by
  induction U with
  | nil => simp at hU
  | cons u U ih =>
    simp only [unseen, List.mem_cons]
    by_cases h2 : u = i
    · have := unseen_le U vis i
      simp [h2, hv]; omega
    · rcases List.mem_cons.1 hU with h | h
      · exact absurd h.symm h2
      · have := ih h
        by_cases h1 : u ∈ vis
        · simp [h1]; omega
        · simp [h1, h2]; omega

theorem check_total (W : World) (c : ReqCfg) (U : List String) (hU : ∀ rhs ∈ allRhs W, (stripBody rhs).id ∈ U) :
    ∀ (n : Nat) (vis : List String) (a : Arg), (stripBody a).id ∈ U → unseen U vis < n → (check W c n vis a).isSome := by
  intro n
  induction n with
  | zero => intro vis a _ h; omega
  | succ n ih =>
    intro vis a ha hn
    rw [check]
    have step : ∀ {i x rhs}, i ∈ U → i ∉ vis → W.latest x = some rhs → (check W c n (i :: vis) rhs).isSome := by
      intro i x rhs hi hv hl
      exact ih _ _ (hU _ (latest_mem hl)) (by have := unseen_lt hi hv; omega)
    generalize stripBody a = b at ha
    have chain : b.id ∉ vis → (match peel b with
        | none => some (false, b.id :: vis)
        | some r =>
          if chainMatches W c r then some (true, b.id :: vis)
          else match W.latest r.1.1 with
            | some rhs => check W c n (b.id :: vis) rhs
            | none => some (false, b.id :: vis)).isSome = true := by
      intro hv
      split
      · rfl
      · split
        · rfl
        · split
          · next h => exact step ha hv h
          · rfl
    cases b with
    | nil => rfl
    | wrap w x => rfl
    | ident i name t r =>
      dsimp only; split
      · rfl
      · next hv =>
        split
        · next h => exact step ha hv h
        · rfl
    | sel i x nm t r => dsimp only; split; · rfl
                        · next hv => exact chain hv
    | call i f as t r => dsimp only; split; · rfl
                         · next hv => exact chain hv
    | lit i ty es t r => dsimp only; split; · rfl
                         · next hv => exact chain hv
    | kv i k v' => dsimp only; split; · rfl
                   · next hv => exact chain hv
    | other i t r => dsimp only; split; · rfl
                     · next hv => exact chain hv

/-- **Termination.**  Whatever the assignments, circular ones included, the question is answered. -/
theorem C72_terminates (W : World) (c : ReqCfg) (a : Arg) :
    ∃ n, ∀ m, n ≤ m → (isRequestSource W c m a).isSome = true := by
  refine ⟨unseen ((stripBody a).id :: (allRhs W).map fun r => (stripBody r).id) [] + 1, fun m hm => ?_⟩
  unfold isRequestSource
  rw [Option.isSome_map]
  refine check_total W c ((stripBody a).id :: (allRhs W).map fun r => (stripBody r).id) (fun rhs h => ?_) m [] a (List.mem_cons_self ..) (by omega)
  exact List.mem_cons.2 (Or.inr (List.mem_map.2 ⟨rhs, h, rfl⟩))

theorem check_mono (W : World) (c : ReqCfg) : ∀ (n : Nat) (vis : List String) (a : Arg) (r), check W c n vis a = some r →
    check W c (n + 1) vis a = some r := by
  intro n
  induction n with
  | zero => intro vis a r h; simp [check] at h
  | succ n ih =>
    intro vis a r h
    rw [check] at h ⊢
    generalize stripBody a = b at h
    have chain : (match peel b with
        | none => some (false, b.id :: vis)
        | some r =>
          if chainMatches W c r then some (true, b.id :: vis)
          else match W.latest r.1.1 with
            | some rhs => check W c n (b.id :: vis) rhs
            | none => some (false, b.id :: vis)) = some r →
       (match peel b with
        | none => some (false, b.id :: vis)
        | some r =>
          if chainMatches W c r then some (true, b.id :: vis)
          else match W.latest r.1.1 with
            | some rhs => check W c (n + 1) (b.id :: vis) rhs
            | none => some (false, b.id :: vis)) = some r := by
      cases peel b with
      | none => exact id
      | some q =>
        dsimp only
        split
        · exact id
        · cases W.latest q.1.1 with
          | none => exact id
          | some rhs => exact ih _ _ _
    cases b with
    | nil => exact h
    | wrap w x => exact h
    | ident i name t r' =>
      dsimp only at h ⊢
      split
      · next hv => rw [if_pos hv] at h; exact h
      · next hv =>
        rw [if_neg hv] at h
        cases hl : W.latest name with
        | none => simp only [hl] at h ⊢; exact h
        | some rhs => simp only [hl] at h ⊢; exact ih _ _ _ h
    | sel i x nm t r' =>
      dsimp only at h ⊢; split
      · next hv => rw [if_pos hv] at h; exact h
      · next hv => rw [if_neg hv] at h; exact chain h
    | call i f as t r' =>
      dsimp only at h ⊢; split
      · next hv => rw [if_pos hv] at h; exact h
      · next hv => rw [if_neg hv] at h; exact chain h
    | lit i ty es t r' =>
      dsimp only at h ⊢; split
      · next hv => rw [if_pos hv] at h; exact h
      · next hv => rw [if_neg hv] at h; exact chain h
    | kv i k v' =>
      dsimp only at h ⊢; split
      · next hv => rw [if_pos hv] at h; exact h
      · next hv => rw [if_neg hv] at h; exact chain h
    | other i t r' =>
      dsimp only at h ⊢; split
      · next hv => rw [if_pos hv] at h; exact h
      · next hv => rw [if_neg hv] at h; exact chain h

/-- The answer does not depend on the number of steps allowed. -/
theorem C72_answer_unique (W : World) (c : ReqCfg) (a : Arg) {n m : Nat} {x y : Bool}
    (h1 : isRequestSource W c n a = some x) (h2 : isRequestSource W c m a = some y) : x = y := by
  have up : ∀ k n r, check W c n [] a = some r → check W c (n + k) [] a = some r := by
    intro k; induction k with
    | zero => intro n r h; exact h
    | succ k ih => intro n r h; exact check_mono W c _ _ _ _ (ih n r h)
  simp only [isRequestSource, Option.map_eq_some_iff] at h1 h2
  obtain ⟨r1, h1, rfl⟩ := h1
  obtain ⟨r2, h2, rfl⟩ := h2
  have a1 := up m n r1 h1
  have a2 := up n m r2 h2
  rw [Nat.add_comm m n, a1] at a2
  cases a2; rfl

/-- **The decoder's variable.**  `dec.Decode(&v)` is taken to read what the decoder was last made from in the
function, whatever was assigned to the variable before; `json.NewDecoder(x).Decode(&v)` is always. -/
theorem C72_decoder_partial {W : World} {body pre post : List (String × Asg)} {f : Fn} (hf : f ∈ W.decls.funcs)
    (h1 : f.pkg = W.edge.callerPkg) (h2 : f.name = W.edge.callerName)
    (hu : ∀ g ∈ W.decls.funcs, g.pkg = f.pkg → g.name = f.name → g = f) (hm : f.amap = collect body)
    {a : Arg} {i : String} {fn : Arg} {rest : List Arg} {t r k : String} :
    (W.edge.chainArgs = some (a :: rest) → resolveReceiverSource W.decls W.edge = some a) ∧
    (W.edge.chainArgs = none → W.edge.varName ≠ "" →
      body = pre ++ (W.edge.varName, ⟨.call i fn (a :: rest) t r, k⟩) :: post →
      (∀ s ∈ post, s.1 ≠ W.edge.varName) → resolveReceiverSource W.decls W.edge = some a) := by
  constructor
  · intro h; rw [resolveReceiverSource, h]
  · intro h hv hb hpost
    have hfind : findFunction W.decls W.edge.callerPkg W.edge.callerName = some f := by
      refine find_unique hf (by simp [h1, h2]) ?_
      intro g hg hpg; simp at hpg
      exact hu g hg (by rw [hpg.1, h1]) (by rw [hpg.2, h2])
    have : (f.amap.get W.edge.varName).getLast? = some ⟨.call i fn (a :: rest) t r, k⟩ := by
      rw [hm, get_collect, hb]
      have : post.filter (fun s => decide (s.1 = W.edge.varName)) = [] := by
        rw [List.filter_eq_nil_iff]; intro s hs
        simpa using hpost s hs
      simp [List.filter_append, this]
    rw [resolveReceiverSource, h]
    simp only [if_neg hv, hfind, this]

/-! ## A handler that meets the hypotheses, and handlers that do not -/

/-- net/http: the body is `.Body` of a `*http.Request`. -/
def httpCfg : ReqCfg := ⟨fun t => decide (t = "*net/http.Request"), fun p => decide (p = "Body")⟩

/-- `r.Body`, written at place `p`. -/
def rBody (p : String) : Arg :=
  .sel ("r.Body@" ++ p) (.ident ("r@" ++ p) "r" "*net/http.Request" "") "Body" "io.ReadCloser" ""

/-- A variable of type `io.Reader`. -/
def var (x p : String) : Arg := .ident (x ++ "@" ++ p) x "io.ReadCloser" ""

/-- `body := r.Body; src := body; … json.NewDecoder(&src) …; other := f` -/
def exBefore : List (String × Asg) := [("body", ⟨rBody "2", ""⟩), ("src", ⟨var "body" "3", ""⟩)]
def exLater : List (String × Asg) := [("other", ⟨var "f" "5", ""⟩)]
def exSrc : Arg := .wrap .unary (var "src" "4")

/-- The world of a call in the function `api.Create`. -/
def inCreate (body : List (String × Asg)) : World :=
  ⟨⟨[⟨"api", "", "Create", collect body⟩], []⟩, { callerPkg := "api", callerName := "Create" }, fun _ => none⟩

theorem inCreate_written (body : List (String × Asg)) : Written (inCreate body) body :=
  .function ⟨"api", "", "Create", collect body⟩ rfl (by simp [inCreate]) rfl (by simp [inCreate]) rfl rfl
    (fun g hg _ _ => by simpa [inCreate] using hg) rfl

/-- The types of the variables of the examples. -/
def exΓ (y : String) : String := if y = "r" then "*net/http.Request" else if y = "io" then "" else "io.ReadCloser"

theorem occurs_var {x y p : String} (h : Occurs y (var x p)) : y = x := by
  obtain ⟨t, r, h⟩ := h; cases h; rfl

theorem occurs_rBody {y p : String} (h : Occurs y (rBody p)) : y = "r" := by
  obtain ⟨t, r, h⟩ := h; cases h with
  | sel _ _ _ _ h => cases h; rfl

theorem ex_once : Once exBefore exLater exSrc where
  named := by decide
  once := by decide
  order := by
    intro pre x a post e y hy
    match pre, e with
    | [], e =>
      simp only [exBefore, List.nil_append, List.cons.injEq, Prod.mk.injEq] at e
      obtain ⟨⟨rfl, rfl⟩, rfl⟩ := e
      rw [occurs_rBody hy]; decide
    | [_], e =>
      simp only [exBefore, List.cons_append, List.nil_append, List.cons.injEq, Prod.mk.injEq] at e
      obtain ⟨_, ⟨rfl, rfl⟩, rfl⟩ := e
      rw [occurs_var hy]; decide
    | _ :: _ :: _, e =>
      have := congrArg List.length e
      simp [exBefore] at this
  src := by
    rintro y ⟨t, r, h⟩
    cases h with
    | wrap _ h => rw [occurs_var ⟨t, r, h⟩]; decide

theorem ex_typed : Typed (inCreate (exBefore ++ exLater)) exΓ (exBefore ++ exLater) exSrc where
  node := by
    intro a ha y t r h
    have v : ∀ {x p}, x ≠ "r" → x ≠ "io" → IdentIn y t r (var x p) → (if r ≠ "" then r else t) = exΓ y := by
      intro x p h1 h2 h; cases h; simp [exΓ, h1, h2]
    rcases ha with rfl | ⟨s, hs, rfl⟩
    · cases h with
      | wrap _ h => exact v (by decide) (by decide) h
    · simp only [exBefore, exLater, List.cons_append, List.nil_append, List.mem_cons, List.not_mem_nil, or_false] at hs
      rcases hs with rfl | rfl | rfl
      · cases h with
        | sel _ _ _ _ h => cases h; rfl
      · exact v (by decide) (by decide) h
      · exact v (by decide) (by decide) h
  untyped := fun _ _ => rfl

theorem ex_fromBody : FromBody exΓ httpCfg (after exΓ httpCfg noVars exBefore) exSrc := by
  have h1 : FromBody exΓ httpCfg noVars (rBody "2") :=
    .read (x := "r") (s := [⟨"Body", false⟩]) (.field _ _ _ _ (.root _ _ _)) (by simp) (by decide) (by decide)
  refine .wrapped _ (.derived (.root _ _ _) ?_)
  simp only [exBefore, after, if_true]
  refine .derived (.root _ _ _) ?_
  simp only [if_true]; exact h1

/-- The hypotheses hold, with variables assigned from one another, an address taken and an assignment after
the call; and so does the conclusion. -/
example : isRequestSource (inCreate (exBefore ++ exLater)) httpCfg 3 exSrc = some true :=
  C72_complete_partial (inCreate_written _) ex_once ex_typed (by decide)
    ⟨⟨by decide, trivial⟩, by intro s hs; simp [exBefore] at hs; rcases hs with rfl | rfl <;> trivial⟩
    (by unfold Distinct; decide) ex_fromBody (by decide)

example : FromBody exΓ httpCfg (after exΓ httpCfg noVars exBefore) exSrc :=
  C72_sound_partial (inCreate_written _) ex_once ex_typed (n := 3) (by decide)

/-- `io.ReadAll(r.Body)` -/
def readAll : Arg :=
  .call "io.ReadAll@2" (.sel "io.ReadAll" (.ident "io@2" "io" "" "") "ReadAll" "func(r io.Reader) ([]byte, error)" "") [rBody "2"] "" ""

/-- **Read and then decoded.**  `b, _ := io.ReadAll(r.Body); json.Unmarshal(b, &v)` decodes the body of the
request, but is not recognised: arguments of functions are not followed. -/
theorem C72_read_all_lost :
    FromBody exΓ httpCfg (after exΓ httpCfg noVars [("b", ⟨readAll, ""⟩)]) (var "b" "3") ∧
    isRequestSource (inCreate [("b", ⟨readAll, ""⟩)]) httpCfg 3 (var "b" "3") = some false := by
  refine ⟨.derived (.root _ _ _) ?_, by decide⟩
  simp only [after, if_true]
  refine .passed _ _ _ _ (List.mem_cons_self ..) ?_
  exact .read (x := "r") (s := [⟨"Body", false⟩]) (.field _ _ _ _ (.root _ _ _)) (by simp) (by decide) (by decide)

/-- `io.LimitReader(r.Body, 1048576)`, decoded in place. -/
def limited : Arg :=
  .call "io.LimitReader@2" (.sel "io.LimitReader" (.ident "io@2" "io" "" "") "LimitReader" "func(r io.Reader, n int64) io.Reader" "")
    [rBody "2", .other "1048576" "" ""] "io.Reader" ""

/-- **A limited body.**  `json.NewDecoder(io.LimitReader(r.Body, n)).Decode(&v)` is not recognised either. -/
theorem C72_limited_lost :
    FromBody exΓ httpCfg (after exΓ httpCfg noVars []) limited ∧
    isRequestSource (inCreate []) httpCfg 3 limited = some false := by
  refine ⟨.passed _ _ _ _ (List.mem_cons_self ..) ?_, by decide⟩
  exact .read (x := "r") (s := [⟨"Body", false⟩]) (.field _ _ _ _ (.root _ _ _)) (by simp) (by decide) (by decide)

/-- **Assigned again afterwards.**  `src := r.Body; json.NewDecoder(src).Decode(&v); src = f`: what is decoded
is the body, but the last assignment in the function is the one that counts. -/
theorem C72_assigned_later :
    FromBody exΓ httpCfg (after exΓ httpCfg noVars [("src", ⟨rBody "2", ""⟩)]) (var "src" "3") ∧
    isRequestSource (inCreate ([("src", ⟨rBody "2", ""⟩)] ++ [("src", ⟨var "f" "4", ""⟩)])) httpCfg 3 (var "src" "3") = some false := by
  refine ⟨.derived (.root _ _ _) ?_, by decide⟩
  simp only [after, if_true]
  exact .read (x := "r") (s := [⟨"Body", false⟩]) (.field _ _ _ _ (.root _ _ _)) (by simp) (by decide) (by decide)

/-- And the other way round: `src := f; json.NewDecoder(src).Decode(&v); src = r.Body` decodes a file, which
is documented as the body of the request. -/
theorem C72_assigned_later_wrong :
    ¬ FromBody exΓ httpCfg (after exΓ httpCfg noVars [("src", ⟨var "f" "2", ""⟩)]) (var "src" "3") ∧
    isRequestSource (inCreate ([("src", ⟨var "f" "2", ""⟩)] ++ [("src", ⟨rBody "4", ""⟩)])) httpCfg 3 (var "src" "3") = some true := by
  refine ⟨?_, by decide⟩
  intro h
  have nof : ∀ {x p env}, ¬ env x → FromBody exΓ httpCfg env (var x p) → False := by
    intro x p env hx h
    cases h with
    | read hc hs => cases hc; exact hs rfl
    | derived hc he => cases hc; exact hx he
  refine nof ?_ h
  simp only [after, if_true]
  exact fun h => nof (fun h => h) h

/-- The world of a call in the method `(*Handler).Create` of package `api`, written in the method itself,
with a function `Create` in another package. -/
def inMethod (body other : List (String × Asg)) : World :=
  ⟨⟨[⟨"store", "", "Create", collect other⟩], [⟨"api", "*Handler", "Create", collect body⟩]⟩,
   { callerPkg := "api", callerName := "Create", varName := "dec" }, fun _ => none⟩

/-- **Methods.**  In a method that is itself the handler, a variable is not followed: `src := r.Body;
json.NewDecoder(src).Decode(&v)` is not recognised, … -/
theorem C72_method_lost :
    FromBody exΓ httpCfg (after exΓ httpCfg noVars [("src", ⟨rBody "2", ""⟩)]) (var "src" "3") ∧
    isRequestSource (inMethod [("src", ⟨rBody "2", ""⟩)] []) httpCfg 3 (var "src" "3") = some false := by
  refine ⟨C72_assigned_later.1, by decide⟩

/-- … nor is `dec := json.NewDecoder(r.Body); dec.Decode(&v)`, … -/
theorem C72_method_decoder_lost :
    (resolveReceiverSource
      (inMethod [("dec", ⟨.call "json.NewDecoder@2" (.sel "json.NewDecoder" (.ident "json@2" "json" "" "") "NewDecoder" "" "") [rBody "2"] "*encoding/json.Decoder" "", ""⟩)] []).decls
      (inMethod [] []).edge).isNone = true := by decide

/-- … and a function of the same name in any other package answers for it: there `src` is the body of a
request, here it is a file. -/
theorem C72_foreign_variable :
    ¬ FromBody exΓ httpCfg (after exΓ httpCfg noVars [("src", ⟨var "f" "2", ""⟩)]) (var "src" "3") ∧
    isRequestSource (inMethod [("src", ⟨var "f" "2", ""⟩)] [("src", ⟨rBody "9", ""⟩)]) httpCfg 3 (var "src" "3") = some true :=
  ⟨C72_assigned_later_wrong.1, by decide⟩

/-- **The callee's variables.**  `buf := r.Body; decodeFrom(buf, &v)`, where the helper has a variable `buf` of
its own (`func decodeFrom(src io.Reader, v any) { buf := bufio.NewReader(src); … }`): the helper's is found. -/
theorem C72_callee_variable :
    FromBody exΓ httpCfg (after exΓ httpCfg noVars [("buf", ⟨rBody "2", ""⟩)]) (var "buf" "3") ∧
    isRequestSource
      { inCreate [("buf", ⟨rBody "2", ""⟩)] with
        edge := { callerPkg := "api", callerName := "Create", amap := [("buf", [⟨.call "bufio.NewReader@9" (.sel "bufio.NewReader" (.ident "bufio@9" "bufio" "" "") "NewReader" "" "") [var "src" "9"] "*bufio.Reader" "", ""⟩])] } }
      httpCfg 3 (var "buf" "3") = some false := by
  refine ⟨.derived (.root _ _ _) ?_, by decide⟩
  simp only [after, if_true]
  exact .read (x := "r") (s := [⟨"Body", false⟩]) (.field _ _ _ _ (.root _ _ _)) (by simp) (by decide) (by decide)

end Verif.Provenance
