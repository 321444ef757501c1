import Verif.WriteSinkModel

/-!
# C78: bytes written to the response are documented with the type of what was serialized

The specification executes the functions; the code looks at the last assignment, or at the returns of a
helper.
-/

namespace Verif.WriteSink

/-! ## Specification -/

/-- The package and the name under which the function called is declared; a variable of a function type has
none. -/
def Callee.ref : Callee → Option (String × String)
  | .func p n _ => some (p, n)
  | .method p _ n => some (p, n)
  | .value _ => none

/-- A configured entry applies to a function of that package and name. -/
def Applies (t : Transform) (pkg name : String) : Prop :=
  (∀ r, t.call = some r → r name = true) ∧ (∀ r, t.pkg = some r → r pkg = true)

/-- The function called is configured as a serializer of its argument number `i`: the first entry that
applies says so. -/
def Serializer (ts : List Transform) (f : Callee) (i : Nat) : Prop :=
  ∃ p n, f.ref = some (p, n) ∧ n ≠ "" ∧ ∃ before t after, ts = before ++ t :: after ∧ Applies t p n ∧
    (∀ u ∈ before, ¬ Applies u p n) ∧ t.argIndex = i

/-- The call calls the declaration `d`. -/
def Calls (m : Decls) (d : Decl) : Callee → Prop
  | .func p n _ => d ∈ m.funcs ∧ d.pkg = p ∧ d.name = n
  | .method p r n => d ∈ m.meths ∧ d.pkg = p ∧ d.recv = r ∧ d.name = n
  | .value _ => False

/-- A program and what its primitives do: `marshal` is what serializers make of a value. -/
structure Lang (V : Type) where
  decls : Decls
  ts : List Transform
  marshal : V → V
  lit : Nat → V
  op : Wrap → V → V

mutual
/-- The value of an expression.  A serializer gives the serialization of its payload, a declared function the
first value of one of its return statements, executed after its assignments; what a function whose code is
not there, or a function in a variable, gives is anything. -/
inductive Ev {V : Type} (L : Lang V) : (String → V) → Exp → V → Prop
  | var (env : String → V) (x : String) : Ev L env (.var x) (env x)
  | other (env : String → V) (n : Nat) : Ev L env (.other n) (L.lit n)
  | paren {env : String → V} {x : Exp} {v : V} : Ev L env x v → Ev L env (.wrap .paren x) v
  | op {env : String → V} {w : Wrap} {x : Exp} {v : V} : w ≠ .paren → Ev L env x v → Ev L env (.wrap w x) (L.op w v)
  | serializer {env : String → V} {f : Callee} {args : List Exp} {i : Nat} {p : Exp} {v : V} :
      Serializer L.ts f i → args[i]? = some p → Ev L env p v → Ev L env (.call f args) (L.marshal v)
  | declared {env env₀ env₁ : String → V} {f : Callee} {args : List Exp} {d : Decl} {vs : List V} {rs : List Exp} {r : Exp} {v : V} :
      (∀ i, ¬ Serializer L.ts f i) → Calls L.decls d f → vs.length = args.length →
      (∀ (i : Nat) (a : Exp) (u : V), args[i]? = some a → vs[i]? = some u → Ev L env a u) →
      (∀ (i : Nat) (p : String) (u : V), d.params[i]? = some p → vs[i]? = some u → env₀ p = u) →
      Run L env₀ d.body env₁ → rs ∈ d.rets → rs.head? = some r → Ev L env₁ r v → Ev L env (.call f args) v
  | foreign {env : String → V} {f : Callee} {args : List Exp} {v : V} :
      (∀ i, ¬ Serializer L.ts f i) → (∀ d, ¬ Calls L.decls d f) → Ev L env (.call f args) v
/-- The statements one after the other.  The first name gets the value; what the others get (an error) is left
open. -/
inductive Run {V : Type} (L : Lang V) : (String → V) → List Stmt → (String → V) → Prop
  | nil (env : String → V) : Run L env [] env
  | cons {env env₁ env₂ : String → V} {s : Stmt} {ss : List Stmt} {v : V} : Ev L env s.rhs v →
      (∀ x, s.lhs.head? = some x → x ≠ "_" → env₁ x = v) → (∀ y, y ∉ s.lhs → env₁ y = env y) →
      Run L env₁ ss env₂ → Run L env (s :: ss) env₂
end

/-- The call to `Write` is written in the body of `d`: a function, a closure in a function or in a method, or a
method. -/
inductive Written (m : Decls) (e : Edge) (d : Decl) : Prop
  | function : e.callerName ≠ "" → e.parent = none → e.callerRecv = "" → d ∈ m.funcs →
      d.pkg = e.callerPkg → d.name = e.callerName →
      (∀ g ∈ m.funcs, g.pkg = d.pkg → g.name = d.name → g = d) → Written m e d
  | closure (p : Parent) : e.parent = some p → p.name ≠ "" → e.callerRecv = "" →
      (∀ g ∈ m.funcs, g.name ≠ e.callerName) →
      d ∈ m.funcs → d.pkg = p.pkg → d.name = p.name →
      (∀ g ∈ m.funcs, g.pkg = d.pkg → g.name = d.name → g = d) →
      (∀ g ∈ m.meths, g.pkg = p.pkg → g.name ≠ p.name) → Written m e d
  | closureInMethod (p : Parent) : e.parent = some p → p.name ≠ "" → p.recv ≠ "" → e.callerRecv = "" →
      (∀ g ∈ m.funcs, g.name ≠ e.callerName ∧ g.name ≠ p.name) →
      d ∈ m.meths → d.pkg = p.pkg → d.name = p.name → d.recv = p.recv →
      (∀ g ∈ m.meths, g.pkg = d.pkg → g.name = d.name → g.recv = d.recv → g = d) → Written m e d
  | method : e.callerName ≠ "" → e.parent = none → e.callerRecv ≠ "" → (∀ g ∈ m.funcs, g.name ≠ e.callerName) →
      d ∈ m.meths → d.pkg = e.callerPkg → d.name = e.callerName → d.recv = e.callerRecv →
      (∀ g ∈ m.meths, g.pkg = d.pkg → g.name = d.name → g.recv = d.recv → g = d) → Written m e d

/-- A call of a declared function or method by name, without a dot import. -/
def Clear (here : String) : Callee → Prop
  | .func p _ q => q = false → p = here
  | .method .. => True
  | .value _ => False

/-- `b` in any number of parentheses. -/
inductive Parens (b : Exp) : Exp → Prop
  | refl : Parens b b
  | paren {a} : Parens b a → Parens b (.wrap .paren a)

/-! ## Lookups -/

theorem applies_iff (t : Transform) (p n : String) : t.matches n p = true ↔ Applies t p n := by
  unfold Transform.matches Applies
  cases t.call <;> cases t.pkg <;> simp

theorem find_serializer {ts : List Transform} {p n : String} {i : Nat} (hn : n ≠ "") :
    matchBodyTransform ts n p = some i ↔
      ∃ before t after, ts = before ++ t :: after ∧ Applies t p n ∧ (∀ u ∈ before, ¬ Applies u p n) ∧ t.argIndex = i := by
  unfold matchBodyTransform
  rw [if_neg hn]
  simp only [Option.map_eq_some_iff, List.find?_eq_some_iff_append]
  constructor
  · rintro ⟨t, ⟨h1, as, bs, rfl, h2⟩, h3⟩
    refine ⟨as, t, bs, rfl, (applies_iff ..).1 h1, ?_, h3⟩
    intro u hu hc
    have := h2 u hu
    rw [(applies_iff ..).2 hc] at this
    simp at this
  · rintro ⟨as, t, bs, rfl, h1, h2, h3⟩
    refine ⟨t, ⟨(applies_iff ..).2 h1, as, bs, rfl, ?_⟩, h3⟩
    intro u hu
    have := h2 u hu
    rw [← applies_iff] at this
    simpa using this

theorem serializer_ref {ts : List Transform} {f : Callee} {p n : String} {i : Nat} (hf : f.ref = some (p, n)) (hn : n ≠ "") :
    Serializer ts f i ↔ matchBodyTransform ts n p = some i := by
  rw [find_serializer hn]
  constructor
  · rintro ⟨p', n', h1, _, h2⟩
    rw [hf] at h1
    simp only [Option.some.injEq, Prod.mk.injEq] at h1
    obtain ⟨rfl, rfl⟩ := h1
    exact h2
  · exact fun h => ⟨p, n, hf, hn, h⟩

theorem match_empty (ts : List Transform) (p : String) : matchBodyTransform ts "" p = none := rfl

/-- What is recorded for a call that is clear decides as the function called does. -/
theorem assigned_iff {ts : List Transform} {here : String} {f : Callee} (hc : Clear here f) {i : Nat} :
    matchBodyTransform ts (assignedCallee here f).1 (assignedCallee here f).2 = some i ↔ Serializer ts f i := by
  have key : ∀ p n, f.ref = some (p, n) → assignedCallee here f = (n, p) →
      (matchBodyTransform ts (assignedCallee here f).1 (assignedCallee here f).2 = some i ↔ Serializer ts f i) := by
    intro p n hr ha
    rw [ha]
    by_cases hn : n = ""
    · subst hn
      simp only [match_empty, reduceCtorEq, false_iff]
      rintro ⟨p', n', h1, h2, _⟩
      rw [hr] at h1
      simp only [Option.some.injEq, Prod.mk.injEq] at h1
      exact h2 h1.2.symm
    · exact (serializer_ref hr hn).symm
  cases f with
  | func p n q =>
    cases q with
    | true => exact key p n rfl rfl
    | false => exact key p n rfl (by simp [assignedCallee, hc rfl])
  | method p r n => exact key p n rfl rfl
  | value x => exact absurd hc (by simp [Clear])

/-- The same for a call that is returned. -/
theorem returned_iff {ts : List Transform} {here : String} {f : Callee} (hv : ∀ x, f ≠ .value x) {i : Nat} :
    matchBodyTransform ts f.name (f.funPkg here) = some i ↔ Serializer ts f i := by
  have key : ∀ p n, f.ref = some (p, n) → f.name = n → f.funPkg here = p →
      (matchBodyTransform ts f.name (f.funPkg here) = some i ↔ Serializer ts f i) := by
    intro p n hr ha hb
    rw [ha, hb]
    by_cases hn : n = ""
    · subst hn
      simp only [match_empty, reduceCtorEq, false_iff]
      rintro ⟨p', n', h1, h2, _⟩
      rw [hr] at h1
      simp only [Option.some.injEq, Prod.mk.injEq] at h1
      exact h2 h1.2.symm
    · exact (serializer_ref hr hn).symm
  cases f with
  | func p n q => exact key p n rfl rfl rfl
  | method p r n => exact key p n rfl rfl rfl
  | value x => exact absurd rfl (hv x)

theorem clear_not_value {here : String} {f : Callee} (h : Clear here f) (x : String) : f ≠ .value x := by
  rintro rfl; exact h

theorem serializer_unique {ts : List Transform} {f : Callee} {i j : Nat} (h1 : Serializer ts f i)
    (h2 : Serializer ts f j) : i = j := by
  have hv : ∀ x, f ≠ .value x := by
    rintro x rfl
    obtain ⟨p, n, h, _⟩ := h1
    simp [Callee.ref] at h
  have a := (returned_iff (here := "") hv).2 h1
  rw [(returned_iff (here := "") hv).2 h2] at a
  simpa using a.symm

theorem ts_ne {ts : List Transform} {f : Callee} {i : Nat} (h : Serializer ts f i) : ts.isEmpty = false := by
  obtain ⟨_, _, _, _, before, t, after, rfl, _⟩ := h
  cases before <;> rfl

theorem strip_parens {a b : Exp} (h : Parens b a) : strip a = strip b := by
  induction h with
  | refl => rfl
  | paren _ ih => rw [strip, ih]

theorem find_unique {l : List Decl} {P : Decl → Bool} {d : Decl} (hd : d ∈ l) (hp : P d = true)
    (hu : ∀ g ∈ l, P g = true → g = d) : l.find? P = some d := by
  induction l with
  | nil => simp at hd
  | cons g l ih =>
    rw [List.find?_cons]
    cases hg : P g with
    | true => rw [hu g (by simp) hg]
    | false =>
      rcases List.mem_cons.1 hd with rfl | hd
      · rw [hp] at hg; simp at hg
      · exact ih hd fun g hg => hu g (by simp [hg])

theorem findFunctionByName_unique {m : Decls} {d : Decl} (hd : d ∈ m.funcs) (hn : d.name ≠ "")
    (hu : ∀ g ∈ m.funcs, g.pkg = d.pkg → g.name = d.name → g = d) : findFunctionByName m d.pkg d.name = some d := by
  unfold findFunctionByName
  rw [if_neg hn, find_unique hd (by simp) (by
    intro g hg h
    simp only [Bool.and_eq_true, decide_eq_true_eq] at h
    exact hu g hg h.1 h.2)]

theorem findFunctionByName_none {m : Decls} {p n : String} (h : ∀ g ∈ m.funcs, g.name ≠ n) :
    findFunctionByName m p n = none := by
  unfold findFunctionByName
  split
  · rfl
  · have h1 : m.funcs.find? (fun f => decide (f.pkg = p) && decide (f.name = n)) = none := by
      rw [List.find?_eq_none]; intro g hg; simp [h g hg]
    have h2 : m.funcs.find? (fun f => decide (f.name = n)) = none := by
      rw [List.find?_eq_none]; intro g hg; simp [h g hg]
    rw [h1]; exact h2

theorem methodAssignments_eq {m : Decls} {d : Decl} {x : String} (hd : d ∈ m.meths) (hn : d.name ≠ "") (hr : d.recv ≠ "")
    (hu : ∀ g ∈ m.meths, g.pkg = d.pkg → g.name = d.name → g.recv = d.recv → g = d) :
    methodAssignments m d.pkg d.recv d.name x = d.assignments x := by
  unfold methodAssignments
  rw [if_neg hn]
  by_cases he : (d.assignments x).isEmpty
  · have : m.meths.find? (fun f => decide (f.pkg = d.pkg) && decide (f.name = d.name) &&
        (decide (d.recv = "") || decide (f.recv = d.recv)) && !(f.assignments x).isEmpty) = none := by
      rw [List.find?_eq_none]
      intro g hg hc
      simp only [hr, decide_false, Bool.false_or, Bool.and_eq_true, decide_eq_true_eq] at hc
      rw [hu g hg hc.1.1.1 hc.1.1.2 hc.1.2, he] at hc
      simp at hc
    rw [this, List.isEmpty_iff.1 he]; rfl
  · rw [find_unique hd (by simp [he]) (by
      intro g hg hc
      simp only [hr, decide_false, Bool.false_or, Bool.and_eq_true, decide_eq_true_eq] at hc
      exact hu g hg hc.1.1.1 hc.1.1.2 hc.1.2)]
    rfl

theorem methodAssignments_none {m : Decls} {p r n x : String} (h : ∀ g ∈ m.meths, g.pkg = p → g.name ≠ n) :
    methodAssignments m p r n x = [] := by
  unfold methodAssignments
  split
  · rfl
  · have : m.meths.find? (fun f => decide (f.pkg = p) && decide (f.name = n) &&
        (decide (r = "") || decide (f.recv = r)) && !(f.assignments x).isEmpty) = none := by
      rw [List.find?_eq_none]
      intro g hg hc
      simp only [Bool.and_eq_true, decide_eq_true_eq] at hc
      exact h g hg hc.1.1.1 hc.1.1.2
    rw [this]; rfl

theorem filter_some {α} {P : α → Bool} {a : α} : (some a).filter P = if P a then some a else none := by
  cases h : P a <;> simp [Option.filter, h]

/-- The assignments found are those of the function the call is written in. -/
theorem sinkAssignments_eq {m : Decls} {e : Edge} {d : Decl} (h : Written m e d) {x : String} (hx : x ≠ "") :
    sinkAssignments m e x = d.assignments x := by
  unfold sinkAssignments
  cases h with
  | function h1 h2 h3 h4 h5 h6 h7 =>
    have ha : assignmentsAt m e x = d.assignments x := by
      unfold assignmentsAt
      rw [if_neg hx, ← h5, ← h6, findFunctionByName_unique h4 (by rw [h6]; exact h1) h7, filter_some, h2]
      by_cases he : d.assignments x = []
      · simp [he]
      · simp [he]
    rw [ha, h3]
    by_cases he : d.assignments x = []
    · simp [he]
    · simp [he]
  | closure p h1 h2 h3 h4 h5 h6 h7 h8 h9 =>
    have ha : assignmentsAt m e x = d.assignments x := by
      unfold assignmentsAt
      rw [if_neg hx, findFunctionByName_none h4, h1]
      simp only [Option.filter_none]
      rw [methodAssignments_none h9, ← h6, ← h7, findFunctionByName_unique h5 (by rw [h7]; exact h2) h8, filter_some]
      by_cases he : d.assignments x = []
      · simp [he]
      · simp [he]
    rw [ha, h3]
    by_cases he : d.assignments x = []
    · simp [he]
    · simp [he]
  | closureInMethod p h1 h2 h3 h4 h5 h6 h7 h8 h9 h10 =>
    have ha : assignmentsAt m e x = d.assignments x := by
      unfold assignmentsAt
      rw [if_neg hx, findFunctionByName_none (fun g hg => (h5 g hg).1), h1]
      simp only [Option.filter_none]
      rw [findFunctionByName_none (fun g hg => (h5 g hg).2)]
      simp only [Option.filter_none]
      rw [← h7, ← h8, ← h9, methodAssignments_eq h6 (by rw [h8]; exact h2) (by rw [h9]; exact h3) h10]
    rw [ha, h4]
    by_cases he : d.assignments x = []
    · simp [he]
    · simp [he]
  | method h1 h2 h3 h4 h5 h6 h7 h8 h9 =>
    have ha : assignmentsAt m e x = [] := by
      unfold assignmentsAt
      rw [if_neg hx, findFunctionByName_none h4, h2]
      rfl
    rw [ha, ← h6, ← h7, ← h8, methodAssignments_eq h5 (by rw [h7]; exact h1) (by rw [h8]; exact h3) h9, h8]
    simp [h3]

/-! ## Assignments of a body -/

/-- What is recorded for a variable in one statement. -/
def asgOf (here : String) (x : String) : Exp → Asg
  | .call f args => ⟨x, (assignedCallee here f).1, (assignedCallee here f).2, .call f args⟩
  | e => ⟨x, "", "", e⟩

theorem record_eq (here : String) (s : Stmt) :
    record here s = (s.lhs.filter (fun x => decide (x ≠ "_"))).map fun x => asgOf here x s.rhs := by
  unfold record
  congr 1

theorem asgOf_var (here x : String) (e : Exp) : (asgOf here x e).var = x := by cases e <;> rfl

theorem mem_record {here : String} {s : Stmt} {a : Asg} (h : a ∈ record here s) : a.var ∈ s.lhs ∧ a = asgOf here a.var s.rhs := by
  rw [record_eq] at h
  obtain ⟨y, hy, rfl⟩ := List.mem_map.1 h
  rw [asgOf_var]
  exact ⟨(List.mem_filter.1 hy).1, rfl⟩

theorem record_none {here : String} {ss : List Stmt} {x : String} (h : ∀ s ∈ ss, x ∉ s.lhs) :
    (ss.flatMap (record here)).filter (fun a => decide (a.var = x)) = [] := by
  rw [List.filter_eq_nil_iff]
  intro a ha
  obtain ⟨s, hs, ha⟩ := List.mem_flatMap.1 ha
  simp only [decide_eq_true_eq]
  rintro rfl
  exact h s hs (mem_record ha).1

theorem record_mem {here : String} {s : Stmt} {x : String} (h : x ∈ s.lhs) (hx : x ≠ "_") :
    (record here s).filter (fun a => decide (a.var = x)) ≠ [] ∧
    ∀ a ∈ (record here s).filter (fun a => decide (a.var = x)), a = asgOf here x s.rhs := by
  constructor
  · intro hc
    rw [List.filter_eq_nil_iff] at hc
    have : asgOf here x s.rhs ∈ record here s := by
      rw [record_eq]
      exact List.mem_map.2 ⟨x, List.mem_filter.2 ⟨h, by simp [hx]⟩, rfl⟩
    exact hc _ this (by simp [asgOf_var])
  · intro a ha
    rw [List.mem_filter] at ha
    have := (mem_record ha.1).2
    rw [of_decide_eq_true ha.2] at this
    exact this

theorem getLast_all {α} {l : List α} {b : α} (hn : l ≠ []) (h : ∀ a ∈ l, a = b) : l.getLast? = some b := by
  rw [List.getLast?_eq_some_getLast hn, h _ (List.getLast_mem hn)]

/-- The last assignment recorded is the last statement that assigns. -/
theorem assignments_last {d : Decl} {pre post : List Stmt} {s : Stmt} (hb : d.body = pre ++ s :: post) {x : String}
    (hx : x ≠ "_") (hs : x ∈ s.lhs) (hp : ∀ t ∈ post, x ∉ t.lhs) :
    (d.assignments x).getLast? = some (asgOf d.pkg x s.rhs) := by
  unfold Decl.assignments
  rw [hb, List.flatMap_append, List.flatMap_cons, List.filter_append, List.filter_append, record_none hp, List.append_nil]
  rw [List.getLast?_append, getLast_all (record_mem hs hx).1 (record_mem hs hx).2]
  rfl

theorem payload_asgOf {ts : List Transform} {here x : String} {f : Callee} {args : List Exp} :
    assignedPayload ts (asgOf here x (.call f args)) =
      (matchBodyTransform ts (assignedCallee here f).1 (assignedCallee here f).2).bind (args[·]?) := by
  unfold assignedPayload asgOf
  cases matchBodyTransform ts (assignedCallee here f).1 (assignedCallee here f).2 <;> rfl

theorem ident_lhs {x : String} {s : Stmt} (h : s.lhs.head? = some x) : x ∈ s.lhs := List.mem_of_mem_head? h

/-! ## Execution -/

theorem run_append {V : Type} {L : Lang V} : ∀ {ss tt : List Stmt} {env env₂ : String → V}, Run L env (ss ++ tt) env₂ →
    ∃ env₁, Run L env ss env₁ ∧ Run L env₁ tt env₂
  | [], _, env, _, h => ⟨env, .nil env, h⟩
  | _ :: _, _, _, _, h => by
    cases h with
    | cons h1 h2 h3 h4 =>
      obtain ⟨env₁, a, b⟩ := run_append h4
      exact ⟨env₁, .cons h1 h2 h3 a, b⟩

theorem run_untouched {V : Type} {L : Lang V} : ∀ {ss : List Stmt} {env env₂ : String → V} {x : String}, Run L env ss env₂ →
    (∀ s ∈ ss, x ∉ s.lhs) → env₂ x = env x
  | [], _, _, _, h, _ => by cases h; rfl
  | s :: ss, _, _, x, h, hx => by
    cases h with
    | cons h1 h2 h3 h4 =>
      rw [run_untouched h4 (fun s hs => hx s (by simp [hs])), h3 x (hx s (by simp))]

theorem ev_serializer {V : Type} {L : Lang V} {env : String → V} {f : Callee} {args : List Exp} {i : Nat} {p : Exp} {v : V}
    (hf : Serializer L.ts f i) (hp : args[i]? = some p) (h : Ev L env (.call f args) v) :
    ∃ u, Ev L env p u ∧ v = L.marshal u := by
  cases h with
  | serializer h1 h2 h3 =>
    have := serializer_unique hf h1
    subst this
    rw [hp] at h2
    simp only [Option.some.injEq] at h2
    subst h2
    exact ⟨_, h3, rfl⟩
  | declared h1 => exact absurd hf (h1 i)
  | foreign h1 => exact absurd hf (h1 i)

theorem ev_parens {V : Type} {L : Lang V} {env : String → V} {a b : Exp} (hp : Parens b a) :
    ∀ {v : V}, Ev L env a v → Ev L env b v := by
  induction hp with
  | refl => exact fun h => h
  | paren _ ih =>
    intro v h
    cases h with
    | paren h => exact ih h
    | op h => exact absurd rfl h

/-- After the last statement that assigns it, a variable holds what it was assigned. -/
theorem run_last {V : Type} {L : Lang V} {pre mid : List Stmt} {s : Stmt} {x : String} (hx : x ≠ "_")
    (hs : s.lhs.head? = some x) (hm : ∀ t ∈ mid, x ∉ t.lhs) {env env₂ : String → V} (h : Run L env (pre ++ s :: mid) env₂) :
    ∃ env₁, Run L env pre env₁ ∧ Ev L env₁ s.rhs (env₂ x) := by
  obtain ⟨env₁, h1, h2⟩ := run_append h
  cases h2 with
  | cons a b c d =>
    refine ⟨env₁, h1, ?_⟩
    rw [run_untouched d hm, b x hs hx]
    exact a

/-! ## C78 -/

/-- **C78**, a variable: when the variable written was last assigned the result of a serializer, the payload of
that call is documented, and the bytes written are the serialization of the payload's value at that call.
Missing: that the variable is assigned nowhere after the `Write` (`C78_assigned_later_wrong`), and branches. -/
theorem C78_variable_partial {V : Type} {L : Lang V} {e : Edge} {d : Decl} {pre mid later : List Stmt} {s : Stmt}
    {x : String} {f : Callee} {args : List Exp} {i : Nat} {p arg : Exp} (hw : Written L.decls e d)
    (hb : d.body = pre ++ s :: (mid ++ later)) (hx : x ≠ "" ∧ x ≠ "_") (hs : s.lhs.head? = some x)
    (hm : ∀ t ∈ mid ++ later, x ∉ t.lhs) (hr : s.rhs = .call f args) (hc : Clear d.pkg f)
    (hf : Serializer L.ts f i) (hp : args[i]? = some p) (ha : Parens (.var x) arg) :
    unwrapWriteSink L.decls L.ts e arg = some p ∧
    ∀ (env env₂ : String → V) (v : V), Run L env (pre ++ s :: mid) env₂ → Ev L env₂ arg v →
      ∃ (env₁ : String → V) (u : V), Run L env pre env₁ ∧ Ev L env₁ p u ∧ v = L.marshal u := by
  constructor
  · unfold unwrapWriteSink
    rw [ts_ne hf, strip_parens ha]
    simp only [strip, Bool.false_eq_true, if_false]
    rw [sinkAssignments_eq hw hx.1, assignments_last hb hx.2 (ident_lhs hs) hm, hr, Option.bind_some, payload_asgOf,
      (assigned_iff hc).2 hf]
    exact hp
  · intro env env₂ v hrun hev
    obtain ⟨env₁, h1, h2⟩ := run_last hx.2 hs (fun t ht => hm t (by simp [ht])) hrun
    have hv := ev_parens ha hev
    cases hv
    rw [hr] at h2
    obtain ⟨u, h3, h4⟩ := ev_serializer hf hp h2
    exact ⟨env₁, u, h1, h3, h4⟩

/-- **C78**, raw bytes: when the variable written was last assigned anything that is not a call of a serializer,
or is not assigned at all, nothing is unwrapped and the bytes are documented as they are. -/
theorem C78_raw_partial {V : Type} {L : Lang V} {e : Edge} {d : Decl} {x : String} {arg : Exp} (hw : Written L.decls e d)
    (hx : x ≠ "" ∧ x ≠ "_") (ha : Parens (.var x) arg)
    (h : (∀ t ∈ d.body, x ∉ t.lhs) ∨ ∃ pre s post, d.body = pre ++ s :: post ∧ x ∈ s.lhs ∧ (∀ t ∈ post, x ∉ t.lhs) ∧
      ∀ f args, s.rhs = .call f args → Clear d.pkg f ∧ ∀ i, ¬ Serializer L.ts f i) :
    unwrapWriteSink L.decls L.ts e arg = none := by
  unfold unwrapWriteSink
  split
  · rfl
  rw [strip_parens ha]
  simp only [strip]
  rw [sinkAssignments_eq hw hx.1]
  rcases h with h | ⟨pre, s, post, hb, hs, hp, h⟩
  · have : d.assignments x = [] := record_none h
    rw [this]; rfl
  · rw [assignments_last hb hx.2 hs hp, Option.bind_some]
    cases he : s.rhs with
    | call f args =>
      obtain ⟨h1, h2⟩ := h f args he
      rw [payload_asgOf]
      cases hm : matchBodyTransform L.ts (assignedCallee d.pkg f).1 (assignedCallee d.pkg f).2 with
      | none => rfl
      | some i => exact absurd ((assigned_iff h1).1 hm) (h2 i)
    | var y => simp [asgOf, assignedPayload, match_empty]
    | wrap w y => simp [asgOf, assignedPayload, match_empty]
    | other n => simp [asgOf, assignedPayload, match_empty]

/-- The function returns the serialization of its parameter `p` with this return value: it is a variable
assigned once, from a serializer, or a call of a serializer; the parameter keeps its value until then. -/
inductive Gives (ts : List Transform) (d : Decl) (p : String) : Exp → Prop
  | bound {b f args i pre s post} : d.body = pre ++ s :: post → b ≠ "_" → s.lhs.head? = some b →
      (∀ t ∈ pre ++ post, b ∉ t.lhs) → s.rhs = .call f args → Clear d.pkg f → Serializer ts f i →
      args[i]? = some (.var p) → (∀ t ∈ pre, p ∉ t.lhs) → Gives ts d p (.var b)
  | call {f args i} : (∀ x, f ≠ .value x) → Serializer ts f i → args[i]? = some (.var p) →
      (∀ t ∈ d.body, p ∉ t.lhs) → Gives ts d p (.call f args)

theorem findSome_all {α β} {l : List α} {g : α → Option β} {b : β} (hn : l ≠ []) (h : ∀ a ∈ l, g a = some b) :
    l.findSome? g = some b := by
  cases l with
  | nil => exact absurd rfl hn
  | cons a l => simp [List.findSome?, h a (by simp)]

theorem gives_consider {ts : List Transform} {d : Decl} {p : String} {r : Exp} (h : Gives ts d p r) :
    consider ts d r = some p := by
  cases h with
  | @bound b f args i pre s post hb hn hs ho hr hc hf hp _ =>
    simp only [consider]
    have : d.assignments b = (record d.pkg s).filter (fun a => decide (a.var = b)) := by
      unfold Decl.assignments
      rw [hb, List.flatMap_append, List.flatMap_cons, List.filter_append, List.filter_append,
        record_none (ss := pre) (fun t ht => ho t (by simp [ht])), record_none (ss := post) (fun t ht => ho t (by simp [ht])),
        List.nil_append, List.append_nil]
    obtain ⟨h1, h2⟩ := record_mem (here := d.pkg) (ident_lhs hs) hn
    rw [this]
    refine findSome_all h1 ?_
    intro a ha
    rw [h2 a ha, hr, payload_asgOf, (assigned_iff hc).2 hf, Option.bind_some, hp]
    rfl
  | call hv hf hp _ =>
    simp only [consider]
    rw [(returned_iff hv).2 hf]
    simp [hp, identName]

theorem gives_value {V : Type} {L : Lang V} {d : Decl} {p : String} {r : Exp} (h : Gives L.ts d p r)
    {env₀ env₁ : String → V} (hrun : Run L env₀ d.body env₁) {v : V} (hv : Ev L env₁ r v) : v = L.marshal (env₀ p) := by
  cases h with
  | bound hb hn hs ho hr hc hf hp hk =>
    cases hv
    rw [hb] at hrun
    obtain ⟨env, h1, h2⟩ := run_last hn hs (fun t ht => ho t (by simp [ht])) hrun
    rw [hr] at h2
    obtain ⟨u, h3, h4⟩ := ev_serializer hf hp h2
    cases h3
    rw [h4, run_untouched h1 hk]
  | call hx hf hp hk =>
    obtain ⟨u, h3, h4⟩ := ev_serializer hf hp hv
    cases h3
    rw [h4, run_untouched hrun hk]

/-- **C78**, a helper: `w.Write(encode(v))` is documented with the argument the helper serializes, and the bytes
written are the serialization of the value of that argument, unless the helper took a return that gives a
constant such as `nil`.  Every return of the helper is the serialization of the same parameter or gives
constants only. -/
theorem C78_helper_partial {V : Type} {L : Lang V} {e : Edge} {d : Decl} {f : Callee} {args : List Exp} {p : String}
    {j : Nat} {q arg : Exp} (hts : L.ts ≠ []) (hns : ∀ i, ¬ Serializer L.ts f i) (hv : ∀ P R n, f ≠ .method P R n)
    (hcalls : Calls L.decls d f)
    (hn : d.name ≠ "") (hpkg : d.pkg ≠ "") (hu : ∀ g ∈ L.decls.funcs, g.pkg = d.pkg → g.name = d.name → g = d)
    (hnd : ∀ k, d.params[k]? = some p → k = j) (hj : d.params[j]? = some p)
    (hret : ∀ rs ∈ d.rets, (∃ r, rs.head? = some r ∧ Gives L.ts d p r) ∨ ∀ r ∈ rs, ∃ n, r = .other n)
    (hsome : ∃ rs ∈ d.rets, ∃ r, rs.head? = some r ∧ Gives L.ts d p r)
    (hq : args[j]? = some q) (ha : Parens (.call f args) arg) :
    unwrapWriteSink L.decls L.ts e arg = some q ∧
    ∀ (env : String → V) (v : V), Ev L env arg v →
      (∃ u, Ev L env q u ∧ v = L.marshal u) ∨ ∃ rs ∈ d.rets, ∃ n, rs.head? = some (.other n) ∧ v = L.lit n := by
  have hcf : ∃ b, f = .func d.pkg d.name b ∧ d ∈ L.decls.funcs := by
    cases f with
    | func P n b => obtain ⟨h1, rfl, rfl⟩ := hcalls; exact ⟨b, rfl, h1⟩
    | method P R n => exact absurd rfl (hv P R n)
    | value x => exact absurd hcalls (by simp [Calls])
  obtain ⟨b, rfl, hd⟩ := hcf
  constructor
  · unfold unwrapWriteSink
    rw [if_neg (by simpa using hts), strip_parens ha]
    simp only [strip]
    unfold unwrapHelperReturn
    have hfind : findFunctionByName L.decls (Callee.funPkg e.callerPkg (.func d.pkg d.name b)) (Callee.func d.pkg d.name b).name =
        some d := findFunctionByName_unique hd hn hu
    rw [if_neg (show ¬ (Callee.func d.pkg d.name b).name = "" from hn),
      if_neg (show ¬ Callee.funPkg e.callerPkg (.func d.pkg d.name b) = "" from hpkg), hfind]
    have hp : helperSerializedParam L.ts d = some p := by
      unfold helperSerializedParam
      have : d.rets.findSome? (fun r => r.findSome? (consider L.ts d)) = some p := by
        have key : ∀ l : List (List Exp), (∀ rs ∈ l, (∃ r, rs.head? = some r ∧ Gives L.ts d p r) ∨ ∀ r ∈ rs, ∃ n, r = .other n) →
            (∃ rs ∈ l, ∃ r, rs.head? = some r ∧ Gives L.ts d p r) →
            l.findSome? (fun r => r.findSome? (consider L.ts d)) = some p := by
          intro l
          induction l with
          | nil => rintro _ ⟨rs, h, _⟩; simp at h
          | cons rs l ih =>
            intro h1 h2
            rw [List.findSome?_cons]
            rcases h1 rs (by simp) with ⟨r, h3, h4⟩ | h3
            · cases rs with
              | nil => simp at h3
              | cons r' rs =>
                simp only [List.head?_cons, Option.some.injEq] at h3
                subst h3
                rw [List.findSome?_cons, gives_consider h4]
            · have hnone : rs.findSome? (consider L.ts d) = none := by
                rw [List.findSome?_eq_none_iff]
                intro r hr
                obtain ⟨n, rfl⟩ := h3 r hr
                rfl
              rw [hnone]
              refine ih (fun rs hrs => h1 rs (by simp [hrs])) ?_
              obtain ⟨rs', h4, r, h5, h6⟩ := h2
              rcases List.mem_cons.1 h4 with rfl | h4
              · obtain ⟨n, rfl⟩ := h3 r (List.mem_of_mem_head? h5)
                cases h6
              · exact ⟨rs', h4, r, h5, h6⟩
        exact key d.rets hret hsome
      rw [this]
    simp only [hp]
    have hi : paramIndexOf d p = some j := by
      unfold paramIndexOf
      rw [List.findIdx?_eq_some_iff_getElem]
      obtain ⟨hlt, he⟩ := List.getElem?_eq_some_iff.1 hj
      refine ⟨hlt, by simp [he], ?_⟩
      intro k hk
      simp only [decide_eq_true_eq]
      intro hc
      have := hnd k (List.getElem?_eq_some_iff.2 ⟨by omega, hc⟩)
      omega
    simp only [hi]
    exact hq
  · intro env v hev
    have hev := ev_parens ha hev
    cases hev with
    | serializer h1 => exact absurd h1 (hns _)
    | foreign _ h => exact absurd hcalls (h d)
    | @declared _ env₀ env₁ _ _ d' vs rs r _ h1 h2 h3 h4 h5 h6 h7 h8 h9 =>
      have : d' = d := hu d' h2.1 h2.2.1 h2.2.2
      subst this
      rcases hret rs h7 with ⟨r', h10, h11⟩ | h10
      · rw [h8] at h10
        simp only [Option.some.injEq] at h10
        subst h10
        left
        have hl : j < vs.length := by
          rw [h3]; exact (List.getElem?_eq_some_iff.1 hq).1
        have hvj : vs[j]? = some vs[j] := List.getElem?_eq_getElem hl
        refine ⟨vs[j], h4 j q _ hq hvj, ?_⟩
        rw [gives_value h11 h6 h9, h5 j p _ hj hvj]
      · obtain ⟨n, rfl⟩ := h10 r (List.mem_of_mem_head? h8)
        cases h9
        exact Or.inr ⟨rs, h7, n, h8, rfl⟩

/-! ## Cases -/

/-- `json.Marshal` and `json.MarshalIndent` as configured (config_http.go:50-53). -/
def jsonTs : List Transform :=
  [⟨some fun f => decide (f = "Marshal"), some fun p => decide (p = "encoding/json"), 0⟩,
   ⟨some fun f => decide (f = "MarshalIndent"), some fun p => decide (p = "encoding/json"), 0⟩]

/-- Values for the examples: serializing puts a zero in front. -/
def langOf (m : Decls) (ts : List Transform := jsonTs) : Lang (List Nat) := ⟨m, ts, fun v => 0 :: v, fun n => [n], fun _ v => v⟩

def marshal : Callee := .func "encoding/json" "Marshal" true

theorem marshal_serializer : Serializer jsonTs marshal 0 :=
  ⟨_, _, rfl, by decide, [], _, _, rfl, ⟨by simp, by simp⟩, by simp, rfl⟩

theorem ev_marshal {m : Decls} {env : String → List Nat} {x : String} {v : List Nat} (h : env x = v) :
    Ev (langOf m) env (.call marshal [.var x]) (0 :: v) :=
  .serializer (L := langOf m) (i := 0) (p := .var x) marshal_serializer rfl (h ▸ .var env x)

theorem not_serializer {p n : String} {q : Bool} (h : p ≠ "encoding/json") (i : Nat) : ¬ Serializer jsonTs (.func p n q) i := by
  rintro ⟨p', n', h1, _, as, t, bs, h2, h3, _⟩
  simp only [Callee.ref, Option.some.injEq, Prod.mk.injEq] at h1
  obtain ⟨rfl, rfl⟩ := h1
  have : t ∈ jsonTs := by rw [h2]; simp
  simp only [jsonTs, List.mem_cons, List.not_mem_nil, or_false] at this
  rcases this with rfl | rfl
  · have := h3.2 _ rfl; simp [h] at this
  · have := h3.2 _ rfl; simp [h] at this

/-- `user := load(); b, err := json.Marshal(user); n := 1; w.Write((b)); user = nil` in `app.Get`. -/
def exGet : Decl :=
  { pkg := "app", name := "Get",
    body := [⟨["user"], .call (.func "app" "load" false) []⟩, ⟨["b", "err"], .call marshal [.var "user"]⟩,
      ⟨["n"], .other 1⟩, ⟨["user"], .other 0⟩] }

def exEdge : Edge := { callerPkg := "app", callerName := "Get" }

theorem exGet_written (fs : List Decl) (h : ∀ g ∈ fs, g.name ≠ "Get") (ms : List Decl) (d : Decl) (hd : d.pkg = "app" ∧ d.name = "Get") :
    Written ⟨d :: fs, ms⟩ exEdge d := by
  refine .function (by decide) rfl rfl (by simp) hd.1 hd.2 ?_
  intro g hg _ h2
  rcases List.mem_cons.1 hg with rfl | hg
  · rfl
  · rw [hd.2] at h2; exact absurd h2 (h g hg)

/-- The hypotheses of `C78_variable_partial` are met. -/
example : unwrapWriteSink ⟨[exGet], []⟩ jsonTs exEdge (.wrap .paren (.var "b")) = some (.var "user") ∧
    ∀ (env env₂ : String → List Nat) (v : List Nat),
      Run (langOf ⟨[exGet], []⟩) env (exGet.body.take 3) env₂ → Ev (langOf ⟨[exGet], []⟩) env₂ (.wrap .paren (.var "b")) v →
      ∃ (env₁ : String → List Nat) (u : List Nat), Run (langOf ⟨[exGet], []⟩) env (exGet.body.take 1) env₁ ∧
        Ev (langOf ⟨[exGet], []⟩) env₁ (.var "user") u ∧ v = 0 :: u :=
  C78_variable_partial (L := langOf ⟨[exGet], []⟩) (x := "b") (pre := exGet.body.take 1)
    (s := ⟨["b", "err"], .call marshal [.var "user"]⟩) (mid := [⟨["n"], .other 1⟩]) (later := [⟨["user"], .other 0⟩])
    (exGet_written [] (by simp) [] exGet ⟨rfl, rfl⟩) rfl (by decide) rfl (by simp) rfl (by simp [Clear, marshal])
    marshal_serializer rfl (.paren .refl)

/-- … and such a run exists. -/
example : ∃ env₂, Run (langOf ⟨[exGet], []⟩) (fun _ => [7]) (exGet.body.take 3) env₂ ∧ env₂ "b" = [0, 5] :=
  ⟨fun y => if y = "n" then [1] else if y = "b" then [0, 5] else if y = "err" then [9] else if y = "user" then [5] else [7],
    .cons (v := [5]) (env₁ := fun y => if y = "user" then [5] else [7])
      (.foreign (not_serializer (by decide)) (by rintro d ⟨h1, h2, h3⟩; simp [langOf] at h1; subst h1; simp [exGet] at h3))
      (by simp) (by intro y h; simp at h; simp [h])
      (.cons (v := [0, 5]) (env₁ := fun y => if y = "b" then [0, 5] else if y = "err" then [9] else if y = "user" then [5] else [7])
        (ev_marshal (by simp)) (by simp) (by intro y h; simp at h; simp [h])
        (.cons (v := [1]) (.other _ _) (by simp) (by intro y h; simp at h; simp [h]) (.nil _))),
    by simp⟩

/-- The hypotheses of `C78_raw_partial` are met: `b := []byte("ok")`. -/
def exRaw : Decl := { pkg := "app", name := "Get", body := [⟨["b"], .call marshal [.var "user"]⟩, ⟨["b"], .other 3⟩] }
example : unwrapWriteSink ⟨[exRaw], []⟩ jsonTs exEdge (.var "b") = none :=
  C78_raw_partial (L := langOf ⟨[exRaw], []⟩) (exGet_written [] (by simp) [] exRaw ⟨rfl, rfl⟩) (by decide) .refl
    (Or.inr ⟨[⟨["b"], .call marshal [.var "user"]⟩], ⟨["b"], .other 3⟩, [], rfl, by simp, by simp, by simp⟩)

/-- `func encode(k, v any) []byte { b, err := json.Marshal(v); if err != nil { return nil }; return b }`. -/
def exEncode : Decl :=
  { pkg := "app", name := "encode", params := ["k", "v"],
    body := [⟨["b", "err"], .call marshal [.var "v"]⟩], rets := [[.other 0], [.var "b"]] }

def callEncode : Callee := .func "app" "encode" false

theorem exEncode_gives : Gives jsonTs exEncode "v" (.var "b") :=
  .bound (pre := []) (post := []) rfl (by decide) rfl (by simp) rfl (by simp [Clear, marshal]) marshal_serializer rfl (by simp)

/-- The hypotheses of `C78_helper_partial` are met. -/
example : unwrapWriteSink ⟨[exEncode], []⟩ jsonTs exEdge (.call callEncode [.other 4, .var "user"]) = some (.var "user") ∧
    ∀ (env : String → List Nat) (v : List Nat),
      Ev (langOf ⟨[exEncode], []⟩) env (.call callEncode [.other 4, .var "user"]) v →
      (∃ u, Ev (langOf ⟨[exEncode], []⟩) env (.var "user") u ∧ v = 0 :: u) ∨
        ∃ rs ∈ exEncode.rets, ∃ n, rs.head? = some (.other n) ∧ v = [n] :=
  C78_helper_partial (L := langOf ⟨[exEncode], []⟩) (d := exEncode) (p := "v") (j := 1)
    (by simp [langOf, jsonTs]) (not_serializer (by decide)) (by simp)
    (show exEncode ∈ _ ∧ _ from ⟨by simp [langOf], rfl, rfl⟩) (by decide) (by decide)
    (by simp [langOf])
    (by
      intro k hk
      rcases k with _ | _ | k
      · simp [exEncode] at hk
      · rfl
      · simp [exEncode] at hk)
    rfl
    (by
      intro rs hrs
      simp only [exEncode, List.mem_cons, List.not_mem_nil, or_false] at hrs
      rcases hrs with rfl | rfl
      · exact Or.inr (by simp)
      · exact Or.inl ⟨_, rfl, exEncode_gives⟩)
    ⟨[.var "b"], by simp [exEncode], _, rfl, exEncode_gives⟩ rfl .refl

/-! ## What is not so -/

/-- The function `app.Get` with these statements before the `Write`. -/
def getOf (body : List Stmt) : Decl := { pkg := "app", name := "Get", body := body }

/-- The function `app.encode(v)`. -/
def encodeOf (body : List Stmt) (rets : List (List Exp)) : Decl :=
  { pkg := "app", name := "encode", params := ["v"], body := body, rets := rets }

/-- A run of `encode` gives the value of the call. -/
theorem ev_encode {m : Decls} {body : List Stmt} {rets : List (List Exp)} {env₁ : String → List Nat} {rs : List Exp} {r : Exp}
    {v : List Nat} (hm : encodeOf body rets ∈ m.funcs) (hrun : Run (langOf m) (fun _ => [7]) body env₁) (hrs : rs ∈ rets)
    (hr : rs.head? = some r) (hv : Ev (langOf m) env₁ r v) :
    Ev (langOf m) (fun _ => [7]) (.call callEncode [.var "user"]) v :=
  .declared (env₀ := fun _ => [7]) (d := encodeOf body rets) (vs := [[7]]) (not_serializer (by decide)) ⟨hm, rfl, rfl⟩ rfl
    (by
      intro i a u h1 h2
      rcases i with _ | i
      · simp at h1 h2; subst h1; subst h2; exact .var _ _
      · simp at h1)
    (by
      intro i q u _ h2
      rcases i with _ | i
      · simp at h2; exact h2
      · simp at h2)
    hrun hrs hr hv

/-- `b := encode(user); w.Write(b)`: the bytes are the serialization of `user`, but a helper is only looked
into when it is called in the argument of `Write`; `[]byte` is documented. -/
theorem C78_helper_variable_lost :
    let enc := encodeOf [⟨["b", "err"], .call marshal [.var "v"]⟩] [[.var "b"]]
    let get := getOf [⟨["b"], .call callEncode [.var "user"]⟩]
    unwrapWriteSink ⟨[get, enc], []⟩ jsonTs exEdge (.var "b") = none ∧
    unwrapWriteSink ⟨[get, enc], []⟩ jsonTs exEdge (.call callEncode [.var "user"]) = some (.var "user") ∧
    ∃ env₂, Run (langOf ⟨[get, enc], []⟩) (fun _ => [7]) get.body env₂ ∧ env₂ "b" = [0, 7] := by
  refine ⟨by rfl, by rfl, fun y => if y = "b" then [0, 7] else [7], ?_, by simp⟩
  refine .cons (v := [0, 7]) ?_ (by simp) (by intro y h; simp at h; simp [h]) (.nil _)
  exact ev_encode (env₁ := fun y => if y = "b" then [0, 7] else [7]) (rs := [.var "b"]) (List.Mem.tail _ (List.Mem.head _))
    (.cons (v := [0, 7]) (ev_marshal (by simp)) (by simp) (by intro y h; simp at h; simp [h]) (.nil _))
    (by simp) rfl (.var _ _)

/-- `b, _ := json.Marshal(user); out := b; w.Write(out)`: a variable that is assigned a variable is not
followed. -/
theorem C78_copy_lost :
    let get := getOf [⟨["b", "_"], .call marshal [.var "user"]⟩, ⟨["out"], .var "b"⟩]
    unwrapWriteSink ⟨[get], []⟩ jsonTs exEdge (.var "out") = none ∧
    ∃ env₂, Run (langOf ⟨[get], []⟩) (fun _ => [7]) get.body env₂ ∧ env₂ "out" = [0, 7] := by
  refine ⟨by rfl, fun y => if y = "out" then [0, 7] else if y = "b" then [0, 7] else [7], ?_, by simp⟩
  exact .cons (v := [0, 7]) (env₁ := fun y => if y = "b" then [0, 7] else [7])
    (ev_marshal (by simp)) (by simp) (by intro y h; simp at h; simp [h])
    (.cons (v := [0, 7]) (.var _ _) (by simp) (by intro y h; simp at h; simp [h]) (.nil _))

/-- A serializer with one result, called in the argument: `w.Write(codec.Must(user))` with `codec.Must`
configured.  Calls are only looked into as helpers. -/
theorem C78_direct_call_lost :
    let ts : List Transform := [⟨some fun f => decide (f = "Must"), some fun p => decide (p = "codec"), 0⟩]
    let must : Callee := .func "codec" "Must" true
    unwrapWriteSink ⟨[getOf []], []⟩ ts exEdge (.call must [.var "user"]) = none ∧
    Ev (langOf ⟨[getOf []], []⟩ ts) (fun _ => [7]) (.call must [.var "user"]) [0, 7] := by
  refine ⟨by rfl, .serializer (i := 0) (p := .var "user") ?_ rfl (.var _ _)⟩
  exact ⟨_, _, rfl, by decide, [], _, _, rfl, ⟨by simp, by simp⟩, by simp, rfl⟩

/-- With `import . "encoding/json"`, `b, _ := Marshal(user)`: the plain name is recorded as a function of the
package itself. -/
theorem C78_dot_import_lost :
    let get := getOf [⟨["b", "_"], .call (.func "encoding/json" "Marshal" false) [.var "user"]⟩]
    unwrapWriteSink ⟨[get], []⟩ jsonTs exEdge (.var "b") = none ∧
    Serializer jsonTs (.func "encoding/json" "Marshal" false) 0 :=
  ⟨by rfl, _, _, rfl, by decide, [], _, _, rfl, ⟨by simp, by simp⟩, by simp, rfl⟩

/-- `b, _ := json.Marshal(user); w.Write(b); b, _ = json.Marshal(event); publish(b)`: the assignment after the
`Write` is the last one, and the event is documented as the response. -/
theorem C78_assigned_later_wrong :
    let before : List Stmt := [⟨["b", "_"], .call marshal [.var "user"]⟩]
    let get := getOf (before ++ [⟨["b", "_"], .call marshal [.var "event"]⟩])
    let start : String → List Nat := fun y => if y = "user" then [1] else [2]
    unwrapWriteSink ⟨[get], []⟩ jsonTs exEdge (.var "b") = some (.var "event") ∧
    (∃ env₂, Run (langOf ⟨[get], []⟩) start before env₂ ∧ env₂ "b" = [0, 1]) ∧
    ∀ u, Ev (langOf ⟨[get], []⟩) start (.var "event") u → (langOf ⟨[get], []⟩).marshal u = [0, 2] := by
  refine ⟨by rfl, ⟨fun y => if y = "b" then [0, 1] else if y = "user" then [1] else [2], ?_, by simp⟩, ?_⟩
  · exact .cons (v := [0, 1]) (ev_marshal (by simp)) (by simp) (by intro y h; simp at h; simp [h]) (.nil _)
  · intro u h; cases h; simp [langOf]

/-- A helper that assigns again, `b, _ := json.Marshal(v); b = sign(b); return b`: any of the assignments
decides, and the argument is documented although other bytes are written. -/
theorem C78_helper_reassigned_wrong :
    let enc := encodeOf [⟨["b", "_"], .call marshal [.var "v"]⟩, ⟨["b"], .other 9⟩] [[.var "b"]]
    unwrapWriteSink ⟨[getOf [], enc], []⟩ jsonTs exEdge (.call callEncode [.var "user"]) = some (.var "user") ∧
    Ev (langOf ⟨[getOf [], enc], []⟩) (fun _ => [7]) (.call callEncode [.var "user"]) [9] := by
  refine ⟨by rfl, ?_⟩
  exact ev_encode (env₁ := fun y => if y = "b" then [9] else [7]) (rs := [.var "b"]) (List.Mem.tail _ (List.Mem.head _))
    (.cons (v := [0, 7]) (env₁ := fun y => if y = "b" then [0, 7] else [7]) (ev_marshal (by simp)) (by simp)
      (by intro y h; simp at h; simp [h])
      (.cons (v := [9]) (.other _ _) (by simp) (by intro y h; simp at h; simp [h]) (.nil _)))
    (by simp) rfl (.var _ _)

/-- A helper that wraps its parameter first, `v = Envelope{v}; b, _ := json.Marshal(v); return b`: the type of
the argument is documented, not that of the envelope. -/
theorem C78_helper_parameter_wrong :
    let enc := encodeOf [⟨["v"], .other 9⟩, ⟨["b", "_"], .call marshal [.var "v"]⟩] [[.var "b"]]
    unwrapWriteSink ⟨[getOf [], enc], []⟩ jsonTs exEdge (.call callEncode [.var "user"]) = some (.var "user") ∧
    Ev (langOf ⟨[getOf [], enc], []⟩) (fun _ => [7]) (.call callEncode [.var "user"]) [0, 9] := by
  refine ⟨by rfl, ?_⟩
  exact ev_encode (env₁ := fun y => if y = "b" then [0, 9] else if y = "v" then [9] else [7]) (rs := [.var "b"]) (List.Mem.tail _ (List.Mem.head _))
    (.cons (v := [9]) (env₁ := fun y => if y = "v" then [9] else [7]) (.other _ _) (by simp)
      (by intro y h; simp at h; simp [h])
      (.cons (v := [0, 9]) (ev_marshal (by simp)) (by simp) (by intro y h; simp at h; simp [h]) (.nil _)))
    (by simp) rfl (.var _ _)

/-- `w.Write(s.encode(user, meta))` with a method `encode` that serializes its second parameter, and an
unrelated function `encode` of the package that serializes its first: the function is looked into. -/
theorem C78_method_helper_wrong :
    let enc := encodeOf [] [[.call marshal [.var "v"]]]
    let meth : Decl := { pkg := "app", recv := "S", name := "encode", params := ["a", "b"], rets := [[.call marshal [.var "b"]]] }
    let call : Exp := .call (.method "app" "S" "encode") [.var "user", .var "meta"]
    unwrapWriteSink ⟨[getOf [], enc], [meth]⟩ jsonTs exEdge call = some (.var "user") ∧
    unwrapWriteSink ⟨[getOf []], [meth]⟩ jsonTs exEdge call = none ∧
    Calls ⟨[getOf [], enc], [meth]⟩ meth (.method "app" "S" "encode") ∧ Gives jsonTs meth "b" (.call marshal [.var "b"]) :=
  ⟨by rfl, by rfl, ⟨by simp, rfl, rfl, rfl⟩, .call (by simp [marshal]) marshal_serializer rfl (by simp)⟩

/-- A function of a package whose code is not there, `w.Write(codec.encode(meta, user))`: any function of the
same name anywhere is looked into instead. -/
theorem C78_foreign_helper_wrong :
    let enc := encodeOf [] [[.call marshal [.var "v"]]]
    let call : Exp := .call (.func "codec" "encode" true) [.var "meta", .var "user"]
    unwrapWriteSink ⟨[getOf [], enc], []⟩ jsonTs exEdge call = some (.var "meta") ∧
    ∀ d, ¬ Calls ⟨[getOf [], enc], []⟩ d (.func "codec" "encode" true) := by
  refine ⟨by rfl, ?_⟩
  rintro d ⟨h1, h2, _⟩
  simp only [List.mem_cons, List.not_mem_nil, or_false] at h1
  rcases h1 with rfl | rfl <;> simp [getOf, encodeOf] at h2

/-- `if bad { return must(json.Marshal(problem)) }; return …` with a local variable `problem`: the first return
with a payload decides, it is no parameter, and nothing is documented for the other. -/
theorem C78_local_payload_lost :
    let enc := encodeOf [⟨["problem"], .other 1⟩] [[.call marshal [.var "problem"]], [.call marshal [.var "v"]]]
    unwrapWriteSink ⟨[getOf [], enc], []⟩ jsonTs exEdge (.call callEncode [.var "user"]) = none ∧
    Gives jsonTs enc "v" (.call marshal [.var "v"]) :=
  ⟨by rfl, .call (by simp [marshal]) marshal_serializer rfl (by simp [encodeOf])⟩

end Verif.WriteSink
