import Verif.FuncFieldProps
import Verif.ValidateProps

/-!
# The index of the functions in fields of a whole program (C85)

`Source` is a file; `Holds` says which function the program stores in which field.
-/

namespace Verif.FuncField
open Verif.Common Verif.ValidateModel

/-! ## Files -/

/-- A file: the values assigned in its functions, those passed to calls, and those that
appear elsewhere: at package level, in methods, in returns, assigned to fields. -/
structure Source where
  pkg : Str
  /-- Alias and path; the alias is the path where none is written. -/
  imports : List (Str × Str)
  assigned : List Val
  passed : List Val
  elsewhere : List Val

def Source.values (s : Source) : List Val := s.assigned ++ s.passed ++ s.elsewhere

mutual
/-- The composite literals in an expression that state their type. -/
def literalsIn : Val → List (Ty × List Val)
  | .comp ty elts => (match ty with
      | some t => [(t, elts)]
      | none => []) ++ literalsAll elts
  | .kv _ v => literalsIn v
  | .addr v => literalsIn v
  | .conv v => literalsIn v
  | .call args => literalsAll args
  | .fn _ _ _ => []
  | .method _ _ _ => []
  | .closure _ => []
  | .var _ _ => []
  | .field _ _ _ => []
def literalsAll : List Val → List (Ty × List Val)
  | [] => []
  | v :: vs => literalsIn v ++ literalsAll vs
end

/-- `CallArgToString` (`expression.go`, `call_argument.go`) on the values that matter here: a
method value is written with the type of its operand, anything composite with brackets. -/
def rendered (ctx : Str) : Val → Str
  | .fn p q n => if p = ctx then n else q ++ dot ++ n
  | .method p r n => if p = ctx then r ++ dot ++ n else p ++ dot ++ r ++ dot ++ n
  | .closure n => n
  | .var _ n => n
  | .field _ o n => o ++ dot ++ n
  | _ => ['(', ')']

/-- The keyed elements as `processStructInstance` renders them (`metadata.go:1291-1312`;
constants are not replaced here). -/
def keyedOf (ctx : Str) (elts : List Val) : List (Str × Str) :=
  elts.filterMap fun e => match e with
    | .kv (some k) v => some (k, rendered ctx v)
    | _ => none

/-- `processStructInstance` (`metadata.go:1284-1320`) in a file of package `ctx`. -/
def instanceOf (ctx : Str) (l : Ty × List Val) : Instance := ⟨fieldText ctx l.1, keyedOf ctx l.2⟩

/-- What metadata keeps of a file. -/
def fileOf (s : Source) : File where
  pkg := s.pkg
  imports := s.imports
  instances := (literalsAll s.values).map (instanceOf s.pkg)
  assigned := s.assigned.map (argOf s.pkg)

/-- The call arguments of the program. -/
def callsOf (srcs : List Source) : List (Str × Arg) := srcs.flatMap fun s => s.passed.map fun v => (s.pkg, argOf s.pkg v)

/-- The functions that a call of the field `k` of a value of the type `recv` of package `p`
is resolved to. -/
def resolve (W : World) (srcs : List Source) (p recv k : Str) : List String :=
  keysFor W (srcs.map fileOf) (callsOf srcs) p recv k

/-- The program stores the function `f` in the field `k` of the type `n` of package `p`. -/
def Holds (D : Decls) (entry : Str → Str → Str → Bool) (srcs : List Source) (p n k f : Str) : Prop :=
  ∃ s ∈ srcs, ∃ v ∈ s.values, Stored D entry s.pkg none v ⟨p, n, k, f⟩

/-- The program stores the function directly, in a literal that states its type and names
the field, wherever that literal is. -/
def HoldsDirectly (D : Decls) (entry : Str → Str → Str → Bool) (srcs : List Source) (p n k f : Str) : Prop :=
  ∃ s ∈ srcs, ∃ elts v, (Ty.named p n, elts) ∈ literalsAll s.values ∧ Val.kv (some k) v ∈ elts ∧
    Dispatches D entry p n k ∧ IsFn s.pkg v f

/-- The same through an expression assigned in a function or passed to a call. -/
def HoldsLocally (D : Decls) (entry : Str → Str → Str → Bool) (srcs : List Source) (p n k f : Str) : Prop :=
  ∃ s ∈ srcs, ∃ v ∈ s.assigned ++ s.passed, Stored D entry s.pkg none v ⟨p, n, k, f⟩

/-! ## Names of imports -/

/-- A major version as an element of a path. -/
def Version (v : Str) : Prop := ∃ ds, v = 'v' :: ds ∧ ds ≠ [] ∧ ∀ c ∈ ds, c.isDigit = true

/-- A package of this path is called `q`, by convention. -/
def Answers (path q : Str) : Prop :=
  path = q ∨ (∃ pre, path = pre ++ '/' :: q) ∨
    ∃ v, Version v ∧ (path = q ++ '/' :: v ∨ ∃ pre, path = pre ++ '/' :: q ++ '/' :: v)

theorem splitC_mid (sep : Char) : ∀ a b : List Char, splitC sep (a ++ sep :: b) = splitC sep a ++ splitC sep b
  | [], b => by simp [splitC]
  | c :: cs, b => by
    rw [List.cons_append, splitC, splitC, splitC_mid sep cs b]
    split
    · rfl
    · cases h : splitC sep cs with
      | nil => cases cs <;> simp [splitC] at h; split at h; cases h; cases h2 : splitC sep ‹_› <;> rw [h2] at h <;> cases h
      | cons x xs => rfl

theorem splitC_ne (sep : Char) : ∀ a : List Char, splitC sep a ≠ []
  | [] => by simp [splitC]
  | c :: cs => by
    rw [splitC]
    split
    · simp
    · cases h : splitC sep cs with
      | nil => exact absurd h (splitC_ne sep cs)
      | cons x xs => simp [splitC.consHead]

theorem last_split (sep : Char) : ∀ a : List Char, sep ∉ a ∨ ∃ pre l, a = pre ++ sep :: l ∧ sep ∉ l
  | [] => .inl (by simp)
  | c :: cs => by
    rcases last_split sep cs with h | ⟨pre, l, rfl, h⟩
    · by_cases hc : c = sep
      · subst hc; exact .inr ⟨[], cs, rfl, h⟩
      · exact .inl (by simp [h, Ne.symm hc])
    · exact .inr ⟨c :: pre, l, rfl, h⟩

/-- A text ends in `/q`, or is `q`. -/
def EndsIn (path q : Str) : Prop := path = q ∨ ∃ pre, path = pre ++ '/' :: q

theorem last_iff {path q : Str} (hq : '/' ∉ q) : (splitC '/' path).getLast?.getD [] = q ↔ EndsIn path q := by
  have back : EndsIn path q → (splitC '/' path).getLast?.getD [] = q := by
    rintro (rfl | ⟨pre, rfl⟩)
    · rw [splitC_no _ _ hq]; rfl
    · rw [splitC_mid, splitC_no _ _ hq]; simp
  refine ⟨?_, back⟩
  rcases last_split '/' path with h | ⟨pre, l, rfl, h⟩
  · rw [splitC_no _ _ h]; rintro rfl; exact .inl rfl
  · rw [splitC_mid, splitC_no _ _ h]
    simp only [List.getLast?_append, List.getLast?_singleton, Option.some_or, Option.getD_some]
    rintro rfl
    exact .inr ⟨pre, rfl⟩

theorem isMajor_iff {v : Str} : isMajor v = true ↔ Version v := by
  have dig : ∀ c : Char, (decide ('0' ≤ c) && decide (c ≤ '9')) = c.isDigit := by
    intro c
    simp only [Char.isDigit, Char.le_def]
  unfold isMajor
  split
  · rename_i c cs
    rw [List.all_eq_true]
    constructor
    · intro h
      exact ⟨c :: cs, rfl, by simp, fun x hx => by rw [← dig]; exact h x hx⟩
    · rintro ⟨ds, hd, h1, h2⟩
      cases hd
      exact fun x hx => by rw [dig]; exact h2 x hx
  · rename_i h
    constructor
    · intro h; cases h
    · rintro ⟨ds, rfl, h1, _⟩
      cases ds with
      | nil => exact absurd rfl h1
      | cons c cs => exact absurd rfl (h c cs)

theorem Version.noSlash {v : Str} (h : Version v) : '/' ∉ v := by
  obtain ⟨ds, rfl, _, h⟩ := h
  intro hc
  rcases List.mem_cons.1 hc with hc | hc
  · cases hc
  · exact absurd (h _ hc) (by decide)

theorem tailMatches_iff {path q : Str} (hq : '/' ∉ q) (hq0 : q ≠ []) : tailMatches path q = true ↔ Answers path q := by
  unfold tailMatches
  by_cases hp : path = []
  · subst hp
    rw [if_pos (.inl rfl)]
    refine ⟨fun h => (by cases h), ?_⟩
    rintro (h | ⟨pre, h⟩ | ⟨v, _, h | ⟨pre, h⟩⟩)
    · exact absurd h.symm hq0
    · simp at h
    · simp at h
    · simp at h
  rw [if_neg (by rintro (h | h); exact hp h; exact hq0 h)]
  simp only
  by_cases hl : (splitC '/' path).getLast?.getD [] = q
  · rw [if_pos hl]
    have := (last_iff hq).1 hl
    exact ⟨fun _ => this.elim .inl fun h => .inr (.inl h), fun _ => rfl⟩
  · rw [if_neg hl]
    have hl' : ¬ EndsIn path q := fun h => hl ((last_iff hq).2 h)
    have ver : Answers path q ↔ ∃ v, Version v ∧ (path = q ++ '/' :: v ∨ ∃ pre, path = pre ++ '/' :: q ++ '/' :: v) := by
      constructor
      · rintro (h | h | h)
        · exact absurd (.inl h) hl'
        · exact absurd (.inr h) hl'
        · exact h
      · exact fun h => .inr (.inr h)
    rw [ver]
    rcases last_split '/' path with h | ⟨pre, l, rfl, h⟩
    · rw [splitC_no _ _ h]
      simp only [List.length_singleton, Nat.lt_irrefl, decide_false, Bool.false_and, Bool.false_eq_true, if_false, false_iff]
      rintro ⟨v, _, rfl | ⟨pre, rfl⟩⟩
      · exact h (by simp)
      · exact h (by simp)
    · have hlen : 0 < (splitC '/' pre).length := List.length_pos_iff.2 (splitC_ne _ _)
      have e1 : splitC '/' (pre ++ '/' :: l) = splitC '/' pre ++ [l] := by rw [splitC_mid, splitC_no _ _ h]
      rw [e1]
      simp only [List.getLast?_append, List.getLast?_singleton, Option.some_or, Option.getD_some, List.dropLast_concat]
      have e2 : decide ((splitC '/' pre ++ [l]).length > 1) = true := by
        simp only [List.length_append, List.length_singleton, decide_eq_true_eq]; omega
      rw [e2, Bool.true_and]
      have cut : ∀ {a b v : Str}, '/' ∉ v → a ++ '/' :: l = b ++ '/' :: v → a = b ∧ l = v := by
        intro a b v hv he
        have h1 := congrArg (fun s => s.reverse) he
        simp only [List.reverse_append, List.reverse_cons, List.append_assoc, List.singleton_append] at h1
        have tk : ∀ {x y z w : Str}, '/' ∉ x → '/' ∉ z → x ++ '/' :: y = z ++ '/' :: w → x = z ∧ y = w := by
          intro x
          induction x with
          | nil =>
            intro y z w _ hz h
            cases z with
            | nil => simpa using h
            | cons c z => simp only [List.nil_append, List.cons_append, List.cons.injEq] at h; exact absurd (h.1 ▸ List.mem_cons_self ..) hz
          | cons c x ih =>
            intro y z w hx hz h
            cases z with
            | nil => simp only [List.nil_append, List.cons_append, List.cons.injEq] at h; exact absurd (h.1 ▸ List.mem_cons_self ..) hx
            | cons d z =>
              simp only [List.cons_append, List.cons.injEq] at h
              obtain ⟨h2, h3⟩ := ih (fun hc => hx (List.mem_cons_of_mem _ hc)) (fun hc => hz (List.mem_cons_of_mem _ hc)) h.2
              exact ⟨by rw [h.1, h2], h3⟩
        obtain ⟨h2, h3⟩ := tk (fun hc => h (List.mem_reverse.1 hc)) (fun hc => hv (List.mem_reverse.1 hc)) h1
        exact ⟨List.reverse_inj.1 h3, List.reverse_inj.1 h2⟩
      by_cases hm : isMajor l = true
      · rw [if_pos hm, beq_iff_eq, last_iff hq]
        constructor
        · rintro (rfl | ⟨pre', rfl⟩)
          · exact ⟨l, isMajor_iff.1 hm, .inl rfl⟩
          · exact ⟨l, isMajor_iff.1 hm, .inr ⟨pre', rfl⟩⟩
        · rintro ⟨v, hv, h1 | ⟨pre', h1⟩⟩
          · exact .inl (cut hv.noSlash h1).1
          · exact .inr ⟨pre', (cut hv.noSlash h1).1⟩
      · rw [if_neg hm]
        refine ⟨fun h => (by cases h), ?_⟩
        rintro ⟨v, hv, h1 | ⟨pre', h1⟩⟩
        · exact absurd (isMajor_iff.2 ((cut hv.noSlash h1).2 ▸ hv)) hm
        · exact absurd (isMajor_iff.2 ((cut hv.noSlash h1).2 ▸ hv)) hm

/-! ## Rendered values -/

/-- The import answers to `q` in the file. -/
def Binds (q : Str) (i : Str × Str) : Prop := i.1 = q ∨ Answers i.2 q

/-- The value means as text what it is: it has the name of a function only when it is one;
the names of the packages it mentions are those their paths suggest or are aliases, and
only one import with such a function answers to them. -/
def Clear (known : Str → Bool) (ctx : Str) (imports : List (Str × Str)) : Val → Prop
  | .fn p q n => Name n ∧ (p = ctx ∨ Name q ∧ p ≠ ctx ∧ known (q ++ dot ++ n) = false ∧
      known (ctx ++ dot ++ q ++ dot ++ n) = false ∧ (∃ i ∈ imports, i.2 = p ∧ Binds q i) ∧
      ∀ i ∈ imports, Binds q i → known (i.2 ++ dot ++ n) = true → i.2 = p)
  | .method p r n => Name r ∧ Name n ∧ (p = ctx ∧ known (r ++ dot ++ n) = false ∧ (∀ i ∈ imports, ¬ Binds r i) ∨
      p ≠ ctx ∧ known (p ++ dot ++ r ++ dot ++ n) = true)
  | .closure n => n ≠ [] ∧ known n = false ∧ known (ctx ++ dot ++ n) = true
  | .var _ n => Name n ∧ known (ctx ++ dot ++ n) = false
  | .field _ o n => Name o ∧ Name n ∧ known (o ++ dot ++ n) = false ∧ known (ctx ++ dot ++ o ++ dot ++ n) = false ∧
      ∀ i ∈ imports, ¬ Binds o i
  | .conv v => (∀ f, ¬ IsFn ctx v f) ∧ known (ctx ++ dot ++ ['(', ')']) = false
  | _ => known (ctx ++ dot ++ ['(', ')']) = false

theorem smallest_eq {l : List Str} {k : Str} (h0 : l ≠ []) (h : ∀ x ∈ l, x = k) : smallest l = some k := by
  unfold smallest
  cases hs : sortStrings (l.map String.ofList) with
  | nil =>
    have : (sortStrings (l.map String.ofList)).length = (l.map String.ofList).length := length_isort _ _
    rw [hs, List.length_map] at this
    exact absurd (List.length_eq_zero_iff.1 this.symm) h0
  | cons a as =>
    have : a ∈ sortStrings (l.map String.ofList) := by rw [hs]; exact List.mem_cons_self ..
    rw [mem_sortStrings] at this
    obtain ⟨x, hx, rfl⟩ := List.mem_map.1 this
    rw [h x hx]
    simp

theorem smallest_mem {l : List Str} {k : Str} (h : smallest l = some k) : k ∈ l := by
  unfold smallest at h
  rw [Option.map_eq_some_iff] at h
  obtain ⟨a, h1, rfl⟩ := h
  have : a ∈ sortStrings (l.map String.ofList) := List.mem_of_mem_head? h1
  rw [mem_sortStrings] at this
  obtain ⟨x, hx, rfl⟩ := List.mem_map.1 this
  simpa using hx

theorem takeWhile_name {q n : Str} (h : '.' ∉ q) : (q ++ dot ++ n).takeWhile (· != '.') = q := by
  induction q with
  | nil => rfl
  | cons c q ih =>
    have hc : (c != '.') = true := by
      have : c ≠ '.' := by rintro rfl; exact h (List.mem_cons_self ..)
      simpa using this
    show List.takeWhile _ (c :: (q ++ dot ++ n)) = _
    rw [List.takeWhile_cons, if_pos hc, ih fun hx => h (List.mem_cons_of_mem _ hx)]

/-- The candidates that the imports give for `q.n`. -/
def candidates (known : Str → Bool) (imports : List (Str × Str)) (q n : Str) : List Str :=
  (imports.filter fun i => i.1 == q || tailMatches i.2 q).filterMap fun i =>
    if known (i.2 ++ dot ++ n) then some (i.2 ++ dot ++ n) else none

theorem mem_candidates {known : Str → Bool} {imports : List (Str × Str)} {q n k : Str} (hq : Name q) :
    k ∈ candidates known imports q n ↔ ∃ i ∈ imports, Binds q i ∧ known (i.2 ++ dot ++ n) = true ∧ k = i.2 ++ dot ++ n := by
  unfold candidates Binds
  simp only [List.mem_filterMap, List.mem_filter, Bool.or_eq_true, beq_iff_eq, tailMatches_iff (hq.no '/') hq.1]
  constructor
  · rintro ⟨i, ⟨h1, h2⟩, h3⟩
    split at h3
    · rename_i h4
      cases h3
      exact ⟨i, h1, h2, h4, rfl⟩
    · cases h3
  · rintro ⟨i, h1, h2, h3, rfl⟩
    exact ⟨i, ⟨h1, h2⟩, by rw [if_pos h3]⟩

theorem keyFromRendered_qual {known : Str → Bool} {ctx : Str} {imports : List (Str × Str)} {q n : Str} (hq : Name q)
    (hc : ctx ≠ []) (h1 : known (q ++ dot ++ n) = false) (h2 : known (ctx ++ dot ++ (q ++ dot ++ n)) = false) :
    keyFromRendered known ctx imports (q ++ dot ++ n) = smallest (candidates known imports q n) := by
  have h0 : q ++ dot ++ n ≠ [] := by simp [dot]
  unfold keyFromRendered
  rw [keyFromName_eq h0 h1 hc, h2]
  simp only [Bool.false_eq_true, if_false, takeWhile_name (hq.no '.')]
  have hlen : ¬ (q.length = (q ++ dot ++ n).length ∨ q = []) := by
    rintro (h | h)
    · simp [dot] at h
    · exact hq.1 h
  rw [if_neg hlen]
  have : (q ++ dot ++ n).drop (q.length + 1) = n := by
    rw [show q ++ dot ++ n = (q ++ dot) ++ n from rfl, List.drop_left' (by simp [dot])]
  rw [this]
  rfl

theorem keyFromRendered_plain {known : Str → Bool} {ctx : Str} {imports : List (Str × Str)} {n : Str} (h0 : n ≠ [])
    (hc : ctx ≠ []) (h1 : known n = false) (hd : '.' ∉ n) :
    keyFromRendered known ctx imports n = if known (ctx ++ dot ++ n) = true then some (ctx ++ dot ++ n) else none := by
  unfold keyFromRendered
  rw [keyFromName_eq h0 h1 hc]
  by_cases hk : known (ctx ++ dot ++ n) = true
  · rw [if_pos hk]
  · rw [if_neg hk]
    simp only
    rw [if_pos]
    left
    have key : ∀ l : Str, '.' ∉ l → l.takeWhile (· != '.') = l := by
      intro l
      induction l with
      | nil => intro _; rfl
      | cons x xs ih =>
        intro h
        have hx : (x != '.') = true := by
          have : x ≠ '.' := by rintro rfl; exact h (List.mem_cons_self ..)
          simpa using this
        rw [List.takeWhile_cons, if_pos hx, ih fun hc => h (List.mem_cons_of_mem _ hc)]
    rw [key n hd]

theorem rendered_iff {known : Str → Bool} {ctx : Str} {imports : List (Str × Str)} {v : Val}
    (hk : ∀ s, known s = true → '.' ∈ s) (hc : ctx ≠ []) (h : Clear known ctx imports v) (f : Str) :
    keyFromRendered known ctx imports (rendered ctx v) = some f ↔ IsFn ctx v f ∧ known f = true := by
  have opaqueCase : known (ctx ++ dot ++ ['(', ')']) = false →
      keyFromRendered known ctx imports ['(', ')'] ≠ some f := by
    intro h
    have h1 : known ['(', ')'] = false := by
      cases hx : known ['(', ')'] with
      | false => rfl
      | true => exact absurd (hk _ hx) (by decide)
    rw [keyFromRendered_plain (by simp) hc h1 (by decide), h]
    simp
  cases v with
  | fn p q n =>
    obtain ⟨hn, rfl | ⟨hq, hpc, h1, h2, ⟨i, hi, hip, hib⟩, h3⟩⟩ := h
    · have e : rendered p (.fn p q n) = n := if_pos rfl
      rw [e, keyFromRendered_plain hn.1 hc (known_dot hk hn) (hn.no '.')]
      constructor
      · intro h
        split at h
        · rename_i hkn; cases h; exact ⟨.fn p q n, hkn⟩
        · cases h
      · rintro ⟨h, h2⟩
        cases h
        rw [if_pos h2]
    · have e : rendered ctx (.fn p q n) = q ++ dot ++ n := if_neg hpc
      rw [e, keyFromRendered_qual hq hc h1 (by simpa using h2)]
      constructor
      · intro h
        obtain ⟨j, hj, hb, hkn, rfl⟩ := (mem_candidates hq).1 (smallest_mem h)
        have ej := h3 j hj hb hkn
        rw [ej] at hkn ⊢
        exact ⟨.fn p q n, hkn⟩
      · rintro ⟨h, hkn⟩
        cases h
        apply smallest_eq
        · exact List.ne_nil_of_mem ((mem_candidates hq).2 ⟨i, hi, hib, by rw [hip]; exact hkn, rfl⟩)
        · intro x hx
          obtain ⟨j, hj, hb, hkj, rfl⟩ := (mem_candidates hq).1 hx
          rw [h3 j hj hb hkj]
  | method p r n =>
    obtain ⟨hr, hn, ⟨rfl, h1, h2⟩ | ⟨hpc, h1⟩⟩ := h
    · have e : rendered p (.method p r n) = r ++ dot ++ n := if_pos rfl
      rw [e]
      by_cases hkn : known (p ++ dot ++ (r ++ dot ++ n)) = true
      · have : keyFromRendered known p imports (r ++ dot ++ n) = some (p ++ dot ++ (r ++ dot ++ n)) := by
          unfold keyFromRendered
          rw [keyFromName_eq (by simp [dot]) h1 hc, if_pos hkn]
        rw [this]
        have e2 : p ++ dot ++ (r ++ dot ++ n) = p ++ dot ++ r ++ dot ++ n := by simp
        rw [e2] at hkn ⊢
        constructor
        · intro h; cases h; exact ⟨.method p r n, hkn⟩
        · rintro ⟨h, _⟩; cases h; rfl
      · have hkf : known (p ++ dot ++ (r ++ dot ++ n)) = false := by simpa using hkn
        rw [keyFromRendered_qual hr hc h1 hkf]
        constructor
        · intro h
          obtain ⟨j, hj, hb, _⟩ := (mem_candidates hr).1 (smallest_mem h)
          exact absurd hb (h2 j hj)
        · rintro ⟨h, hx⟩
          cases h
          exact absurd (by simpa using hx) hkn
    · have e : rendered ctx (.method p r n) = p ++ dot ++ r ++ dot ++ n := if_neg hpc
      have : keyFromRendered known ctx imports (p ++ dot ++ r ++ dot ++ n) = some (p ++ dot ++ r ++ dot ++ n) := by
        have h0 : p ++ dot ++ r ++ dot ++ n ≠ [] := by simp [dot]
        unfold keyFromRendered keyFromName
        rw [if_neg h0, if_pos h1]
      rw [e, this]
      constructor
      · intro h; cases h; exact ⟨.method p r n, h1⟩
      · rintro ⟨h, _⟩; cases h; rfl
  | closure n =>
    obtain ⟨hn, h1, h2⟩ := h
    have : keyFromRendered known ctx imports n = some (ctx ++ dot ++ n) := by
      unfold keyFromRendered
      rw [keyFromName_eq hn h1 hc, if_pos h2]
    show keyFromRendered known ctx imports n = some f ↔ _
    rw [this]
    constructor
    · intro h; cases h; exact ⟨.closure n, h2⟩
    · rintro ⟨h, _⟩; cases h; rfl
  | var p n =>
    show keyFromRendered known ctx imports n = some f ↔ _
    rw [keyFromRendered_plain h.1.1 hc (known_dot hk h.1) (h.1.no '.'), h.2]
    exact ⟨fun h => by simp at h, fun h => by cases h.1⟩
  | field p o n =>
    obtain ⟨ho, hn, h1, h2, h3⟩ := h
    show keyFromRendered known ctx imports (o ++ dot ++ n) = some f ↔ _
    rw [keyFromRendered_qual ho hc h1 (by simpa using h2)]
    constructor
    · intro h
      obtain ⟨j, hj, hb, _⟩ := (mem_candidates ho).1 (smallest_mem h)
      exact absurd hb (h3 j hj)
    · intro h; cases h.1
  | conv v =>
    exact ⟨fun h' => absurd h' (opaqueCase h.2), fun h' => by cases h'.1; exact absurd (by assumption) (h.1 _)⟩
  | comp ty elts => exact ⟨fun h' => absurd h' (opaqueCase h), fun h' => by cases h'.1⟩
  | kv k v => exact ⟨fun h' => absurd h' (opaqueCase h), fun h' => by cases h'.1⟩
  | addr v => exact ⟨fun h' => absurd h' (opaqueCase h), fun h' => by cases h'.1⟩
  | call args => exact ⟨fun h' => absurd h' (opaqueCase h), fun h' => by cases h'.1⟩

/-! ## Literals -/

/-- A path of several elements, as of a package inside a module. -/
def LongPath (p : Str) : Prop := '/' ∈ p ∧ Solid p ∧ p.head? ≠ some '[' ∧ p.head? ≠ some '*'

/-- A literal that states its type and that is read as it is meant: it has no keys that are
names, or it is of a struct type that is declared once or not in the program, the type
belongs to the package of the file or to one with a long path, and its values are clear. -/
inductive ClearLit (D : Decls) (known : Str → Bool) (ctx : Str) (imports : List (Str × Str)) : Ty → List Val → Prop
  | keyless {t : Ty} {elts : List Val} : (∀ (k : Str) (v : Val), Val.kv (some k) v ∉ elts) → ClearLit D known ctx imports t elts
  | declared {p n : Str} {fs : List (Str × Ty)} {elts : List Val} : (p = ctx ∨ LongPath p) → Declared D p n fs →
      (∀ (k : Str) (v : Val), Val.kv (some k) v ∈ elts → k ≠ [] ∧ Clear known ctx imports v) →
      ClearLit D known ctx imports (.named p n) elts
  | external {p n : Str} {elts : List Val} : (p = ctx ∨ LongPath p) → p ≠ [] → Name n → (∀ fs, (p, n, fs) ∉ D.structs) →
      (∀ (k : Str) (v : Val), Val.kv (some k) v ∈ elts → k ≠ [] ∧ Clear known ctx imports v) →
      ClearLit D known ctx imports (.named p n) elts

theorem afterLastDot_qual {p n : Str} (hn : '.' ∉ n) : afterLastDot (p ++ dot ++ n) = n := by
  have key : ∀ l m : Str, '.' ∉ l → (l ++ '.' :: m).takeWhile (· != '.') = l := by
    intro l m
    induction l with
    | nil => intro _; rfl
    | cons x xs ih =>
      intro h
      have hx : (x != '.') = true := by
        have : x ≠ '.' := by rintro rfl; exact h (List.mem_cons_self ..)
        simpa using this
      rw [List.cons_append, List.takeWhile_cons, if_pos hx, ih fun hc => h (List.mem_cons_of_mem _ hc)]
  unfold afterLastDot
  have : (p ++ dot ++ n).reverse = n.reverse ++ '.' :: p.reverse := by simp [dot]
  rw [this, key _ _ fun hc => hn (List.mem_reverse.1 hc), List.reverse_reverse]

theorem stripAll_eq {s : Str} (h1 : s.head? ≠ some '[') (h2 : s.head? ≠ some '*') : ∀ m, stripAll m s = s
  | 0 => rfl
  | m + 1 => by
    have hb : trimPrefix brackets s = s := trimPrefix_ne h1
    have hs : trimPrefix star s = s := trimPrefix_ne h2
    rw [stripAll]
    simp only [hb, hs, if_true]

theorem splitQualified_name {n : Str} (hn : Name n) : splitQualified n = ([], n) := by
  unfold splitQualified
  simp only [trimSpace_eq hn.solid, stripAll_eq (hn.head '[') (hn.head '*'), afterLastDot_eq (hn.no '.'), if_true]

theorem splitQualified_path {p n : Str} (hp : LongPath p) (hn : Name n) : splitQualified (p ++ dot ++ n) = (p, n) := by
  obtain ⟨h1, h2, h3, h4⟩ := hp
  have hp0 : p ≠ [] := List.ne_nil_of_mem h1
  have hh : (p ++ dot ++ n).head? = p.head? := by
    cases p with
    | nil => exact absurd rfl hp0
    | cons c p => rfl
  have hs : Solid (p ++ dot ++ n) := by
    intro c hc
    simp only [List.mem_append, dot, List.mem_singleton] at hc
    rcases hc with (hc | hc) | hc
    · exact h2 c hc
    · subst hc; decide
    · exact hn.solid c hc
  unfold splitQualified
  simp only [trimSpace_eq hs, stripAll_eq (hh ▸ h3) (hh ▸ h4), afterLastDot_qual (hn.no '.')]
  have hl : (p ++ dot ++ n).length = p.length + 1 + n.length := by simp [dot]; omega
  rw [if_neg (by omega)]
  have ht : (p ++ dot ++ n).take ((p ++ dot ++ n).length - n.length - 1) = p := by
    rw [hl, show p.length + 1 + n.length - n.length - 1 = p.length by omega, List.append_assoc, List.take_left' rfl]
  rw [ht, if_neg hp0, if_pos (by simpa using h1)]

theorem owner_of {W : World} {ctx p n : Str} (hp : p = ctx ∨ LongPath p) (hn : Name n) (hp0 : p ≠ []) :
    (if (splitQualified (fieldText ctx (.named p n))).1 = [] then ctx else (splitQualified (fieldText ctx (.named p n))).1) = p ∧
      (splitQualified (fieldText ctx (.named p n))).2 = n := by
  by_cases hpc : p = ctx
  · have e : fieldText ctx (.named p n) = n := if_pos hpc
    rw [e, splitQualified_name hn]
    simp [hpc]
  · have e : fieldText ctx (.named p n) = p ++ dot ++ n := if_neg hpc
    rw [e, splitQualified_path (hp.resolve_left hpc) hn]
    simp [hp0]

theorem mem_keyedOf {ctx : Str} {elts : List Val} {x : Str × Str} :
    x ∈ keyedOf ctx elts ↔ ∃ k v, Val.kv (some k) v ∈ elts ∧ x = (k, rendered ctx v) := by
  unfold keyedOf
  rw [List.mem_filterMap]
  constructor
  · rintro ⟨e, he, h⟩
    split at h
    · rename_i k v
      cases h
      exact ⟨k, v, he, rfl⟩
    · cases h
  · rintro ⟨k, v, h, rfl⟩
    exact ⟨_, h, rfl⟩

theorem instance_iff {D : Decls} {W : World} {ctx : Str} {imports : List (Str × Str)} {t : Ty} {elts : List Val}
    (hW : W.structs = recordedStructs D) (hk : ∀ s, W.known s = true → '.' ∈ s) (hc : ctx ≠ [])
    (he : ∀ p n k, W.entry p n k = true → W.anyEntry = true)
    (h : ClearLit D W.known ctx imports t elts) (r : Rec) :
    r ∈ instanceRecs W ctx imports (instanceOf ctx (t, elts)) ↔
      t = .named r.pkg r.type ∧ ∃ v, Val.kv (some r.field) v ∈ elts ∧ Dispatches D W.entry r.pkg r.type r.field ∧
        IsFn ctx v r.fn ∧ W.known r.fn = true := by
  have main : ∀ {p n : Str}, (p = ctx ∨ LongPath p) → Name n → p ≠ [] →
      (∀ (k : Str) (v : Val), Val.kv (some k) v ∈ elts → k ≠ [] ∧ Clear W.known ctx imports v) →
      (∀ k, (W.entry p n k = true ∨ isFuncType (fieldType (fieldsOf W p n) k) = true) ↔ Dispatches D W.entry p n k) →
      (fieldsOf W p n = [] → ∀ k, Dispatches D W.entry p n k → W.anyEntry = true) →
      (r ∈ instanceRecs W ctx imports (instanceOf ctx (.named p n, elts)) ↔
        Ty.named p n = .named r.pkg r.type ∧ ∃ v, Val.kv (some r.field) v ∈ elts ∧ Dispatches D W.entry r.pkg r.type r.field ∧
        IsFn ctx v r.fn ∧ W.known r.fn = true) := by
    intro p n hp hn hp0 hcl hdis hany
    obtain ⟨e1, e2⟩ := owner_of (W := W) hp hn hp0
    unfold instanceRecs instanceOf
    simp only [e1, e2]
    constructor
    · intro h
      split at h
      · cases h
      · obtain ⟨x, hx, h⟩ := List.mem_flatMap.1 h
        obtain ⟨k, v, hm, rfl⟩ := mem_keyedOf.1 hx
        split at h
        · rename_i hcond
          obtain ⟨f, hf, rfl⟩ := List.mem_map.1 h
          rw [Option.mem_toList] at hf
          obtain ⟨h1, h2⟩ := (rendered_iff hk hc (hcl k v hm).2 f).1 hf
          exact ⟨rfl, v, hm, (hdis k).1 hcond.2, h1, h2⟩
        · cases h
    · rintro ⟨h0, v, hm, hd, hfn, hkn⟩
      cases h0
      have hx := mem_keyedOf (ctx := ctx).2 ⟨_, _, hm, rfl⟩
      rw [if_neg]
      · refine List.mem_flatMap.2 ⟨_, hx, ?_⟩
        rw [if_pos ⟨(hcl _ v hm).1, (hdis _).2 hd⟩]
        refine List.mem_map.2 ⟨r.fn, ?_, rfl⟩
        rw [Option.mem_toList]
        exact (rendered_iff hk hc (hcl _ v hm).2 _).2 ⟨hfn, hkn⟩
      · rintro (h | ⟨h1, h2⟩)
        · rw [h] at hx; cases hx
        · rw [hany h1 _ hd] at h2; cases h2
  cases h with
  | keyless h =>
    have : keyedOf ctx elts = [] := by
      cases hx : keyedOf ctx elts with
      | nil => rfl
      | cons x xs =>
        obtain ⟨k, v, hm, _⟩ := mem_keyedOf.1 (show x ∈ keyedOf ctx elts by rw [hx]; exact List.mem_cons_self ..)
        exact absurd hm (h k v)
    constructor
    · intro hr
      unfold instanceRecs instanceOf at hr
      simp only [this, true_or, if_true] at hr
      cases hr
    · rintro ⟨_, v, hm, _⟩
      exact absurd hm (h _ _)
  | @declared p n fs _ hp hd hcl =>
    refine main hp hd.name hd.pkg hcl (fun k => dispatches_iff hW hd) ?_
    intro h0
    rw [fieldsOf_declared hW hd, List.map_eq_nil_iff] at h0
    exact absurd h0 hd.fields
  | @external p n _ hp hp0 hn hno hcl =>
    have hf := fieldsOf_external hW hno
    refine main hp hn hp0 hcl ?_ ?_
    · intro k
      rw [hf]
      constructor
      · rintro (h | h)
        · exact .inr h
        · exact absurd h (by show ¬ isFuncType [] = true; decide)
      · rintro (⟨fs, t, h1, _⟩ | h)
        · exact absurd h1 (hno _)
        · exact .inl h
    · rintro _ k (⟨fs, t, h1, _⟩ | h)
      · exact absurd h1 (hno _)
      · exact he _ _ _ h

/-! ## The index -/

theorem mem_dedupSorted : ∀ (l : List String) (x : String), x ∈ dedupSorted l ↔ x ∈ l
  | [], _ => Iff.rfl
  | [_], _ => Iff.rfl
  | s :: t :: rest, x => by
    rw [dedupSorted]
    split
    · rename_i h
      subst h
      rw [mem_dedupSorted (s :: rest) x]
      simp
    · rw [List.mem_cons, mem_dedupSorted (t :: rest) x, List.mem_cons (a := x) (b := s)]

theorem dedupSorted_strict : ∀ (l : List String), l.Pairwise (fun a b => a ≤ b) →
    (dedupSorted l).Pairwise (fun a b => a ≤ b ∧ a ≠ b)
  | [], _ => List.Pairwise.nil
  | [s], _ => List.pairwise_singleton ..
  | s :: t :: rest, h => by
    rw [List.pairwise_cons] at h
    rw [dedupSorted]
    split
    · exact dedupSorted_strict _ h.2
    · rename_i hne
      rw [List.pairwise_cons]
      refine ⟨?_, dedupSorted_strict _ h.2⟩
      intro x hx
      rw [mem_dedupSorted] at hx
      refine ⟨h.1 x hx, ?_⟩
      rintro rfl
      rcases List.mem_cons.1 hx with rfl | hx
      · exact hne rfl
      · have h1 := h.1 t (List.mem_cons_self ..)
        have h2 := (List.pairwise_cons.1 h.2).1 _ hx
        exact hne (String.le_antisymm h1 h2)

/-- A receiver type as recorded for a call: with or without pointer and package. -/
inductive Receives (p n : Str) : Str → Prop
  | bare : Receives p n n
  | ptr : Receives p n ('*' :: n)
  | qual : p.head? ≠ some '*' → Receives p n (p ++ dot ++ n)
  | ptrQual : Receives p n ('*' :: (p ++ dot ++ n))

theorem Receives.name {p n recv : Str} (h : Receives p n recv) (hn : Name n) :
    trimPrefix star recv ≠ [] ∧ afterLastDot (trimPrefix star recv) = n := by
  have hs : ∀ s : Str, trimPrefix star ('*' :: s) = s := by intro s; simp [trimPrefix, star, List.isPrefixOf]
  cases h with
  | bare =>
    have e : trimPrefix star n = n := trimPrefix_ne (hn.head '*')
    rw [e]; exact ⟨hn.1, afterLastDot_eq (hn.no '.')⟩
  | ptr => rw [hs]; exact ⟨hn.1, afterLastDot_eq (hn.no '.')⟩
  | qual hp =>
    have e : trimPrefix star (p ++ dot ++ n) = p ++ dot ++ n := by
      apply trimPrefix_ne
      cases p with
      | nil => simp [dot]
      | cons c p => exact hp
    rw [e]; exact ⟨by simp [dot], afterLastDot_qual (hn.no '.')⟩
  | ptrQual => rw [hs]; exact ⟨by simp [dot], afterLastDot_qual (hn.no '.')⟩

theorem mem_keysFor {W : World} {files : List File} {calls : List (Str × Arg)} {p n recv k f : Str}
    (hr : Receives p n recv) (hn : Name n) (hp : p ≠ []) (hk : k ≠ []) :
    String.ofList f ∈ keysFor W files calls p recv k ↔ (⟨p, n, k, f⟩ : Rec) ∈ allRecs W files calls := by
  obtain ⟨h1, h2⟩ := hr.name hn
  unfold keysFor
  simp only [h2]
  rw [if_neg (by rintro (h | h | h); exact h1 h; exact hp h; exact hk h), mem_dedupSorted, mem_sortStrings, List.mem_map]
  constructor
  · rintro ⟨x, hx, hf⟩
    obtain ⟨hx1, hx2⟩ := List.mem_filter.1 hx
    simp only [Bool.and_eq_true, beq_iff_eq] at hx2
    have := String.ofList_injective hf
    obtain ⟨a, b, c, d⟩ := x
    simp only at hx2 this
    obtain ⟨⟨rfl, rfl⟩, rfl⟩ := hx2
    subst this
    exact hx1
  · intro h
    exact ⟨_, List.mem_filter.2 ⟨h, by simp⟩, rfl⟩

theorem mem_literalsAll_cons : ∀ vs : List Val, literalsAll vs = vs.flatMap literalsIn
  | [] => rfl
  | v :: vs => by rw [literalsAll, mem_literalsAll_cons vs]; rfl

/-- The program is written as the walk reads it. -/
structure ReadAsMeant (D : Decls) (W : World) (srcs : List Source) : Prop where
  structs : W.structs = recordedStructs D
  keys : ∀ s, W.known s = true → '.' ∈ s
  fields : ∀ s ∈ D.structs, ∀ f ∈ s.2.2, f.1 ≠ []
  entries : ∀ p n k, W.entry p n k = true → W.anyEntry = true
  pkgs : ∀ s ∈ srcs, s.pkg ≠ []
  plain : ∀ s ∈ srcs, ∀ v ∈ s.assigned ++ s.passed, Plain D W.known s.pkg 0 none v
  literals : ∀ s ∈ srcs, ∀ t elts, (t, elts) ∈ literalsAll s.values → ClearLit D W.known s.pkg s.imports t elts

theorem allRecs_iff {D : Decls} {W : World} {srcs : List Source} (h : ReadAsMeant D W srcs) {p n k f : Str} :
    (⟨p, n, k, f⟩ : Rec) ∈ allRecs W (srcs.map fileOf) (callsOf srcs) ↔
      (HoldsDirectly D W.entry srcs p n k f ∨ HoldsLocally D W.entry srcs p n k f) ∧ W.known f = true := by
  unfold allRecs callsOf
  simp only [List.mem_append, List.mem_flatMap, List.mem_map]
  constructor
  · rintro (⟨fl, ⟨s, hs, rfl⟩, h1 | h1⟩ | ⟨c, ⟨s, hs, v, hv, rfl⟩, h1⟩)
    · obtain ⟨inst, hi, h1⟩ := h1
      obtain ⟨⟨t, elts⟩, hl, rfl⟩ := List.mem_map.1 hi
      obtain ⟨e, v, hv, hd, hf, hkn⟩ := (instance_iff h.structs h.keys (h.pkgs s hs) h.entries (h.literals s hs t elts hl) _).1 h1
      simp only at e
      subst e
      exact ⟨.inl ⟨s, hs, elts, v, hl, hv, hd, hf⟩, hkn⟩
    · obtain ⟨a, ha, h1⟩ := h1
      obtain ⟨v, hv, rfl⟩ := List.mem_map.1 ha
      have hv' : v ∈ s.assigned ++ s.passed := List.mem_append.2 (.inl hv)
      obtain ⟨h2, h3⟩ := (walk_iff h.structs h.keys (h.pkgs s hs) h.fields (h.plain s hs v hv') _ trivial _).1 h1
      exact ⟨.inr ⟨s, hs, v, hv', h2⟩, h3⟩
    · have hv' : v ∈ s.assigned ++ s.passed := List.mem_append.2 (.inr hv)
      obtain ⟨h2, h3⟩ := (walk_iff h.structs h.keys (h.pkgs s hs) h.fields (h.plain s hs v hv') _ trivial _).1 h1
      exact ⟨.inr ⟨s, hs, v, hv', h2⟩, h3⟩
  · rintro ⟨⟨s, hs, elts, v, hl, hv, hd, hf⟩ | ⟨s, hs, v, hv, h2⟩, hkn⟩
    · refine .inl ⟨fileOf s, ⟨s, hs, rfl⟩, .inl ⟨_, List.mem_map.2 ⟨_, hl, rfl⟩, ?_⟩⟩
      exact (instance_iff h.structs h.keys (h.pkgs s hs) h.entries (h.literals s hs _ elts hl) _).2 ⟨rfl, v, hv, hd, hf, hkn⟩
    · have hw := (walk_iff h.structs h.keys (h.pkgs s hs) h.fields (h.plain s hs v hv) ⟨[], []⟩ trivial _).2 ⟨h2, hkn⟩
      rcases List.mem_append.1 hv with hv | hv
      · exact .inl ⟨fileOf s, ⟨s, hs, rfl⟩, .inr ⟨_, List.mem_map.2 ⟨v, hv, rfl⟩, hw⟩⟩
      · exact .inr ⟨_, ⟨s, hs, v, hv, rfl⟩, hw⟩

/-- A call through a field reaches exactly the functions, among those with calls of their
own, that the program stores in that field: directly in a literal anywhere, or in an
expression that a function assigns or passes on. -/
theorem C85_exact_partial {D : Decls} {W : World} {srcs : List Source} (h : ReadAsMeant D W srcs) {p n recv k f : Str}
    (hr : Receives p n recv) (hn : Name n) (hp : p ≠ []) (hk : k ≠ []) :
    String.ofList f ∈ resolve W srcs p recv k ↔
      (HoldsDirectly D W.entry srcs p n k f ∨ HoldsLocally D W.entry srcs p n k f) ∧ W.known f = true := by
  unfold resolve
  rw [mem_keysFor hr hn hp hk, allRecs_iff h]

/-- The functions a library calls: exactly those stored in a field that is configured as
an entrypoint. -/
theorem C85_entrypoints_partial {D : Decls} {W : World} {srcs : List Source} (h : ReadAsMeant D W srcs) (f : Str) :
    String.ofList f ∈ entryKeys W (srcs.map fileOf) (callsOf srcs) ↔
      ∃ p n k, W.entry p n k = true ∧ (HoldsDirectly D W.entry srcs p n k f ∨ HoldsLocally D W.entry srcs p n k f) ∧
        W.known f = true := by
  unfold entryKeys
  rw [mem_dedupSorted, mem_sortStrings, List.mem_map]
  constructor
  · rintro ⟨⟨p, n, k, g⟩, hx, hf⟩
    obtain ⟨hx1, hx2⟩ := List.mem_filter.1 hx
    have := String.ofList_injective hf
    simp only at this
    subst this
    exact ⟨p, n, k, hx2, (allRecs_iff h).1 hx1⟩
  · rintro ⟨p, n, k, he, h1⟩
    exact ⟨⟨p, n, k, f⟩, List.mem_filter.2 ⟨(allRecs_iff h).2 h1, he⟩, rfl⟩

/-- Each function once, in alphabetical order. -/
theorem C85_each_once (W : World) (srcs : List Source) (p recv k : Str) :
    (resolve W srcs p recv k).Pairwise (fun a b => a ≤ b ∧ a ≠ b) := by
  unfold resolve keysFor
  simp only
  split
  · exact List.Pairwise.nil
  · exact dedupSorted_strict _ (sortStrings_sorted _)

/-- The order in which files are visited does not matter. -/
theorem C85_order (W : World) {srcs srcs' : List Source} (h : srcs.Perm srcs') (p recv k : Str) :
    resolve W srcs p recv k = resolve W srcs' p recv k := by
  unfold resolve keysFor
  simp only
  have hr : (allRecs W (srcs.map fileOf) (callsOf srcs)).Perm (allRecs W (srcs'.map fileOf) (callsOf srcs')) := by
    unfold allRecs callsOf
    exact ((h.map fileOf).flatMap_right _).append ((h.flatMap_right _).flatMap_right _)
  split
  · rfl
  · rw [sortStrings_eq_of_perm ((hr.filter _).map _)]

theorem smallest_perm {l l' : List Str} (h : l.Perm l') : smallest l = smallest l' := by
  unfold smallest
  rw [sortStrings_eq_of_perm (h.map _)]

/-- The order in which the imports of a file are visited does not matter. -/
theorem C85_import_order (W : World) (srcs : List Source) (g : Source → List (Str × Str)) (hg : ∀ s ∈ srcs, (g s).Perm s.imports)
    (p recv k : Str) :
    resolve W (srcs.map fun s => { s with imports := g s }) p recv k = resolve W srcs p recv k := by
  have key : ∀ s ∈ srcs, ∀ v, keyFromRendered W.known s.pkg (g s) v = keyFromRendered W.known s.pkg s.imports v := by
    intro s hs v
    unfold keyFromRendered
    split
    · rfl
    · simp only
      split
      · rfl
      · exact smallest_perm (((hg s hs).filter _).filterMap _)
  have inst : ∀ s ∈ srcs, ∀ i, instanceRecs W s.pkg (g s) i = instanceRecs W s.pkg s.imports i := by
    intro s hs i
    unfold instanceRecs
    simp only [key s hs]
  have recs : allRecs W ((srcs.map fun s => { s with imports := g s }).map fileOf) (callsOf (srcs.map fun s => { s with imports := g s })) =
      allRecs W (srcs.map fileOf) (callsOf srcs) := by
    have h1 : callsOf (srcs.map fun s => { s with imports := g s }) = callsOf srcs := by
      unfold callsOf
      rw [List.flatMap_map]
    rw [h1]
    unfold allRecs
    congr 1
    rw [List.map_map, List.flatMap_map, List.flatMap_map]
    clear h1
    induction srcs with
    | nil => rfl
    | cons s srcs ih =>
      rw [List.flatMap_cons, List.flatMap_cons, ih (fun s hs => hg s (List.mem_cons_of_mem _ hs))
        (fun s hs => key s (List.mem_cons_of_mem _ hs)) (fun s hs => inst s (List.mem_cons_of_mem _ hs))]
      congr 2
      show List.flatMap (instanceRecs W s.pkg (g s)) _ = List.flatMap (instanceRecs W s.pkg s.imports) _
      rw [funext (inst s (List.mem_cons_self ..))]
      rfl
  unfold resolve keysFor
  rw [recs]

/-! ## Non-vacuity and counterexamples -/

namespace Example

def cli : Str := "m/cli".toList
def app : Str := "m/app".toList
def command : Str := "Command".toList
def action : Str := "Action".toList
def sub : Str := "Sub".toList
def run : Str := "run".toList
def serve : Str := "serve".toList

def cmd : Ty := .named cli command

/-- `type Command struct { Action func(); Sub []*Command }`. -/
def decls : Decls := ⟨[(cli, command, [(action, .func), (sub, .list (.ptr cmd))])], [], []⟩

def keyRun : Str := "m/app.run".toList
def keyServe : Str := "m/app.serve".toList

def world (D : Decls) (keys : List Str) : World :=
  ⟨recordedStructs D, fun s => keys.contains s, fun _ _ _ => false, false⟩

def fnRun : Val := .fn app "app".toList run
def fnServe : Val := .fn app "app".toList serve

/-- `{Action: v}`, without a type. -/
def elided (v : Val) : Val := .comp none [.kv (some action) v]

/-- In a function: `c := &cli.Command{Action: serve, Sub: []*cli.Command{{Action: run}}}`. -/
def value : Val := .addr (.comp (some cmd) [.kv (some action) fnServe, .kv (some sub) (.comp (some (.list (.ptr cmd))) [elided fnRun])])

def src (assigned elsewhere : List Val) : Source := ⟨app, [(cli, cli)], assigned, [], elsewhere⟩

theorem name_of {s : Str} (h : (!s.isEmpty && s.all (fun c => c.isAlphanum || c == '_') && s != ['f', 'u', 'n', 'c']) = true) : Name s := by
  simp only [Bool.and_eq_true, List.all_eq_true, Bool.or_eq_true, beq_iff_eq, bne_iff_ne, ne_eq, Bool.not_eq_true',
    List.isEmpty_eq_false_iff] at h
  exact ⟨h.1.1, h.1.2, h.2⟩

theorem declared : Declared decls cli command [(action, .func), (sub, .list (.ptr cmd))] where
  pkg := by decide
  name := name_of (by decide)
  mem := List.mem_singleton.2 rfl
  once := by
    intro s hs _ _
    cases List.mem_singleton.1 hs
    rfl
  fields := by simp
  distinct := by decide
  types := by
    intro f hf
    simp only [List.mem_cons, List.not_mem_nil, or_false] at hf
    rcases hf with rfl | rfl
    · exact ⟨trivial, fun _ => rfl⟩
    · exact ⟨trivial, fun h => by cases h⟩
  struct := by intro u h; cases h

def W0 : World := world decls [keyRun, keyServe]

theorem plainFn (f : Val) (hf : f = fnRun ∨ f = fnServe) (d : Nat) (exp : Option Ty) : Plain decls W0.known app d exp f := by
  rcases hf with rfl | rfl
  · exact .fn (by decide) (name_of (by decide))
  · exact .fn (by decide) (name_of (by decide))

theorem clearFn (f : Val) (hf : f = fnRun ∨ f = fnServe) (imports : List (Str × Str)) : Clear W0.known app imports f := by
  rcases hf with rfl | rfl
  · exact ⟨name_of (by decide), .inl rfl⟩
  · exact ⟨name_of (by decide), .inl rfl⟩

theorem cmd_readable : Readable cmd := .named (by decide) (name_of (by decide))

theorem plainValue : Plain decls W0.known app 0 none value := by
  refine .addr (by decide) (.keyed (by decide) (.stated _ _) declared ?_ ?_ ?_)
  · intro e he
    simp only [List.mem_cons, List.not_mem_nil, or_false] at he
    rcases he with rfl | rfl <;> exact ⟨_, _, rfl⟩
  · intro k v hv
    simp only [List.mem_cons, List.not_mem_nil, or_false] at hv
    rcases hv with hv | hv <;> cases hv <;> decide
  · intro k v hv
    simp only [List.mem_cons, List.not_mem_nil, or_false] at hv
    rcases hv with hv | hv <;> cases hv
    · exact plainFn _ (.inr rfl) _ _
    · refine .list (by decide) (.inl rfl) (.ptr cmd_readable) ?_ ?_ ?_
      · intro k v hv; cases List.mem_singleton.1 hv
      · intro k v hv; cases List.mem_singleton.1 hv
      · intro e he _
        cases List.mem_singleton.1 he
        refine .keyed (by decide) (.elidedPtr _) declared ?_ ?_ ?_
        · intro e he
          cases List.mem_singleton.1 he
          exact ⟨_, _, rfl⟩
        · intro k v hv
          cases List.mem_singleton.1 hv
          decide
        · intro k v hv
          cases List.mem_singleton.1 hv
          exact plainFn _ (.inl rfl) _ _

theorem readAsMeant : ReadAsMeant decls W0 [src [value] []] where
  structs := rfl
  keys := by
    intro s hs
    simp only [W0, world, List.contains_iff_mem, List.mem_cons, List.not_mem_nil, or_false] at hs
    rcases hs with rfl | rfl <;> decide
  fields := by
    intro s hs f hf
    cases List.mem_singleton.1 hs
    simp only [List.mem_cons, List.not_mem_nil, or_false] at hf
    rcases hf with rfl | rfl <;> exact (by decide)
  entries := by intro p n k h; cases h
  pkgs := by
    intro s hs
    cases List.mem_singleton.1 hs
    decide
  plain := by
    intro s hs v hv
    cases List.mem_singleton.1 hs
    cases List.mem_singleton.1 (show v ∈ [value] from hv)
    exact plainValue
  literals := by
    intro s hs t elts hl
    cases List.mem_singleton.1 hs
    have : (t, elts) ∈ [(cmd, [.kv (some action) fnServe, .kv (some sub) (.comp (some (.list (.ptr cmd))) [elided fnRun])]),
      (Ty.list (.ptr cmd), [elided fnRun])] := hl
    simp only [List.mem_cons, List.not_mem_nil, or_false] at this
    rcases this with h | h
    · cases h
      refine .declared (.inr ⟨by decide, by unfold Solid; decide, by decide, by decide⟩) declared ?_
      intro k v hv
      simp only [List.mem_cons, List.not_mem_nil, or_false] at hv
      rcases hv with hv | hv <;> cases hv
      · exact ⟨by decide, clearFn _ (.inr rfl) _⟩
      · exact ⟨by decide, (by decide : W0.known (app ++ dot ++ ['(', ')']) = false)⟩
    · cases h
      refine .keyless ?_
      intro k v hv
      cases List.mem_singleton.1 hv

/-- Both functions are found, the nested one too. -/
example : resolve W0 [src [value] []] cli "*Command".toList action = ["m/app.run", "m/app.serve"] := by decide +kernel

example : HoldsLocally decls W0.entry [src [value] []] cli command action keyRun :=
  ((C85_exact_partial readAsMeant (p := cli) (n := command) (recv := '*' :: command) (k := action) (f := keyRun) .ptr
    (name_of (by decide)) (by decide) (by decide)).1 (by decide +kernel)).1.resolve_left (by
      rintro ⟨s, hs, elts, v, hl, hv, _, hf⟩
      cases List.mem_singleton.1 hs
      have : (Ty.named cli command, elts) ∈ [(cmd, [.kv (some action) fnServe, .kv (some sub) (.comp (some (.list (.ptr cmd))) [elided fnRun])]),
        (Ty.list (.ptr cmd), [elided fnRun])] := hl
      simp only [List.mem_cons, List.not_mem_nil, or_false] at this
      rcases this with h | h <;> cases h
      simp only [List.mem_cons, List.not_mem_nil, or_false] at hv
      rcases hv with hv | hv
      · cases hv
        generalize h : keyRun = kr at hf
        cases hf
        exact absurd h (by decide)
      · cases hv)

/-- A function that is stored in a field although calls of the field are not seen to reach it. -/
def Lost (D : Decls) (W : World) (srcs : List Source) (p n k f : Str) : Prop :=
  Holds D W.entry srcs p n k f ∧ W.known f = true ∧ String.ofList f ∉ resolve W srcs p n k

/-- A function that calls of the field are seen to reach although it is not stored there. -/
def Wrong (D : Decls) (W : World) (srcs : List Source) (p n k f : Str) : Prop :=
  ¬ Holds D W.entry srcs p n k f ∧ String.ofList f ∈ resolve W srcs p n k

theorem callable : Dispatches decls W0.entry cli command action :=
  .inl ⟨_, .func, List.mem_singleton.2 rfl, List.mem_cons_self .., .func⟩

theorem isRun : IsFn app fnRun keyRun := .fn app "app".toList run

theorem stored_elided {entry : Str → Str → Str → Bool} {D : Decls} {exp : Option Ty} (h : LitOf exp none cmd)
    (hd : Dispatches D entry cli command action) : Stored D entry app exp (elided fnRun) ⟨cli, command, action, keyRun⟩ :=
  .keyed h (List.mem_cons_self ..) hd isRun

/-- `type ActionFunc func()`, `type Command struct { Action ActionFunc }`. -/
def namedDecls : Decls := ⟨[(cli, command, [(action, .named cli "ActionFunc".toList)])], [(cli, "ActionFunc".toList)], []⟩

def direct (v : Val) : Val := .addr (.comp (some cmd) [.kv (some action) v])

theorem stored_direct {D : Decls} {entry : Str → Str → Str → Bool} {v : Val} {f : Str}
    (hd : Dispatches D entry cli command action) (hf : IsFn app v f) : Stored D entry app none (direct v) ⟨cli, command, action, f⟩ :=
  .addr (.keyed (.stated _ _) (List.mem_cons_self ..) hd hf)

theorem holds_assigned {D : Decls} {entry : Str → Str → Str → Bool} {v : Val} {p n k f : Str}
    (h : Stored D entry app none v ⟨p, n, k, f⟩) : Holds D entry [src [v] []] p n k f :=
  ⟨_, List.mem_cons_self .., v, List.mem_cons_self .., h⟩

theorem holds_elsewhere {D : Decls} {entry : Str → Str → Str → Bool} {v : Val} {p n k f : Str}
    (h : Stored D entry app none v ⟨p, n, k, f⟩) : Holds D entry [src [] [v]] p n k f :=
  ⟨_, List.mem_cons_self .., v, List.mem_cons_self .., h⟩

/-- A field of a named function type is not taken for one that holds functions. -/
theorem C85_named_type_lost : Lost namedDecls (world namedDecls [keyRun]) [src [direct fnRun] []] cli command action keyRun :=
  ⟨holds_assigned (stored_direct (.inl ⟨_, _, List.mem_singleton.2 rfl, List.mem_cons_self .., .named (List.mem_cons_self ..)⟩) isRun),
    by decide, by decide +kernel⟩

/-- A function converted to a named type, `Action: ActionFunc(run)`, is lost. -/
theorem C85_conversion_lost : Lost decls W0 [src [direct (.conv fnRun)] []] cli command action keyRun :=
  ⟨holds_assigned (stored_direct callable (.conv isRun)), by decide, by decide +kernel⟩

/-- The elements of a map, `map[string]*cli.Command{"run": {Action: run}}`, are lost. -/
theorem C85_map_lost :
    Lost decls W0 [src [.comp (some (.map (.ptr cmd))) [.kv none (elided fnRun)]] []] cli command action keyRun :=
  ⟨holds_assigned (.element (.stated _ _) (.map _) (.inr ⟨none, List.mem_cons_self ..⟩) (stored_elided (.elidedPtr _) callable)),
    by decide, by decide +kernel⟩

/-- `type Commands []*Command`. -/
def definedDecls : Decls := { decls with defined := [(cli, "Commands".toList, .list (.ptr cmd))] }

/-- The elements of a named slice type, `cli.Commands{{Action: run}}`, are lost. -/
theorem C85_named_slice_lost :
    Lost definedDecls (world definedDecls [keyRun]) [src [.comp (some (.named cli "Commands".toList)) [elided fnRun]] []] cli command action keyRun :=
  ⟨holds_assigned (.element (.stated _ _) (.defined (List.mem_cons_self ..) (.list _)) (.inl (List.mem_cons_self ..))
      (stored_elided (.elidedPtr _) (.inl ⟨_, .func, List.mem_singleton.2 rfl, List.mem_cons_self .., .func⟩))),
    by decide, by decide +kernel⟩

/-- The elements of a slice outside of functions, `var cmds = []*cli.Command{{Action: run}}`,
are lost, and so they are in methods and in returns. -/
theorem C85_package_level_lost :
    Lost decls W0 [src [] [.comp (some (.list (.ptr cmd))) [elided fnRun]]] cli command action keyRun :=
  ⟨holds_elsewhere (.element (.stated _ _) (.list _) (.inl (List.mem_cons_self ..)) (stored_elided (.elidedPtr _) callable)),
    by decide, by decide +kernel⟩

/-- Fields given by position outside of functions are lost. -/
theorem C85_package_positional_lost :
    Lost decls W0 [src [] [.comp (some cmd) [fnRun, .comp (some (.list (.ptr cmd))) []]]] cli command action keyRun :=
  ⟨holds_elsewhere (.positional (i := 0) (.stated _ _) (List.mem_singleton.2 rfl) rfl rfl callable isRun),
    by decide, by decide +kernel⟩

/-- A value wrapped in calls `n` times. -/
def wrapped : Nat → Val → Val
  | 0, v => v
  | n + 1, v => .call [wrapped n v]

theorem stored_wrapped {v : Val} {r : Rec} (h : Stored decls W0.entry app none v r) : ∀ n, Stored decls W0.entry app none (wrapped n v) r
  | 0 => h
  | n + 1 => .call (List.mem_cons_self ..) (stored_wrapped h n)

/-- A literal thirteen levels deep is lost, unless it is direct. -/
theorem C85_deep_lost :
    Lost decls W0 [src [wrapped 12 (.comp (some (.list (.ptr cmd))) [elided fnRun])] []] cli command action keyRun :=
  ⟨holds_assigned (stored_wrapped (.element (.stated _ _) (.list _) (.inl (List.mem_cons_self ..)) (stored_elided (.elidedPtr _) callable)) 12),
    by decide, by decide +kernel⟩

/-- A type of a package whose path has one element. -/
def shortCmd : Ty := .named "cli".toList command
def shortDecls : Decls := ⟨[("cli".toList, command, [(action, .func)])], [], []⟩

/-- Outside of functions, a literal of a type of another package whose path has one element
is lost. -/
theorem C85_short_path_lost :
    Lost shortDecls (world shortDecls [keyRun]) [src [] [.comp (some shortCmd) [.kv (some action) fnRun]]] "cli".toList command action keyRun :=
  ⟨holds_elsewhere (.keyed (.stated _ _) (List.mem_cons_self ..)
      (.inl ⟨_, .func, List.mem_singleton.2 rfl, List.mem_cons_self .., .func⟩) isRun),
    by decide, by decide +kernel⟩

def keyWeb : Str := "m/go-web.Run".toList
def fnWeb : Val := .fn "m/go-web".toList "web".toList "Run".toList

/-- Outside of functions, a function of a package whose name is not the last element of its
path is lost. -/
theorem C85_package_name_lost :
    Lost decls (world decls [keyWeb]) [⟨app, [(cli, cli), ("m/go-web".toList, "m/go-web".toList)], [], [], [direct fnWeb]⟩] cli command action keyWeb :=
  ⟨⟨_, List.mem_cons_self .., _, List.mem_cons_self .., stored_direct callable (.fn "m/go-web".toList "web".toList "Run".toList)⟩,
    by decide, by decide +kernel⟩

theorem not_holds {W : World} {v : Val} {f : Str} (hs : ∀ r, ¬ Stored decls W.entry app none v r)
    (hf : ¬ IsFn app v f) : ¬ Holds decls W.entry [src [direct v] []] cli command action f := by
  rintro ⟨s, hsrc, w, hw, h⟩
  cases List.mem_singleton.1 hsrc
  cases List.mem_singleton.1 (show w ∈ [direct v] from hw)
  cases h with
  | addr h =>
    cases h with
    | keyed _ hm _ hfn => cases List.mem_singleton.1 hm; exact hf hfn
    | positional _ _ _ h4 _ h6 =>
      cases List.mem_singleton.1 (List.mem_of_getElem? h4)
      cases h6
    | element hl he _ _ =>
      cases hl
      cases he with
      | defined h _ => cases h
    | value _ hm hst =>
      rcases hm with hm | ⟨k, hm⟩
      · cases List.mem_singleton.1 hm; cases hst
      · cases List.mem_singleton.1 hm; exact hs _ hst

/-- A local variable with the name of a function is taken for that function. -/
theorem C85_variable_wrong : Wrong decls W0 [src [direct (.var app run)] []] cli command action keyRun :=
  ⟨not_holds (fun _ h => by cases h) (fun h => by cases h), by decide +kernel⟩

/-- A field of some value, `h.run`, is taken for the function of that name. -/
theorem C85_field_wrong : Wrong decls W0 [src [direct (.field app "Handler".toList run)] []] cli command action keyRun :=
  ⟨not_holds (fun _ h => by cases h) (fun h => by cases h), by decide +kernel⟩

/-- A method without calls of its own is taken for the function of that name. -/
theorem C85_method_wrong : Wrong decls W0 [src [direct (.method app "Server".toList run)] []] cli command action keyRun :=
  ⟨not_holds (fun _ h => by cases h) (by
    intro h
    generalize e : keyRun = kr at h
    cases h
    exact absurd e (by decide)), by decide +kernel⟩

/-- Outside of functions, of two packages of the same name the first is taken: with
`a "m/a/web"` and `b "m/b/web"`, `Action: b.Run` is read as `a.Run`. -/
theorem C85_same_name_wrong :
    Wrong decls (world decls ["m/a/web.Run".toList, "m/b/web.Run".toList])
      [⟨app, [("a".toList, "m/a/web".toList), ("b".toList, "m/b/web".toList)], [], [], [direct (.fn "m/b/web".toList "web".toList "Run".toList)]⟩]
      cli command action "m/a/web.Run".toList := by
  refine ⟨?_, by decide +kernel⟩
  rintro ⟨s, hsrc, w, hw, h⟩
  cases List.mem_singleton.1 hsrc
  cases List.mem_singleton.1 (show w ∈ [direct _] from hw)
  generalize e : "m/a/web.Run".toList = kr at h
  cases h with
  | addr h =>
    cases h with
    | keyed _ hm _ hfn =>
      cases List.mem_singleton.1 hm
      cases hfn
      exact absurd e (by decide)
    | positional _ _ _ h4 _ h6 =>
      cases List.mem_singleton.1 (List.mem_of_getElem? h4)
      cases h6
    | element hl he _ _ =>
      cases hl
      cases he with
      | defined h _ => cases h
    | value _ hm hst =>
      rcases hm with hm | ⟨k, hm⟩
      · cases List.mem_singleton.1 hm; cases hst
      · cases List.mem_singleton.1 hm; cases hst

end Example

/-! ## Method values and maps -/

theorem afterLastDot_dot {q t : Str} (h : '.' ∉ t) : afterLastDot (q ++ dot ++ t) = t := by
  have h' : '.' ∉ t.reverse := fun c => h (List.mem_reverse.1 c)
  have key : ∀ l r : Str, '.' ∉ l → (l ++ '.' :: r).takeWhile (· != '.') = l := by
    intro l r
    induction l with
    | nil => intro _; rfl
    | cons c l ih =>
      intro hl
      have hc : (c != '.') = true := by
        simp only [bne_iff_ne]
        exact fun e => hl (by simp [e])
      rw [List.cons_append, List.takeWhile_cons, if_pos hc, ih fun h => hl (.tail _ h)]
  unfold afterLastDot
  rw [List.append_assoc, List.reverse_append, dot, List.singleton_append, List.reverse_cons, List.append_assoc, List.singleton_append,
    key _ _ h', List.reverse_reverse]

/-- **C85.** A method value, `h.Run`, is the method of the type of `h`, however the type is written: a pointer or not,
with its package before it or not. -/
theorem C85_method_value (known : Str → Bool) (ctx p m q t : Str) (x : Arg) (xt : Option Str) (hp : p ≠ []) (hm : m ≠ []) (ht : Name t)
    (hq : Solid q) (hs : q.head? ≠ some '*') (hb : q.head? ≠ some '[') (hq0 : q ≠ []) (hk : known (p ++ dot ++ t ++ dot ++ m) = true)
    (written : Str) (hw : written = t ∨ written = star ++ t ∨ written = q ++ dot ++ t ∨ written = star ++ (q ++ dot ++ t)) :
    keysOfValue known ctx (.sel x p m (some written) xt) = [p ++ dot ++ t ++ dot ++ m] := by
  have solid : Solid (q ++ dot ++ t) := by
    intro c hc
    rcases List.mem_append.1 hc with hc | hc
    · rcases List.mem_append.1 hc with hc | hc
      · exact hq c hc
      · simp only [dot, List.mem_singleton] at hc; subst hc; decide
    · exact ht.solid c hc
  have head : ∀ c, q.head? ≠ some c → (q ++ dot ++ t).head? ≠ some c := by
    intro c h
    cases q with
    | nil => exact absurd rfl hq0
    | cons a q => exact h
  have h1 : trimPrefix star (q ++ dot ++ t) = q ++ dot ++ t := trimPrefix_ne (head _ hs)
  have h2 : trimPrefix brackets (q ++ dot ++ t) = q ++ dot ++ t := trimPrefix_ne (head _ hb)
  have bare : bareTypeName written = t := by
    rcases hw with rfl | rfl | rfl | rfl
    · exact bare_name ht
    · exact bare_star ht
    · simp only [bareTypeName, trimSpace_eq solid, h1, h2, afterLastDot_dot (ht.no '.')]
    · have h3 : trimPrefix brackets (star ++ (q ++ dot ++ t)) = star ++ (q ++ dot ++ t) := trimPrefix_ne (by simp [star])
      have h4 : trimPrefix star (star ++ (q ++ dot ++ t)) = q ++ dot ++ t := by simp [trimPrefix, star, List.isPrefixOf]
      have h5 : trimSpace (star ++ (q ++ dot ++ t)) = star ++ (q ++ dot ++ t) := by
        apply trimSpace_eq
        intro c hc
        rcases List.mem_append.1 hc with hc | hc
        · simp only [star, List.mem_singleton] at hc; subst hc; decide
        · exact solid c hc
      simp only [bareTypeName, h5, h3, h4, h1, h2, afterLastDot_dot (ht.no '.')]
  simp only [keysOfValue, hm, if_false, hp, bare]
  rw [if_pos ⟨ht.1, hk⟩]

theorem elem_map {k t : Str} (hk : ']' ∉ k) : elementTypeName (['m', 'a', 'p', '['] ++ k ++ [']'] ++ t) = t := by
  have h1 : brackets.isPrefixOf (['m', 'a', 'p', '['] ++ k ++ [']'] ++ t) = false := by simp [brackets, List.isPrefixOf]
  have h2 : (['m', 'a', 'p', '['] : Str).isPrefixOf (['m', 'a', 'p', '['] ++ k ++ [']'] ++ t) = true := by simp [List.isPrefixOf]
  have h3 : (['m', 'a', 'p', '['] ++ k ++ [']'] ++ t).contains ']' = true := by simp
  have key : ∀ l r : Str, ']' ∉ l → (l ++ ']' :: r).dropWhile (· != ']') = ']' :: r := by
    intro l r
    induction l with
    | nil => intro _; simp
    | cons c l ih =>
      intro hl
      have hc : (c != ']') = true := by
        simp only [bne_iff_ne]
        exact fun e => hl (by simp [e])
      rw [List.cons_append, List.dropWhile_cons, if_pos hc, ih fun h => hl (.tail _ h)]
  have h4 : (['m', 'a', 'p', '['] ++ k ++ [']'] ++ t).dropWhile (· != ']') = ']' :: t := by
    have := key (['m', 'a', 'p', '['] ++ k) t (by simp [hk])
    simpa using this
  unfold elementTypeName
  rw [h1, h2, h3, h4]
  rfl

/-- **C85.** `App{Commands: map[string]Command{"run": {Action: run}}}`: a function in an element of a map is found when
the map is the value of a field declared with that map type. -/
theorem C85_map_in_field (W : World) (ctx p k t field fn : Str) (d : Nat) (hd : d + 1 ≤ 12) (hp : p ≠ []) (ht : Name t) (hk : ']' ∉ k)
    (hks : Solid k) (hkd : '.' ∉ k) (hfield : field ≠ []) (hstruct : ∀ s ∈ W.structs, '[' ∉ s.name)
    (hcall : W.entry p t field = true) (hfn : fn ≠ []) (hno : W.known fn = false) (hyes : W.known (p ++ dot ++ fn) = true) :
    ⟨p, t, field, p ++ dot ++ fn⟩ ∈ walk W ctx d ⟨p, ['m', 'a', 'p', '['] ++ k ++ [']'] ++ t⟩
      (.lit (some .other) [.kv none (.lit none [.kv (some field) (.ident p fn)])]) := by
  have hm : '.' ∉ (['m', 'a', 'p', '['] ++ k ++ [']'] ++ t) := by simp [hkd, ht.no '.']
  have hsol : Solid (['m', 'a', 'p', '['] ++ k ++ [']'] ++ t) := by
    intro c hc
    simp only [List.append_assoc, List.mem_append, List.mem_cons, List.not_mem_nil, or_false] at hc
    rcases hc with (rfl | rfl | rfl | rfl) | hc | rfl | hc <;> first | decide | exact hks c hc | exact ht.solid c hc
  have l1 : litTypeOf ctx ⟨p, ['m', 'a', 'p', '['] ++ k ++ [']'] ++ t⟩ (some .other) = ⟨p, ['m', 'a', 'p', '['] ++ k ++ [']'] ++ t⟩ := by
    unfold litTypeOf statedOr
    simp only [typeExprName, if_true, splitQualified_fst hsol hm, if_neg hp]
  have hb : bareTypeName (['m', 'a', 'p', '['] ++ k ++ [']'] ++ t) = ['m', 'a', 'p', '['] ++ k ++ [']'] ++ t := by
    have h1 : trimPrefix star (['m', 'a', 'p', '['] ++ k ++ [']'] ++ t) = ['m', 'a', 'p', '['] ++ k ++ [']'] ++ t := trimPrefix_ne (by simp)
    have h2 : trimPrefix brackets (['m', 'a', 'p', '['] ++ k ++ [']'] ++ t) = ['m', 'a', 'p', '['] ++ k ++ [']'] ++ t := trimPrefix_ne (by simp)
    simp only [bareTypeName, trimSpace_eq hsol, h1, h2, afterLastDot_eq hm]
  have hf : fieldsOf W p (['m', 'a', 'p', '['] ++ k ++ [']'] ++ t) = [] := by
    unfold fieldsOf
    rw [if_neg (by simp [hp])]
    have : W.structs.find? (fun s => s.pkg == p && s.name == (['m', 'a', 'p', '['] ++ k ++ [']'] ++ t) && !s.fields.isEmpty) = none := by
      rw [List.find?_eq_none]
      intro s hs hc
      simp only [Bool.and_eq_true, beq_iff_eq] at hc
      exact hstruct s hs (by rw [hc.1.2]; simp)
    rw [this]
  have hn : nextKeyed W ⟨p, ['m', 'a', 'p', '['] ++ k ++ [']'] ++ t⟩ [] = ⟨p, t⟩ := by
    unfold nextKeyed
    simp only [hb, hf]
    rw [if_pos (show fieldType [] [] = [] from rfl), elem_map hk]
  have l2 : litTypeOf ctx ⟨p, t⟩ none = ⟨p, t⟩ := by
    unfold litTypeOf statedOr
    simp only [splitQualified_fst ht.solid (ht.no '.'), if_true, if_neg hp]
  have hr : record W ctx ⟨p, t⟩ field (.ident p fn) = [⟨p, t, field, p ++ dot ++ fn⟩] := by
    unfold record
    simp only [bare_name ht]
    rw [if_pos ⟨hfield, .inl hcall⟩]
    simp only [keysOfValue, keyFromName, if_neg hp, if_neg hfn, hno, hyes]
    rfl
  rw [walk, if_neg (by omega), l1, walkElts]
  refine List.mem_append_left _ (List.mem_append_right _ ?_)
  rw [Option.getD_none, hn, walk, if_neg (by omega), l2, walkElts, Option.getD_some, hr]
  exact List.mem_append_left _ (List.mem_append_left _ (.head _))

/-- `map[string]Command{"run": {Action: run}}` in a field of that type, below a literal. -/
example : ∃ W : World, (⟨"app".toList, "Command".toList, "Action".toList, "app.run".toList⟩ : Rec) ∈
    walk W [] 1 ⟨"app".toList, "map[string]Command".toList⟩
      (.lit (some .other) [.kv none (.lit none [.kv (some "Action".toList) (.ident "app".toList "run".toList)])]) :=
  ⟨⟨[], fun s => s == "app.run".toList, fun _ _ _ => true, true⟩,
    C85_map_in_field _ [] "app".toList "string".toList "Command".toList "Action".toList "run".toList 1 (by decide) (by decide)
      ⟨by decide, by decide, by decide⟩ (by decide) (by unfold Solid; decide) (by decide) (by decide) (fun _ h => by cases h) rfl (by decide) (by decide) (by decide)⟩

example : keysOfValue (fun s => s == "app/api.Handler.Run".toList) [] (.sel (.ident [] "h".toList) "app/api".toList "Run".toList (some "*api.Handler".toList) none) =
    ["app/api.Handler.Run".toList] :=
  C85_method_value _ _ "app/api".toList "Run".toList "api".toList "Handler".toList _ _ (by decide) (by decide) ⟨by decide, by decide, by decide⟩
    (by unfold Solid; decide) (by decide) (by decide) (by decide) (by decide) _ (.inr (.inr (.inr (by decide))))

end Verif.FuncField
