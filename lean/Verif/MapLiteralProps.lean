import Verif.MapLiteralModel
import Verif.JsonValueProps

/-!
# C79, C80: what a literal and a map literal say about the response

JSON values (`J`) and the values a schema admits (`Conforms`) are those of C75.
-/

namespace Verif.MapLiteral

open Verif.Common
open Verif.SchemaGen (J Conforms Schema Comps)

/-! ## Specification: literals -/

/-- Decimal digits. -/
def Digits (s : Str) : Prop := s ≠ [] ∧ ∀ c ∈ s, '0' ≤ c ∧ c ≤ '9'

/-- The number the digits write. -/
def number (s : Str) : Nat := s.foldl (fun n c => 10 * n + (c.toNat - 48)) 0

/-- `0x1f`, `0b101`, `0o17`. -/
def Prefixed (s : Str) : Prop := ∃ p r, s = '0' :: p :: r ∧ p ∈ ['x', 'X', 'b', 'B', 'o', 'O']

/-- `1.5`, `.5`, `1e9`, `0x1p-2`: a floating-point literal. -/
def Floating (s : Str) : Prop :=
  (∀ c ∈ s, c ≠ '"' ∧ c ≠ '`' ∧ c ≠ '\'') ∧ (∃ c ∈ s, c ∈ ['.', 'e', 'E', 'p', 'P']) ∧
    (Prefixed s → 'p' ∈ s ∨ 'P' ∈ s)

/-- A string literal and the text between its quotes. -/
def Quoted (s : Str) (q : Char) (body : Str) : Prop := (q = '"' ∨ q = '`') ∧ s = q :: (body ++ [q])

/-- What a Go literal is written as in JSON. -/
inductive Sem (unq : Str → Option String) : Str → J → Prop where
  | decimal {s} (z : Int) : Digits s → 0 ≤ z → Sem unq s (.int z)
  | prefixed {s} (z : Int) : Prefixed s → ¬ Floating s → 0 ≤ z → Sem unq s (.int z)
  | whole {s} (z : Int) : Floating s → Sem unq s (.int z)
  | fraction {s} (d : String) : Floating s → Sem unq s (.dec d)
  | rune {s} (z : Int) : s.head? = some '\'' → Sem unq s (.int z)
  | text {s} (q : Char) (body : Str) (t : String) : Quoted s q body → unq s = some t → Sem unq s (.str t)

/-- The JSON values of the Go types literals are documented with.  (`interface{}` is documented as an object,
which no literal is.) -/
inductive IsOf : String → J → Prop where
  | int {ty z} : ty = "int" → IsOf ty (.int z)
  | uint {ty z} : ty = "uint" → 0 ≤ z → IsOf ty (.int z)
  | whole {ty z} : ty = "float64" → IsOf ty (.int z)
  | fraction {ty d} : ty = "float64" → IsOf ty (.dec d)
  | bool {ty b} : ty = "bool" → IsOf ty (.bool b)
  | text {ty s} : ty = "string" → IsOf ty (.str s)

/-- The text is that of a 64-bit integer, signed or not. -/
def IntLike (s : Str) : Prop :=
  (Digits s ∧ number s < 2 ^ 64) ∨ (∃ r, s = '+' :: r ∧ Digits r ∧ number r < 2 ^ 63) ∨
    (∃ r, s = '-' :: r ∧ Digits r ∧ number r ≤ 2 ^ 63)

/-- The text reads as a number, a boolean or nil. -/
def Valuelike (pf : Str → Bool) (s : Str) : Prop :=
  IntLike s ∨ pf s = true ∨ s = ['t', 'r', 'u', 'e'] ∨ s = ['f', 'a', 'l', 's', 'e'] ∨ s = ['n', 'i', 'l']

/-- `core` is `s` without the quotes at its ends. -/
def Core (s core : Str) : Prop :=
  ∃ pre post, s = pre ++ core ++ post ∧ (∀ c ∈ pre ++ post, c = '"' ∨ c = '`') ∧
    (∀ c, core.head? = some c → c ≠ '"' ∧ c ≠ '`') ∧ (∀ c, core.getLast? = some c → c ≠ '"' ∧ c ≠ '`')

/-- The literals that are read for what they are. -/
def Readable (pf : Str → Bool) (s : Str) : Prop :=
  (Digits s ∧ number s < 2 ^ 64) ∨ (Floating s ∧ pf s = true) ∨
    (∃ q body core, Quoted s q body ∧ Core body core ∧ ¬ Valuelike pf core)

/-! ## Lemmas: literals -/

theorem dropWhile_all {α} (p : α → Bool) : ∀ (l r : List α), (∀ x ∈ l, p x = true) → (l ++ r).dropWhile p = r.dropWhile p
  | [], r, _ => rfl
  | x :: l, r, h => by
    simp only [List.cons_append, List.dropWhile_cons, h x (List.mem_cons_self ..), if_true]
    exact dropWhile_all p l r fun y hy => h y (List.mem_cons_of_mem _ hy)

theorem dropWhile_head {α} (p : α → Bool) (l : List α) (h : ∀ x, l.head? = some x → p x = false) : l.dropWhile p = l := by
  cases l with
  | nil => rfl
  | cons a l => simp [h a rfl]

theorem head_append {α} (a b : List α) (h : a ≠ []) : (a ++ b).head? = a.head? := by
  cases a with
  | nil => exact absurd rfl h
  | cons x a => rfl

/-- Trimming finds the core. -/
theorem trim_eq (p : Char → Bool) (pre core post : Str) (h : ∀ c ∈ pre ++ post, p c = true)
    (hh : ∀ c, core.head? = some c → p c = false) (hl : ∀ c, core.getLast? = some c → p c = false) :
    trim p (pre ++ core ++ post) = core := by
  unfold trim
  rw [List.append_assoc, dropWhile_all p pre _ fun x hx => h x (by simp [hx])]
  cases hc : core with
  | nil =>
    have : (([] : Str) ++ post).dropWhile p = [] := by
      have := dropWhile_all p post [] fun x hx => h x (by simp [hx])
      simpa using this
    rw [this]
    rfl
  | cons a l =>
    rw [← hc]
    have hne : core ≠ [] := by rw [hc]; exact List.cons_ne_nil _ _
    rw [dropWhile_head p (core ++ post) (by rw [head_append _ _ hne]; exact hh)]
    rw [List.reverse_append, dropWhile_all p post.reverse _ fun x hx => h x (by simp at hx; simp [hx])]
    rw [dropWhile_head p core.reverse (by rw [List.head?_reverse]; exact hl), List.reverse_reverse]

theorem isQuote_iff (c : Char) : isQuote c = true ↔ c = '"' ∨ c = '`' := by
  simp [isQuote]

/-- Removing double quotes first changes nothing for the core. -/
theorem clean_quoted (body core : Str) (q : Char) (raw : Str) (hq : Quoted raw q body) (hc : Core body core) :
    trim isQuote (literalInfo raw) = core := by
  obtain ⟨hq, rfl⟩ := hq
  obtain ⟨pre, post, rfl, hpp, hh, hl⟩ := hc
  -- the ends of the literal without double quotes at both ends
  have hw : ∀ (l : Str), (∀ c ∈ l, c = '"' ∨ c = '`') → ∃ x y : Str, l = x ++ y ∧ (∀ c ∈ x, c = '"') ∧
      (∀ c, y.head? = some c → c ≠ '"') ∧ ∀ c ∈ y, c = '"' ∨ c = '`' := by
    intro l
    induction l with
    | nil => intro _; exact ⟨[], [], rfl, by simp, by simp, by simp⟩
    | cons a l ih =>
      intro h
      by_cases ha : a = '"'
      · obtain ⟨x, y, e, h1, h2, h3⟩ := ih fun c hc => h c (by simp [hc])
        exact ⟨a :: x, y, by simp [e], by simpa [ha] using h1, h2, h3⟩
      · exact ⟨[], a :: l, rfl, by simp, by intro c hc; simp at hc; rw [← hc]; exact ha, h⟩
  have hqm : ∀ c ∈ q :: pre, c = '"' ∨ c = '`' := by
    intro c hc
    rcases List.mem_cons.1 hc with rfl | hc
    · exact hq
    · exact hpp c (by simp [hc])
  have hpm : ∀ c ∈ (post ++ [q]).reverse, c = '"' ∨ c = '`' := by
    intro c hc
    simp at hc
    rcases hc with rfl | hc
    · exact hq
    · exact hpp c (by simp [hc])
  obtain ⟨x, y, e1, hx, hy, hy'⟩ := hw _ hqm
  obtain ⟨u, v, e2, hu, hv, hv'⟩ := hw _ hpm
  have e2' : post ++ [q] = v.reverse ++ u.reverse := by
    rw [← List.reverse_append, ← e2, List.reverse_reverse]
  have hraw : q :: (pre ++ core ++ post ++ [q]) = x ++ (y ++ core ++ v.reverse) ++ u.reverse := by
    have : q :: (pre ++ core ++ post ++ [q]) = (q :: pre) ++ core ++ (post ++ [q]) := by simp
    rw [this, e1, e2']
    simp
  rw [hraw]
  by_cases hcore : core = []
  · subst hcore
    -- everything is a quote
    have hall : ∀ c ∈ literalInfo (x ++ (y ++ [] ++ v.reverse) ++ u.reverse), c = '"' ∨ c = '`' := by
      intro c hc
      unfold literalInfo trim at hc
      have := List.mem_reverse.1 hc
      have := (List.dropWhile_suffix _).subset this
      have := List.mem_reverse.1 this
      have := (List.dropWhile_suffix _).subset this
      simp at this
      rcases this with h | h | h | h
      · exact Or.inl (hx c h)
      · exact hy' c h
      · exact hv' c h
      · exact Or.inl (hu c h)
    generalize literalInfo (x ++ (y ++ [] ++ v.reverse) ++ u.reverse) = l at hall
    have := trim_eq isQuote l [] []
      (by intro c hc; simp only [List.append_nil] at hc; exact (isQuote_iff c).2 (hall c hc)) (by simp) (by simp)
    simpa only [List.append_nil] using this
  · have hmid : literalInfo (x ++ (y ++ core ++ v.reverse) ++ u.reverse) = y ++ core ++ v.reverse := by
      unfold literalInfo
      apply trim_eq
      · intro c hc
        simp at hc
        rcases hc with h | h
        · simp [hx c h]
        · simp [hu c h]
      · intro c hc
        cases y with
        | nil =>
          rw [List.nil_append, head_append _ _ hcore] at hc
          simp [(hh c hc).1]
        | cons a y =>
          simp at hc
          have := hy a rfl
          rw [← hc]
          simpa using this
      · intro c hc
        rw [List.getLast?_eq_head?_reverse] at hc
        simp only [List.reverse_append, List.reverse_reverse] at hc
        cases v with
        | nil =>
          rw [List.nil_append, head_append _ _ (by simpa using hcore), List.head?_reverse] at hc
          simp [(hl c hc).1]
        | cons a v =>
          simp at hc
          have := hv a rfl
          rw [← hc]
          simpa using this
    rw [hmid]
    apply trim_eq
    · intro c hc
      simp at hc
      rcases hc with h | h
      · exact (isQuote_iff c).2 (hy' c h)
      · exact (isQuote_iff c).2 (hv' c h)
    · intro c hc
      have := hh c hc
      simp [isQuote, this.1, this.2]
    · intro c hc
      have := hl c hc
      simp [isQuote, this.1, this.2]

/-- Without quotes nothing is removed. -/
theorem clean_plain (raw : Str) (h : ∀ c ∈ raw, c ≠ '"' ∧ c ≠ '`') : trim isQuote (literalInfo raw) = raw := by
  have e1 : literalInfo raw = raw := by
    have := trim_eq (· == '"') [] raw [] (by simp)
      (by intro c hc; simp [(h c (List.mem_of_mem_head? hc)).1])
      (by intro c hc; simp [(h c (List.mem_of_getLast? hc)).1])
    simpa [literalInfo] using this
  rw [e1]
  have := trim_eq isQuote [] raw [] (by simp)
    (by intro c hc; have := h c (List.mem_of_mem_head? hc); simp [isQuote, this.1, this.2])
    (by intro c hc; have := h c (List.mem_of_getLast? hc); simp [isQuote, this.1, this.2])
  simpa using this

theorem isDigit_iff (c : Char) : isDigit c = true ↔ '0' ≤ c ∧ c ≤ '9' := by simp [isDigit]

theorem parseDigits_eq : ∀ (s : Str) (n : Nat), (∀ c ∈ s, '0' ≤ c ∧ c ≤ '9') →
    parseDigits n s = some (s.foldl (fun n c => 10 * n + (c.toNat - 48)) n)
  | [], n, _ => rfl
  | c :: r, n, h => by
    rw [parseDigits, if_pos ((isDigit_iff c).2 (h c (List.mem_cons_self ..)))]
    exact parseDigits_eq r _ fun y hy => h y (List.mem_cons_of_mem _ hy)

theorem parseDigits_some : ∀ (s : Str) (n m : Nat), parseDigits n s = some m → ∀ c ∈ s, '0' ≤ c ∧ c ≤ '9'
  | [], _, _, _, c, hc => by simp at hc
  | a :: r, n, m, h, c, hc => by
    rw [parseDigits] at h
    by_cases ha : isDigit a = true
    · rw [if_pos ha] at h
      rcases List.mem_cons.1 hc with rfl | hc
      · exact (isDigit_iff _).1 ha
      · exact parseDigits_some r _ _ h c hc
    · rw [if_neg ha] at h; simp at h

theorem digits_head {s : Str} (h : Digits s) : ∃ c r, s = c :: r ∧ c ≠ '+' ∧ c ≠ '-' := by
  obtain ⟨hne, h⟩ := h
  cases s with
  | nil => exact absurd rfl hne
  | cons c r =>
    refine ⟨c, r, rfl, ?_, ?_⟩ <;> rintro rfl <;> have := h _ (List.mem_cons_self ..) <;> revert this <;> decide

theorem parseInt_other {s : Str} (hp : ∀ r, s ≠ '+' :: r) (hm : ∀ r, s ≠ '-' :: r) (hne : s ≠ []) :
    parseInt s = match parseDigits 0 s with | some n => decide (n < 2 ^ 63) | none => false := by
  unfold parseInt
  split
  · exact absurd rfl (hp _)
  · exact absurd rfl (hm _)
  · exact absurd rfl (hp _)
  · exact absurd rfl (hm _)
  · exact absurd rfl hne
  · rfl

theorem digits_cons_ne {s : Str} (h : Digits s) : (∀ r, s ≠ '+' :: r) ∧ (∀ r, s ≠ '-' :: r) := by
  obtain ⟨c, r, rfl, h1, h2⟩ := digits_head h
  exact ⟨fun r e => h1 (by simp at e; exact e.1), fun r e => h2 (by simp at e; exact e.1)⟩

theorem parseInt_digits {s : Str} (h : Digits s) : parseInt s = decide (number s < 2 ^ 63) := by
  rw [parseInt_other (digits_cons_ne h).1 (digits_cons_ne h).2 h.1, parseDigits_eq s 0 h.2]
  rfl

theorem parseUint_iff (s : Str) : parseUint s = true ↔ Digits s ∧ number s < 2 ^ 64 := by
  constructor
  · intro h
    unfold parseUint at h
    split at h
    · simp at h
    · rename_i hne
      cases hp : parseDigits 0 s with
      | none => rw [hp] at h; simp at h
      | some n =>
        rw [hp] at h
        have hd := parseDigits_some s 0 n hp
        have := parseDigits_eq s 0 hd
        rw [hp] at this
        refine ⟨⟨fun e => hne e, hd⟩, ?_⟩
        unfold number
        rw [← Option.some.inj this]
        simpa using h
  · rintro ⟨hd, hn⟩
    obtain ⟨c, r, rfl, -, -⟩ := digits_head hd
    unfold parseUint
    simp only [parseDigits_eq _ 0 hd.2]
    simpa [number] using hn

theorem parseInt_plus (r : Str) : parseInt ('+' :: r) = true ↔ Digits r ∧ number r < 2 ^ 63 := by
  cases r with
  | nil => simp [parseInt, Digits]
  | cons c r =>
    have e : parseInt ('+' :: c :: r) = match parseDigits 0 (c :: r) with | some n => decide (n < 2 ^ 63) | none => false := rfl
    rw [e]
    constructor
    · intro h
      cases hp : parseDigits 0 (c :: r) with
      | none => rw [hp] at h; simp at h
      | some n =>
        rw [hp] at h
        have hd := parseDigits_some _ 0 n hp
        have := parseDigits_eq _ 0 hd
        rw [hp] at this
        refine ⟨⟨List.cons_ne_nil _ _, hd⟩, ?_⟩
        unfold number
        rw [← Option.some.inj this]
        simpa using h
    · rintro ⟨hd, hn⟩
      simp only [parseDigits_eq _ 0 hd.2]
      simpa [number] using hn

theorem parseInt_minus (r : Str) : parseInt ('-' :: r) = true ↔ Digits r ∧ number r ≤ 2 ^ 63 := by
  cases r with
  | nil => simp [parseInt, Digits]
  | cons c r =>
    have e : parseInt ('-' :: c :: r) = match parseDigits 0 (c :: r) with | some n => decide (n ≤ 2 ^ 63) | none => false := rfl
    rw [e]
    constructor
    · intro h
      cases hp : parseDigits 0 (c :: r) with
      | none => rw [hp] at h; simp at h
      | some n =>
        rw [hp] at h
        have hd := parseDigits_some _ 0 n hp
        have := parseDigits_eq _ 0 hd
        rw [hp] at this
        refine ⟨⟨List.cons_ne_nil _ _, hd⟩, ?_⟩
        unfold number
        rw [← Option.some.inj this]
        simpa using h
    · rintro ⟨hd, hn⟩
      simp only [parseDigits_eq _ 0 hd.2]
      simpa [number] using hn

theorem intLike_iff (s : Str) : parseInt s = true ∨ parseUint s = true ↔ IntLike s := by
  constructor
  · rintro (h | h)
    · match s, h with
      | [], h => simp [parseInt] at h
      | '+' :: r, h => exact Or.inr (Or.inl ⟨r, rfl, (parseInt_plus r).1 h⟩)
      | '-' :: r, h => exact Or.inr (Or.inr ⟨r, rfl, (parseInt_minus r).1 h⟩)
      | c :: r, h =>
        by_cases hp : c = '+'
        · subst hp; exact Or.inr (Or.inl ⟨r, rfl, (parseInt_plus r).1 h⟩)
        · by_cases hm : c = '-'
          · subst hm; exact Or.inr (Or.inr ⟨r, rfl, (parseInt_minus r).1 h⟩)
          · rw [parseInt_other (by intro r' e; simp at e; exact hp e.1) (by intro r' e; simp at e; exact hm e.1)
              (List.cons_ne_nil _ _)] at h
            cases hd : parseDigits 0 (c :: r) with
            | none => rw [hd] at h; simp at h
            | some n =>
              rw [hd] at h
              have hds := parseDigits_some _ 0 n hd
              have := parseDigits_eq _ 0 hds
              rw [hd] at this
              refine Or.inl ⟨⟨List.cons_ne_nil _ _, hds⟩, ?_⟩
              unfold number
              rw [← Option.some.inj this]
              have : n < 2 ^ 63 := by simpa using h
              omega
    · exact Or.inl ((parseUint_iff s).1 h)
  · rintro (h | ⟨r, rfl, h⟩ | ⟨r, rfl, h⟩)
    · exact Or.inr ((parseUint_iff s).2 h)
    · exact Or.inl ((parseInt_plus r).2 h)
    · exact Or.inl ((parseInt_minus r).2 h)

/-- The type of a literal, by the text left after trimming. -/
theorem type_string_iff (pf : Str → Bool) (s core : Str) (hc : trim isQuote s = core) :
    determineLiteralType pf s = "string" ↔ ¬ Valuelike pf core := by
  unfold determineLiteralType
  rw [hc]
  have key := intLike_iff core
  unfold Valuelike
  rw [← key]
  dsimp only [trueText, falseText, nilText]
  by_cases h1 : parseInt core = true
  · simp only [h1]; simp
  · by_cases h2 : parseUint core = true
    · simp only [h1, h2]; simp
    · by_cases h3 : pf core = true
      · simp only [h1, h2, h3]; simp
      · simp only [h1, h2, h3]
        by_cases h4 : core = ['t', 'r', 'u', 'e']
        · simp [h4]
        · by_cases h5 : core = ['f', 'a', 'l', 's', 'e']
          · simp [h5]
          · by_cases h6 : core = ['n', 'i', 'l']
            · simp [h6]
            · simp [h4, h5, h6]

theorem digits_no_quote {s : Str} (h : Digits s) : ∀ c ∈ s, c ≠ '"' ∧ c ≠ '`' := by
  intro c hc
  have := h.2 c hc
  constructor <;> rintro rfl <;> revert this <;> decide

theorem floating_not_int {s : Str} (h : Floating s) : ¬ IntLike s := by
  obtain ⟨-, ⟨c, hc, hm⟩, -⟩ := h
  have hn : ∀ r : Str, Digits r → c ∉ r := by
    intro r hd hcr
    have := hd.2 c hcr
    simp only [List.mem_cons, List.mem_nil_iff, or_false] at hm
    rcases hm with rfl | rfl | rfl | rfl | rfl <;> revert this <;> decide
  rintro (⟨hd, -⟩ | ⟨r, rfl, hd, -⟩ | ⟨r, rfl, hd, -⟩)
  · exact hn _ hd hc
  · rcases List.mem_cons.1 hc with rfl | hc
    · revert hm; decide
    · exact hn _ hd hc
  · rcases List.mem_cons.1 hc with rfl | hc
    · revert hm; decide
    · exact hn _ hd hc

theorem sem_text_only {unq : Str → Option String} {s : Str} {q : Char} {body : Str} {j : J} (hq : Quoted s q body)
    (h : Sem unq s j) : ∃ t, j = .str t ∧ unq s = some t := by
  obtain ⟨hq, rfl⟩ := hq
  generalize hs : q :: (body ++ [q]) = s' at h
  have hmem : q ∈ s' := by rw [← hs]; simp
  cases h with
  | text q' body' t _ hu => exact ⟨t, rfl, hu⟩
  | decimal z hd _ =>
    have := digits_no_quote hd q hmem
    rcases hq with rfl | rfl <;> simp at this
  | prefixed z hp _ _ =>
    obtain ⟨p, r, e, -⟩ := hp
    rw [e] at hs
    simp at hs
    rcases hq with rfl | rfl <;> simp at hs
  | whole z hf =>
    have := hf.1 q hmem
    rcases hq with rfl | rfl <;> simp at this
  | fraction d hf =>
    have := hf.1 q hmem
    rcases hq with rfl | rfl <;> simp at this
  | rune z hr =>
    rw [← hs] at hr
    simp at hr
    rcases hq with rfl | rfl <;> simp at hr

/-! ## C79 -/

/-- **C79** (partial: what literals are read wrong is below).  A decimal integer, a floating-point literal and a
string that does not read as a number, a boolean or nil are documented with a type whose JSON values include the
literal's. -/
theorem C79_literal_partial (pf : Str → Bool) (unq : Str → Option String) (s : Str) (j : J)
    (hj : Sem unq s j) (hr : Readable pf s) : IsOf (resolveArgType pf (.lit s)) j := by
  show IsOf (determineLiteralType pf (literalInfo s)) j
  rcases hr with ⟨hd, hn⟩ | ⟨hf, hp⟩ | ⟨q, body, core, hq, hc, hv⟩
  · have hc := clean_plain s (digits_no_quote hd)
    have hz : ∃ z, j = .int z ∧ 0 ≤ z := by
      cases hj with
      | decimal z _ h0 => exact ⟨z, rfl, h0⟩
      | prefixed z _ _ h0 => exact ⟨z, rfl, h0⟩
      | whole z hf => exact absurd (Or.inl ⟨hd, hn⟩) (floating_not_int hf)
      | fraction d hf => exact absurd (Or.inl ⟨hd, hn⟩) (floating_not_int hf)
      | rune z hr =>
        exact absurd (hd.2 _ (List.mem_of_mem_head? hr)) (by decide)
      | text q body t hq _ =>
        have := digits_no_quote hd q (by rw [hq.2]; simp)
        rcases hq.1 with rfl | rfl <;> simp at this
    obtain ⟨z, rfl, h0⟩ := hz
    unfold determineLiteralType
    rw [hc]
    dsimp only
    by_cases h1 : parseInt s = true
    · rw [if_pos h1]; exact .int rfl
    · rw [if_neg h1, if_pos ((parseUint_iff s).2 ⟨hd, hn⟩)]; exact .uint rfl h0
  · have hc := clean_plain s fun c h => ⟨(hf.1 c h).1, (hf.1 c h).2.1⟩
    have hni := floating_not_int hf
    rw [← intLike_iff] at hni
    have hz : (∃ z, j = .int z) ∨ (∃ d, j = .dec d) := by
      cases hj with
      | decimal z _ _ => exact Or.inl ⟨z, rfl⟩
      | prefixed z _ _ _ => exact Or.inl ⟨z, rfl⟩
      | whole z _ => exact Or.inl ⟨z, rfl⟩
      | fraction d _ => exact Or.inr ⟨d, rfl⟩
      | rune z _ => exact Or.inl ⟨z, rfl⟩
      | text q body t hq _ =>
        have := hf.1 q (by rw [hq.2]; simp)
        rcases hq.1 with rfl | rfl <;> simp at this
    unfold determineLiteralType
    rw [hc]
    dsimp only
    rw [if_neg (fun h => hni (Or.inl h)), if_neg (fun h => hni (Or.inr h)), if_pos hp]
    rcases hz with ⟨z, rfl⟩ | ⟨d, rfl⟩
    · exact .whole rfl
    · exact .fraction rfl
  · obtain ⟨t, rfl, -⟩ := sem_text_only hq hj
    rw [(type_string_iff pf _ core (clean_quoted body core q s hq hc)).2 hv]
    exact .text rfl

/-- **C79**, string literals exactly: a string is documented as a string if and only if what is between its quotes
does not read as a number, a boolean or nil. -/
theorem C79_string_iff (pf : Str → Bool) (unq : Str → Option String) (s : Str) (q : Char) (body core : Str) (j : J)
    (hj : Sem unq s j) (hq : Quoted s q body) (hc : Core body core) :
    IsOf (resolveArgType pf (.lit s)) j ↔ ¬ Valuelike pf core := by
  obtain ⟨t, rfl, -⟩ := sem_text_only hq hj
  rw [← type_string_iff pf _ core (clean_quoted body core q s hq hc)]
  show IsOf (determineLiteralType pf (literalInfo s)) _ ↔ _
  constructor
  · intro h
    cases h with
    | text e => exact e
  · intro h
    rw [h]
    exact .text rfl

/-- A string of digits, such as `"404"`, is documented as an integer, whatever the number. -/
theorem C79_number_string_wrong (pf : Str → Bool) (unq : Str → Option String) (ds : Str) (j : J)
    (hd : Digits ds) (hn : number ds < 2 ^ 63) (hj : Sem unq ('"' :: (ds ++ ['"'])) j) :
    resolveArgType pf (.lit ('"' :: (ds ++ ['"']))) = "int" ∧ ¬ IsOf "int" j := by
  have hq : Quoted ('"' :: (ds ++ ['"'])) '"' ds := ⟨Or.inl rfl, rfl⟩
  have hc : Core ds ds := ⟨[], [], by simp, by simp,
    fun c h => digits_no_quote hd c (List.mem_of_mem_head? h), fun c h => digits_no_quote hd c (List.mem_of_getLast? h)⟩
  obtain ⟨t, rfl, -⟩ := sem_text_only hq hj
  refine ⟨?_, fun h => ?_⟩
  · show determineLiteralType pf (literalInfo _) = _
    unfold determineLiteralType
    rw [clean_quoted ds ds '"' _ hq hc]
    dsimp only
    rw [if_pos (by rw [parseInt_digits hd]; simpa using hn)]
  · cases h with | text e => simp at e

/-- A character literal is written as a number and documented as a string (`ParseFloat` takes no quotes). -/
theorem C79_rune_wrong (pf : Str → Bool) (hpf : ∀ s : Str, s.head? = some '\'' → pf s = false)
    (unq : Str → Option String) (r : Str) (j : J)
    (hr : r.head? ≠ some '"' ∧ r.getLast? = some '\'') (hj : Sem unq ('\'' :: r) j) :
    resolveArgType pf (.lit ('\'' :: r)) = "string" ∧ ¬ IsOf "string" j := by
  have hlast : ∀ c, ('\'' :: r).getLast? = some c → c = '\'' := by
    intro c h
    cases hr' : r with
    | nil => rw [hr'] at hr; simp at hr
    | cons a l =>
      rw [hr'] at h hr
      rw [List.getLast?_cons_cons] at h
      rw [hr.2] at h
      exact (Option.some.inj h).symm
  have e1 : literalInfo ('\'' :: r) = '\'' :: r := by
    have := trim_eq (· == '"') [] ('\'' :: r) [] (by simp) (by intro c h; simp at h; simp [← h])
      (by intro c h; simp [hlast c h])
    simpa [literalInfo] using this
  have e2 : trim isQuote ('\'' :: r) = '\'' :: r := by
    have := trim_eq isQuote [] ('\'' :: r) [] (by simp) (by intro c h; simp at h; simp [← h, isQuote])
      (by intro c h; simp [hlast c h, isQuote])
    simpa using this
  constructor
  · show determineLiteralType pf (literalInfo _) = _
    rw [e1]
    rw [type_string_iff pf _ _ e2]
    rintro ((⟨hd, -⟩ | ⟨_, e, -⟩ | ⟨_, e, -⟩) | h | h | h | h)
    · have := hd.2 _ (List.mem_cons_self ..)
      revert this; decide
    · simp at e
    · simp at e
    · rw [hpf _ rfl] at h; simp at h
    · simp at h
    · simp at h
    · simp at h
  · intro h
    cases hj with
    | text q body t hq _ =>
      have := hq.2
      simp at this
      rcases hq.1 with rfl | rfl <;> simp at this
    | decimal z _ _ => cases h with | int e => simp at e | uint e => simp at e | whole e => simp at e
    | prefixed z _ _ _ => cases h with | int e => simp at e | uint e => simp at e | whole e => simp at e
    | whole z _ => cases h with | int e => simp at e | uint e => simp at e | whole e => simp at e
    | fraction d _ => cases h with | fraction e => simp at e
    | rune z _ => cases h with | int e => simp at e | uint e => simp at e | whole e => simp at e

/-- An integer written in hexadecimal, octal or binary is documented as a string: `ParseInt` reads base ten and
`ParseFloat` takes no such text. -/
theorem C79_prefixed_wrong (pf : Str → Bool) (unq : Str → Option String) (s : Str) (z : Int) (hp : Prefixed s)
    (hf : ¬ Floating s) (hq : ∀ c ∈ s, c ≠ '"' ∧ c ≠ '`') (hpf : pf s = false) (h0 : 0 ≤ z) :
    Sem unq s (.int z) ∧ resolveArgType pf (.lit s) = "string" ∧ ¬ IsOf "string" (.int z) := by
  refine ⟨.prefixed z hp hf h0, ?_, ?_⟩
  · show determineLiteralType pf (literalInfo _) = _
    have : trim isQuote (literalInfo s) = s := clean_plain s hq
    rw [type_string_iff pf _ _ this]
    obtain ⟨p, r, rfl, hp⟩ := hp
    have hp' : ¬ ('0' ≤ p ∧ p ≤ '9') := by
      simp only [List.mem_cons, List.mem_nil_iff, or_false] at hp
      rcases hp with rfl | rfl | rfl | rfl | rfl | rfl <;> decide
    rintro ((⟨hd, -⟩ | ⟨_, e, -⟩ | ⟨_, e, -⟩) | h | h | h | h)
    · exact hp' (hd.2 p (by simp))
    · simp at e
    · simp at e
    · rw [hpf] at h; simp at h
    · simp at h
    · simp at h
    · simp at h
  · intro h
    cases h with
    | int e => simp at e
    | uint e => simp at e
    | whole e => simp at e

/-- A negative number literal has the type text `*5`: a pointer to a type called `5`. -/
theorem C79_negative_wrong (pf : Str → Bool) (ds : Str) (hd : Digits ds) :
    resolveArgType pf (.unary '-' (.lit ds)) = "*" ++ String.ofList ds := by
  show "*" ++ String.ofList (literalInfo ds) = _
  have e1 : literalInfo ds = ds := by
    have := trim_eq (· == '"') [] ds [] (by simp)
      (by intro c hc; simp [(digits_no_quote hd c (List.mem_of_mem_head? hc)).1])
      (by intro c hc; simp [(digits_no_quote hd c (List.mem_of_getLast? hc)).1])
    simpa [literalInfo] using this
  rw [e1]

/-- Non-vacuity: `12`, `"ok"`, `1.5`, `"404"` and `0x1f` meet the hypotheses. -/
example : Readable (fun _ => false) ['1', '2'] ∧
    Readable (fun s => s == ['1', '.', '5']) ['1', '.', '5'] ∧
    Readable (fun _ => false) ['"', 'o', 'k', '"'] := by
  refine ⟨Or.inl ⟨⟨by simp, by decide⟩, by decide⟩, Or.inr (Or.inl ⟨⟨by decide, ⟨'.', by simp, by simp⟩, ?_⟩, by decide⟩),
    Or.inr (Or.inr ⟨'"', ['o', 'k'], ['o', 'k'], ⟨Or.inl rfl, rfl⟩, ⟨[], [], rfl, by simp, ?_, ?_⟩, ?_⟩)⟩
  · rintro ⟨p, r, e, -⟩; simp at e
  · intro c h; simp at h; subst h; decide
  · intro c h; simp at h; subst h; decide
  · rintro ((⟨hd, -⟩ | ⟨_, e, -⟩ | ⟨_, e, -⟩) | h | h | h | h)
    · have := hd.2 'o' (by simp)
      revert this; decide
    · simp at e
    · simp at e
    · simp at h
    · simp at h
    · simp at h
    · simp at h

example : Digits ['4', '0', '4'] ∧ number ['4', '0', '4'] < 2 ^ 63 ∧
    Prefixed ['0', 'x', '1', 'f'] ∧ ¬ Floating ['0', 'x', '1', 'f'] := by
  refine ⟨⟨by simp, by decide⟩, by decide, ⟨'x', ['1', 'f'], rfl, by simp⟩, ?_⟩
  rintro ⟨-, ⟨c, hc, hm⟩, -⟩
  revert c
  decide

/-! ## Specification: map literals -/

mutual

/-- What an expression is written as in JSON; `env` gives the values of what is not modelled, and nothing is said
about operators of two arguments. -/
inductive Ev (unq : Str → Option String) (env : Nat → J) : Expr → J → Prop where
  | lit {s j} : Sem unq s j → Ev unq env (.lit s) j
  | neg {x z} : Ev unq env x (.int z) → Ev unq env (.unary '-' x) (.int (-z))
  | not {x b} : Ev unq env x (.bool b) → Ev unq env (.unary '!' x) (.bool (!b))
  | addr {x j} : Ev unq env x j → Ev unq env (.unary '&' x) j
  | paren {x j} : Ev unq env x j → Ev unq env (.paren x) j
  | binary {op x y j} : Ev unq env (.binary op x y) j
  | other {n ty} : Ev unq env (.other n ty) (env n)
  /-- The entries are set one after the other, so that the last one under a key stays. -/
  | mapLit {t k v elts} (pairs fs : List (String × J)) : EvAll unq env elts pairs →
      (∀ key val, (key, val) ∈ fs ↔ ∃ pre post, pairs = pre ++ (key, val) :: post ∧ ∀ p ∈ post, p.1 ≠ key) →
      Ev unq env (.mapLit t k v elts) (.obj fs)

/-- The entries of a map literal, in order. -/
inductive EvAll (unq : Str → Option String) (env : Nat → J) : List (Expr × Expr) → List (String × J) → Prop where
  | nil : EvAll unq env [] []
  | cons {ke ve r key val ps} : Ev unq env ke (.str key) → Ev unq env ve val → EvAll unq env r ps →
      EvAll unq env ((ke, ve) :: r) ((key, val) :: ps)

end

/-- A key that is a string literal in double quotes. -/
def Constant (e : Expr) : Prop := ∃ s, e = .lit s ∧ s.head? = some '"'

/-- The object conforms to the schema read strictly: each value to the schema of its property, and no property
that is not documented unless others are allowed. -/
def Fits (comps : Comps) (o : ObjSchema Schema) (fs : List (String × J)) : Prop :=
  (∀ k v s, (k, v) ∈ fs → (k, some s) ∈ o.props → Conforms comps s v) ∧
  (∀ k v, (k, v) ∈ fs → (∃ s, (k, s) ∈ o.props) ∨ o.additional = true)

/-- The values that are resolved to their type: `has ty j` is "`j` is how a value of type `ty` is written". -/
inductive Plain (pf : Str → Bool) (unq : Str → Option String) (env : Nat → J) (has : String → J → Prop) :
    Expr → Prop where
  | literal {s} : Readable pf s → Plain pf unq env has (.lit s)
  | paren {x} : Plain pf unq env has (.paren x)
  | binary {op x y} : Plain pf unq env has (.binary op x y)
  | other {n ty} : has ty (env n) → Plain pf unq env has (.other n ty)
  /-- `-x`, `!x`, `&x` are documented as pointers to the type of `x`. -/
  | unary {op n ty} : (∀ j, Ev unq env (.unary op (.other n ty)) j → has ("*" ++ ty) j) →
      Plain pf unq env has (.unary op (.other n ty))
  /-- A map inside is documented from its type alone. -/
  | nested {k v elts} : (∀ j, Ev unq env (.mapLit none k v elts) j → has ("map[" ++ k ++ "]" ++ v) j) →
      Plain pf unq env has (.mapLit none k v elts)
  | named {t k v elts} : (∀ j, Ev unq env (.mapLit (some t) k v elts) j → has t j) →
      Plain pf unq env has (.mapLit (some t) k v elts)

/-- The schema of a type admits the values of the type (what C75 is about). -/
def Faithful (comps : Comps) (mapType : String → Option Schema) (has : String → J → Prop) : Prop :=
  (∀ ty s j, mapType ty = some s → has ty j → Conforms comps s j) ∧ (∀ ty j, IsOf ty j → has ty j)

/-! ## Lemmas: map literals -/

theorem mem_mset {κ β : Type} [DecidableEq κ] (m : List (κ × β)) (k : κ) (v : β) (e : κ × β) (h : e ∈ mset m k v) :
    e ∈ m ∨ e = (k, v) := by
  induction m with
  | nil => simp [mset] at h; exact Or.inr h
  | cons a m ih =>
    unfold mset at h
    split at h
    · rcases List.mem_cons.1 h with h | h
      · exact Or.inr h
      · exact Or.inl (List.mem_cons_of_mem _ h)
    · rcases List.mem_cons.1 h with h | h
      · exact Or.inl (by rw [h]; exact List.mem_cons_self ..)
      · rcases ih h with h | h
        · exact Or.inl (List.mem_cons_of_mem _ h)
        · exact Or.inr h

section loop
variable {S : Type} (unq : Str → Option String) (pf : Str → Bool) (mapType : String → Option S)

theorem step_keys (acc : ObjSchema S) (e : Expr × Expr) (k : String) :
    k ∈ (step unq pf mapType acc e).props.map Prod.fst ↔
      k ∈ acc.props.map Prod.fst ∨ ∃ v, constantKeyValue unq e = some (k, v) := by
  unfold step
  cases h : constantKeyValue unq e with
  | none => simp
  | some kv =>
    obtain ⟨key, v⟩ := kv
    dsimp only
    split
    · simp only [keys_mset, Option.some.injEq, Prod.mk.injEq, exists_and_left, exists_eq', and_true]
      rw [or_comm, eq_comm (a := k)]
    · simp only [keys_mset, Option.some.injEq, Prod.mk.injEq, exists_and_left, exists_eq', and_true]
      rw [or_comm, eq_comm (a := k)]

theorem fold_keys (elts : List (Expr × Expr)) : ∀ (acc : ObjSchema S) (k : String),
    k ∈ (elts.foldl (step unq pf mapType) acc).props.map Prod.fst ↔
      k ∈ acc.props.map Prod.fst ∨ ∃ e ∈ elts, ∃ v, constantKeyValue unq e = some (k, v) := by
  induction elts with
  | nil => intro acc k; simp
  | cons a l ih =>
    intro acc k
    rw [List.foldl_cons, ih, step_keys]
    simp only [List.mem_cons, exists_eq_or_imp, or_assoc]

theorem fold_additional (elts : List (Expr × Expr)) : ∀ (acc : ObjSchema S),
    (elts.foldl (step unq pf mapType) acc).additional = true ↔
      acc.additional = true ∨ ∃ e ∈ elts, constantKeyValue unq e = none := by
  induction elts with
  | nil => intro acc; simp
  | cons a l ih =>
    intro acc
    rw [List.foldl_cons, ih]
    have : (step unq pf mapType acc a).additional = true ↔ acc.additional = true ∨ constantKeyValue unq a = none := by
      unfold step
      cases h : constantKeyValue unq a with
      | none => simp
      | some kv => dsimp only; split <;> simp
    rw [this]
    simp only [List.mem_cons, exists_eq_or_imp, or_assoc]

theorem fold_entries (elts : List (Expr × Expr)) : ∀ (acc : ObjSchema S) (k : String) (s : S),
    (k, some s) ∈ (elts.foldl (step unq pf mapType) acc).props →
      (k, some s) ∈ acc.props ∨ ∃ e ∈ elts, ∃ v, constantKeyValue unq e = some (k, v) ∧
        resolveArgType pf v ≠ "" ∧ mapType (resolveArgType pf v) = some s := by
  induction elts with
  | nil => intro acc k s h; exact Or.inl h
  | cons a l ih =>
    intro acc k s h
    rw [List.foldl_cons] at h
    rcases ih _ k s h with h | ⟨e, he, v, h⟩
    · unfold step at h
      cases hc : constantKeyValue unq a with
      | none => rw [hc] at h; exact Or.inl h
      | some kv =>
        obtain ⟨key, v⟩ := kv
        rw [hc] at h
        dsimp only at h
        split at h
        · rcases mem_mset _ _ _ _ h with h | h
          · exact Or.inl h
          · simp at h
        · rename_i hne
          rcases mem_mset _ _ _ _ h with h | h
          · exact Or.inl h
          · simp only [Prod.mk.injEq] at h
            exact Or.inr ⟨a, List.mem_cons_self .., v, by rw [hc, h.1], hne, h.2.symm⟩
    · exact Or.inr ⟨e, List.mem_cons_of_mem _ he, v, h⟩

/-- A key is read exactly when it is a literal in double quotes that is not empty. -/
theorem constant_iff (env : Nat → J) (e : Expr × Expr) (key : String) (he : Ev unq env e.1 (.str key)) :
    (∀ k v, constantKeyValue unq e = some (k, v) → k = key ∧ v = e.2 ∧ Constant e.1 ∧ key ≠ "") ∧
    (Constant e.1 → key ≠ "" → constantKeyValue unq e = some (key, e.2)) := by
  obtain ⟨ke, ve⟩ := e
  have hu : ∀ s, ke = .lit s → unq s = some key := by
    rintro s rfl
    cases he with
    | lit h => cases h with
      | text _ _ _ _ hu => exact hu
  constructor
  · intro k v h
    unfold constantKeyValue at h
    split at h
    · rename_i raw heq
      dsimp only at heq
      split at h
      · rename_i hq
        rw [hu raw heq] at h
        dsimp only at h
        split at h
        · simp at h
        · rename_i hne
          simp only [Option.some.injEq, Prod.mk.injEq] at h
          exact ⟨h.1.symm, h.2.symm, ⟨raw, heq, hq⟩, hne⟩
      · simp at h
    · simp at h
  · rintro ⟨s, hs, hq⟩ hne
    dsimp only at hs
    subst hs
    unfold constantKeyValue
    dsimp only
    rw [if_pos hq, hu s rfl]
    dsimp only
    rw [if_neg hne]

end loop

theorem evAll_mem {unq : Str → Option String} {env : Nat → J} : ∀ {elts : List (Expr × Expr)} {pairs},
    EvAll unq env elts pairs →
    (∀ p ∈ pairs, ∃ e ∈ elts, Ev unq env e.1 (.str p.1) ∧ Ev unq env e.2 p.2) ∧
    (∀ e ∈ elts, ∃ p ∈ pairs, Ev unq env e.1 (.str p.1) ∧ Ev unq env e.2 p.2)
  | [], _, h => by cases h; simp
  | (ke, ve) :: l, _, h => by
    cases h with
    | cons hk hv hr =>
      obtain ⟨h1, h2⟩ := evAll_mem hr
      constructor
      · intro p hp
        rcases List.mem_cons.1 hp with rfl | hp
        · exact ⟨(ke, ve), List.mem_cons_self .., hk, hv⟩
        · obtain ⟨e, he, h⟩ := h1 p hp
          exact ⟨e, List.mem_cons_of_mem _ he, h⟩
      · intro e he
        rcases List.mem_cons.1 he with rfl | he
        · exact ⟨_, List.mem_cons_self .., hk, hv⟩
        · obtain ⟨p, hp, h⟩ := h2 e he
          exact ⟨p, List.mem_cons_of_mem _ hp, h⟩

theorem pairwise_ne {α} {R : α → α → Prop} : ∀ {l : List α}, l.Pairwise R → ∀ {a b : α}, a ∈ l → b ∈ l → a ≠ b → R a b ∨ R b a
  | [], _, _, _, ha, _, _ => by simp at ha
  | x :: l, h, a, b, ha, hb, hab => by
    rw [List.pairwise_cons] at h
    rcases List.mem_cons.1 ha with ha' | ha'
    · rcases List.mem_cons.1 hb with hb' | hb'
      · exact absurd (ha'.trans hb'.symm) hab
      · exact Or.inl (by rw [ha']; exact h.1 b hb')
    · rcases List.mem_cons.1 hb with hb' | hb'
      · exact Or.inr (by rw [hb']; exact h.1 a ha')
      · exact pairwise_ne h.2 ha' hb' hab

theorem has_resolved {pf : Str → Bool} {unq : Str → Option String} {env : Nat → J} {has : String → J → Prop}
    (hi : ∀ ty j, IsOf ty j → has ty j) {v : Expr} {j : J} (hp : Plain pf unq env has v) (hv : Ev unq env v j)
    (hne : resolveArgType pf v ≠ "") : has (resolveArgType pf v) j := by
  cases hp with
  | literal hr => cases hv with | lit hs => exact hi _ _ (C79_literal_partial pf unq _ j hs hr)
  | paren => exact absurd rfl hne
  | binary => exact absurd rfl hne
  | other h => cases hv with | other => exact h
  | unary h => exact h j hv
  | nested h => exact h j hv
  | named h => exact h j hv

/-- In a list, something is the last of its kind. -/
theorem last_of_mem {α β : Type} [DecidableEq α] : ∀ (l : List (α × β)) (k : α), (∃ p ∈ l, p.1 = k) →
    ∃ v pre post, l = pre ++ (k, v) :: post ∧ ∀ p ∈ post, p.1 ≠ k
  | [], k, h => by obtain ⟨p, hp, -⟩ := h; simp at hp
  | (a, b) :: l, k, h => by
    by_cases hl : ∃ p ∈ l, p.1 = k
    · obtain ⟨v, pre, post, e, hp⟩ := last_of_mem l k hl
      exact ⟨v, (a, b) :: pre, post, by simp [e], hp⟩
    · obtain ⟨p, hp, rfl⟩ := h
      rcases List.mem_cons.1 hp with rfl | hp
      · exact ⟨b, [], l, rfl, fun q hq he => hl ⟨q, hq, he⟩⟩
      · exact absurd ⟨p, hp, rfl⟩ hl

/-! ## C80 -/

/-- **C80** (partial: what is missing is below).  A `map[string]T{…}` literal with a constant key is documented key
by key: its value always conforms, the documented properties are exactly the constant keys, each of them is there
in every value, and other properties are allowed exactly when there is an entry that is not read.  No key that is
computed may coincide with a constant one, and the values must be such as are resolved to their types. -/
theorem C80_object_partial (pf : Str → Bool) (unq : Str → Option String) (env : Nat → J)
    (comps : Comps) (mapType : String → Option Schema) (has : String → J → Prop)
    (hF : Faithful comps mapType has) (elem : String) (elts : List (Expr × Expr)) (fs : List (String × J))
    (hev : Ev unq env (.mapLit none "string" elem elts) (.obj fs))
    (hkeys : elts.Pairwise fun a b => (Constant a.1 ∨ Constant b.1) →
      ∀ k, Ev unq env a.1 (.str k) → ¬ Ev unq env b.1 (.str k))
    (hplain : ∀ e ∈ elts, Constant e.1 → Plain pf unq env has e.2)
    (hsome : ∃ e ∈ elts, Constant e.1 ∧ ¬ Ev unq env e.1 (.str "")) :
    ∃ o, mapLiteralSchema unq pf mapType (.mapLit none "string" elem elts) = some o ∧ Fits comps o fs ∧
      (∀ k, (∃ s, (k, s) ∈ o.props) ↔ k ≠ "" ∧ ∃ e ∈ elts, Constant e.1 ∧ Ev unq env e.1 (.str k)) ∧
      (∀ k s, (k, s) ∈ o.props → ∃ v, (k, v) ∈ fs) ∧
      (o.additional = true ↔ ∃ e ∈ elts, Constant e.1 → Ev unq env e.1 (.str "")) := by
  cases hev with
  | mapLit pairs _ hall hfs =>
  obtain ⟨h1, h2⟩ := evAll_mem hall
  let o := elts.foldl (step unq pf mapType) ({ props := [], additional := false } : ObjSchema Schema)
  have hkey : ∀ k, (∃ s, (k, s) ∈ o.props) ↔ k ≠ "" ∧ ∃ e ∈ elts, Constant e.1 ∧ Ev unq env e.1 (.str k) := by
    intro k
    have hm : (∃ s, (k, s) ∈ o.props) ↔ k ∈ o.props.map Prod.fst := by simp
    rw [hm, fold_keys]
    simp only [List.map_nil, List.not_mem_nil, false_or]
    constructor
    · rintro ⟨e, he, v, h⟩
      obtain ⟨p, hp, hk, hv⟩ := h2 e he
      obtain ⟨e1, e2, hc, hne⟩ := (constant_iff unq env e p.1 hk).1 k v h
      exact ⟨by rw [e1]; exact hne, e, he, hc, by rw [e1]; exact hk⟩
    · rintro ⟨hne, e, he, hc, hk⟩
      exact ⟨e, he, e.2, (constant_iff unq env e k hk).2 hc hne⟩
  have hadd : o.additional = true ↔ ∃ e ∈ elts, Constant e.1 → Ev unq env e.1 (.str "") := by
    rw [fold_additional]
    simp only [Bool.false_eq_true, false_or]
    constructor
    · rintro ⟨e, he, h⟩
      obtain ⟨p, hp, hk, hv⟩ := h2 e he
      refine ⟨e, he, fun hc => ?_⟩
      by_cases hne : p.1 = ""
      · rw [← hne]; exact hk
      · rw [(constant_iff unq env e p.1 hk).2 hc hne] at h
        simp at h
    · rintro ⟨e, he, h⟩
      refine ⟨e, he, ?_⟩
      obtain ⟨p, hp, hk, hv⟩ := h2 e he
      cases hcv : constantKeyValue unq e with
      | none => rfl
      | some kv =>
        obtain ⟨-, -, hc, hne⟩ := (constant_iff unq env e p.1 hk).1 kv.1 kv.2 hcv
        have := h hc
        exact absurd rfl (((constant_iff unq env e "" this).1 kv.1 kv.2 hcv).2.2.2)
  refine ⟨o, ?_, ⟨?_, ?_⟩, hkey, ?_, hadd⟩
  · obtain ⟨e, he, hc, hne⟩ := hsome
    obtain ⟨p, hp, hk, hv⟩ := h2 e he
    have hpne : p.1 ≠ "" := fun h => hne (by rw [← h]; exact hk)
    obtain ⟨s, hs⟩ := (hkey p.1).2 ⟨hpne, e, he, hc, hk⟩
    unfold mapLiteralSchema
    dsimp only
    rw [if_neg (by simp), if_neg (by cases elts with | nil => simp at he | cons _ _ => simp)]
    show (if o.props.isEmpty then none else some o) = some o
    rw [if_neg (by intro h; rw [List.isEmpty_iff] at h; rw [h] at hs; simp at hs)]
  · intro k v s hkv hs
    obtain ⟨pre, post, hp, -⟩ := (hfs k v).1 hkv
    obtain ⟨e, he, hke, hve⟩ := h1 (k, v) (by rw [hp]; simp)
    rcases fold_entries unq pf mapType elts _ k s hs with h | ⟨e', he', v', hc', hr, hm⟩
    · simp at h
    · obtain ⟨p', -, hk', -⟩ := h2 e' he'
      obtain ⟨e1, e2, hcon, -⟩ := (constant_iff unq env e' p'.1 hk').1 k v' hc'
      rw [← e1] at hk'
      have hee : e = e' := by
        apply Classical.byContradiction
        intro hne
        rcases pairwise_ne hkeys he he' hne with h | h
        · exact h (Or.inr hcon) k hke hk'
        · exact h (Or.inl hcon) k hk' hke
      subst hee
      rw [e2] at hr hm
      exact hF.1 _ s v hm (has_resolved hF.2 (hplain e he hcon) hve hr)
  · intro k v hkv
    obtain ⟨pre, post, hp, -⟩ := (hfs k v).1 hkv
    obtain ⟨e, he, hke, hve⟩ := h1 (k, v) (by rw [hp]; simp)
    by_cases hc : Constant e.1 ∧ k ≠ ""
    · exact Or.inl ((hkey k).2 ⟨hc.2, e, he, hc.1, hke⟩)
    · refine Or.inr (hadd.2 ⟨e, he, fun hcon => ?_⟩)
      have : k = "" := Classical.byContradiction fun h => hc ⟨hcon, h⟩
      rw [← this]; exact hke
  · intro k s hs
    obtain ⟨-, e, he, hc, hke⟩ := (hkey k).1 ⟨s, hs⟩
    obtain ⟨p, hp, hk, -⟩ := h2 e he
    have hpk : p.1 = k := by
      obtain ⟨s', hs', -⟩ := hc
      rw [hs'] at hk hke
      cases hk with
      | lit a => cases hke with
        | lit b =>
          generalize ha : J.str p.1 = ja at a
          generalize hb : J.str k = jb at b
          cases a with
          | text _ _ t1 _ u1 => cases b with
            | text _ _ t2 _ u2 =>
              rw [u1] at u2
              simp at ha hb u2
              rw [ha, hb, u2]
            | _ => simp at hb
          | _ => simp at ha
    obtain ⟨v, pre, post, e', hpost⟩ := last_of_mem pairs k ⟨p, hp, hpk⟩
    exact ⟨v, (hfs k v).2 ⟨pre, post, e', hpost⟩⟩

/-- Only a non-empty literal of an unnamed map type with `string` keys is documented key by key. -/
theorem C80_string_keys {S : Type} (unq : Str → Option String) (pf : Str → Bool) (mapType : String → Option S) (arg : Expr)
    (o : ObjSchema S) (h : mapLiteralSchema unq pf mapType arg = some o) :
    ∃ val elts, arg = .mapLit none "string" val elts ∧ elts ≠ [] := by
  unfold mapLiteralSchema at h
  split at h
  · split at h
    · simp at h
    · rename_i hk
      split at h
      · simp at h
      · rename_i he
        simp at hk
        exact ⟨_, _, by rw [hk], by simpa using he⟩
  · simp at h

/-- A literal of a declared map type, `gin.H{"error": msg}`, is not read key by key, whatever is in it. -/
theorem C80_named_lost (pf : Str → Bool) (unq : Str → Option String) (mapType : String → Option Schema)
    (t elem : String) (elts : List (Expr × Expr)) :
    mapLiteralSchema unq pf mapType (.mapLit (some t) "string" elem elts) = none := rfl

/-- With keys that are declared constants or raw strings only, nothing is documented key by key. -/
theorem C80_constant_lost (pf : Str → Bool) (unq : Str → Option String) (mapType : String → Option Schema)
    (elem : String) (elts : List (Expr × Expr)) (h : ∀ e ∈ elts, ¬ Constant e.1) :
    mapLiteralSchema unq pf mapType (.mapLit none "string" elem elts) = none := by
  have hk : ∀ k, k ∉ (elts.foldl (step unq pf mapType) ({ props := [], additional := false } : ObjSchema Schema)).props.map
      Prod.fst := by
    intro k hk
    rw [fold_keys] at hk
    simp only [List.map_nil, List.not_mem_nil, false_or] at hk
    obtain ⟨e, he, v, hc⟩ := hk
    refine h e he ?_
    unfold constantKeyValue at hc
    split at hc
    · rename_i raw heq
      split at hc
      · rename_i hq; exact ⟨raw, heq, hq⟩
      · simp at hc
    · simp at hc
  unfold mapLiteralSchema
  dsimp only
  rw [if_neg (by simp)]
  split
  · rfl
  · split
    · rfl
    · rename_i hne
      exfalso
      cases hp : (elts.foldl (step unq pf mapType) ({ props := [], additional := false } : ObjSchema Schema)).props with
      | nil => rw [hp] at hne; simp at hne
      | cons a l => exact hk a.1 (by rw [hp]; simp)

/-! ### Concrete literals -/

/-- Quotes removed: enough for the texts below. -/
def unq0 (s : Str) : Option String := some (String.ofList (s.drop 1).dropLast)
def pf0 (_ : Str) : Bool := false
/-- `mapGoTypeForRoute` on the types below (schema_mapper.go:120-160, mapper.go:2783-3205). -/
def map0 (ty : String) : Option Schema :=
  if ty = "int" then some (.scalar "integer") else if ty = "string" then some (.scalar "string")
  else if ty = "map[string]any" then some (.mapOf .obj) else none

def keyA : Str := ['"', 'a', '"']
def textX : Str := ['"', 'x', '"']
def text404 : Str := ['"', '4', '0', '4', '"']

theorem sem_keyA : Sem unq0 keyA (.str "a") := .text '"' ['a'] "a" ⟨Or.inl rfl, rfl⟩ (by decide)
theorem sem_textX : Sem unq0 textX (.str "x") := .text '"' ['x'] "x" ⟨Or.inl rfl, rfl⟩ (by decide)
theorem sem_404 : Sem unq0 text404 (.str "404") := .text '"' ['4', '0', '4'] "404" ⟨Or.inl rfl, rfl⟩ (by decide)

theorem single {k : String} {v : J} (key : String) (val : J) : (key, val) ∈ [(k, v)] ↔
    ∃ pre post, [(k, v)] = pre ++ (key, val) :: post ∧ ∀ p ∈ post, p.1 ≠ key := by
  constructor
  · intro h
    rw [List.mem_singleton] at h
    exact ⟨[], [], by rw [h]; rfl, by simp⟩
  · rintro ⟨pre, post, e, -⟩
    cases pre with
    | nil => simp at e; simp [e.1]
    | cons a pre => simp at e

theorem not_conforms_integer {comps : Comps} {s : String} : ¬ Conforms comps (.scalar "integer") (.str s) := by
  intro h
  generalize hq : Schema.scalar "integer" = q at h
  generalize hj : J.str s = j at h
  cases h with
  | string hk => simp at hq; rw [← hq] at hk; simp at hk
  | ref => simp at hq
  | _ => simp at hj

/-- `{"a": "404"}` is documented with an integer under `a`, which its value is not. -/
theorem C80_number_string_wrong (comps : Comps) (env : Nat → J) :
    Ev unq0 env (.mapLit none "string" "any" [(.lit keyA, .lit text404)]) (.obj [("a", .str "404")]) ∧
    ∃ o, mapLiteralSchema unq0 pf0 map0 (.mapLit none "string" "any" [(.lit keyA, .lit text404)]) = some o ∧
      ¬ Fits comps o [("a", .str "404")] := by
  refine ⟨.mapLit [("a", .str "404")] _ (.cons (.lit sem_keyA) (.lit sem_404) .nil) single,
    ⟨[("a", some (.scalar "integer"))], false⟩, by decide, ?_⟩
  intro h
  exact not_conforms_integer (h.1 "a" (.str "404") (.scalar "integer") (by simp) (by simp))

/-- A computed key that happens to be `a` puts a string under `a`, documented as an integer. -/
theorem C80_computed_key_wrong (comps : Comps) :
    Ev unq0 (fun _ => .str "a") (.mapLit none "string" "any" [(.lit keyA, .lit ['1']), (.other 0 "string", .lit textX)])
      (.obj [("a", .str "x")]) ∧
    ∃ o, mapLiteralSchema unq0 pf0 map0
        (.mapLit none "string" "any" [(.lit keyA, .lit ['1']), (.other 0 "string", .lit textX)]) = some o ∧
      ¬ Fits comps o [("a", .str "x")] := by
  refine ⟨.mapLit [("a", .int 1), ("a", .str "x")] _
    (.cons (.lit sem_keyA) (.lit (.decimal 1 ⟨by simp, by decide⟩ (by decide)))
      (.cons (.other (env := fun _ => .str "a")) (.lit sem_textX) .nil)) ?_,
    ⟨[("a", some (.scalar "integer"))], true⟩, by decide, ?_⟩
  · intro key val
    constructor
    · intro h
      simp at h
      exact ⟨[("a", .int 1)], [], by simp [h.1, h.2], by simp⟩
    · rintro ⟨pre, post, e, hp⟩
      match pre, e with
      | [], e => simp at e; have := hp ("a", .str "x") (by simp [← e.2]); simp [e.1.1] at this
      | [a], e => simp at e; simp [e.2.1]
      | a :: b :: l, e => simp at e
  · intro h
    exact not_conforms_integer (h.1 "a" (.str "x") (.scalar "integer") (by simp) (by simp))

/-- A map inside a map is documented by its type: `{"a": map[string]any{"a": 1}}` has a number where an object is
documented. -/
theorem C80_nested_wrong (comps : Comps) (env : Nat → J) :
    Ev unq0 env (.mapLit none "string" "any" [(.lit keyA, .mapLit none "string" "any" [(.lit keyA, .lit ['1'])])])
      (.obj [("a", .obj [("a", .int 1)])]) ∧
    ∃ o, mapLiteralSchema unq0 pf0 map0
        (.mapLit none "string" "any" [(.lit keyA, .mapLit none "string" "any" [(.lit keyA, .lit ['1'])])]) = some o ∧
      ¬ Fits comps o [("a", .obj [("a", .int 1)])] := by
  refine ⟨.mapLit [("a", .obj [("a", .int 1)])] _
    (.cons (.lit sem_keyA) (.mapLit [("a", .int 1)] _
      (.cons (.lit sem_keyA) (.lit (.decimal 1 ⟨by simp, by decide⟩ (by decide))) .nil) single) .nil) single,
    ⟨[("a", some (.mapOf .obj))], false⟩, by decide, ?_⟩
  intro h
  have := h.1 "a" _ (.mapOf .obj) (List.mem_cons_self ..) (List.mem_cons_self ..)
  cases this with
  | mapOf h =>
    have := h ("a", .int 1) (List.mem_cons_self ..)
    cases this

/-- Non-vacuity: `map[string]any{"a": 1, k: "x"}` with another key `k` meets the hypotheses. -/
example : ∃ (env : Nat → J) (elts : List (Expr × Expr)) (fs : List (String × J)),
    Ev unq0 env (.mapLit none "string" "any" elts) (.obj fs) ∧
    (elts.Pairwise fun a b => (Constant a.1 ∨ Constant b.1) →
      ∀ k, Ev unq0 env a.1 (.str k) → ¬ Ev unq0 env b.1 (.str k)) ∧
    (∀ e ∈ elts, Constant e.1 → Plain pf0 unq0 env IsOf e.2) ∧
    (∃ e ∈ elts, Constant e.1 ∧ ¬ Ev unq0 env e.1 (.str "")) ∧ Faithful [] map0 IsOf ∧ fs.length = 2 := by
  have hkey : ∀ k, Ev unq0 (fun _ => J.str "b") (.lit keyA) (.str k) → k = "a" := by
    intro k h
    cases h with
    | lit h =>
      generalize hj : J.str k = j at h
      cases h with
      | text _ _ t _ hu =>
        simp at hj
        rw [hj]
        have : unq0 keyA = some "a" := by decide
        rw [this] at hu
        exact (Option.some.inj hu).symm
      | _ => simp at hj
  refine ⟨fun _ => .str "b", [(.lit keyA, .lit ['1']), (.other 0 "string", .lit textX)], [("a", .int 1), ("b", .str "x")],
    .mapLit [("a", .int 1), ("b", .str "x")] _
      (.cons (.lit sem_keyA) (.lit (.decimal 1 ⟨by simp, by decide⟩ (by decide)))
        (.cons (.other (env := fun _ => .str "b")) (.lit sem_textX) .nil)) ?_, ?_, ?_, ?_, ?_, rfl⟩
  · intro key val
    constructor
    · intro h
      simp at h
      rcases h with ⟨rfl, rfl⟩ | ⟨rfl, rfl⟩
      · exact ⟨[], [("b", .str "x")], rfl, by simp⟩
      · exact ⟨[("a", .int 1)], [], rfl, by simp⟩
    · rintro ⟨pre, post, e, hp⟩
      have : (key, val) ∈ pre ++ (key, val) :: post := by simp
      rw [← e] at this
      exact this
  · rw [List.pairwise_cons]
    refine ⟨?_, by simp⟩
    intro b hb _ k h1 h2
    simp at hb
    subst hb
    have := hkey k h1
    subst this
    generalize hj : J.str "a" = j at h2
    cases h2
    simp at hj
  · intro e he hc
    simp at he
    rcases he with rfl | rfl
    · exact .literal (Or.inl ⟨⟨by simp, by decide⟩, by decide⟩)
    · obtain ⟨s, hs, -⟩ := hc
      simp at hs
  · refine ⟨_, List.mem_cons_self .., ⟨keyA, rfl, rfl⟩, fun h => ?_⟩
    have := hkey _ h
    simp at this
  · refine ⟨?_, fun _ _ h => h⟩
    intro ty s j hm h
    cases h with
    | int e => subst e; simp [map0] at hm; subst hm; exact .integer
    | uint e => subst e; simp [map0] at hm
    | whole e => subst e; simp [map0] at hm
    | fraction e => subst e; simp [map0] at hm
    | bool e => subst e; simp [map0] at hm
    | text e => subst e; simp [map0] at hm; subst hm; exact .string (by simp)

end Verif.MapLiteral
