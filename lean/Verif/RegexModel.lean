/-!
# Model: the part of Go's `regexp` that ignore patterns are compiled to

The code under study does not implement regular expressions, it calls the standard library
(`regexp.MatchString`, pkg/patterns/gitignore.go:60).  This file fixes what is assumed of it: the
abstract syntax, its denotation, a matcher proved to decide the denotation, and a reader for the
concrete syntax that `patternToRegex` can emit (RE2 grammar: literals, `\` escapes of
punctuation, `.`, bracket classes, non-capturing groups, alternation, `*`, `?` and their lazy
forms).  POSIX names inside classes (`[[:alpha:]]`) are a parameter.
-/

namespace Verif.RegexModel

abbrev Str := List Char

inductive Re
  | eps
  | none
  | cls (p : Char → Bool)
  | cat (a b : Re)
  | alt (a b : Re)
  | star (a : Re)

/-- What a regular expression denotes. -/
inductive Lang : Re → Str → Prop
  | eps : Lang .eps []
  | cls {p c} : p c = true → Lang (.cls p) [c]
  | cat {a b s t} : Lang a s → Lang b t → Lang (.cat a b) (s ++ t)
  | altL {a b s} : Lang a s → Lang (.alt a b) s
  | altR {a b s} : Lang b s → Lang (.alt a b) s
  | starNil {a} : Lang (.star a) []
  | starCons {a s t} : Lang a s → Lang (.star a) t → Lang (.star a) (s ++ t)

def nullable : Re → Bool
  | .eps => true
  | .none => false
  | .cls _ => false
  | .cat a b => nullable a && nullable b
  | .alt a b => nullable a || nullable b
  | .star _ => true

def deriv (c : Char) : Re → Re
  | .eps => .none
  | .none => .none
  | .cls p => if p c then .eps else .none
  | .cat a b => if nullable a then .alt (.cat (deriv c a) b) (deriv c b) else .cat (deriv c a) b
  | .alt a b => .alt (deriv c a) (deriv c b)
  | .star a => .cat (deriv c a) (.star a)

def accepts (r : Re) : Str → Bool
  | [] => nullable r
  | c :: s => accepts (deriv c r) s

/-! ### Inversion -/

theorem lang_eps {s : Str} : Lang .eps s ↔ s = [] := ⟨fun h => by cases h; rfl, fun h => h ▸ .eps⟩
theorem lang_none {s : Str} : ¬ Lang .none s := fun h => by cases h
theorem lang_cls {p : Char → Bool} {s : Str} : Lang (.cls p) s ↔ ∃ c, p c = true ∧ s = [c] :=
  ⟨fun h => by cases h; exact ⟨_, by assumption, rfl⟩, fun ⟨_, h, e⟩ => e ▸ .cls h⟩
theorem lang_cat {a b : Re} {s : Str} : Lang (.cat a b) s ↔ ∃ x y, s = x ++ y ∧ Lang a x ∧ Lang b y :=
  ⟨fun h => by cases h with | cat h1 h2 => exact ⟨_, _, rfl, h1, h2⟩, fun ⟨_, _, e, h1, h2⟩ => e ▸ .cat h1 h2⟩
theorem lang_alt {a b : Re} {s : Str} : Lang (.alt a b) s ↔ Lang a s ∨ Lang b s :=
  ⟨fun h => by cases h with | altL h => exact .inl h | altR h => exact .inr h, fun h => h.elim .altL .altR⟩

theorem star_induct {a : Re} {P : Str → Prop} (h0 : P []) (h1 : ∀ s t, Lang a s → Lang (.star a) t → P t → P (s ++ t)) :
    ∀ {s}, Lang (.star a) s → P s := by
  intro s h
  generalize hr : Re.star a = r at h
  induction h with
  | starNil => exact h0
  | starCons hs ht _ ih2 => cases hr; exact h1 _ _ hs ht (ih2 rfl)
  | _ => cases hr

/-- Iterating a one-character class. -/
theorem lang_star_cls {p : Char → Bool} {s : Str} : Lang (.star (.cls p)) s ↔ ∀ c ∈ s, p c = true := by
  constructor
  · intro h
    refine star_induct (P := fun s => ∀ c ∈ s, p c = true) (by simp) ?_ h
    intro s t hs _ ih c hc
    obtain ⟨d, hd, rfl⟩ := lang_cls.mp hs
    rcases List.mem_append.mp hc with hc | hc
    · rw [List.mem_singleton.mp hc]; exact hd
    · exact ih c hc
  · intro h
    induction s with
    | nil => exact .starNil
    | cons c s ih => exact .starCons (s := [c]) (.cls (h c (by simp))) (ih fun d hd => h d (List.mem_cons_of_mem _ hd))

theorem nullable_iff (r : Re) : nullable r = true ↔ Lang r [] := by
  induction r with
  | eps => exact ⟨fun _ => .eps, fun _ => rfl⟩
  | none => exact ⟨fun h => (by cases h), fun h => by cases h⟩
  | cls p => exact ⟨fun h => (by cases h), fun h => by obtain ⟨c, _, e⟩ := lang_cls.mp h; cases e⟩
  | cat a b iha ihb =>
    rw [nullable, Bool.and_eq_true, iha, ihb, lang_cat]
    constructor
    · rintro ⟨h1, h2⟩; exact ⟨[], [], rfl, h1, h2⟩
    · rintro ⟨x, y, e, h1, h2⟩
      obtain ⟨rfl, rfl⟩ := List.append_eq_nil_iff.mp e.symm
      exact ⟨h1, h2⟩
  | alt a b iha ihb => rw [nullable, Bool.or_eq_true, iha, ihb, lang_alt]
  | star a _ => exact ⟨fun _ => .starNil, fun _ => rfl⟩

theorem deriv_iff (c : Char) (r : Re) : ∀ s, Lang (deriv c r) s ↔ Lang r (c :: s) := by
  induction r with
  | eps => intro s; exact ⟨fun h => (by cases h), fun h => by have := lang_eps.mp h; cases this⟩
  | none => intro s; exact ⟨fun h => (by cases h), fun h => by cases h⟩
  | cls p =>
    intro s
    rw [deriv, lang_cls]
    split
    · next hp =>
      rw [lang_eps]
      constructor
      · rintro rfl; exact ⟨c, hp, rfl⟩
      · rintro ⟨d, _, e⟩; injection e
    · next hp =>
      constructor
      · intro h; exact absurd h lang_none
      · rintro ⟨d, hd, e⟩; injection e with e1 e2; subst e1; exact absurd hd hp
  | cat a b iha ihb =>
    intro s
    have hcat : Lang (.cat (deriv c a) b) s ↔ ∃ x y, s = x ++ y ∧ Lang a (c :: x) ∧ Lang b y := by
      rw [lang_cat]
      constructor
      · rintro ⟨x, y, e, h1, h2⟩; exact ⟨x, y, e, (iha x).mp h1, h2⟩
      · rintro ⟨x, y, e, h1, h2⟩; exact ⟨x, y, e, (iha x).mpr h1, h2⟩
    rw [deriv, lang_cat]
    split
    · next hn =>
      rw [lang_alt, hcat, ihb]
      constructor
      · rintro (⟨x, y, rfl, h1, h2⟩ | h)
        · exact ⟨c :: x, y, rfl, h1, h2⟩
        · exact ⟨[], c :: s, rfl, (nullable_iff a).mp hn, h⟩
      · rintro ⟨x, y, e, h1, h2⟩
        cases x with
        | nil => right; rw [List.nil_append] at e; rw [e]; exact h2
        | cons d x => injection e with e1 e2; subst e1; left; exact ⟨x, y, e2, h1, h2⟩
    · next hn =>
      rw [hcat]
      constructor
      · rintro ⟨x, y, rfl, h1, h2⟩; exact ⟨c :: x, y, rfl, h1, h2⟩
      · rintro ⟨x, y, e, h1, h2⟩
        cases x with
        | nil => exact absurd ((nullable_iff a).mpr h1) hn
        | cons d x => injection e with e1 e2; subst e1; exact ⟨x, y, e2, h1, h2⟩
  | alt a b iha ihb => intro s; rw [deriv, lang_alt, lang_alt, iha, ihb]
  | star a iha =>
    intro s
    rw [deriv, lang_cat]
    constructor
    · rintro ⟨x, y, rfl, h1, h2⟩; exact .starCons (s := c :: x) ((iha x).mp h1) h2
    · intro h
      generalize ht : c :: s = t at h
      revert ht
      refine star_induct (P := fun t => c :: s = t → ∃ x y, s = x ++ y ∧ Lang (deriv c a) x ∧ Lang (.star a) y) ?_ ?_ h
      · intro e; cases e
      · intro x y hx hy ih e
        cases x with
        | nil => exact ih e
        | cons d x => injection e with e1 e2; subst e1; exact ⟨x, y, e2, (iha x).mpr hx, hy⟩

/-- The matcher decides the denotation. -/
theorem accepts_iff : ∀ (s : Str) (r : Re), accepts r s = true ↔ Lang r s
  | [], r => nullable_iff r
  | c :: s, r => by rw [accepts, accepts_iff s, deriv_iff]

/-! ### Concrete syntax -/

/-- ASCII punctuation: after a backslash these stand for themselves. -/
def isPunct (c : Char) : Bool :=
  (decide ('!' ≤ c) && decide (c ≤ '/')) || (decide (':' ≤ c) && decide (c ≤ '@')) ||
  (decide ('[' ≤ c) && decide (c ≤ '`') && c != '_') || (decide ('{' ≤ c) && decide (c ≤ '~'))

/-- One character of a class, escaped or not. -/
def classChar : Str → Option (Char × Str)
  | [] => none
  | c :: s => if c = '\\' then match s with
      | d :: t => if isPunct d then some (d, t) else none
      | [] => none
    else some (c, s)

/-- The rest of a range after its lower end; `-` before the closing bracket is a member. -/
def readRange (lo : Char) (u : Str) : Option ((Char → Bool) × Str) :=
  if u.head? = some '-' ∧ u.tail ≠ [] ∧ u.tail.head? ≠ some ']' then
    match classChar u.tail with
    | none => none
    | some (hi, w) => if hi < lo then none else some (fun x => decide (lo ≤ x) && decide (x ≤ hi), w)
  else some (fun x => x == lo, u)

/-- One member of a class; `posix` reads what follows `[:`. -/
def readItem (posix : Str → Option ((Char → Bool) × Str)) (c : Char) (t : Str) : Option ((Char → Bool) × Str) :=
  match (if c = '[' ∧ t.head? = some ':' then posix t.tail else none) with
  | some r => some r
  | none => match classChar (c :: t) with
    | none => none
    | some (lo, u) => readRange lo u

/-- The inside of a bracket class after the optional `^`, up to its closing bracket.  A `]` in
first position is an ordinary member. -/
def classItems (posix : Str → Option ((Char → Bool) × Str)) : Nat → Bool → Str → Option ((Char → Bool) × Str)
  | 0, _, _ => none
  | _ + 1, _, [] => none
  | n + 1, first, c :: t =>
    if c = ']' ∧ first = false then some (fun _ => false, t)
    else match readItem posix c t with
      | none => none
      | some (p, u) => (classItems posix n false u).map fun r => (fun x => p x || r.1 x, r.2)

/-- A bracket class, after its opening bracket. -/
def readClass (posix : Str → Option ((Char → Bool) × Str)) (s : Str) : Option ((Char → Bool) × Str) :=
  match s with
  | '^' :: t => (classItems posix (t.length + 1) true t).map fun r => (fun x => !r.1 x, r.2)
  | _ => classItems posix (s.length + 1) true s

def isRep (c : Char) : Bool := c == '*' || c == '?' || c == '+'

/-- The text starts with a repetition operator. -/
def repNext : Str → Bool
  | [] => false
  | c :: _ => isRep c

/-- After a repetition operator: an optional `?` makes it lazy, another operator is an error. -/
def repDone (q : Re) (u : Str) : Option (Re × Str) :=
  if u.head? = some '?' then (if repNext u.tail then none else some (q, u.tail))
  else if repNext u then none else some (q, u)

/-- Repetition operators after an atom. -/
def readRep (r : Re) (s : Str) : Option (Re × Str) :=
  match s with
  | [] => some (r, [])
  | c :: u =>
    if c = '*' then repDone (.star r) u
    else if c = '?' then repDone (.alt .eps r) u
    else if c = '+' then repDone (.cat r (.star r)) u
    else some (r, s)

/-- One atom; `grp` reads the inside of a group. -/
def readAtom (posix : Str → Option ((Char → Bool) × Str)) (grp : Str → Option (Re × Str)) (c : Char) (t : Str) : Option (Re × Str) :=
  if c = '.' then some (Re.cls fun x => x != '\n', t)
  else if c = '\\' then match t with
    | d :: u => if isPunct d then some (Re.cls fun x => x == d, u) else none
    | [] => none
  else if c = '[' then (readClass posix t).map fun r => (Re.cls r.1, r.2)
  else if c = '(' then match t with
    | '?' :: ':' :: u => grp u
    | _ => none
  else if isRep c ∨ c = '^' then none
  else some (Re.cls fun x => x == c, t)

/-- A sequence, up to `)`, `|`, `$` or the end. -/
def readSeq (posix : Str → Option ((Char → Bool) × Str)) (grp : Str → Option (Re × Str)) : Nat → Str → Option (Re × Str)
  | 0, _ => none
  | _ + 1, [] => some (.eps, [])
  | n + 1, c :: t =>
    if c = ')' ∨ c = '|' ∨ c = '$' then some (.eps, c :: t)
    else match readAtom posix grp c t with
      | none => none
      | some (a, u) => match readRep a u with
        | none => none
        | some (b, v) => (readSeq posix grp n v).map fun r => (Re.cat b r.1, r.2)

/-- The inside of a group without nested groups: alternatives up to the closing parenthesis. -/
def readGroup (posix : Str → Option ((Char → Bool) × Str)) : Nat → Str → Option (Re × Str)
  | 0, _ => none
  | n + 1, s => match readSeq posix (fun _ => none) (s.length + 1) s with
    | some (r, ')' :: u) => some (r, u)
    | some (r, '|' :: u) => (readGroup posix n u).map fun q => (.alt r q.1, q.2)
    | _ => none

/-- An expression anchored at both ends, `^…$`. -/
def compile (posix : Str → Option ((Char → Bool) × Str)) (s : Str) : Option Re :=
  match s with
  | '^' :: t => match readSeq posix (readGroup posix (t.length + 1)) (t.length + 1) t with
    | some (r, ['$']) => some r
    | _ => none
  | _ => none

end Verif.RegexModel
