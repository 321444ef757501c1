import Verif.TypeModel
/-!
# Specification: well-formed Go type strings
-/

namespace Verif.TypeSpec
open Verif.TypeModel

/-- Follow the nesting of square brackets and parentheses: the depth after `s` when it starts
at depth `k`; `none` if `s` closes more than was open, or has a comma at depth 0. -/
def nesting : Nat → Str → Option Nat
  | k, [] => some k
  | k, c :: s =>
    if c = '[' ∨ c = '(' then nesting (k + 1) s
    else if c = ']' ∨ c = ')' then if k = 0 then none else nesting (k - 1) s
    else if c = ',' ∧ k = 0 then none
    else nesting k s

/-- As `nesting`, for square brackets alone. -/
def squares : Nat → Str → Option Nat
  | k, [] => some k
  | k, c :: s =>
    if c = '[' then squares (k + 1) s
    else if c = ']' then if k = 0 then none else squares (k - 1) s
    else squares k s

/-- Brackets and parentheses match, and commas occur only inside them. -/
def OneItem (s : Str) : Prop := nesting 0 s = some 0 ∧ squares 0 s = some 0

/-- No white space at either end, and not empty. -/
def Tight (s : Str) : Prop := ∃ c d, s.head? = some c ∧ s.getLast? = some d ∧ isSpace c = false ∧ isSpace d = false

/-- An ASCII identifier. -/
def Word (s : Str) : Prop :=
  ∃ c r, s = c :: r ∧ (c = '_' ∨ c.isAlpha = true) ∧ ∀ x ∈ r, x = '_' ∨ x.isAlphanum = true

/-- The text of a named type without its arguments: an identifier, a qualified identifier, or
a literal like `func(int, string) error` or `interface{}`. What is excluded is text that would
be read as another kind of type. -/
structure Atom (b : Str) : Prop where
  tight : Tight b
  item : OneItem b
  noOpen : '[' ∉ b
  noClose : ']' ∉ b
  noSep : ¬ sep <:+: b
  noStar : b.head? ≠ some '*'
  noChan : ¬ kChan <+: b ∧ ¬ kSend <+: b ∧ ¬ kRecv <+: b
  /-- not `T constraint` -/
  noDecl : ∀ h r, b = h ++ ' ' :: r → Word h → h ∈ notDecl

/-- How a qualified name is written. -/
def written (pkg name : Str) : Str := if pkg = [] then name else pkg ++ '.' :: name

/-- A declared type parameter with its constraint, `T any`. -/
def Decl (t : Ty) : Prop :=
  ∃ name con, t = .named [] name [] con ∧ Word name ∧ name ∉ notDecl ∧ Tight con ∧ OneItem con

mutual
/-- Well-formed types. -/
def WF : Ty → Prop
  | .ptr e => WF e
  | .slice e => WF e
  | .arr n e => (n ≠ [] ∧ nesting 1 n = some 1 ∧ squares 0 n = some 0) ∧ WF e
  | .map k e => WF k ∧ WF e
  | .chan _ e => WF e
  | .named pkg name args con =>
    con = [] ∧ Atom (written pkg name) ∧ '.' ∉ name ∧ (args ≠ [] → written pkg name ≠ ['m', 'a', 'p']) ∧ WFArgs args
def WFArgs : List Ty → Prop
  | [] => True
  | t :: ts => (Decl t ∨ WF t) ∧ WFArgs ts
end

/-- The type without its qualifiers, the empty interface written `any`. -/
def bareName (name : Str) : Str := if name ∈ emptyIface then ['a', 'n', 'y'] else name

mutual
def bare : Ty → Ty
  | .ptr e => .ptr (bare e)
  | .slice e => .slice (bare e)
  | .arr n e => .arr n (bare e)
  | .map k e => .map (bare k) (bare e)
  | .chan d e => .chan d (bare e)
  | .named _ name args con => .named [] (bareName name) (bareAll args) con
def bareAll : List Ty → List Ty
  | [] => []
  | t :: ts => bare t :: bareAll ts
end

/-- Characters with no role in the syntax of types. -/
def PlainChar (c : Char) : Prop := isSpace c = false ∧ c ∉ ['[', ']', '(', ')', ',', '<', '>', '*']
def Plain (s : Str) : Prop := s ≠ [] ∧ ∀ c ∈ s, PlainChar c

mutual
/-- Types built from plain names: import paths, identifiers, the empty interface, and array
lengths, without function, struct or interface literals. -/
def Tame : Ty → Prop
  | .ptr e => Tame e
  | .slice e => Tame e
  | .arr n e => Plain n ∧ Tame e
  | .map k e => Tame k ∧ Tame e
  | .chan _ e => Tame e
  | .named pkg name args con =>
    con = [] ∧ (pkg = [] ∨ Plain pkg) ∧ (Plain name ∨ (pkg = [] ∧ args = [] ∧ name ∈ emptyIface)) ∧ '.' ∉ name ∧
    (args ≠ [] → name ≠ ['m', 'a', 'p']) ∧ TameArgs args
def TameArgs : List Ty → Prop
  | [] => True
  | t :: ts => (Decl t ∨ Tame t) ∧ TameArgs ts
end

/-- The component key of a type: the type itself qualified with the separator, its arguments
bare. -/
def keyed : Ty → Ty
  | .ptr e => .ptr (keyed e)
  | .slice e => .slice (keyed e)
  | .arr n e => .arr n (keyed e)
  | .chan d e => .chan d (keyed e)
  | .named pkg name args con => .named pkg name (bareAll args) con
  | .map k e => .map k e

/-- The type is an instantiation of a qualified generic type, possibly behind pointers, slices,
arrays and channels. -/
def Instance (t : Ty) : Prop := ∃ pkg name args, core t = .named pkg name args [] ∧ pkg ≠ [] ∧ args ≠ []

end Verif.TypeSpec
