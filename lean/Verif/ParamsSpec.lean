import Verif.PathsSpec
import Verif.ParamsModel
/-! # Specification vocabulary for operation parameters -/

namespace Verif.Params
open Verif.Paths

/-- `{n}` occurs in the template. -/
def HasPlaceholder (path n : Str) : Prop := ∃ pre post, path = pre ++ '{' :: (n ++ '}' :: post)

/-- `{n}` occurs at most once in the template, for each identifier `n`. -/
def PlaceholdersOnce (path : Str) : Prop :=
  ∀ n pre post pre' post', Ident n → path = pre ++ '{' :: (n ++ '}' :: post) →
    path = pre' ++ '{' :: (n ++ '}' :: post') → pre = pre'

/-- What a document reader sees a parameter declare, given components.parameters
(key ↦ name; those are all required path parameters): name and location. -/
def declares {σ} (comps : List (Str × Str)) (p : Param σ) : Option (Str × String) :=
  if p.ref = [] then some (p.name, p.loc)
  else if refPrefixP.isPrefixOf p.ref then
    (comps.lookup (p.ref.drop refPrefixP.length)).map fun n => (n, "path")
  else none

/-- A Go name that starts with a character which upper- then lower-casing gives back
(a lower-case letter, '_' …). -/
def LowerStart (d : Str) : Prop := ∃ c cs, d = c :: cs ∧ c.toUpper.toLower = c

/-- Concatenation expressions: the operands from left to right. -/
def PathArg.operands {α} : PathArg α → List α
  | .leaf a => [a]
  | .binary _ (some x) (some f) => x.operands ++ f.operands
  | .binary _ (some x) none => x.operands
  | .binary _ none (some f) => f.operands
  | .binary _ none none => []

/-- Every operator is `+` and has both sides. -/
def PathArg.Concat {α} : PathArg α → Prop
  | .leaf _ => True
  | .binary op (some x) (some f) => op = ['+'] ∧ x.Concat ∧ f.Concat
  | .binary _ _ _ => False

end Verif.Params
