import Verif.PathsModel
/-! # Specification vocabulary for paths -/

namespace Verif.Paths

/-- Non-empty segments of a path: what is between slashes. `cur` is the segment being read. -/
def segsFrom (cur : Str) : Str → List Str
  | [] => if cur = [] then [] else [cur]
  | c :: cs =>
    if c = '/' then (if cur = [] then [] else [cur]) ++ segsFrom [] cs
    else segsFrom (cur ++ [c]) cs

/-- The non-empty segments of a path. -/
def segs (s : Str) : List Str := segsFrom [] s

/-! ## Router path syntax -/

/-- Text with matched braces. -/
inductive Balanced : Str → Prop
  | nil : Balanced []
  | char {c s} : c ≠ '{' → c ≠ '}' → Balanced s → Balanced (c :: s)
  | braces {s t} : Balanced s → Balanced t → Balanced ('{' :: (s ++ '}' :: t))

/-- The building blocks of a route path as routers write them. -/
inductive Piece
  | lit (c : Char)               -- ordinary text
  | colon (name : Str)           -- `:name`
  | plain (name : Str)           -- `{name}`
  | regex (name pattern : Str)   -- `{name:pattern}`

def Ident (s : Str) : Prop := ∃ c cs, s = c :: cs ∧ isIdStart c = true ∧ ∀ x ∈ cs, isIdChar x = true
def Simple (s : Str) : Prop := '{' ∉ s ∧ '}' ∉ s ∧ ':' ∉ s

def Piece.Ok : Piece → Prop
  | .lit c => c ≠ '{' ∧ c ≠ '}' ∧ c ≠ ':'
  | .colon n => Ident n
  | .plain n => Simple n
  | .regex n p => Simple n ∧ Balanced p

/-- How the router spells a piece. -/
def Piece.text : Piece → Str
  | .lit c => [c]
  | .colon n => ':' :: n
  | .plain n => '{' :: n ++ ['}']
  | .regex n p => '{' :: n ++ ':' :: p ++ ['}']

/-- How OpenAPI spells it. -/
def Piece.openapi : Piece → Str
  | .lit c => [c]
  | .colon n => '{' :: n ++ ['}']
  | .plain n => '{' :: n ++ ['}']
  | .regex n _ => '{' :: n ++ ['}']

/-- A `:name` ends where the next piece starts: the next piece is not a name character. -/
def Separated : List Piece → Prop
  | [] => True
  | .colon _ :: .lit c :: ps => isIdChar c = false ∧ Separated (.lit c :: ps)
  | _ :: ps => Separated ps

def routerText (ps : List Piece) : Str := ps.flatMap Piece.text
def openapiText (ps : List Piece) : Str := ps.flatMap Piece.openapi

/-- No `:` is directly followed by the start of an identifier. -/
def NoColonParam (s : Str) : Prop := ∀ pre c post, s = pre ++ ':' :: c :: post → isIdStart c = false

end Verif.Paths
