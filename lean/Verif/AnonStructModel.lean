import Verif.Common

/-!
# Model: reading the fields of an inline struct from its text

`anonStructBody`, `splitTopLevel`, `parseAnonField` and the loop of
`schemaFromAnonStructLiteral` in `/repo/internal/spec/mapper.go` 3268-3432.

Simplified: texts are lists of characters (the code goes byte by byte, but only looks for
ASCII); `strings.TrimSpace` knows ASCII blanks only; `strconv.Unquote` is a parameter.
-/

namespace Verif.AnonStruct

/-- Where a scan is: outside or inside a quoted string, or after a backslash in one
(`inQuote` and `escaped`, mapper.go 3312, 3349). -/
inductive Mode where
  | plain | quote | esc
  deriving DecidableEq, Repr

structure State where
  depth : Int
  mode : Mode
  deriving DecidableEq, Repr

/-- One character of the scans of mapper.go 3313-3341, 3350-3376 and 3401-3425 (the
latter jumps over a quoted string in an inner loop, to the same effect). -/
def next (s : State) (c : Char) : State :=
  match s.mode with
  | .esc => { s with mode := .quote }
  | .quote =>
    if c = '\\' then { s with mode := .esc }
    else if c = '"' then { s with mode := .plain } else s
  | .plain =>
    if c = '"' then { s with mode := .quote }
    else if c = '{' ∨ c = '[' ∨ c = '(' then { s with depth := s.depth + 1 }
    else if c = '}' ∨ c = ']' ∨ c = ')' then { s with depth := s.depth - 1 }
    else s

/-- The scan of `anonStructBody` from behind the opening brace (mapper.go 3311-3344). -/
def bodyScan (s : State) : List Char → Option (List Char)
  | [] => none
  | c :: cs =>
    if s.mode = .plain ∧ c = '}' ∧ s.depth - 1 = 0 then some []
    else (bodyScan (next s c) cs).map (c :: ·)

def structOpen : List Char := ['s', 't', 'r', 'u', 'c', 't', '{']

/-- `strings.Index(s, "struct{")`, and what follows it. -/
def afterStruct : List Char → Option (List Char)
  | [] => none
  | c :: cs =>
    if structOpen.isPrefixOf (c :: cs) then some ((c :: cs).drop structOpen.length)
    else afterStruct cs

/-- mapper.go 3306-3345. -/
def anonStructBody (s : List Char) : Option (List Char) :=
  (afterStruct s).bind (bodyScan ⟨1, .plain⟩)

def isSpace (c : Char) : Bool :=
  c == ' ' || c == '\t' || c == '\n' || c == '\r' || c.toNat == 11 || c.toNat == 12

/-- `strings.TrimSpace`. -/
def trim (s : List Char) : List Char := ((s.dropWhile isSpace).reverse.dropWhile isSpace).reverse

/-- Put a character in front of the first part. -/
def onHead (c : Char) : List (List Char) → List (List Char)
  | [] => [[c]]
  | p :: ps => (c :: p) :: ps

/-- The parts of mapper.go 3347-3380, before they are trimmed. -/
def parts (sep : Char) (s : State) : List Char → List (List Char)
  | [] => [[]]
  | c :: cs =>
    if s.mode = .plain ∧ c = sep ∧ s.depth = 0 then [] :: parts sep s cs
    else onHead c (parts sep (next s c) cs)

def splitTopLevel (s : List Char) (sep : Char) : List (List Char) :=
  (parts sep ⟨0, .plain⟩ s).map trim

/-- Up to the first quote outside all brackets, and from there on (mapper.go 3399-3425). -/
def tagScan (s : State) : List Char → List Char × Option (List Char)
  | [] => ([], none)
  | c :: cs =>
    if s.mode = .plain ∧ c = '"' ∧ s.depth = 0 then ([], some (c :: cs))
    else (c :: (tagScan (next s c) cs).1, (tagScan (next s c) cs).2)

/-- What is read of a field. -/
structure Read where
  name : List Char
  ty : List Char
  tag : List Char
  deriving DecidableEq, Repr

/-- mapper.go 3427-3431: the name is up to the first space. -/
def nameAndType (field tag : List Char) : Option Read :=
  if ' ' ∈ field then
    some ⟨field.takeWhile (· ≠ ' '), trim ((field.dropWhile (· ≠ ' ')).drop 1), tag⟩
  else none

/-- mapper.go 3393-3432; `none` is `ok = false`. -/
def parseAnonField (unquote : List Char → Option (List Char)) (field : List Char) : Option Read :=
  match tagScan ⟨0, .plain⟩ (trim field) with
  | (f, some q) => nameAndType (trim f) ((unquote q).getD [])
  | (f, none) => nameAndType f []

/-- The fields the loop of mapper.go 3277-3283 sees. -/
def fields (unquote : List Char → Option (List Char)) (goType : List Char) : Option (List Read) :=
  (anonStructBody goType).map fun b => (splitTopLevel b ';').filterMap (parseAnonField unquote)

end Verif.AnonStruct
