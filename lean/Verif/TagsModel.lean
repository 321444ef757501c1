/-!
# Model: struct tags and JSON names

internal/spec/mapper.go:1749-1777 (jsonFieldOmitted, extractJSONName), 1473 and 1501-1504 (their use),
internal/metadata/helpers.go:103-117 (getFieldTag), and reflect.StructTag.Lookup of the standard library
with `strconv.Unquote` as a parameter.
-/

namespace Verif.TagsModel

/-- strings.Cut: around the first occurrence of `sep`. -/
def cut (sep : List Char) : List Char → Option (List Char × List Char)
  | [] => if sep = [] then some ([], []) else none
  | c :: cs => if sep.isPrefixOf (c :: cs) then some ([], (c :: cs).drop sep.length) else (cut sep cs).map fun r => (c :: r.1, r.2)

/-- The text before the first occurrence of `sep`, if any. -/
def before (sep s : List Char) : List Char :=
  match cut sep s with
  | some x => x.1
  | none => s

/-- `strings.Split(s, sep)[1]` if there is one: between the first and the second occurrence. -/
def second (sep s : List Char) : Option (List Char) := (cut sep s).map fun r => before sep r.2

/-- `strings.Split(s, " ")[0]`, and up to the first comma. -/
def upTo (c : Char) (s : List Char) : List Char := s.takeWhile (· != c)

/-- strings.Trim(s, "\""). -/
def trimQuotes (s : List Char) : List Char := ((s.dropWhile (· == '"')).reverse.dropWhile (· == '"')).reverse

def jsonKey : List Char := ['j', 's', 'o', 'n']
def jsonColon : List Char := ['j', 's', 'o', 'n', ':']

/-- mapper.go:1766-1774: the name in the part after `json:`. -/
def nameIn (part : List Char) : List Char :=
  if upTo ',' (trimQuotes (upTo ' ' part)) = ['-'] then [] else upTo ',' (trimQuotes (upTo ' ' part))

/-- mapper.go:1754-1777; [] is "no name". -/
def extractJSONName (tag : List Char) : List Char :=
  match second jsonColon tag with
  | some part => nameIn part
  | none => []

/-! ## reflect.StructTag.Lookup -/

def keyChar (c : Char) : Bool := decide (' ' < c) && (c != ':') && (c != '"') && (c.toNat != 0x7f)

/-- The rest of a quoted string after its opening quote: its text with the closing quote, and what follows. -/
def scanQuoted : List Char → Option (List Char × List Char)
  | [] => none
  | '"' :: cs => some (['"'], cs)
  | '\\' :: c :: cs => (scanQuoted cs).map fun r => ('\\' :: c :: r.1, r.2)
  | c :: cs => (scanQuoted cs).map fun r => (c :: r.1, r.2)

/-- One step of Lookup: the first key, its quoted value, and the rest. -/
def nextPair (tag : List Char) : Option (List Char × List Char × List Char) :=
  match (tag.dropWhile (· == ' ')).dropWhile keyChar with
  | ':' :: '"' :: cs =>
    if (tag.dropWhile (· == ' ')).takeWhile keyChar = [] then none
    else (scanQuoted cs).map fun r => ((tag.dropWhile (· == ' ')).takeWhile keyChar, '"' :: r.1, r.2)
  | _ => none

/-- reflect.StructTag.Lookup; the fuel is the length of the tag. -/
def lookupF (unquote : List Char → Option (List Char)) (key : List Char) : Nat → List Char → Option (List Char)
  | 0, _ => none
  | n + 1, tag =>
    match nextPair tag with
    | none => none
    | some (name, q, rest) => if name = key then unquote q else lookupF unquote key n rest

def lookup (unquote : List Char → Option (List Char)) (key tag : List Char) : Option (List Char) := lookupF unquote key tag.length tag

/-- mapper.go:1749-1752. -/
def jsonFieldOmitted (unquote : List Char → Option (List Char)) (tag : List Char) : Bool := lookup unquote jsonKey tag == some ['-']

/-- mapper.go:1473, 1501-1504: the property of an exported field, if any. -/
def property (unquote : List Char → Option (List Char)) (field tag : List Char) : Option (List Char) :=
  if jsonFieldOmitted unquote tag then none
  else some (if extractJSONName tag = [] then field else extractJSONName tag)

/-- helpers.go:103-117: the text of a tag literal as recorded. -/
def getFieldTag (lit : List Char) : List Char :=
  if lit.length ≥ 2 ∧ lit.head? = some '`' ∧ lit.getLast? = some '`' then (lit.drop 1).dropLast
  else if lit.length ≥ 2 ∧ lit.head? = some '"' ∧ lit.getLast? = some '"' then (lit.drop 1).dropLast
  else lit

end Verif.TagsModel
