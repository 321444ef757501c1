import Verif.TagsModel
/-!
# Model: validation tags

internal/spec/mapper.go:2106-2114 (splitOnDive), 2117-2406 (extractValidationConstraints), 2409-2496
(applyValidationConstraints).  Numbers that the code keeps as float64 are of an arbitrary type with the
two conversions and the parser as parameters.
-/

namespace Verif.ValidateModel
open Verif.TagsModel

/-- float64: `ofInt` is `float64(n)`, `toInt` is `int(x)`, `parse` is strconv.ParseFloat, `zero` the zero value. -/
structure Floats where
  F : Type
  ofInt : Int → F
  toInt : F → Int
  parse : List Char → Option F
  zero : F

/-- mapper.go:2086-2100 without `Dive`: constraints are kept as a list, the container's first, then those
after the first `dive`, and so on; the empty list is nil. -/
structure Flat (fl : Floats) where
  minLength : Option Int := none
  maxLength : Option Int := none
  min : Option fl.F := none
  max : Option fl.F := none
  format : List Char := []
  pattern : List Char := []
  enum : List (List Char) := []
  required : Bool := false

/-- mapper.go:2395-2401 (without `Dive`). -/
def Flat.isEmpty {fl : Floats} (c : Flat fl) : Bool :=
  c.minLength.isNone && c.maxLength.isNone && c.min.isNone && c.max.isNone && c.pattern.isEmpty && c.format.isEmpty && !c.required && c.enum.isEmpty

/-! ## Text -/

/-- unicode.IsSpace. -/
def isSpace (c : Char) : Bool :=
  [0x9, 0xa, 0xb, 0xc, 0xd, 0x20, 0x85, 0xa0, 0x1680, 0x2028, 0x2029, 0x202f, 0x205f, 0x3000].contains c.toNat || (decide (0x2000 ≤ c.toNat) && decide (c.toNat ≤ 0x200a))

def trimBy (p : Char → Bool) (s : List Char) : List Char := ((s.dropWhile p).reverse.dropWhile p).reverse

/-- strings.TrimSpace. -/
def trimSpace (s : List Char) : List Char := trimBy isSpace s

/-- strings.Split by one character. -/
def splitC (sep : Char) : List Char → List (List Char)
  | [] => [[]]
  | c :: cs => if c = sep then [] :: splitC sep cs else consHead c (splitC sep cs)
where
  consHead (c : Char) : List (List Char) → List (List Char)
    | [] => [[c]]
    | w :: ws => (c :: w) :: ws

/-- strings.Join with one character. -/
def joinC (sep : Char) : List (List Char) → List Char
  | [] => []
  | [w] => w
  | w :: v :: ws => w ++ sep :: joinC sep (v :: ws)

/-- strconv.Atoi (64 bits). -/
def digits : List Char → Option Nat
  | [] => none
  | cs => if cs.all Char.isDigit then some (cs.foldl (fun n c => 10 * n + (c.toNat - 48)) 0) else none

def inRange (n : Int) : Option Int := if -9223372036854775808 ≤ n ∧ n ≤ 9223372036854775807 then some n else none

def atoi : List Char → Option Int
  | '-' :: cs => (digits cs).bind fun n => inRange (-(n : Int))
  | '+' :: cs => (digits cs).bind fun n => inRange n
  | cs => (digits cs).bind fun n => inRange n

def dive : List Char := ['d', 'i', 'v', 'e']

/-- mapper.go:2108-2112: the parts before and after the first `dive`. -/
def splitParts : List (List Char) → Option (List (List Char) × List (List Char))
  | [] => none
  | p :: ps => if trimSpace p = dive then some ([], ps) else (splitParts ps).map fun r => (p :: r.1, r.2)

/-- mapper.go:2106-2114. -/
def splitOnDive (s : List Char) : Option (List Char × List Char) := (splitParts (splitC ',' s)).map fun r => (joinC ',' r.1, joinC ',' r.2)

/-! ## Rules -/

def identStart (c : Char) : Bool := c.isAlpha || c == '_'
def identChar (c : Char) : Bool := c.isAlphanum || c == '_'

/-- `(?:[^,{}]|{[^}]*})*`, greedily: what matches and what is left. -/
def valuePart : Nat → List Char → List Char × List Char
  | 0, s => ([], s)
  | _ + 1, [] => ([], [])
  | n + 1, c :: cs =>
    if c = ',' ∨ c = '}' then ([], c :: cs)
    else if c = '{' then
      match cut ['}'] cs with
      | none => ([], c :: cs)
      | some r => ('{' :: r.1 ++ '}' :: (valuePart n r.2).1, (valuePart n r.2).2)
    else (c :: (valuePart n cs).1, (valuePart n cs).2)

/-- `[a-zA-Z_][a-zA-Z0-9_]*(?:=(?:[^,{}]|{[^}]*})*)?` at a character that can start it. -/
def matchRule (s : List Char) : List Char × List Char :=
  match s.dropWhile identChar with
  | '=' :: cs => (s.takeWhile identChar ++ '=' :: (valuePart cs.length cs).1, (valuePart cs.length cs).2)
  | rest => (s.takeWhile identChar, rest)

/-- mapper.go:2147: FindAllStringSubmatch; the fuel is the length of the text. -/
def tokens : Nat → List Char → List (List Char)
  | 0, _ => []
  | _ + 1, [] => []
  | n + 1, c :: cs => if identStart c then (matchRule (c :: cs)).1 :: tokens n (matchRule (c :: cs)).2 else tokens n cs

/-- mapper.go:2196-2359: rules that stand for a pattern. -/
def patternTable : List (String × String) := [
  ("alpha", r#"^[a-zA-Z]+$"#),
  ("alphanum", r#"^[a-zA-Z0-9]+$"#),
  ("numeric", r#"^[0-9]+$"#),
  ("alphaunicode", r#"^\p{L}+$"#),
  ("alphanumunicode", r#"^[\p{L}\p{N}]+$"#),
  ("hexadecimal", r#"^[0-9a-fA-F]+$"#),
  ("hexcolor", r#"^#([0-9a-fA-F]{3}|[0-9a-fA-F]{6})$"#),
  ("rgb", r#"^rgb\(\s*([0-9]{1,3})\s*,\s*([0-9]{1,3})\s*,\s*([0-9]{1,3})\s*\)$"#),
  ("rgba", r#"^rgba\(\s*([0-9]{1,3})\s*,\s*([0-9]{1,3})\s*,\s*([0-9]{1,3})\s*,\s*([0-9]*(?:\.[0-9]+)?)\s*\)$"#),
  ("hsl", r#"^hsl\(\s*([0-9]{1,3})\s*,\s*([0-9]{1,3})%\s*,\s*([0-9]{1,3})%\s*\)$"#),
  ("hsla", r#"^hsla\(\s*([0-9]{1,3})\s*,\s*([0-9]{1,3})%\s*,\s*([0-9]{1,3})%\s*,\s*([0-9]*(?:\.[0-9]+)?)\s*\)$"#),
  ("json", r#"^[\s\S]*$"#),
  ("base64", r#"^[A-Za-z0-9+/]*={0,2}$"#),
  ("base64url", r#"^[A-Za-z0-9_-]*$"#),
  ("datetime", r#"^\d{4}-\d{2}-\d{2}T\d{2}:\d{2}:\d{2}(\.\d+)?(Z|[+-]\d{2}:\d{2})$"#),
  ("date", r#"^\d{4}-\d{2}-\d{2}$"#),
  ("time", r#"^\d{2}:\d{2}:\d{2}$"#),
  ("ip", r#"^(?:(?:25[0-5]|2[0-4][0-9]|[01]?[0-9][0-9]?)\.){3}(?:25[0-5]|2[0-4][0-9]|[01]?[0-9][0-9]?)$"#),
  ("ipv4", r#"^(?:(?:25[0-5]|2[0-4][0-9]|[01]?[0-9][0-9]?)\.){3}(?:25[0-5]|2[0-4][0-9]|[01]?[0-9][0-9]?)$"#),
  ("ipv6", r#"^(?:[0-9a-fA-F]{1,4}:){7}[0-9a-fA-F]{1,4}$"#),
  ("cidr", r#"^(?:(?:25[0-5]|2[0-4][0-9]|[01]?[0-9][0-9]?)\.){3}(?:25[0-5]|2[0-4][0-9]|[01]?[0-9][0-9]?)\/(?:[0-9]|[1-2][0-9]|3[0-2])$"#),
  ("cidrv4", r#"^(?:(?:25[0-5]|2[0-4][0-9]|[01]?[0-9][0-9]?)\.){3}(?:25[0-5]|2[0-4][0-9]|[01]?[0-9][0-9]?)\/(?:[0-9]|[1-2][0-9]|3[0-2])$"#),
  ("cidrv6", r#"^(?:[0-9a-fA-F]{1,4}:){7}[0-9a-fA-F]{1,4}\/(?:[0-9]|[1-9][0-9]|1[0-2][0-8])$"#),
  ("tcp_addr", r#"^[a-zA-Z0-9.-]+:\d+$"#),
  ("tcp4_addr", r#"^(?:(?:25[0-5]|2[0-4][0-9]|[01]?[0-9][0-9]?)\.){3}(?:25[0-5]|2[0-4][0-9]|[01]?[0-9][0-9]?):\d+$"#),
  ("tcp6_addr", r#"^\[(?:[0-9a-fA-F]{1,4}:){7}[0-9a-fA-F]{1,4}\]:\d+$"#),
  ("udp_addr", r#"^[a-zA-Z0-9.-]+:\d+$"#),
  ("udp4_addr", r#"^(?:(?:25[0-5]|2[0-4][0-9]|[01]?[0-9][0-9]?)\.){3}(?:25[0-5]|2[0-4][0-9]|[01]?[0-9][0-9]?):\d+$"#),
  ("udp6_addr", r#"^\[(?:[0-9a-fA-F]{1,4}:){7}[0-9a-fA-F]{1,4}\]:\d+$"#),
  ("unix_addr", r#"^[a-zA-Z0-9._/-]+$"#),
  ("mac", r#"^([0-9A-Fa-f]{2}[:-]){5}([0-9A-Fa-f]{2})$"#),
  ("hostname", r#"^[a-zA-Z0-9]([a-zA-Z0-9-]{0,61}[a-zA-Z0-9])?(\.[a-zA-Z0-9]([a-zA-Z0-9-]{0,61}[a-zA-Z0-9])?)*$"#),
  ("fqdn", r#"^[a-zA-Z0-9]([a-zA-Z0-9-]{0,61}[a-zA-Z0-9])?(\.[a-zA-Z0-9]([a-zA-Z0-9-]{0,61}[a-zA-Z0-9])?)*\.$"#),
  ("isbn", r#"^(?:ISBN(?:-1[03])?:? )?(?=[0-9X]{10}$|(?=(?:[0-9]+[- ]){3})[- 0-9X]{13}$|97[89][0-9]{10}$|(?=(?:[0-9]+[- ]){4})[- 0-9]{17}$)(?:97[89][- ]?)?[0-9]{1,5}[- ]?[0-9]+[- ]?[0-9]+[- ]?[0-9X]$"#),
  ("isbn10", r#"^(?:ISBN(?:-10)?:? )?(?=[0-9X]{10}$|(?=(?:[0-9]+[- ]){3})[- 0-9X]{13}$)[0-9]{1,5}[- ]?[0-9]+[- ]?[0-9]+[- ]?[0-9X]$"#),
  ("isbn13", r#"^(?:ISBN(?:-13)?:? )?(?=[0-9]{13}$|(?=(?:[0-9]+[- ]){4})[- 0-9]{17}$)97[89][- ]?[0-9]{1,5}[- ]?[0-9]+[- ]?[0-9]+[- ]?[0-9]$"#),
  ("issn", r#"^[0-9]{4}-[0-9]{3}[0-9X]$"#),
  ("uuid3", r#"^[0-9a-f]{8}-[0-9a-f]{4}-3[0-9a-f]{3}-[0-9a-f]{4}-[0-9a-f]{12}$"#),
  ("uuid4", r#"^[0-9a-f]{8}-[0-9a-f]{4}-4[0-9a-f]{3}-[89ab][0-9a-f]{3}-[0-9a-f]{12}$"#),
  ("uuid5", r#"^[0-9a-f]{8}-[0-9a-f]{4}-5[0-9a-f]{3}-[89ab][0-9a-f]{3}-[0-9a-f]{12}$"#),
  ("ulid", r#"^[0-9A-HJKMNP-TV-Z]{26}$"#),
  ("ascii", r#"^[\x00-\x7F]*$"#),
  ("printascii", r#"^[\x20-\x7E]*$"#),
  ("multibyte", r#"^[\x00-\x7F]*$"#),
  ("datauri", r#"^data:([a-z]+\/[a-z0-9\-\+]+(;[a-z0-9\-\+]+\=[a-z0-9\-\+]+)?)?(;base64)?,([a-z0-9\!\$\&\'\(\)\*\+\,\;\=\-\.\_\~\:\@\/\?\%\s]*)$"#),
  ("latitude", r#"^[-+]?([1-8]?\d(\.\d+)?|90(\.0+)?)$"#),
  ("longitude", r#"^[-+]?(180(\.0+)?|((1[0-7]\d)|([1-9]?\d))(\.\d+)?)$"#),
  ("ssn", r#"^\d{3}-?\d{2}-?\d{4}$"#),
  ("credit_card", r#"^(?:4[0-9]{12}(?:[0-9]{3})?|5[1-5][0-9]{14}|3[47][0-9]{13}|3[0-9]{13}|6(?:011|5[0-9]{2})[0-9]{12})$"#),
  ("mongodb", r#"^[0-9a-fA-F]{24}$"#),
  ("cron", r#"^(\*|([0-5]?\d)) (\*|([01]?\d|2[0-3])) (\*|([012]?\d|3[01])) (\*|([0]?\d|1[0-2])) (\*|([0-6]))$"#)]

def namedPattern (rule : List Char) : Option (List Char) := (patternTable.find? fun e => e.1.toList == rule).map fun e => e.2.toList

/-- mapper.go:2186-2195. -/
def namedFormat (rule : List Char) : Option (List Char) :=
  if rule = "email".toList then some "email".toList
  else if rule = "url".toList then some "uri".toList
  else if rule = "uuid".toList then some "uuid".toList
  else none

def setMin {fl : Floats} (c : Flat fl) (arg : List Char) : Flat fl := match atoi arg with | some n => { c with min := some (fl.ofInt n) } | none => c
def setMax {fl : Floats} (c : Flat fl) (arg : List Char) : Flat fl := match atoi arg with | some n => { c with max := some (fl.ofInt n) } | none => c
def setLen {fl : Floats} (c : Flat fl) (arg : List Char) : Flat fl := match atoi arg with | some n => { c with minLength := some n, maxLength := some n } | none => c
def setMinLen {fl : Floats} (c : Flat fl) (arg : List Char) : Flat fl := match atoi arg with | some n => { c with minLength := some n } | none => c
def setMaxLen {fl : Floats} (c : Flat fl) (arg : List Char) : Flat fl := match atoi arg with | some n => { c with maxLength := some n } | none => c
def addEnum {fl : Floats} (c : Flat fl) (vals : List (List Char)) : Flat fl := { c with enum := c.enum ++ vals.map trimSpace }
def setFormat {fl : Floats} (c : Flat fl) (rule : List Char) : Flat fl := match namedFormat rule with | some f => { c with format := f } | none => c
def setPattern {fl : Floats} (c : Flat fl) (rule : List Char) : Flat fl := match namedPattern rule with | some p => { c with pattern := p } | none => c

/-- mapper.go:2150-2360. -/
def applyRule {fl : Floats} (c : Flat fl) (rule : List Char) : Flat fl :=
  if rule = "required".toList then { c with required := true }
  else if "min=".toList.isPrefixOf rule then setMin c (rule.drop 4)
  else if "max=".toList.isPrefixOf rule then setMax c (rule.drop 4)
  else if "len=".toList.isPrefixOf rule then setLen c (rule.drop 4)
  else if "minlen=".toList.isPrefixOf rule then setMinLen c (rule.drop 7)
  else if "maxlen=".toList.isPrefixOf rule then setMaxLen c (rule.drop 7)
  else if "regexp=".toList.isPrefixOf rule then { c with pattern := rule.drop 7 }
  else if "oneof=".toList.isPrefixOf rule then addEnum c (splitC ' ' (rule.drop 6))
  else if (namedFormat rule).isSome then setFormat c rule
  else setPattern c rule

def validateColon : List Char := "validate:".toList

/-- mapper.go:2146-2149: the rules of the container. -/
def rulesOf {fl : Floats} (s : List Char) : Flat fl := (tokens s.length s).foldl (fun c t => applyRule c (trimSpace t)) {}

/-- mapper.go:2367-2392: the older custom tags. -/
def customMin {fl : Floats} (tag : List Char) (c : Flat fl) : Flat fl :=
  match (second "min:".toList tag).bind fun p => fl.parse (trimQuotes (upTo ' ' p)) with
  | some v => { c with min := some v }
  | none => c

def customMax {fl : Floats} (tag : List Char) (c : Flat fl) : Flat fl :=
  match (second "max:".toList tag).bind fun p => fl.parse (trimQuotes (upTo ' ' p)) with
  | some v => { c with max := some v }
  | none => c

def customRegexp {fl : Floats} (tag : List Char) (c : Flat fl) : Flat fl :=
  match second "regexp:".toList tag with
  | some p => { c with pattern := trimQuotes (upTo ' ' p) }
  | none => c

def customEnum {fl : Floats} (tag : List Char) (c : Flat fl) : Flat fl :=
  match second "enum:".toList tag with
  | some p => addEnum c (splitC ',' (trimQuotes (upTo ' ' p)))
  | none => c

def custom {fl : Floats} (tag : List Char) (c : Flat fl) : Flat fl := customEnum tag (customRegexp tag (customMax tag (customMin tag c)))

/-- mapper.go:2395-2405: nil if nothing was found. -/
def finish {fl : Floats} (c : Flat fl) (d : List (Flat fl)) : List (Flat fl) := if c.isEmpty && d.isEmpty then [] else c :: d

/-- mapper.go:2136: the tag of what follows `dive`. -/
def diveTag (after : List Char) : List Char := "validate:\"".toList ++ after ++ ['"']

def commaOrSpace (c : Char) : Bool := c == ',' || c == ' '

/-- mapper.go:2117-2406; the fuel bounds the number of nested dives. -/
def extract {fl : Floats} : Nat → List Char → List (Flat fl)
  | 0, _ => []
  | n + 1, tag =>
    match second validateColon tag with
    | none => finish (custom tag {}) []
    | some part =>
      match splitOnDive (trimQuotes part) with
      | none => finish (custom tag (rulesOf (trimQuotes part))) []
      | some (b, a) =>
        finish (custom tag (rulesOf b)) (if trimBy commaOrSpace a = [] then [] else extract n (diveTag (trimBy commaOrSpace a)))

def extractValidation {fl : Floats} (tag : List Char) : List (Flat fl) := extract (tag.length + 1) tag

/-! ## Schemas -/

/-- openapi.go:142-178, as far as constraints set it. -/
structure Kw (fl : Floats) where
  type : List Char
  format : List Char := []
  pattern : List Char := []
  minLength : Int := 0
  maxLength : Int := 0
  minimum : fl.F := fl.zero
  maximum : fl.F := fl.zero
  minItems : Int := 0
  maxItems : Int := 0
  enum : List (List Char) := []

/-- A schema with its `items` and `additionalProperties`; `nil` is the nil pointer. -/
inductive Schema (fl : Floats)
  | nil
  | mk (kw : Kw fl) (items addl : Schema fl)

/-- mapper.go:2418-2430: of a string. -/
def applyString {fl : Floats} (k : Kw fl) (c : Flat fl) : Kw fl :=
  { k with minLength := (c.minLength.or (c.min.map fl.toInt)).getD k.minLength, maxLength := (c.maxLength.or (c.max.map fl.toInt)).getD k.maxLength }

/-- mapper.go:2432-2447: of a number or integer. -/
def applyNumber {fl : Floats} (k : Kw fl) (c : Flat fl) : Kw fl :=
  { k with minimum := ((if k.type = "integer".toList then c.minLength.map fl.ofInt else none).or c.min).getD k.minimum,
           maximum := ((if k.type = "integer".toList then c.maxLength.map fl.ofInt else none).or c.max).getD k.maximum }

/-- mapper.go:2452-2462: of an array. -/
def applyArray {fl : Floats} (k : Kw fl) (c : Flat fl) : Kw fl :=
  { k with minItems := (c.minLength.or (c.min.map fl.toInt)).getD k.minItems, maxItems := (c.maxLength.or (c.max.map fl.toInt)).getD k.maxItems }

/-- mapper.go:2418-2463: the bounds, by type. -/
def applyBounds {fl : Floats} (k : Kw fl) (c : Flat fl) : Kw fl :=
  if k.type = "string".toList then applyString k c
  else if k.type = "integer".toList ∨ k.type = "number".toList then applyNumber k c
  else if k.type = "array".toList then applyArray k c
  else k

/-- mapper.go:2475-2483: pattern and format. -/
def applyText {fl : Floats} (k : Kw fl) (c : Flat fl) : Kw fl :=
  { k with pattern := if c.pattern = [] then k.pattern else c.pattern, format := if c.format = [] then k.format else c.format }

/-- `schema.Enum = …`; none is a nil dereference. -/
def setEnum {fl : Floats} (vals : List (List Char)) : Schema fl → Option (Schema fl)
  | .nil => none
  | .mk k i a => some (.mk { k with enum := vals } i a)

/-- mapper.go:2486-2497: the enum; none is a crash. -/
def applyEnum {fl : Floats} (k : Kw fl) (items addl : Schema fl) (c : Flat fl) : Option (Schema fl) :=
  if c.enum = [] then some (.mk k items addl)
  else if k.type = "array".toList then (setEnum c.enum items).map fun i => .mk k i addl
  else if k.type = "object".toList then
    match addl with
    | .nil => some (.mk k items .nil)
    | .mk k' i a => some (.mk k items (.mk { k' with enum := c.enum } i a))
  else some (.mk { k with enum := c.enum } items addl)

/-- mapper.go:2409-2498. -/
def apply {fl : Floats} : Schema fl → List (Flat fl) → Option (Schema fl)
  | .nil, _ => some .nil
  | s, [] => some s
  | .mk k items addl, c :: d =>
    (if k.type = "array".toList then apply items d else some items).bind fun items' => applyEnum (applyText (applyBounds k c) c) items' addl c

end Verif.ValidateModel
