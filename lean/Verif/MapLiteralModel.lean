import Verif.Assoc
/-!
# Literals and map literals sent as a response

internal/spec/map_literal.go:53-135 (`mapLiteralSchema`, `constantKeyValue`), extractor.go:2205-2306 (`resolveArgType`,
`determineLiteralType`) and context_provider.go:122-160 (`callArgToString`), over the expressions
internal/metadata/expression.go:45-72, 297-322, 421-447 records.
`strconv.ParseFloat` and `strconv.Unquote` are parameters: `pf` tells which texts are accepted, `unq` gives the
text a quoted literal stands for.  Source text is a list of characters, type texts are strings.
-/

namespace Verif.MapLiteral

open Verif.Common

abbrev Str := List Char

/-- Expressions, which expression.go records node by node.  `lit` is an integer, floating-point, character or
string literal with its source text; `mapLit` is `map[K]V{k: v, …}`, with the literal type written out or, when
`named` is given, a declared type such as `gin.H`; `other` is any expression whose resolution
(extractor.go:2219-2268: constants, variables, calls, fields) is not modelled, with the type text that comes out. -/
inductive Expr
  | lit (raw : Str)
  | unary (op : Char) (x : Expr)
  | paren (x : Expr)
  | binary (op : String) (x y : Expr)
  | mapLit (named : Option String) (key elem : String) (elts : List (Expr × Expr))
  | other (n : Nat) (ty : String)

/-- `strings.Trim` with a set of characters. -/
def trim (cut : Char → Bool) (s : Str) : Str :=
  ((s.dropWhile cut).reverse.dropWhile cut).reverse

/-- A decimal digit. -/
def isDigit (c : Char) : Bool := decide ('0' ≤ c) && decide (c ≤ '9')

/-- The number written by digits, most significant first; `none` for anything else. -/
def parseDigits : Nat → Str → Option Nat
  | n, [] => some n
  | n, c :: r => if isDigit c then parseDigits (10 * n + (c.toNat - 48)) r else none

/-- `strconv.ParseUint(s, 10, 64)` succeeds. -/
def parseUint (s : Str) : Bool :=
  match s with
  | [] => false
  | _ => match parseDigits 0 s with
    | some n => decide (n < 2 ^ 64)
    | none => false

/-- `strconv.ParseInt(s, 10, 64)` succeeds. -/
def parseInt (s : Str) : Bool :=
  match s with
  | '+' :: [] => false
  | '-' :: [] => false
  | '+' :: r => match parseDigits 0 r with
    | some n => decide (n < 2 ^ 63)
    | none => false
  | '-' :: r => match parseDigits 0 r with
    | some n => decide (n ≤ 2 ^ 63)
    | none => false
  | [] => false
  | s => match parseDigits 0 s with
    | some n => decide (n < 2 ^ 63)
    | none => false

/-- extractor.go:2280: the characters `"` and `` ` ``. -/
def isQuote (c : Char) : Bool := c == '"' || c == '`'

def trueText : Str := ['t', 'r', 'u', 'e']
def falseText : Str := ['f', 'a', 'l', 's', 'e']
def nilText : Str := ['n', 'i', 'l']

/-- extractor.go:2278-2306. -/
def determineLiteralType (pf : Str → Bool) (literalValue : Str) : String :=
  let clean := trim isQuote literalValue
  if parseInt clean then "int"
  else if parseUint clean then "uint"
  else if pf clean then "float64"
  else if clean = trueText ∨ clean = falseText then "bool"
  else if clean = nilText then "interface{}"
  else "string"

/-- context_provider.go:132-134: a literal without its double quotes. -/
def literalInfo (raw : Str) : Str := trim (· == '"') raw

/-- context_provider.go:122-330, for the modelled kinds: `KindLiteral`, `KindUnary`, `KindCompositeLit` over
`KindMapType` or a declared type; `KindParen` and `KindBinary` fall through to the empty string. -/
def info : Expr → String
  | .lit raw => String.ofList (literalInfo raw)
  | .unary _ x => "*" ++ info x
  | .paren _ => ""
  | .binary _ _ _ => ""
  | .mapLit (some t) _ _ _ => t
  | .mapLit none k v _ => "map[" ++ k ++ "]" ++ v
  | .other _ ty => ty

/-- extractor.go:2205-2275: a literal gets its type from its text, anything else keeps what `info` gives (that
`resolveTypeOrigin` and the rest of the sequence change is in `other`).  Dereferencing (2265) is left out: it is
for patterns that ask for it. -/
def resolveArgType (pf : Str → Bool) : Expr → String
  | .lit raw => determineLiteralType pf (literalInfo raw)
  | e => info e

/-- map_literal.go:114-135. -/
def constantKeyValue (unq : Str → Option String) (elt : Expr × Expr) : Option (String × Expr) :=
  match elt.1 with
  | .lit raw =>
    if raw.head? = some '"' then
      match unq raw with
      | some key => if key = "" then none else some (key, elt.2)
      | none => none
    else none
  | _ => none

/-- An object schema: its properties (`none` is the empty schema, which says nothing) and whether
`additionalProperties: {}` is there. -/
structure ObjSchema (S : Type) where
  props : List (String × Option S)
  additional : Bool
  deriving DecidableEq

/-- map_literal.go:73-98: one round of the loop, over the properties so far and `opaque`. -/
def step {S : Type} (unq : Str → Option String) (pf : Str → Bool) (mapType : String → Option S)
    (acc : ObjSchema S) (elt : Expr × Expr) : ObjSchema S :=
  match constantKeyValue unq elt with
  | none => { acc with additional := true }
  | some (key, value) =>
    let ty := resolveArgType pf value
    if ty = "" then { acc with props := mset acc.props key none }
    else { acc with props := mset acc.props key (mapType ty) }

/-- map_literal.go:53-108.  `mapType` is `mapGoTypeForRoute` (`none` for a nil schema). -/
def mapLiteralSchema {S : Type} (unq : Str → Option String) (pf : Str → Bool) (mapType : String → Option S)
    (arg : Expr) : Option (ObjSchema S) :=
  match arg with
  | .mapLit none key _ elts =>
    if key ≠ "string" then none
    else if elts.isEmpty then none
    else
      let out := elts.foldl (step unq pf mapType) { props := [], additional := false }
      if out.props.isEmpty then none else some out
  | _ => none

end Verif.MapLiteral
