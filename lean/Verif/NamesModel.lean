import Verif.Assoc
/-!
# Model: component names

internal/spec/mapper.go:49-57 (schemaComponentNameReplacer) and 3450-3454 (addRefSchemaForType);
1040-1093, as far as components are keyed.
-/

namespace Verif.NamesModel
open Verif.Common

abbrev Str := List Char

/-- mapper.go:50-56: the replacements of one character. -/
def sub (c : Char) : Str :=
  if c = '/' then ['_']
  else if c = '.' then ['_']
  else if c = ' ' then ['-']
  else if c = '[' then ['_']
  else if c = ']' then []
  else [c]

/-- mapper.go:49-57, `strings.Replacer.Replace`: left to right, at each place the first replacement that
applies (no two of them start alike, so their order does not matter). -/
def mangle : Str → Str
  | '-' :: '-' :: '>' :: cs => '_' :: mangle cs
  | ',' :: ' ' :: cs => '-' :: mangle cs
  | c :: cs => sub c ++ mangle cs
  | [] => []

/-- mapper.go:3450-3454: what a reference to a type names (after the prefix `#/components/schemas/`). -/
def refName (goType : Str) : Str :=
  match goType with
  | '*' :: t => mangle t
  | t => mangle t

/-- mapper.go:1040, 1053, 1089, 1092: a component is stored under the mangled name, the later one wins. -/
def store {σ : Type} (components : List (Str × σ)) (goType : Str) (s : σ) : List (Str × σ) := mset components (mangle goType) s

/-- All of them. -/
def storeAll {σ : Type} (types : List (Str × σ)) : List (Str × σ) := types.foldl (fun c t => store c t.1 t.2) []

end Verif.NamesModel
