import Verif.SecurityModel
/-!
# Model: the check of the security configuration

`ValidateSecurity` (internal/spec/config.go:584-655) and the ways a configuration gets to the engine: from a file
(`LoadAPISpecConfig`, internal/spec/mapper.go:175-190), as text from the UI and composed by the UI
(`buildAPISpecConfig`, cmd/apispecui/main.go:1527-1627).
-/

namespace Verif.SecCheck
open Verif.Security

/-- The matchers and the scope of a pattern (config.go:513-535); what the check does not read is left out. -/
structure Pattern where
  call : String
  fn : String
  recv : String
  recvRe : String
  scope : String
  deriving DecidableEq

structure Conf where
  patterns : List Pattern
  mappings : List Mapping

/-- The message of an error: the list, the index in it, and what is wrong. -/
structure Err where
  list : String
  index : Nat
  what : String
  deriving DecidableEq

/-- The standard library: `regexp.Compile` succeeds, and `unicode.IsSpace`. -/
structure Std where
  compiles : String → Bool
  space : Char → Bool

/-- `validSecurityScopes` (config.go:571-576). -/
def scopes : List String := ["router", "subtree", "route", "wrapper"]

/-- `compile` (config.go:585-593). -/
def badRegex (s : Std) (expr : String) : Bool := decide (expr ≠ "") && !s.compiles expr

/-- The checks of a pattern in order (config.go:595-609). -/
def checkPattern (s : Std) (p : Pattern) : Option String :=
  if p.scope ∉ scopes then some "scope"
  else if p.call = "" ∧ p.fn = "" ∧ p.recv = "" ∧ p.recvRe = "" then some "matcher"
  else if [p.call, p.fn, p.recvRe].any (badRegex s) then some "regex"
  else none

/-- `checkSchemeKeys` (config.go:648-655): `strings.TrimSpace` leaves nothing. -/
def blankName (s : Std) (n : String) : Bool := n.toList.all s.space
def blankIn (s : Std) (r : SecReq) : Bool := r.any (fun e => blankName s e.1)

/-- The checks of a mapping in order (config.go:611-642). -/
def checkMapping (s : Std) (m : Mapping) : Option String :=
  if m.fnRe = "" ∧ m.pkgRe = "" ∧ m.recvRe = "" then some "matcher"
  else if m.skip = true ∧ (m.isPublic = true ∨ m.schemes ≠ [] ∨ m.anyOf ≠ []) then some "skip"
  else if m.skip = false ∧ m.isPublic = false ∧ m.schemes = [] ∧ m.anyOf = [] then some "nothing"
  else if m.schemes.any (blankIn s) then some "blank"
  else if m.anyOf.any (fun g => g.any (blankIn s)) then some "blank"
  else if [m.fnRe, m.pkgRe, m.recvRe].any (badRegex s) then some "regex"
  else none

/-- The loops (config.go:595, 611): the first entry with an error. -/
def firstErr {α : Type} (list : String) (check : α → Option String) : Nat → List α → Option Err
  | _, [] => none
  | i, a :: l => match check a with
    | some w => some ⟨list, i, w⟩
    | none => firstErr list check (i + 1) l

/-- `ValidateSecurity` (config.go:584-644). -/
def validate (s : Std) (c : Conf) : Option Err :=
  match firstErr "securityPatterns" (checkPattern s) 0 c.patterns with
  | some e => some e
  | none => firstErr "securityMappings" (checkMapping s) 0 c.mappings

/-- A configuration that was read, from a file or as text from the UI (mapper.go:175-190, main.go:1529-1539). -/
def loaded (s : Std) (parsed : Option Conf) : Option Conf :=
  match parsed with
  | none => none
  | some c => if validate s c = none then some c else none

/-- A request composed in the UI (main.go:1541-1626): its mappings come before those of the base, its patterns replace
those of the base when there are any. -/
def composed (s : Std) (base : Conf) (patterns : Option (List Pattern)) (mappings : List Mapping) : Option Conf :=
  let c : Conf := ⟨patterns.getD base.patterns, mappings ++ base.mappings⟩
  if validate s c = none then some c else none

end Verif.SecCheck
