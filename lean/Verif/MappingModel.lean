import Verif.Assoc
/-!
# Model: type mappings, external types and the registry

internal/spec/external_types.go:36-229.  Type names are lists of characters; schemas are opaque.
-/

namespace Verif.MappingModel
open Verif.Common

abbrev Str := List Char

/-- external_types.go:64-69: what follows the last slash (`best` is what follows the last one seen). -/
def shortFrom (best : Str) : Str → Str
  | [] => best
  | c :: cs => if c = '/' then shortFrom cs cs else shortFrom best cs

def shortTypeName (s : Str) : Str := shortFrom s s

/-- external_types.go:76-78. -/
def isBareTypeName (s : Str) : Bool := !['['].isPrefixOf s && !['*'].isPrefixOf s && !['m', 'a', 'p', '['].isPrefixOf s

/-- external_types.go:85-88. -/
def shortNameMatchesBare (entry goType : Str) : Bool := isBareTypeName entry && isBareTypeName goType && decide (shortTypeName entry = shortTypeName goType)

/-- external_types.go:97-112 (a nil configuration is the empty list). -/
def lookupConfigSchema {σ : Type} (mappings : List (Str × σ)) (goType : Str) : Option σ :=
  match mappings.find? fun m => decide (m.1 = goType) with
  | some m => some m.2
  | none =>
    match mappings.find? fun m => shortNameMatchesBare m.1 goType with
    | some m => some m.2
    | none => none

/-- external_types.go:118-133. -/
def configHasExternalType (names : List Str) (goType : Str) : Bool :=
  if names.any fun n => decide (n = goType) then true
  else names.any fun n => shortNameMatchesBare n goType

/-- metadata/types.go (ExternalTypeFact): how an external type marshals and its underlying type. -/
inductive Marshaler
  | text
  | json
  | none
deriving DecidableEq

structure Fact where
  marshaler : Marshaler
  underlying : Str
deriving DecidableEq

/-- What `resolveExternalType` decides. -/
inductive Res (σ : Type)
  | registry (s : σ)
  | text
  | guessed
  | primitive (underlying : Str)
  | unhandled
deriving DecidableEq

/-- external_types.go:180-201: the structural rule. -/
def byFact {σ : Type} (isPrimitive : Str → Bool) (goType : Str) (f : Fact) : Res σ :=
  match f.marshaler with
  | .text => .text
  | .json => .guessed
  | .none =>
    if f.underlying ≠ [] ∧ f.underlying ≠ goType ∧ f.underlying ≠ shortTypeName goType ∧ isPrimitive f.underlying = true then .primitive f.underlying
    else .unhandled

/-- external_types.go:146-205 (`registry` is wellKnownExternalSchemas, 36-58; the mapping of a primitive
underlying type is left to the caller). -/
def resolveExternalType {σ : Type} (isPrimitive : Str → Bool) (registry : List (Str × σ)) (externals : List Str) (facts : List (Str × Fact)) (goType : Str) : Res σ :=
  if !isBareTypeName goType then .unhandled
  else if configHasExternalType externals goType then .unhandled
  else match mget registry goType with
    | some s => .registry s
    | none =>
      match mget registry (shortTypeName goType) with
      | some s => .registry s
      | none =>
        match mget facts goType with
        | some f => byFact isPrimitive goType f
        | none =>
          match mget facts (shortTypeName goType) with
          | some f => byFact isPrimitive goType f
          | none => .unhandled

/-- external_types.go:36-58, the keys, with the format as schema. -/
def wellKnown : List (Str × String) :=
  [("github.com/google/uuid.UUID".toList, "uuid"), ("github.com/gofrs/uuid.UUID".toList, "uuid"), ("github.com/satori/go.uuid.UUID".toList, "uuid"), ("uuid.UUID".toList, "uuid"),
   ("github.com/shopspring/decimal.Decimal".toList, "decimal"), ("decimal.Decimal".toList, "decimal")]

end Verif.MappingModel
