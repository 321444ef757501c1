import Verif.SecurityModel
/-! # Specification vocabulary for security -/

namespace Verif.Security
open Verif.Common

/-- A mapping recognises a middleware: each of its nonempty patterns matches. -/
def Recognises (rx : String → String → Bool) (m : Mapping) (r : Ref) : Prop :=
  (m.fnRe ≠ "" → rx m.fnRe r.fn = true) ∧ (m.pkgRe ≠ "" → rx m.pkgRe r.pkg = true) ∧ (m.recvRe ≠ "" → rx m.recvRe r.recv = true)

/-- A mapping that says something about security. -/
def Active (rx : String → String → Bool) (ms : List Mapping) (r : Ref) (m : Mapping) : Prop :=
  m ∈ ms ∧ Recognises rx m r ∧ m.skip = false

/-- A mapping that names at least one scheme. -/
def NamesScheme (m : Mapping) : Prop :=
  (∃ o ∈ m.schemes, o ≠ []) ∨ (∃ g ∈ m.anyOf, ∃ o ∈ g, o ≠ [])

/-- `r` counts as applied where `r0` is: it is `r0`, or no mapping recognises `r0` and
looking through the function `r0` names finds `r`. -/
def StandsFor (rx : String → String → Bool) (ms : List Mapping) (through : String → List Ref) (r0 r : Ref) : Prop :=
  r = r0 ∨ ((∀ m ∈ ms, ¬ Recognises rx m r0) ∧ ∃ key, baseID r0 = some key ∧ r ∈ through key)

/-- Two references are the same middleware. -/
def Same (a b : Ref) : Prop := a.fn = b.fn ∧ a.pkg = b.pkg ∧ a.recv = b.recv

/-- Rendering tells the middleware of `P` apart (it does for Go names: no parentheses or
spaces in a package path). -/
def Distinguished (P : Ref → Prop) : Prop := ∀ a b, P a → P b → a.show = b.show → Same a b

/-- Equality of requirement objects: same schemes, same scope lists. -/
def SameReq (a b : SecReq) : Prop := ∀ k, mget a k = mget b k

/-- Scheme names without '=' and ';', scopes nonempty and without ',' and ';'. -/
def CleanReq (r : SecReq) : Prop :=
  ∀ k v, (k, v) ∈ r → ('=' ∉ k.toList ∧ ';' ∉ k.toList) ∧ ∀ s ∈ v, s ≠ "" ∧ ',' ∉ s.toList ∧ ';' ∉ s.toList

end Verif.Security
