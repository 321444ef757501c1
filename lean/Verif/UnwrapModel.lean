/-!
# Model: the handler under conversions and middleware

`handlerArgValue`, `convertedHandler`, `wrappedHandler`, `middlewareShaped` and `namesAFunction`
(internal/spec/pattern_matchers.go:1492-1730).
-/

namespace Verif.Unwrap

/-- A type, pointers removed (`baseTypeRef`, pattern_matchers.go:1642-1648): package, possibly empty, and name. -/
structure TRef where
  pkg : String
  name : String
  deriving DecidableEq

/-- What is known of the function a call invokes (`calleeFunctionOf`, pattern_matchers.go:1651-1693): the
types of its parameters and of its result, as far as they are recorded. -/
structure Sig where
  params : List (Option TRef)
  result : Option TRef
  deriving DecidableEq

/-- The expression at the handler position: a name (identifier or selector) and whether it resolves to a
declared function or method, a function literal, a conversion, a call, anything else.  The first component is
the identity of the expression. -/
inductive Ex
  | name (id : String) (fn : Bool)
  | lit (id : String)
  | conv (id : String) (args : List Ex)
  | call (id : String) (sig : Option Sig) (args : List Ex)
  | other (id : String)

/-- `middlewareShaped` (pattern_matchers.go:1623-1640). -/
def shaped : Option Sig → Bool
  | some ⟨[some p], some r⟩ => decide (p.name ≠ "") && !(decide (p.pkg ≠ "") && decide (r.pkg ≠ "") && decide (p.pkg ≠ r.pkg)) && decide (p.name = r.name)
  | _ => false

/-- `namesAFunction` (pattern_matchers.go:1699-1730). -/
def namesFn : Ex → Bool
  | .name _ fn => fn
  | .lit _ => true
  | _ => false

/-- `convertedHandler` (pattern_matchers.go:1524-1536), given the arguments of the conversion. -/
def converted : List Ex → Option Ex
  | [.name i f] => some (.name i f)
  | [.lit i] => some (.lit i)
  | _ => none

/-- The loop's result (pattern_matchers.go:1567-1608): the only candidate, nothing if there is none or
several. -/
def only : List Ex → Option Ex
  | [x] => some x
  | _ => none

/-- One argument of the call (pattern_matchers.go:1567-1603); `w` tells whether a nested call wraps a handler. -/
def cand (w : Ex → Bool) (sh : Bool) : Ex → Option Ex
  | .conv _ args => match converted args with
    | some x => if namesFn x then some x else none
    | none => none
  | .call i s args => if w (.call i s args) then some (.call i s args) else none
  | x => if sh && namesFn x then some x else none

/-- `wrappedHandlerDepth` (pattern_matchers.go:1559-1608); the first argument is what is left of
`maxHandlerUnwraps`. -/
def wrapped : Nat → Ex → Option Ex
  | k + 1, .call _ s args => only (args.filterMap (cand (fun e => (wrapped k e).isSome) (shaped s)))
  | _, _ => none

/-- `maxHandlerUnwraps` (pattern_matchers.go:1518). -/
def maxUnwraps : Nat := 8

/-- `handlerArgValue` (pattern_matchers.go:1492-1515), the loop. -/
def peel : Nat → Ex → Ex
  | 0, e => e
  | k + 1, .conv i args => match converted args with
    | none => .conv i args
    | some x => peel k x
  | k + 1, .call i s args => match wrapped maxUnwraps (.call i s args) with
    | none => .call i s args
    | some x => peel k x
  | _ + 1, e => e
def handlerValue (e : Ex) : Ex := peel maxUnwraps e

end Verif.Unwrap
