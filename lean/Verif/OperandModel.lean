import Verif.Assoc
/-!
# Model: the value of a part of a path

`resolvePathOperand`, `structFieldValue`, `callerArgFor`, `uniqueCallerArg`, `enclosingFuncID`, `paramArgOfEnclosingFunc`,
`unwrapComposite` and `placeholderFor` (internal/spec/pattern_matchers.go:80-94, 149-358).

`ConstantValue` (context_provider.go:61-109, see `ParamNameModel`) and `resolveArgThroughParams` (see C74) are parameters.
-/

namespace Verif.Operand
open Verif.Common

abbrev Str := List Char

/-- An argument: an identifier, a selection, something behind `&`, `*` or parentheses, a composite literal with its
elements (keyed or not), or anything else, with the name that is recorded for it. -/
inductive Arg
  | ident (n : Str)
  | sel (x : Arg) (f : Str)
  | wrap (x : Arg)
  | comp (elts : List (Option Str × Arg))
  | other (id : Nat) (n : Str)

/-- What is known at the call: for an identifier the argument it stands for in the callers of the wrapper, if that is
another one; the function that defines the closure the call is written in; the function the call is written in; the
frames above, each with its callee and the arguments of its parameters; the recorded calls of each function. -/
structure Node where
  resolved : Str → Option Arg
  parent : Option Str
  caller : Str
  frames : List (Str × Option (List (Str × Arg)))
  callees : Str → List (List (Str × Arg))

/-- pattern_matchers.go:348-358 -/
def unwrapComposite : Arg → Arg
  | .wrap x => unwrapComposite x
  | a => a

/-- pattern_matchers.go:323-345 -/
def paramArgOfEnclosingFunc (nd : Node) (n : Str) : Option Arg :=
  match nd.parent with
  | none => none
  | some e =>
    if e = [] then none
    else match nd.frames.find? (fun p => decide (p.1 = e) && p.2.isSome) with
      | some (_, some ps) => mget ps n
      | _ => none

/-- pattern_matchers.go:288-299 -/
def enclosingFuncID (nd : Node) : Str :=
  match nd.parent with
  | some id => if id ≠ [] then id else nd.caller
  | none => nd.caller

/-- The loop of pattern_matchers.go:266-282. -/
def agree (const : Arg → Option Str) (n : Str) : Option (Arg × Str) → List (List (Str × Arg)) → Option (Arg × Str)
  | chosen, [] => chosen
  | chosen, s :: ss =>
    match mget s n with
    | none => none
    | some b =>
      match const b with
      | none => none
      | some v =>
        match chosen with
        | some (_, w) => if v ≠ w then none else agree const n (some (b, v)) ss
        | none => agree const n (some (b, v)) ss

/-- pattern_matchers.go:254-284 -/
def uniqueCallerArg (const : Arg → Option Str) (nd : Node) (n : Str) : Option Arg :=
  if n = [] ∨ enclosingFuncID nd = [] then none
  else (agree const n none (nd.callees (enclosingFuncID nd))).map (·.1)

/-- The end of pattern_matchers.go:230-244, for a name. -/
def callerArgOfName (const : Arg → Option Str) (nd : Node) (n : Str) : Option Arg :=
  match paramArgOfEnclosingFunc nd n with
  | some a => some a
  | none => uniqueCallerArg const nd n

/-- pattern_matchers.go:230-244 -/
def callerArgFor (const : Arg → Option Str) (nd : Node) : Arg → Option Arg
  | .ident n =>
    match nd.resolved n with
    | some (.ident n') => callerArgOfName const nd n'
    | some a => some a
    | none => callerArgOfName const nd n
  | _ => none

/-- The loop of pattern_matchers.go:199-219: none is "not resolved". -/
def fieldOf (const : Arg → Option Str) (f : Str) : List (Option Str × Arg) → Option Str
  | [] => some []
  | (none, _) :: _ => none
  | (some k, e) :: es => if k ≠ f then fieldOf const f es else const e

/-- pattern_matchers.go:182-223 -/
def structFieldValue (const : Arg → Option Str) (nd : Node) : Arg → Option Str
  | .sel x f =>
    if f = [] then none
    else match unwrapComposite ((callerArgFor const nd x).getD x) with
      | .comp elts => fieldOf const f elts
      | _ => none
  | _ => none

/-- pattern_matchers.go:82-94: the name in the placeholder. -/
def placeholderName : Arg → Str
  | .ident n => if n = [] then ['p', 'a', 't', 'h'] else n
  | .sel _ f => if f = [] then ['p', 'a', 't', 'h'] else f
  | .other _ n => if n = [] then ['p', 'a', 't', 'h'] else n
  | _ => ['p', 'a', 't', 'h']

/-- pattern_matchers.go:152-176: the text that is added to the path, and the name of the parameter standing for an
unknown value. -/
def resolvePathOperand (const : Arg → Option Str) (nd : Node) (a : Arg) : Str × Option Str :=
  match const a with
  | some v => (v, none)
  | none =>
    match (callerArgFor const nd a).bind const with
    | some v => (v, none)
    | none =>
      match structFieldValue const nd a with
      | some v => (v, none)
      | none => ('{' :: placeholderName a ++ ['}'], some (placeholderName a))

end Verif.Operand
