import Verif.Assoc
/-!
# Model: which calls a pattern matches

internal/spec/call_scope.go:43-122, recv_forms.go:18-101 and the `MatchNode` methods of
internal/spec/pattern_matchers.go (415-452, 663-737, 802-840, 952-998) and extractor.go (2366-2401,
3368-3417).  Strings are opaque; the regular expression engine is the parameter `compile` (internal/spec/
regex_cache.go:37-60 caches it; the cache is in `RegexCacheModel`).
-/

namespace Verif.ScopeModel
open Verif.Common

/-- `regexp.Compile`: a pattern either fails to compile or decides every text. -/
abbrev Engine := String → Option (String → Bool)

/-- metadata/types.go:1385-1406, as far as it is read: function, package, receiver ("" if none) and, when a
resolved call graph replaced the receiver, the one written. -/
structure Call where
  name : String
  pkg : String
  recv : String
  written : Option String
deriving DecidableEq

/-- metadata/types.go: an argument, as far as routerArgIsRouter reads it: its type, and the types of its own
arguments if it is a call. -/
structure Arg where
  type : String
  inner : List String
deriving DecidableEq

structure Edge where
  caller : Call
  callee : Call
  args : List Arg
deriving DecidableEq

/-- call_scope.go:39-44. -/
structure CallScope where
  callerPkg : List String
  callerRecvType : List String
  calleePkg : List String
  calleeRecvType : List String
deriving DecidableEq

/-- call_scope.go:48-51. -/
def CallScope.empty (s : CallScope) : Bool := s.callerPkg.isEmpty && s.callerRecvType.isEmpty && s.calleePkg.isEmpty && s.calleeRecvType.isEmpty

/-- call_scope.go:79-92. -/
def matchesAny (compile : Engine) (patterns : List String) (value : String) : Bool :=
  if patterns.isEmpty then true
  else patterns.any fun p =>
    if p = "" then false
    else match compile p with
      | some re => re value
      | none => false

/-- call_scope.go:105-114. -/
def qualifyOwner (pkg recv : String) : String :=
  if pkg ≠ "" ∧ recv ≠ "" then pkg ++ "." ++ recv
  else if recv ≠ "" then recv
  else pkg

/-- call_scope.go:98-100. -/
def fqOwner (c : Call) : String := qualifyOwner c.pkg c.recv

/-- call_scope.go:60-72. -/
def matchCallScope (compile : Engine) (edge : Option Edge) (s : CallScope) : Bool :=
  if s.empty then true
  else match edge with
    | none => false
    | some e => matchesAny compile s.callerPkg e.caller.pkg && matchesAny compile s.callerRecvType (fqOwner e.caller) &&
        matchesAny compile s.calleePkg e.callee.pkg && matchesAny compile s.calleeRecvType (fqOwner e.callee)

/-- recv_forms.go:36-60. -/
def recvForms (c : Call) : List String :=
  let recorded := fqOwner c
  match c.written with
  | none => if recorded = "" then [] else [recorded]
  | some w =>
    let writtenFq := qualifyOwner c.pkg w
    if recorded = "" then (if writtenFq = "" then [] else [writtenFq])
    else if writtenFq = "" ∨ writtenFq = recorded then [recorded]
    else [recorded, writtenFq]

/-- recv_forms.go:67-95. -/
def matchesRecvType (compile : Engine) (c : Call) (exact regex : String) : Bool :=
  if regex = "" ∧ exact = "" then true
  else
    let forms := if (recvForms c).isEmpty then [""] else recvForms c
    if regex ≠ "" then
      match compile regex with
      | none => false
      | some re => forms.any re
    else forms.any fun f => decide (exact = f)

/-- regex_cache.go:89-115 without the cache, pattern_matchers.go:1162-1167. -/
def matchPattern (compile : Engine) (pattern value : String) : Bool :=
  if pattern = "" then false
  else match compile pattern with
    | some re => re value
    | none => false

/-- config.go: what the six kinds of patterns have in common. -/
structure Pattern where
  callRegex : String
  functionNameRegex : String
  recvType : String
  recvTypeRegex : String
  scope : CallScope
deriving DecidableEq

/-- pattern_matchers.go:415-452 (route), 802-840 (security), 952-998 (request), extractor.go:2366-2401
(response), and the part the mount and parameter matchers share with them. -/
def matchNode (compile : Engine) (p : Pattern) (edge : Option Edge) : Bool :=
  match edge with
  | none => false
  | some e =>
    if !matchCallScope compile (some e) p.scope then false
    else if p.callRegex ≠ "" && !matchPattern compile p.callRegex e.callee.name then false
    else if p.functionNameRegex ≠ "" && !matchPattern compile p.functionNameRegex e.caller.name then false
    else if !matchesRecvType compile e.callee p.recvType p.recvTypeRegex then false
    else true

/-- pattern_matchers.go:714-737. -/
def routerArgIsRouter (compile : Engine) (regex : String) (index : Int) (e : Edge) : Bool :=
  if index < 0 ∨ (e.args.length : Int) ≤ index then false
  else match compile regex with
    | none => false
    | some re =>
      match e.args[index.toNat]? with
      | none => false
      | some a => re a.type || a.inner.any re

/-- pattern_matchers.go:663-707. -/
def matchMount (compile : Engine) (p : Pattern) (routerRegex : String) (routerIndex : Int) (isMount : Bool) (edge : Option Edge) : Bool :=
  match edge with
  | none => false
  | some e =>
    if !matchNode compile p (some e) then false
    else if routerRegex ≠ "" && !routerArgIsRouter compile routerRegex routerIndex e then false
    else isMount

/-- extractor.go:3368-3417; `origins` is what `receiverOriginTypes` (param_origin.go:39-66) finds. -/
def matchParam (compile : Engine) (p : Pattern) (excludeOrigin : String) (origins : List String) (edge : Option Edge) : Bool :=
  if !matchNode compile p edge then false
  else if excludeOrigin ≠ "" then
    match compile excludeOrigin with
    | some re => !origins.any re
    | none => true
  else true

end Verif.ScopeModel
