/-!
# The walk below a registration

Once a call is recognised as a route registration, everything hanging below it in the tracker tree is
walked: request bodies, responses and parameters are read off the nodes, and calls of the same fluent chain
may complete the registration.  The tree also attaches code the route does not run, so two gates travel with
the walk: `internal/spec/extractor.go:1160-1288` (`extractRouteChildren`, `extractRouteChildrenScoped`,
`completesSameRegistration`) and `internal/spec/request_provenance.go:20-151` (`followsControlFlow`).
The keys of response candidates (`extractor.go:1108-1158`) are modelled too.

Not modelled: how the tree is built (any tree is allowed), and what `extractRequestFromNode` and
`executeRoutePattern` answer for a node (fields of the node).  Children are never nil.
-/

namespace Verif.RouteWalk

/-- internal/metadata/types.go, `CallGraphEdge`: a call.  `uid` stands for the pointer; `caller` and `callee`
are the `BaseID()` of the two ends, `stripped` is `StripToBase(Callee.ID())`, `chained` says that `ChainParent`
is set, `site` is `Callee.ID()`. -/
structure Edge where
  uid : Nat
  caller : String
  callee : String
  stripped : String
  callerName : String
  calleeName : String
  chained : Bool := false
  site : List Char := []
  deriving DecidableEq, Repr

/-- `GetArgument().GetKind()`: only `KindCall` and `KindTypeConversion` are told apart from the rest. -/
inductive Kind
  | call | conversion | other
  deriving DecidableEq, Repr

/-- The schema of a request body as far as `requestIsConcrete` looks at it. -/
structure Schema where
  ref : String := ""
  properties : Nat := 0
  allOf : Nat := 0
  items : Bool := false
  deriving DecidableEq, Repr

/-- `RequestInfo`. -/
structure Req where
  bodyType : String
  schema : Option Schema := none
  file : String := ""
  line : Nat := 0
  deriving DecidableEq, Repr

/-- A node of the tracker tree: its argument (if it is an argument node), its call, what
`extractRequestFromNode` finds at it, the position of its callee, whether a response pattern matches it, and
its children. -/
inductive Node
  | mk (arg : Option Kind) (edge : Option Edge) (req : Option Req) (pos : String × Nat) (resp : Bool) (kids : List Node)

def Node.arg : Node → Option Kind | .mk a _ _ _ _ _ => a
def Node.edge : Node → Option Edge | .mk _ e _ _ _ _ => e
def Node.req : Node → Option Req | .mk _ _ r _ _ _ => r
def Node.pos : Node → String × Nat | .mk _ _ _ p _ _ => p
def Node.resp : Node → Bool | .mk _ _ _ _ b _ => b
def Node.kids : Node → List Node | .mk _ _ _ _ _ ks => ks

/-- `meta.ParentFunctions` (for each function, the calls written in the literals it contains); `none` when the
provider has no metadata. -/
abbrev Closures := Option (String → List Edge)

/-- request_provenance.go:22, `handlerArgDepth`. -/
def handlerArgDepth : Nat := 1

/-- request_provenance.go:67-83: may the walk go below this argument? -/
def throughArgument (k : Kind) (depth : Nat) : Bool :=
  decide (depth ≤ handlerArgDepth) || k == .call || k == .conversion

/-- request_provenance.go:89-141: from one call to another. -/
def edgeFollows (M : Closures) (p c : Edge) : Bool :=
  if c.chained then true
  else if c.caller == p.callee then true
  else if c.caller == p.caller then true
  else match M with
    | none => true
    | some pf =>
      if (pf p.callee).any fun e => e.uid == c.uid then true
      else if p.stripped != p.callee && (pf p.stripped).any fun e => e.uid == c.uid then true
      else c.callerName != "" && c.callerName == p.calleeName

/-- request_provenance.go:58-142, `followsControlFlow`. -/
def follows (M : Closures) (parent child : Node) (depth : Nat) : Bool :=
  match parent.arg with
  | some k => throughArgument k depth
  | none =>
    match child.arg with
    | some _ => true
    | none =>
      match parent.edge, child.edge with
      | some p, some c => edgeFollows M p c
      | _, _ => true

/-- extractor.go:1591-1597, `requestIsConcrete`. -/
def concrete (r : Req) : Bool :=
  match r.schema with
  | none => false
  | some s => s.ref != "" || decide (s.properties > 0) || decide (s.allOf > 0) || s.items

/-- extractor.go:1572-1587, `preferRequestInfo` (its second argument is never nil where it is called). -/
def prefer (cur : Option Req) (next : Req) : Option Req :=
  match cur with
  | none => some next
  | some c =>
    if concrete next && !concrete c then some next
    else if concrete c && !concrete next then some c
    else some next

/-- extractor.go:1198-1200: the call site is recorded unless the pattern already did. -/
def stamp (n : Node) (r : Req) : Req :=
  if r.file = "" then { r with file := n.pos.1, line := n.pos.2 } else r

/-- extractor.go:1195-1202: what a child does to the request of the route. -/
def record (scope : Bool) (child : Node) (cur : Option Req) : Option Req :=
  match child.req with
  | some r => if scope then prefer cur (stamp child r) else cur
  | none => cur

mutual
/-- extractor.go:1171-1243, the request part of `extractRouteChildrenScoped`. -/
def body (M : Closures) (scope : Bool) (depth : Nat) : Node → Option Req → Option Req
  | .mk a e r p b ks, cur => bodyKids M scope depth (.mk a e r p b ks) ks cur
/-- extractor.go:1172-1239, its loop over the children of `parent`. -/
def bodyKids (M : Closures) (scope : Bool) (depth : Nat) (parent : Node) : List Node → Option Req → Option Req
  | [], cur => cur
  | c :: cs, cur =>
    bodyKids M scope depth parent cs
      (body M (scope && follows M parent c depth) (depth + 1) c
        (record (scope && follows M parent c depth) c cur))
end

/-- extractor.go:1160-1162: the request documented for the registration `route` (its `Request` starts out nil). -/
def documented (M : Closures) (route : Node) : Option Req := body M true 0 route none

/-- extractor.go:1264-1288, `completesSameRegistration`. -/
def completes (parent child : Node) : Bool :=
  match child.arg, parent.edge, child.edge with
  | none, some p, some c => if c.chained then true else p.caller == c.caller
  | _, _, _ => false

mutual
/-- extractor.go:1179-1184: the nodes that are offered to the route patterns, in order. -/
def completing (may : Bool) : Node → List Node
  | .mk a e r p b ks => completingKids may (.mk a e r p b ks) ks
def completingKids (may : Bool) (parent : Node) : List Node → List Node
  | [] => []
  | c :: cs =>
    (if may && completes parent c then [c] else []) ++ completing (may && completes parent c) c
      ++ completingKids may parent cs
end

/-! ## Keys of response candidates -/

/-- extractor.go:1127-1144, `candidateKey`.  Identifiers are strings of bytes in Go and lists of characters
here (only their length is measured); `strconv.Itoa` writes decimal digits. -/
def candidateKey (chain : List (List Char)) (callee : List Char) : List Char :=
  (chain.flatMap fun frame => Nat.toDigits 10 frame.length ++ ':' :: frame)
    ++ (Nat.toDigits 10 callee.length ++ ':' :: callee)

/-- extractor.go:1114, `chainSep`. -/
def chainSep : Char := Char.ofNat 0x1f

/-- strings.Join with `chainSep`. -/
def joinSep : List (List Char) → List Char
  | [] => []
  | [x] => x
  | x :: y :: ys => x ++ chainSep :: joinSep (y :: ys)

/-- internal/metadata/metadata.go:134-142, `StripToBase`. -/
def stripBase (id : List Char) : List Char := id.takeWhile fun c => c != '@' && c != '['

/-- extractor.go:1152-1156: `chain` up to its last frame of the function `caller` (the chain is given
innermost frame first), or nothing. -/
def cutAt (caller : List Char) : List (List Char) → List (List Char)
  | [] => []
  | f :: fs => if stripBase f = caller then f :: fs else cutAt caller fs

/-- extractor.go:1146-1158, `frameChainKey`. -/
def frameChainKey (chain : List (List Char)) (n : Node) : List Char :=
  match n.edge with
  | none => joinSep chain
  | some e => joinSep (cutAt e.caller.toList chain.reverse).reverse

/-- A response candidate (extractor.go:1108-1111). -/
structure Cand where
  node : Node
  chain : List Char

/-- The variables of the walk: the keys seen (`visitedEdges`) and the candidates. -/
structure Collected where
  seen : List (List Char) := []
  cands : List Cand := []

/-- extractor.go:1212-1218. -/
def collectHere (chain : List (List Char)) (n : Node) (st : Collected) : Collected :=
  match n.edge with
  | some e =>
    if n.resp then
      if candidateKey chain e.site ∈ st.seen then st
      else ⟨candidateKey chain e.site :: st.seen, st.cands ++ [⟨n, frameChainKey chain n⟩]⟩
    else st
  | none => st

/-- extractor.go:1231-1238: the frames of the children of `n`. -/
def push (chain : List (List Char)) (n : Node) : List (List Char) :=
  match n.arg, n.edge with
  | none, some e => chain ++ [e.site]
  | _, _ => chain

mutual
/-- extractor.go:1171-1243, the response part of `extractRouteChildrenScoped`. -/
def collect (chain : List (List Char)) : Node → Collected → Collected
  | .mk _ _ _ _ _ ks, st => collectKids chain ks st
def collectKids (chain : List (List Char)) : List Node → Collected → Collected
  | [], st => st
  | c :: cs, st => collectKids chain cs (collect (push chain c) c (collectHere chain c st))
end

end Verif.RouteWalk
