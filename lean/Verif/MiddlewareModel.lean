import Verif.SecurityModel
/-!
# Model: looking through middleware wrappers

Models `internal/spec/reachability.go` 94-144 (`middlewareMatchesThrough`).
-/

namespace Verif.Middleware
open Verif.Common Verif.Security

/-- security.go:54-56. -/
def isEmptyRef (r : Ref) : Bool := r.fn == "" && r.pkg == "" && r.recv == ""

/-- `e.mwResolved`. -/
abbrev Memo := List (String × List Ref)

/-- reachability.go:118-134: one edge, given as the reference to its callee
(extractor.go:825-834).  `look` is the recursive call. -/
def scanStep (rx : String → String → Bool) (ms : List Mapping)
    (look : Memo → String → List Ref × Memo) (st : List Ref × Memo) (r : Ref) : List Ref × Memo :=
  if isEmptyRef r then st
  else if anyMatches rx ms r then (st.1 ++ [r], st.2)
  else match baseID r with
    | none => st
    | some k => (st.1 ++ (look st.2 k).1, (look st.2 k).2)

/-- reachability.go:104-144.  `edges key` is `meta.Callers[key]` followed by
`e.parentFnIndex[key]`, the two lists scanned in that order (135-136).  `stack` is
`e.mwOnStack`; the deferred delete (115) makes it the functions being resolved above this
one.  The first argument bounds the depth of recursion; the theorems show the number of
functions plus one is always enough. -/
def look (rx : String → String → Bool) (ms : List Mapping) (edges : String → List Ref) :
    Nat → List String → Memo → String → List Ref × Memo
  | 0, _, memo, _ => ([], memo)
  | n + 1, stack, memo, key =>
    match mget memo key with
    | some r => (r, memo)
    | none =>
      if key ∈ stack then ([], memo)
      else
        let st := (edges key).foldl (scanStep rx ms (look rx ms edges n (key :: stack))) ([], memo)
        (dedupRefs st.1, mset st.2 key (dedupRefs st.1))

/-- A whole run asks about one function after another, keeping the memo
(extractor.go:793). -/
def askAll (rx : String → String → Bool) (ms : List Mapping) (edges : String → List Ref) (fuel : Nat)
    (history : List String) : Memo :=
  history.foldl (fun memo k => (look rx ms edges fuel [] memo k).2) []

/-- The answer for `key` after `history`. -/
def ask (rx : String → String → Bool) (ms : List Mapping) (edges : String → List Ref) (fuel : Nat)
    (history : List String) (key : String) : List Ref :=
  (look rx ms edges fuel [] (askAll rx ms edges fuel history) key).1

end Verif.Middleware
