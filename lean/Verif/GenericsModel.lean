import Verif.Assoc
/-!
# Model: type parameters and their bindings

internal/metadata/metadata.go:1897-1940 (extractParamsAndTypeParams), internal/spec/lazytree.go:1022-1048
(LazyNode.GetTypeParamMap), internal/spec/tracker.go:142-178 (TrackerNode.TypeParams),
internal/spec/pattern_matchers.go:1306-1332 (traceGenericOrigin).
-/

namespace Verif.GenericsModel
open Verif.Common

abbrev Table := List (String × String)

/-- metadata.go:1897-1940: the bindings a call records, type parameters of the callee to the texts of the
type arguments as the caller writes them (or as inferred), as far as there are both. -/
def callBindings : List String → List String → Table
  | p :: ps, a :: as => (p, a) :: callBindings ps as
  | _, _ => []

/-- lazytree.go:1029-1041: copy the bindings of names not bound yet. -/
def addMissing (out : Table) : Table → Table
  | [] => out
  | (k, v) :: r => addMissing (match mget out k with | some _ => out | none => mset out k v) r

/-- lazytree.go:1027-1042: from the node outwards, at each step the bindings of the call and of the
argument (one table here), the nearest wins.  The memo of 1023-1025 is left out. -/
def nearestWins (path : List Table) : Table := path.foldl addMissing []

/-- maps.Copy. -/
def copyAll (out : Table) (t : Table) : Table := t.foldl (fun o kv => mset o kv.1 kv.2) out

/-- tracker.go:150-172: the outermost wins. -/
def outermostWins (path : List Table) : Table := path.foldl copyAll []

/-- pattern_matchers.go:1317-1320: one look-up of the loop. -/
def next (tp : Table) (s : String) : Option String :=
  match mget tp s with
  | none => none
  | some c => if c = "" then none else some c

/-- pattern_matchers.go:1316-1323: the loop, stopped (`none`) if it has not ended after `n` look-ups. -/
def loop (tp : Table) : Nat → String → Option String
  | 0, _ => none
  | n + 1, s =>
    match next tp s with
    | none => some s
    | some c => loop tp n c

/-- pattern_matchers.go:1309-1332: `none` if not ended after `n` look-ups; "" if there is no binding. -/
def traceGenericOrigin (tp : Table) (n : Nat) (name : String) : Option String :=
  if tp.isEmpty ∨ name = "" then some ""
  else match loop tp n name with
    | none => none
    | some r => some (if (next tp name).isSome then r else "")

end Verif.GenericsModel
