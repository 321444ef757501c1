import Verif.Assoc
/-!
# Model: how far a function is from the handler

`handlerCallDepths` (internal/spec/extractor.go:1492-1529).  The cache (1497-1499, 1524-1527) holds what is computed here
and is left out.
-/

namespace Verif.Near
open Verif.Common

/-- A call: caller and callee (`BaseID`). -/
abbrev Calls := List (String × String)

/-- `meta.Callers[cur]`, as the callees (internal/metadata/metadata.go, `BuildCallGraphMaps`). -/
def callees (calls : Calls) (cur : String) : List String := (calls.filter fun e => decide (e.1 = cur)).map (·.2)

/-- extractor.go:1508-1510 -/
structure St where
  depths : List (String × Nat)
  queue : List String

/-- extractor.go:1516-1521: one callee. -/
def visit (next : Nat) (s : St) (c : String) : St :=
  match mget s.depths c with
  | some _ => s
  | none => ⟨mset s.depths c next, s.queue ++ [c]⟩

/-- extractor.go:1511-1523: the loop, at most `fuel` times; none if that is not enough. -/
def loop (calls : Calls) : Nat → St → Option St
  | 0, _ => none
  | fuel + 1, s =>
    match s.queue with
    | [] => some s
    | cur :: q => loop calls fuel ((callees calls cur).foldl (visit ((mget s.depths cur).getD 0 + 1)) ⟨s.depths, q⟩)

/-- extractor.go:1496-1529 with metadata. -/
def handlerDepths (calls : Calls) (handler : String) : Option (List (String × Nat)) :=
  if handler = "" then some []
  else (loop calls (calls.length + 2) ⟨mset [] handler 0, [handler]⟩).map (·.depths)

end Verif.Near
