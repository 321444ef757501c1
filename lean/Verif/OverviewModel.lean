import Verif.Common
/-!
# Model: the overview of a generated document

`BuildOverview` of internal/insight/overview.go, what the insight page of the UI and the exported report show.
-/

namespace Verif.Overview
open Verif.Common

/-- A schema: reference, description, type, and what it contains.  `items`, `addl` and `no` have at most one
member (internal/spec/openapi.go, type Schema; what the overview does not read is left out). -/
inductive Schema where
  | mk (ref desc typ : String) (items addl no props all one any : List Schema) (enums : List String)

namespace Schema
def ref : Schema → String | mk r _ _ _ _ _ _ _ _ _ _ => r
def desc : Schema → String | mk _ d _ _ _ _ _ _ _ _ _ => d
def typ : Schema → String | mk _ _ t _ _ _ _ _ _ _ _ => t
def items : Schema → List Schema | mk _ _ _ i _ _ _ _ _ _ _ => i
def addl : Schema → List Schema | mk _ _ _ _ a _ _ _ _ _ _ => a
def no : Schema → List Schema | mk _ _ _ _ _ n _ _ _ _ _ => n
def props : Schema → List Schema | mk _ _ _ _ _ _ p _ _ _ _ => p
def all : Schema → List Schema | mk _ _ _ _ _ _ _ a _ _ _ => a
def one : Schema → List Schema | mk _ _ _ _ _ _ _ _ o _ _ => o
def any : Schema → List Schema | mk _ _ _ _ _ _ _ _ _ a _ => a
def enums : Schema → List String | mk _ _ _ _ _ _ _ _ _ _ e => e
end Schema

/-- Media types of a body, a Go map: in the order of this run. -/
abbrev Content := List (String × Option Schema)

/-- An operation (internal/spec/openapi.go, type Operation): responses by status, a Go map. -/
structure Op where
  method : String
  tags : List String
  body : Option Content
  responses : List (String × Content)
  params : List (String × Option Schema)
  security : Option (List (List String))

/-- A document: paths and components are Go maps. -/
structure Doc where
  paths : List (String × List Op)
  comps : List (String × Schema)
  security : List (List String)

structure Issue where
  severity : String
  kind : String
  method : String
  path : String
  ref : String
  detail : String
  deriving DecidableEq

abbrev refPrefix : String := "#/components/schemas/"

/-- `strings.TrimPrefix` of a reference that has the prefix. -/
def refName (r : String) : Option String :=
  if refPrefix.toList.isPrefixOf r.toList then some (String.ofList (r.toList.drop refPrefix.length)) else none

mutual
/-- The walk of `schemaRefs` (overview.go:785-818), before the names are deduplicated. -/
def walk : Schema → List String
  | .mk r _ _ i a n p al o an _ => (refName r).toList ++ walks i ++ walks a ++ walks n ++ walks p ++ walks al ++ walks o ++ walks an
def walks : List Schema → List String
  | [] => []
  | s :: l => walk s ++ walks l
end

/-- `schemaRefs` (overview.go:785-818). -/
def schemaRefs : Option Schema → List String
  | none => []
  | some s => dedup (walk s)

/-- The text that marks a schema made up for a type that was not found; `strings.Contains` is given. -/
structure Text where
  placeholder : String → Bool

/-- `refIssues` (overview.go:761-781). -/
def refIssue (t : Text) (comps : List (String × Schema)) (method path loc name : String) : List Issue :=
  match comps.lookup name with
  | none => [⟨"warn", "dangling-ref", method, path, name, loc⟩]
  | some c => if t.placeholder c.desc then [⟨"warn", "unresolved-type", method, path, name, loc⟩] else []
def refIssues (t : Text) (comps : List (String × Schema)) (method path loc : String) (s : Option Schema) : List Issue :=
  (schemaRefs s).flatMap (refIssue t comps method path loc)

/-- `isWrapperSpecialised` (overview.go:822-839). -/
def isWrapper : Option Schema → Bool
  | none => false
  | some s => decide (2 ≤ s.all.length) && s.all.any (fun p => (refName p.ref).isSome) && s.all.any (fun p => decide (p.ref = "") && !p.props.isEmpty)

/-- `collectOperationIssues` (overview.go:625-674): the issues of an operation. -/
def opIssues (t : Text) (comps : List (String × Schema)) (path : String) (o : Op) : List Issue :=
  (if o.responses = [] then [⟨"warn", "no-responses", o.method, path, "", ""⟩] else []) ++
  (match o.body with
   | none => []
   | some c => c.flatMap (fun m => refIssues t comps o.method path "request body" m.2)) ++
  o.responses.flatMap (fun r => r.2.flatMap (fun m => refIssues t comps o.method path ("response " ++ r.1) m.2 ++
    (if isWrapper m.2 then [⟨"info", "wrapper-specialised", o.method, path, "", "response " ++ r.1⟩] else []))) ++
  (if "default" ∈ o.responses.map Prod.fst then [⟨"info", "default-status", o.method, path, "", ""⟩] else []) ++
  o.params.flatMap (fun p => refIssues t comps o.method path ("parameter " ++ p.1) p.2)

/-- `hasWarn` (overview.go:905-912). -/
def hasWarn (l : List Issue) : Bool := l.any (fun i => decide (i.severity = "warn"))

inductive Resolved where
  | full | partly | broken
  deriving DecidableEq

/-- `classifyResolution` (overview.go:414-428). -/
def classify (l : List Issue) : Resolved :=
  if l.any (fun i => decide (i.kind = "dangling-ref") || decide (i.kind = "unresolved-type") || decide (i.kind = "no-responses")) then .broken
  else if l.any (fun i => decide (i.kind = "missing-body") || decide (i.kind = "default-status")) then .partly
  else .full

/-- The paths sorted, with their operations (overview.go:311-318). -/
def pathLe (a b : String × List Op) : Bool := strLe a.1 b.1
def ops (d : Doc) : List (String × Op) := (isort pathLe d.paths).flatMap (fun p => p.2.map (fun o => (p.1, o)))

structure Count where
  name : String
  count : Nat
  deriving DecidableEq

/-- The increments of a Go map of counts, in order, as the rows of the map. -/
def tally (l : List String) : List Count := (dedup l).map (fun n => ⟨n, l.countP (fun m => decide (m = n))⟩)

/-- `sortedCounts` (overview.go:916-928). -/
def countLe (byCount : Bool) (a b : Count) : Bool :=
  if byCount && decide (a.count ≠ b.count) then decide (b.count < a.count) else strLe a.name b.name
def sortedCounts (byCount : Bool) (m : List Count) : List Count := isort (countLe byCount) m

def byMethod (d : Doc) : List Count := sortedCounts true (tally ((ops d).map (fun o => o.2.method)))
def byTag (d : Doc) : List Count := sortedCounts true (tally ((ops d).flatMap (fun o => o.2.tags)))
def byStatus (d : Doc) : List Count := sortedCounts false (tally ((ops d).flatMap (fun o => o.2.responses.map Prod.fst)))
/-- overview.go:636, 646 -/
def contentTypes (o : Op) : List String := (o.body.getD []).map Prod.fst ++ o.responses.flatMap (fun r => r.2.map Prod.fst)
def byContent (d : Doc) : List Count := sortedCounts true (tally ((ops d).flatMap (fun o => contentTypes o.2)))

/-- The order of the issues (overview.go:370-379), a stable sort. -/
def issueLe (a b : Issue) : Bool :=
  if decide (a.severity = "warn") ≠ decide (b.severity = "warn") then decide (a.severity = "warn")
  else if a.path ≠ b.path then strLe a.path b.path else strLe a.method b.method
def issues (t : Text) (d : Doc) : List Issue := isort issueLe ((ops d).flatMap (fun o => opIssues t d.comps o.1 o.2))

structure Resolution where
  full : Nat
  partly : Nat
  broken : Nat
  deriving DecidableEq

/-- The counts by state (overview.go:337-344). -/
def addState (a : Resolution) : Resolved → Resolution
  | .broken => { a with broken := a.broken + 1 }
  | .partly => { a with partly := a.partly + 1 }
  | .full => { a with full := a.full + 1 }
def resolution (t : Text) (d : Doc) : Resolution :=
  (ops d).foldl (fun a o => addState a (classify (opIssues t d.comps o.1 o.2))) ⟨0, 0, 0⟩

/-- The clean routes (overview.go:330-332). -/
def clean (t : Text) (d : Doc) : Nat := (ops d).countP (fun o => !hasWarn (opIssues t d.comps o.1 o.2))

/-- The score (overview.go:362-367), with exact instead of floating-point division. -/
def score (clean total : Nat) : Nat := if total = 0 then 100 else (200 * clean + total) / (2 * total)

/-- `hasBodySchema`, `isWriteMethod`, `hasErrorResponse` (overview.go:430-461) and the coverage (345-354). -/
def hasBody (o : Op) : Bool := (o.body.getD []).any (fun m => m.2.isSome)
def isWrite (m : String) : Bool := decide (m = "POST") || decide (m = "PUT") || decide (m = "PATCH")
def hasError (o : Op) : Bool := o.responses.any (fun r => match r.1.toList with
  | c :: _ => decide (c = '4') || decide (c = '5')
  | [] => false)
def bodyTotal (d : Doc) : Nat := (ops d).countP (fun o => isWrite o.2.method)
def bodyHave (d : Doc) : Nat := (ops d).countP (fun o => isWrite o.2.method && hasBody o.2)
def errorHave (d : Doc) : Nat := (ops d).countP (fun o => hasError o.2)

/-! ### Security -/

structure Sec where
  isProtected : Nat
  isPublic : Nat
  unsecured : Nat
  uses : List String
  deriving DecidableEq

/-- One operation of `securityStats` (overview.go:577-618); `uses` are the increments of the usage map. -/
def secStep (doc : List (List String)) (st : Sec) (o : Op) : Sec :=
  match o.security with
  | some [] => { st with isPublic := st.isPublic + 1 }
  | some (r :: rs) => secEff st (r :: rs)
  | none => secEff st doc
where
  secEff (st : Sec) (eff : List (List String)) : Sec :=
    if eff = [] then { st with unsecured := st.unsecured + 1 }
    else if eff.any List.isEmpty then { st with isPublic := st.isPublic + 1 }
    else { st with isProtected := st.isProtected + 1, uses := st.uses ++ dedup eff.flatten }

/-- `securityStats` (overview.go:563-621) over the operations in the order of this run. -/
def security (d : Doc) : Sec := (d.paths.flatMap Prod.snd).foldl (secStep d.security) ⟨0, 0, 0, []⟩
def byScheme (d : Doc) : List Count := sortedCounts true (tally (security d).uses)

/-! ### Bodies by status -/

inductive BodyState where
  | unresolved | freeform | schema
  deriving DecidableEq

def BodyState.rank : BodyState → Nat
  | .unresolved => 0
  | .freeform => 1
  | .schema => 2

/-- `sc.Ref` names a component (overview.go:722-734); the prefix alone is not followed. -/
def refTarget (t : Text) (comps : List (String × Schema)) (r : String) : Option BodyState :=
  match refName r with
  | none => none
  | some n => if n.isEmpty then none else match comps.lookup n with
    | none => some .unresolved
    | some c => some (if t.placeholder c.desc then .unresolved else .schema)
def isArrayType (ty : String) : Bool := decide (ty = "array")
def isObjectType (ty : String) : Bool := decide (ty = "object")

mutual
/-- `bodyResolution` (overview.go:718-757). -/
def bodyOf (t : Text) (comps : List (String × Schema)) : Schema → BodyState
  | .mk r _ ty i a _ p al o an e =>
    match refTarget t comps r with
    | some st => st
    | none =>
      if isArrayType ty then bodyItems t comps i
      else if !o.isEmpty || !an.isEmpty || !al.isEmpty || !p.isEmpty || !e.isEmpty then .schema
      else if isObjectType ty then (if a.isEmpty then .unresolved else .freeform)
      else if ty.isEmpty then .unresolved else .schema
def bodyItems (t : Text) (comps : List (String × Schema)) : List Schema → BodyState
  | [] => .unresolved
  | s :: _ => bodyOf t comps s
end

def bodyState (t : Text) (comps : List (String × Schema)) : Option Schema → BodyState
  | none => .unresolved
  | some s => bodyOf t comps s

structure StatusBody where
  total : Nat
  withSchema : Nat
  freeForm : Nat
  empty : Nat
  unresolved : Nat
  deriving DecidableEq

def better (t : Text) (comps : List (String × Schema)) (best : BodyState) (m : String × Option Schema) : BodyState :=
  if best.rank < (bodyState t comps m.2).rank then bodyState t comps m.2 else best

/-- `addStatusBody` (overview.go:679-700). -/
def addBody (t : Text) (comps : List (String × Schema)) (acc : StatusBody) (c : Content) : StatusBody :=
  if c = [] then { acc with total := acc.total + 1, empty := acc.empty + 1 }
  else match c.foldl (better t comps) .unresolved with
    | .schema => { acc with total := acc.total + 1, withSchema := acc.withSchema + 1 }
    | .freeform => { acc with total := acc.total + 1, freeForm := acc.freeForm + 1 }
    | .unresolved => { acc with total := acc.total + 1, unresolved := acc.unresolved + 1 }

/-- The row of a status (overview.go:643). -/
def statusBody (t : Text) (d : Doc) (status : String) : StatusBody :=
  (((ops d).flatMap (fun o => o.2.responses)).filter (fun r => decide (r.1 = status))).foldl (fun a r => addBody t d.comps a r.2) ⟨0, 0, 0, 0, 0⟩

/-! ### The program -/

/-- A recorded type: whether it is an interface, package, name, and the numbers of methods and implementations. -/
structure GoType where
  isInterface : Bool
  pkg : String
  name : String
  methods : Nat
  impls : Nat
  deriving DecidableEq

/-- A package: its files with their numbers of functions and their types, and the types of the package
(internal/metadata/metadata.go:370: those of all its files). -/
structure GoPkg where
  files : List (Nat × List GoType)
  types : List GoType

/-- `st.Functions` (overview.go:852-866). -/
def functions (pkgs : List GoPkg) : Nat :=
  (pkgs.map (fun p => (p.files.map (fun f => f.1 + (f.2.map GoType.methods).sum)).sum + (p.types.map GoType.methods).sum)).sum

/-- `lastSegment` (overview.go:898-903). -/
def lastSegment (p : String) : String := String.ofList (p.toList.reverse.takeWhile (fun c => decide (c ≠ '/'))).reverse

/-- The row of an ambiguous interface (overview.go:497-501). -/
def label (t : GoType) : String := if t.pkg ≠ "" then lastSegment t.pkg ++ "." ++ t.name else t.name

/-- A Go map: the last value written to a key stays. -/
def setMap (m : List Count) (k : String) (v : Nat) : List Count := m.filter (fun c => decide (c.name ≠ k)) ++ [⟨k, v⟩]

/-- The types in the order this run visits them (overview.go:505-514). -/
def visited (pkgs : List GoPkg) : List GoType := pkgs.flatMap (fun p => p.files.flatMap Prod.snd ++ p.types)

/-- The interfaces counted, each once (overview.go:475-484). -/
def interfaces (pkgs : List GoPkg) : List GoType := dedupBy (fun t => (t.pkg, t.name)) ((visited pkgs).filter GoType.isInterface)

/-- The list of ambiguous interfaces (overview.go:491-503, 515), before it is cut to eight. -/
def ambiguous (pkgs : List GoPkg) : List Count :=
  sortedCounts true (((interfaces pkgs).filter (fun t => decide (2 ≤ t.impls))).foldl (fun m t => setMap m (label t) t.impls) [])

end Verif.Overview
