import Verif.ExportModel
/-!
# Model: the export of one endpoint

`BuildEndpointExportMarkdown` and `reqStr` (internal/insight/export.go:126-244), with `shortLabel`
(internal/insight/metrics.go:1005-1013).  Redaction, the prefix of components and the way in which the text is put together
from parts are those of `Verif.ExportModel`.

Simplified: the window of the source (modelled in `Verif.SourceModel`) is a field of the report; numbers as texts and the
last paragraph are parameters.
-/

namespace Verif.EndExport

open Verif.Export (Text Options Issue red inModule moduleRefPrefix trimRight words flat)

/-- A node of the trace: which one it is, and the interface it was resolved from. -/
structure Node where
  id : Text
  resolved : Bool
  resolvedFrom : Text
  alternatives : Nat

structure Resp where
  status : Text
  contentType : Text
  schema : Text

structure Param where
  name : Text
  loc : Text
  type : Text
  required : Bool

structure Report where
  method : Text
  path : Text
  handler : Text
  handlerPos : Text
  request : Option (Text × Text)
  responses : List Resp
  params : List Param
  issues : List Issue
  nodes : List Node
  edges : List (Text × Text)
  source : Text

/-- Numbers, and the last paragraph (export.go:235). -/
structure Fixed where
  num : Nat → Text
  need : Text

/-- metrics.go:1005-1013: what is after the last slash. -/
def shortLabel : Text → Text
  | [] => []
  | x :: xs => if '/' ∈ xs then shortLabel xs else if x = '/' then xs else x :: xs

/-- export.go:134-144 -/
def headParts (o : Options) (r : Report) : List (Text × Char) :=
  [words "# apispec — endpoint report", ([], '\n'), ("*".toList, '*'), (r.method, ' '), (red o r.path, '*'), ("*".toList, '\n'), ([], '\n')] ++
  (if r.handler ≠ [] then [("- Handler: ".toList, '`'), (red o r.handler, '`'), ([], '\n')] else []) ++
  (if r.handlerPos ≠ [] then [("- Source:".toList, ' '), (red o r.handlerPos, '\n')] else []) ++ [([], '\n')]

/-- export.go:151-153 -/
def respParts (o : Options) (x : Resp) : List (Text × Char) :=
  [("- Response".toList, ' '), (x.status, ':'), ([], ' '), (x.contentType, ' '), ([], '`'), (red o x.schema, '`'), ([], '\n')]

/-- export.go:154-156, 239-244 -/
def paramParts (x : Param) : List (Text × Char) :=
  [("- Param ".toList, '`'), (x.name, '`'), (" in".toList, ' '), (x.loc, ':'), ([], ' ')] ++
  (if x.required = true then [(x.type, ' '), words "(required)"] else [(x.type, '\n')])

/-- export.go:147-157 -/
def shapeParts (o : Options) (r : Report) : List (Text × Char) :=
  [words "## Shape"] ++
  (match r.request with
    | some q => [("- Request:".toList, ' '), (q.1, ' '), ([], '`'), (red o q.2, '`'), ([], '\n')]
    | none => []) ++
  r.responses.flatMap (respParts o) ++ r.params.flatMap paramParts ++ [([], '\n')]

/-- export.go:160-165 -/
def warns (r : Report) : List Issue := r.issues.filter (fun i => decide (i.severity = "warn".toList))

/-- export.go:169-182 -/
def issueParts (o : Options) (is : Issue) : List (Text × Char) :=
  [("- *".toList, '*'), (is.kind, '*'), ("* —".toList, ' ')] ++
  (if is.ref ≠ [] then
    [(red o is.detail, ' '), ("(".toList, '`'), (red o is.ref, '`'), ([], ')')] ++
    (if moduleRefPrefix o.modulePath ≠ [] then
      [if inModule o is.ref then words " — _in-module type; should auto-resolve, prefer a code/analysis fix_"
       else words " — _external type; prefer a config entry_"]
     else [([], '\n')])
   else [(red o is.detail, '\n')])

/-- export.go:166-184 -/
def problemParts (o : Options) (r : Report) : List (Text × Char) :=
  if warns r = [] then []
  else [words "## Problem(s)"] ++ (warns r).flatMap (issueParts o) ++ [([], '\n')]

/-- export.go:192-197, 206: the resolved node that is the target; of several with one id the last. -/
def resolvedNode (r : Report) (id : Text) : Option Node :=
  (r.nodes.filter (fun n => n.resolved)).reverse.find? (fun n => decide (n.id = id))

/-- export.go:205-217 -/
def edgeParts (o : Options) (fx : Fixed) (r : Report) (e : Text × Text) : List (Text × Char) :=
  [(red o (shortLabel e.1), ' '), ("→".toList, ' ')] ++
  (match resolvedNode r e.2 with
    | none => [(red o (shortLabel e.2), '\n')]
    | some n =>
      [(red o (shortLabel e.2), ' ')] ++
      (if n.resolvedFrom ≠ [] ∧ n.alternatives > 1 then
        [("  ⟐ impl (1 of".toList, ' '), (fx.num n.alternatives, ' '), ("implementations of".toList, ' '), (n.resolvedFrom, ' '), words "— may be kept general)"]
       else if n.resolvedFrom ≠ [] then [("  ⟐ impl (sole implementation of".toList, ' '), (n.resolvedFrom, ')'), ([], '\n')]
       else [words "  ⟐ impl (resolved from interface)"]))

/-- export.go:187-220 -/
def traceParts (o : Options) (fx : Fixed) (r : Report) : List (Text × Char) :=
  if r.edges = [] then []
  else [words "## Resolution trace (call subtree, this endpoint)", words "`⟐ impl` marks a concrete implementation resolved from an interface call.", words "```"] ++
    (r.edges.take 40).flatMap (edgeParts o fx r) ++ (if r.edges.length > 40 then [words "…"] else []) ++ [words "```", ([], '\n')]

/-- export.go:223-233 -/
def tailParts (o : Options) (fx : Fixed) (r : Report) : List (Text × Char) :=
  (if r.source ≠ [] then [words "## Handler source (pulled from your code)", words "```go", (red o r.source, '\n'), words "```", ([], '\n')] else []) ++
  (if o.config.all Char.isWhitespace then []
   else [words "## Current apispec config", ([], '\n'), words "```yaml", (red o (trimRight o.config), '\n'), words "```", ([], '\n')]) ++
  [words "## What I need", (fx.need, '\n')]

/-- export.go:126-237 -/
def parts (o : Options) (fx : Fixed) (r : Report) : List (Text × Char) :=
  headParts o r ++ shapeParts o r ++ problemParts o r ++ traceParts o fx r ++ tailParts o fx r

def exportText (o : Options) (fx : Fixed) (r : Report) : Text := flat (parts o fx r)

end Verif.EndExport
