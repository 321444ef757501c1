/-!
# Model: the export of open issues

`BuildExportMarkdown` and `moduleRefPrefix` (internal/insight/export.go:40-120), with `strings.ReplaceAll` of the
standard library.

Simplified: the summary, the line about the analysis and that about bodies (export.go:55-64) are fields of the report;
the fixed paragraphs of advice are a parameter, and so are numbers as texts.  The text is put together from parts with one
character after each, which is how the formats of the code read: a part is a field, redacted or not, or fixed words.
-/

namespace Verif.Export

abbrev Text := List Char

/-- `strings.ReplaceAll` for a text that is not empty: from the left, without overlaps; `skip` characters are already
replaced. -/
def replaceFrom (old new : Text) : Text → Nat → Text
  | [], _ => []
  | _ :: cs, skip + 1 => replaceFrom old new cs skip
  | c :: cs, 0 =>
    if old.isPrefixOf (c :: cs) then new ++ replaceFrom old new cs (old.length - 1)
    else c :: replaceFrom old new cs 0

def replaceAll (old new s : Text) : Text := replaceFrom old new s 0

structure Issue where
  severity : Text
  kind : Text
  method : Text
  path : Text
  detail : Text
  ref : Text

structure Report where
  issues : List Issue
  summary : Text
  analysisLine : Text
  bodyLine : Text

/-- export.go:26-30 -/
structure Options where
  config : Text
  modulePath : Text
  redact : Bool

/-- export.go:44 -/
def placeholder : Text := "example.com/app".toList

/-- export.go:41-46 -/
def red (o : Options) (s : Text) : Text :=
  if o.redact = true ∧ o.modulePath ≠ [] then replaceAll o.modulePath placeholder s else s

/-- export.go:115-120: dots and slashes become underscores. -/
def moduleRefPrefix (m : Text) : Text := m.map fun c => if c = '/' ∨ c = '.' then '_' else c

/-- export.go:76-78 -/
def inModule (o : Options) (ref : Text) : Bool :=
  decide (moduleRefPrefix o.modulePath ≠ []) && (moduleRefPrefix o.modulePath).isPrefixOf ref

/-- What is fixed: the numbers, and the paragraphs of lines 80-83, each of which is a line. -/
structure Fixed where
  num : Nat → Text
  advice : List Text

/-- export.go:48-53 -/
def warns (r : Report) : List Issue := r.issues.filter (fun i => decide (i.severity = "warn".toList))

/-- A line of fixed words. -/
def words (s : String) : Text × Char := (s.toList, '\n')

/-- export.go:85-101: one issue. -/
def issueParts (o : Options) (fx : Fixed) (idx : Nat) (is : Issue) : List (Text × Char) :=
  [("##".toList, ' '), (fx.num (idx + 1) ++ ".".toList, ' '), (is.method, ' '), (red o is.path, '\n'),
    ("- **Kind:**".toList, ' '), (is.kind, '\n'), ("- **Problem:**".toList, ' '), (red o is.detail, '\n')] ++
  (if is.ref ≠ [] then
    [("- **Schema/component:** ".toList, '`'), (red o is.ref, '`'), ([], '\n')] ++
    (if moduleRefPrefix o.modulePath ≠ [] then
      [if inModule o is.ref then words "- **Type class:** in-module → should auto-resolve; prefer a code/analysis fix (A)"
       else words "- **Type class:** external → prefer a config entry (B)"]
     else [])
   else []) ++ [([], '\n')]

def issuesParts (o : Options) (fx : Fixed) : Nat → List Issue → List (Text × Char)
  | _, [] => []
  | idx, is :: l => issueParts o fx idx is ++ issuesParts o fx (idx + 1) l

/-- `strings.TrimRight(s, "\n")` -/
def trimRight (s : Text) : Text := (s.reverse.dropWhile (fun c => decide (c = '\n'))).reverse

/-- export.go:103-107 -/
def configParts (o : Options) : List (Text × Char) :=
  if o.config.all Char.isWhitespace then []
  else [words "## Current apispec config", ([], '\n'), words "```yaml", (red o (trimRight o.config), '\n'), words "```"]

/-- export.go:54-64 -/
def headParts (o : Options) (r : Report) : List (Text × Char) :=
  [words "# apispec — issues to resolve", ([], '\n'), (r.summary, '\n'), ([], '\n')] ++
  (if r.analysisLine ≠ [] then [(red o r.analysisLine, '\n'), ([], '\n')] else []) ++
  (if r.bodyLine ≠ [] then [(r.bodyLine, '\n'), ([], '\n')] else [])

/-- export.go:40-109 -/
def parts (o : Options) (fx : Fixed) (r : Report) : List (Text × Char) :=
  headParts o r ++
  (if warns r = [] then [words "No blocking issues were detected — the spec resolved cleanly. Nothing to fix."]
   else [("There are ".toList ++ fx.num (warns r).length ++ " issue(s).".toList, ' ')] ++ fx.advice.map (fun a => (a, '\n')) ++
     issuesParts o fx 0 (warns r) ++ configParts o)

def flat (ps : List (Text × Char)) : Text := ps.flatMap fun p => p.1 ++ [p.2]

def exportText (o : Options) (fx : Fixed) (r : Report) : Text := flat (parts o fx r)

end Verif.Export
