import Verif.PathsModel
/-!
# Model: operation parameters

mapper.go:420-466 and the helpers it uses; plus concatenated path arguments
(pattern_matchers.go:72-148).
-/

namespace Verif.Params
open Verif.Common Verif.Paths

/-- openapi.go:100-109 `Parameter`. `σ` is the schema type; `extra` stands for the
remaining fields (description, style, extensions …), which nothing here reads. -/
structure Param (σ : Type) where
  ref : Str := []
  name : Str := []
  loc : String := ""        -- the `in` field
  required : Bool := false
  schema : Option σ := none
  deriving DecidableEq, Repr

/-- mapper.go:627: the dedupe key `p.Name + ":" + p.In`. -/
def Param.key {σ} (p : Param σ) : Str := p.name ++ ':' :: p.loc.toList

/-- mapper.go:623-634 `deduplicateParameters`. -/
def dedupParams {σ} (ps : List (Param σ)) : List (Param σ) := dedupBy Param.key ps

/-! ## Dynamic placeholders -/

/-- mapper.go:592-598 `dynamicParamComponentName` (first byte upper-cased; ASCII names). -/
def dynComponentName (name : Str) : Str :=
  match name with
  | [] => "PathParam".toList
  | c :: cs => c.toUpper :: cs ++ "Param".toList

/-- mapper.go:602-604 `dynamicParamRef`. -/
def refPrefixP : Str := "#/components/parameters/".toList
def dynRef (name : Str) : Str := refPrefixP ++ dynComponentName name

/-- `strings.TrimSuffix(key, "Param")`. -/
def trimParamSuffix (key : Str) : Str :=
  if "Param".toList.isSuffixOf key then key.take (key.length - 5) else key

/-- mapper.go:609-620 `refTargetName`. -/
def refTargetName (ref : Str) : Str :=
  if refPrefixP.isPrefixOf ref then
    match trimParamSuffix (ref.drop refPrefixP.length) with
    | [] => []
    | c :: cs => c.toLower :: cs
  else []

/-- The names mapper.go:539-549 and 494-506 treat as covered. (The former also asks for
a non-empty name of a path parameter; placeholder names are never empty, so this makes
no difference to the tests below.) -/
def coveredNames {σ} (ps : List (Param σ)) : List Str :=
  ps.flatMap fun p =>
    (if p.loc = "path" then [p.name] else []) ++
    (if p.ref ≠ [] then (if refTargetName p.ref ≠ [] then [refTargetName p.ref] else []) else [])

/-- mapper.go:550-556. `covered` is the growing set. -/
def appendDynLoop {σ} (covered : List Str) : List Str → List (Param σ)
  | [] => []
  | n :: ns =>
    if n ∈ covered then appendDynLoop covered ns
    else { ref := dynRef n } :: appendDynLoop (n :: covered) ns

/-- mapper.go:535-558 `appendDynamicParamRefs`. -/
def appendDynRefs {σ} (ps : List (Param σ)) (dynamic : List Str) : List (Param σ) :=
  if dynamic = [] then ps else ps ++ appendDynLoop (coveredNames ps) dynamic

/-- mapper.go:563-588 `addDynamicPathParamComponents`: components.parameters as an
association list key ↦ parameter name (all other fields are fixed: in path, required). -/
def addDynComponents : List (Str × Str) → List Str → List (Str × Str)
  | comps, [] => comps
  | comps, n :: ns =>
    if (comps.lookup (dynComponentName n)).isSome then addDynComponents comps ns
    else addDynComponents (comps ++ [(dynComponentName n, n)]) ns

/-! ## Template variables -/

/-- Whether the identifier read so far may go on with `c`: `[a-zA-Z_]` first, then
`[a-zA-Z0-9_]` (mapper.go:508). -/
def continuesName (acc : Str) (c : Char) : Bool := if acc = [] then isIdStart c else isIdChar c

/-- mapper.go:508-509: the submatches of `\{([a-zA-Z_][a-zA-Z0-9_]*)\}` in order, as the
automaton of its leftmost non-overlapping matches. The state is the text read since
the last '{' (`none` outside). -/
def templateScan : Option Str → Str → List Str
  | _, [] => []
  | none, c :: cs => if c = '{' then templateScan (some []) cs else templateScan none cs
  | some acc, c :: cs =>
    if c = '{' then templateScan (some []) cs
    else if c = '}' then
      if acc = [] then templateScan none cs else acc :: templateScan none cs
    else if continuesName acc c then templateScan (some (acc ++ [c])) cs
    else templateScan none cs

/-- mapper.go:508-509. -/
def templateVars (path : Str) : List Str := templateScan none path

/-- mapper.go:493-530 `ensureAllPathParams`. `mk` builds the schema from the optional
pattern (mapper.go:514-517). -/
def ensureAll {σ} (mk : Option Str → σ) (path : Str) (ps : List (Param σ)) (pattern : Str → Option Str) :
    List (Param σ) :=
  ps ++ ((templateVars path).filter fun n => decide (n ∉ coveredNames ps)).map fun n =>
    { name := n, loc := "path", required := true, schema := some (mk (pattern n)) }

/-! ## Form parameters -/

/-- config.go:41-42. -/
def paramInForm : String := "form"
def paramInFormFile : String := "formFile"

/-- mapper.go:783-785 `isFormSentinel`. -/
def isFormSentinel (loc : String) : Bool := loc == paramInForm || loc == paramInFormFile

/-- mapper.go:683-690 `methodTakesRequestBody`. -/
def takesBody (method : Str) : Bool :=
  decide (method.map Char.toUpper ∈ ["POST".toList, "PUT".toList, "PATCH".toList])

/-- The request body built from form fields: property name ↦ schema (later wins), the
sorted `required` list, and whether it is multipart. -/
structure FormBody (σ : Type) where
  props : List (Str × σ)
  required : List Str
  multipart : Bool
  deriving DecidableEq, Repr

/-- Map assignment on an association list. -/
def setKey {σ} (k : Str) (v : σ) : List (Str × σ) → List (Str × σ)
  | [] => [(k, v)]
  | (k', v') :: r => if k' = k then (k, v) :: r else (k', v') :: setKey k v r

def strLe (a b : Str) : Bool := decide (String.ofList a ≤ String.ofList b)

/-- mapper.go:737-766. -/
def formBody {σ} (dflt : σ) (forms : List (Param σ)) (multipart : Bool) : FormBody σ where
  props := (forms.filter fun p => decide (p.name ≠ [])).foldl (fun m p => setKey p.name (p.schema.getD dflt) m) []
  required := isort strLe ((forms.filter fun p => decide (p.name ≠ []) && p.required).map Param.name)
  multipart := multipart

/-- mapper.go:712-779 `resolveFormParams`. -/
def resolveForm {σ} (dflt : σ) (method : Str) (ps : List (Param σ)) (hasBody multipart : Bool) :
    List (Param σ) × Option (FormBody σ) :=
  if ps.any (fun p => isFormSentinel p.loc) = false && multipart = false then (ps, none)
  else
    let kept := ps.filter fun p => !isFormSentinel p.loc
    let forms := ps.filter fun p => isFormSentinel p.loc
    if takesBody method && !hasBody then (kept, some (formBody dflt forms multipart))
    else (kept ++ (forms.filter fun p => decide (p.loc ≠ paramInFormFile)).map fun p =>
            { p with loc := "query" }, none)

/-- mapper.go:450-466: the parameter list of an operation. -/
def operationParams {σ} (dflt : σ) (mk : Option Str → σ) (method openAPIPath : Str) (ps : List (Param σ))
    (hasBody multipart : Bool) (dynamic : List Str) (pattern : Str → Option Str) : List (Param σ) :=
  ensureAll mk openAPIPath (appendDynRefs (dedupParams (resolveForm dflt method ps hasBody multipart).1) dynamic) pattern

/-! ## Concatenated path arguments -/

/-- The shapes of `metadata.CallArgument` that matter to path folding: a binary
expression with its operator and (possibly missing) operands, or anything else. -/
inductive PathArg (α : Type)
  | leaf (a : α)
  | binary (op : Str) (x f : Option (PathArg α))

/-- pattern_matchers.go:133-148 `flattenConcat`; `none` is Go's nil result. -/
def flattenConcat {α} : PathArg α → List α → Option (List α)
  | .leaf a, acc => some (acc ++ [a])
  | .binary op (some x) (some f), acc =>
    if op ≠ ['+'] then none
    else match flattenConcat x acc with
      | none => none
      | some left => flattenConcat f left
  | .binary _ _ _, _ => none

/-- What `resolvePathOperand` (pattern_matchers.go:153-176) made of one operand: a known
value, or a placeholder name (never empty: pattern_matchers.go:90-92). -/
inductive Operand
  | value (v : Str)
  | unknown (name : Str)
  deriving DecidableEq, Repr

/-- pattern_matchers.go:93, 159. -/
def Operand.text : Operand → Str
  | .value v => v
  | .unknown n => '{' :: n ++ ['}']

def Operand.dyn : Operand → Str
  | .value _ => []
  | .unknown n => n

/-- pattern_matchers.go:116-128: the joining loop. -/
def joinOperands : List Operand → Str × List Str → Str × List Str
  | [], st => st
  | o :: os, (sb, names) =>
    joinOperands os (sb ++ o.text, if o.dyn ≠ [] then appendUnique names [o.dyn] else names)

/-- pattern_matchers.go:107-129 `resolveConcatenatedPath`; `whole` is the placeholder
name used when the expression is not a `+` chain. -/
def resolveConcat {α} (operand : α → Operand) (whole : Str) (arg : PathArg α) : Str × List Str :=
  match flattenConcat arg [] with
  | none => ('{' :: whole ++ ['}'], if whole = [] then [] else [whole])
  | some ops => joinOperands (ops.map operand) ([], [])

end Verif.Params
