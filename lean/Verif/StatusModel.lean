import Verif.ValidateModel
/-!
# Model: the statuses a handler sends

internal/spec/schema_mapper.go:163-258 (HTTPStatusByName, MapStatusCode), internal/spec/extractor.go:3047-3113
(expandStatusesFromIdent, expandVarStatuses, statusCodeOfValue), 2618-2667 (the responses made of them),
internal/spec/mapper_field_status.go:60-258 (statusesFromMapperField and what it calls), 1970-1984
(findFunctionByName), internal/spec/field_resolver.go:198-216 (findType).

Simplifications: an expression that is only rendered (context_provider.go:53 GetArgumentInfo) is its rendered
text; a function is identified by the pair of package and name where the code joins them with a dot (Go
identifiers have no dot, so the join is injective); the packages of a program are a list in sorted order;
statusesFromConstructorField is a parameter.
-/

namespace Verif.StatusCodes
open Verif.ValidateModel

abbrev Txt := List Char

/-! ## One status -/

/-- schema_mapper.go:163-235. -/
def byName : List (String × Int) :=
  [("StatusContinue", 100), ("StatusSwitchingProtocols", 101), ("StatusProcessing", 102), ("StatusEarlyHints", 103),
   ("StatusOK", 200), ("StatusCreated", 201), ("StatusAccepted", 202), ("StatusNonAuthoritativeInfo", 203),
   ("StatusNoContent", 204), ("StatusResetContent", 205), ("StatusPartialContent", 206), ("StatusMultiStatus", 207),
   ("StatusAlreadyReported", 208), ("StatusIMUsed", 226),
   ("StatusMultipleChoices", 300), ("StatusMovedPermanently", 301), ("StatusFound", 302), ("StatusSeeOther", 303),
   ("StatusNotModified", 304), ("StatusUseProxy", 305), ("StatusTemporaryRedirect", 307), ("StatusPermanentRedirect", 308),
   ("StatusBadRequest", 400), ("StatusUnauthorized", 401), ("StatusPaymentRequired", 402), ("StatusForbidden", 403),
   ("StatusNotFound", 404), ("StatusMethodNotAllowed", 405), ("StatusNotAcceptable", 406), ("StatusProxyAuthRequired", 407),
   ("StatusRequestTimeout", 408), ("StatusConflict", 409), ("StatusGone", 410), ("StatusLengthRequired", 411),
   ("StatusPreconditionFailed", 412), ("StatusRequestEntityTooLarge", 413), ("StatusRequestURITooLong", 414),
   ("StatusUnsupportedMediaType", 415), ("StatusRequestedRangeNotSatisfiable", 416), ("StatusExpectationFailed", 417),
   ("StatusTeapot", 418), ("StatusMisdirectedRequest", 421), ("StatusUnprocessableEntity", 422), ("StatusLocked", 423),
   ("StatusFailedDependency", 424), ("StatusTooEarly", 425), ("StatusUpgradeRequired", 426),
   ("StatusPreconditionRequired", 428), ("StatusTooManyRequests", 429), ("StatusRequestHeaderFieldsTooLarge", 431),
   ("StatusUnavailableForLegalReasons", 451),
   ("StatusInternalServerError", 500), ("StatusNotImplemented", 501), ("StatusBadGateway", 502),
   ("StatusServiceUnavailable", 503), ("StatusGatewayTimeout", 504), ("StatusHTTPVersionNotSupported", 505),
   ("StatusVariantAlsoNegotiates", 506), ("StatusInsufficientStorage", 507), ("StatusLoopDetected", 508),
   ("StatusNotExtended", 510), ("StatusNetworkAuthenticationRequired", 511)]

/-- `strings.Trim(s, "\"")`. -/
def trimQ (s : Txt) : Txt := trimBy (· == '"') s

/-- schema_mapper.go:242-244: what follows the last dot, or everything. -/
def afterDot (s : Txt) : Txt := (s.reverse.takeWhile (· != '.')).reverse

/-- schema_mapper.go:238-258. -/
def mapStatus (s : Txt) : Option Int :=
  match byName.find? fun e => e.1.toList == afterDot (trimQ s) with
  | some e => some e.2
  | none => atoi (afterDot (trimQ s))

/-- The right-hand side of an assignment, or the value of a struct field: a call with its rendered
arguments, or anything else, rendered. -/
inductive Rhs where
  | call (args : List Txt)
  | plain (info : Txt)
deriving DecidableEq

/-- extractor.go:3088-3113: the value of a call is read off its arguments when exactly one is a status. -/
def statusOf : Rhs → Option Int
  | .plain s => mapStatus s
  | .call args =>
    match args.filterMap mapStatus with
    | [n] => some n
    | _ => none

/-! ## A variable -/

/-- extractor.go:3072-3081: distinct statuses in the order of the assignments. -/
def collect : List Rhs → List Int × Bool → List Int × Bool
  | [], r => r
  | v :: vs, (codes, residue) =>
    match statusOf v with
    | some n => collect vs (if n ∈ codes then codes else codes ++ [n], residue)
    | none => collect vs (codes, true)

/-- extractor.go:3066-3084. -/
def expandVar (assigns : List Rhs) : List Int × Bool :=
  if assigns.length < 2 then ([], false) else collect assigns ([], false)

/-- What a response is filed under: its status, or `default` when the status is not known. -/
inductive Key where
  | code (n : Int)
  | default
deriving DecidableEq

/-- extractor.go:2618-2680: `single` is the status read from the argument itself, if any; `hasBody` tells
whether the call has a documented body.  A call without status and body is not documented. -/
def responses (expanded : List Int × Bool) (single : Option Int) (hasBody : Bool) : List Key :=
  if 1 < expanded.1.length ∨ (1 ≤ expanded.1.length ∧ expanded.2 = true) then
    expanded.1.map .code ++ if expanded.2 then [.default] else []
  else match single with
    | some n => [.code n]
    | none => if hasBody then [.default] else []

/-! ## A field set by a mapper -/

/-- An element of a composite literal. -/
structure Elt where
  key : Option String := none
  val : Rhs
deriving DecidableEq

/-- A composite literal: the package qualifier written before its type (the name of the import, not its
path), the type's name and package (which the code does not see), the elements. -/
structure Lit where
  qual : Option String := none
  type : String
  pkg : String
  elts : List Elt
deriving DecidableEq

/-- An expression that is returned or assigned: a composite literal (possibly behind `&`), a variable, a call
(extractor.go:2942-2953: the name of what is called; `target` is the function that is called, when it is one of
the program, and is not seen by the code), an expression of another kind that yields a struct (an element of a
map, a field, …), or one that yields no struct. -/
inductive Val where
  | lit (l : Lit)
  | ident (x : String)
  | call (callee : String) (target : Option (String × String))
  | hidden
  | plain
deriving DecidableEq

/-- metadata.go:1323-1404: an assignment to a variable; of a call, the callee is recorded. -/
structure Assign where
  calleePkg : String := ""
  calleeFunc : String := ""
  ret : Nat := 0
  value : Val
deriving DecidableEq

structure Func where
  pkg : String
  name : String
  /-- metadata.go:1471-1500: the values of every return statement. -/
  returns : List (List Val)
  assigns : String → List Assign
  /-- Not seen by the code: assignments to the field of a variable. -/
  fieldWrites : List (String × Rhs) := []
  /-- Not seen by the code: variables that have a value before the first assignment (parameters, variables
  of the package). -/
  inputs : List String := []

structure TypeDecl where
  pkg : String
  name : String
  fields : List String
deriving DecidableEq

structure Prog where
  funcs : List Func
  types : List TypeDecl
  /-- Not seen by the code: types of packages that are not analysed. -/
  external : List TypeDecl := []

/-- extractor.go:1970-1984: the function of the package, or the first of that name. -/
def find (P : Prog) (pkg name : String) : Option Func :=
  if name = "" then none
  else match P.funcs.find? fun f => f.pkg == pkg && f.name == name with
    | some f => some f
    | none => P.funcs.find? fun f => f.name == name

/-- field_resolver.go:198-216 and mapper_field_status.go:240-258: the type of the package, or the first of
that name. -/
def findType (P : Prog) (pkg name : String) : Option TypeDecl :=
  match P.types.find? fun t => t.pkg == pkg && t.name == name with
  | some t => some t
  | none => P.types.find? fun t => t.name == name

/-- mapper_field_status.go:225-233. -/
def keyed (l : Lit) (field : String) : Option Rhs := (l.elts.find? fun e => e.key == some field).map (·.val)

/-- mapper_field_status.go:189-221. -/
def fieldValue (P : Prog) (l : Lit) (field scopePkg : String) : Option Rhs :=
  if l.elts.any fun e => e.key.isSome then keyed l field
  else match findType P (l.qual.getD scopePkg) l.type with
    | none => none
    | some t =>
      match t.fields.findIdx? (· == field) with
      | none => none
      | some i => (l.elts[i]?).map (·.val)

structure St where
  codes : List Int := []
  seen : List (String × String) := []

/-- What is left to look at: a value in the scope of a function, or a function (`none` is nil). -/
inductive Job where
  | val (v : Val) (scope : Func)
  | fn (f : Option Func)

/-- A loop that adds up the residues. -/
def loop {α : Type} (step : α → St → Option (Bool × St)) : List α → St → Option (Bool × St)
  | [], s => some (false, s)
  | a :: as, s =>
    match step a s with
    | none => none
    | some (r, s') =>
      match loop step as s' with
      | none => none
      | some (r', s'') => some (r || r', s'')

def addCode (n : Int) (s : St) : St := if n ∈ s.codes then s else { s with codes := n :: s.codes }

/-- mapper_field_status.go:112-180, fieldStatusOfValue and returnFieldStatuses.  The first argument bounds
the depth of the recursion of the model; `none` means that it is reached. -/
def run (P : Prog) (field : String) : Nat → Job → Nat → St → Option (Bool × St)
  | 0, _, _, _ => none
  | n + 1, .fn f, depth, s =>
    match f with
    | none => some (false, s)
    | some f =>
      if 8 < depth then some (true, s)
      else if (f.pkg, f.name) ∈ s.seen then some (false, s)
      else loop (fun v s => run P field n (.val v f) depth s) f.returns.flatten { s with seen := (f.pkg, f.name) :: s.seen }
  | n + 1, .val v scope, depth, s =>
    match v with
    | .lit l =>
      match fieldValue P l field scope.pkg with
      | none => some (false, s)
      | some rhs =>
        match statusOf rhs with
        | some c => some (false, addCode c s)
        | none => some (true, s)
    | .ident x =>
      loop (fun (a : Assign) s =>
        match a.value with
        | .call _ _ => run P field n (.fn (find P a.calleePkg a.calleeFunc)) (depth + 1) s
        | v => run P field n (.val v scope) (depth + 1) s) (scope.assigns x) s
    | .call callee _ =>
      if callee = "" then some (false, s) else run P field n (.fn (find P scope.pkg callee)) (depth + 1) s
    | .hidden => some (false, s)
    | .plain => some (false, s)

/-- mapper_field_status.go:88-106: the statuses of a field of what the mapper returns.  `none` means that the
recursion exceeds the bound. -/
def mapperStatuses (P : Prog) (field pkg name : String) (fuel : Nat) : Option (List Int × Bool) :=
  match find P pkg name with
  | none => some ([], false)
  | some f =>
    match run P field fuel (.fn (some f)) 0 {} with
    | none => none
    | some (r, s) => some (s.codes, r)

end Verif.StatusCodes
