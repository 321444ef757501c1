/-!
# Model: a status that a constructor stores in a field

`statusFromConstructorField`, `statusesFromConstructorField` and what they use
(internal/spec/extractor.go:2797-2868, 2880-2936, 2953-3023), for the error helper
`e := NewErr(msg, 401); Respond(w, e)` with `w.WriteHeader(err.Code)` in the helper.
The step from the parameter of the helper to the variable of the handler (2810-2817) is modelled in
`Verif.ProvenanceModel`; here the variable is given.
-/

namespace Verif.Ctor

/-- A simple expression: an expression whose text may name a status (`http.StatusNotFound`, `404`), a variable, or
something else. -/
inductive Atom where
  | text (t : String)
  | var (x : String)
  | other (k : Nat)
  deriving DecidableEq

/-- An expression that is assigned or returned.  A composite literal may be behind `&` (`ref`); only keyed elements
are listed. -/
inductive Exp where
  | atom (a : Atom)
  | lit (ref : Bool) (fields : List (String × Atom))
  | call (fn pkg pos : String) (args : List Atom)

/-- An assignment; `cond` is true if it is in a branch or loop, which the code does not see. -/
structure Stmt where
  cond : Bool
  var : String
  rhs : Exp

/-- A function: its assignments in the order of the text, and the first result of each of its return statements. -/
structure Func where
  pkg : String
  name : String
  params : List String
  body : List Stmt
  returns : List Exp

abbrev Prog := List Func

/-- extractor.go:1971-1984: the function of the package, else the first of that name. -/
def findFunctionByName (P : Prog) (pkg name : String) : Option Func :=
  if name = "" then none
  else match P.find? (fun f => decide (f.pkg = pkg ∧ f.name = name)) with
    | some f => some f
    | none => P.find? (fun f => decide (f.name = name))

/-- The part of a call graph edge that is read here.  The caller is given by package and name (`Caller.ID()`). -/
structure Edge where
  caller : String × String
  callee : String
  calleePkg : String
  pos : String
  params : List (String × Atom)

/-- The edge recorded for a statement (internal/metadata/metadata.go:1507-1770, the part for calls of functions;
parameters are matched with arguments by position). -/
def edgeOf (P : Prog) (f : Func) (s : Stmt) : Option Edge :=
  match s.rhs with
  | .call fn pkg pos args =>
    some ⟨(f.pkg, f.name), fn, pkg, pos, ((P.find? (fun g => decide (g.pkg = pkg ∧ g.name = fn))).map (fun g => g.params.zip args)).getD []⟩
  | _ => none

/-- The call graph. -/
def edges (P : Prog) : List Edge := P.flatMap fun f => f.body.filterMap (edgeOf P f)

/-- The tests of extractor.go:2962-2967. -/
def edgeFits (caller : String × String) (fn pkg : String) (e : Edge) : Bool :=
  decide (e.caller = caller) && decide (e.callee = fn) && (decide (pkg = "") || decide (e.calleePkg = pkg))

/-- extractor.go:2958-2976 -/
def findCallEdge (es : List Edge) (caller : String × String) (fn pkg pos : String) : Option Edge :=
  match es.find? (fun e => edgeFits caller fn pkg e && decide (pos ≠ "") && decide (e.pos = pos)) with
  | some e => some e
  | none => es.find? (edgeFits caller fn pkg)

/-- extractor.go:2858-2865: a keyed element that puts a variable in the field. -/
def fieldVar (field : String) (kv : String × Atom) : Option String :=
  match kv.2 with
  | .var x => if kv.1 = field then some x else none
  | _ => none

/-- extractor.go:2850-2868 for the literal of one return value. -/
def litParam (field : String) : Exp → Option String
  | .lit _ fields => fields.findSome? (fieldVar field)
  | _ => none

/-- internal/metadata/metadata.go:1492-1496: of return statements with as many results the first. -/
def returnVar (f : Func) : Option Exp := f.returns.head?

/-- extractor.go:3005-3023 -/
def ctorFieldArg (P : Prog) (caller : String × String) (fn pkg pos field : String) : Option Atom :=
  match findCallEdge (edges P) caller fn pkg pos with
  | none => none
  | some e =>
    match findFunctionByName P e.calleePkg fn with
    | none => none
    | some g =>
      match (returnVar g).bind (litParam field) with
      | none => none
      | some p => if p = "" then none else (e.params.find? (fun x => decide (x.1 = p))).map (·.2)

/-- The assignments to a variable, in the order of the text (extractor.go:2024-2038). -/
def assigns (f : Func) (x : String) : List Stmt := f.body.filter fun s => decide (s.var = x)

/-- `MapStatusCode(GetArgumentInfo(arg))`: the text of a variable names no status. -/
def statusOf (read : String → Option Int) : Atom → Option Int
  | .text t => read t
  | _ => none

/-- extractor.go:2819-2842: the status of the field of a variable. -/
def single (read : String → Option Int) (P : Prog) (h : Func) (x field : String) : Option Int :=
  match (assigns h x).getLast? with
  | some ⟨_, _, .call fn pkg pos _⟩ =>
    if fn = "" then none else (ctorFieldArg P (h.pkg, h.name) fn pkg pos field).bind (statusOf read)
  | _ => none

/-- extractor.go:2895-2936 with a variable as base: the variable whose values are fanned out (`expandVarStatuses`,
modelled in `Verif.StatusModel`). -/
def fanned (P : Prog) (h : Func) (x field : String) : Option String :=
  match (assigns h x).getLast? with
  | some ⟨_, _, .call fn _ pos _⟩ =>
    if fn = "" then none
    else match ctorFieldArg P (h.pkg, h.name) fn "" pos field with
      | some (.var v) => some v
      | _ => none
  | _ => none

end Verif.Ctor
