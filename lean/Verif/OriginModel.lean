/-!
# Model: where a variable comes from

`TraceVariableOrigin` and `traceVariableOriginHelper` (internal/metadata/analysis.go:439-683), with the cache of answers
and the cache of methods, which the metadata keep for the whole run (internal/metadata/metadata.go:243-244).

Simplified: keys of the caches are tuples where the code joins their texts; the argument of a call is the name it is
traced by (analysis.go:543-553), a returned value is a name or something else (the loops 588-598 and 645-655 over
selectors and unary operators are done already); the type of an answer is a text.  The packages are there (line 496) and
the caches are present.  The recursion is bounded by `fuel`, and `none` says that it was not enough.
-/

namespace Verif.Origin

/-- A question: a variable, the function it is in and its package. -/
structure Q where
  var : String
  func : String
  pkg : String
deriving DecidableEq

structure Ans where
  var : String
  pkg : String
  type : Option String
  func : String
deriving DecidableEq

/-- A returned value: a variable, or something else with a name and a type. -/
inductive Ret
  | ident (n : String)
  | other (n t : String)
deriving DecidableEq

/-- The last assignment to a variable: the variable it copies, or the function or method it calls, which of its results
it takes, and its value as it stands. -/
structure Assign where
  copies : Option String
  callee : Option (String × String)
  idx : Nat
  value : String
deriving DecidableEq

structure Fn where
  name : String
  returns : List Ret
  assigns : List (String × Assign)
deriving DecidableEq

/-- A file: its package variables with their types, its functions, and the methods of its types, in the order of the types. -/
structure File where
  vars : List (String × String)
  funcs : List Fn
  methods : List Fn
deriving DecidableEq

structure Edge where
  callerName : String
  callerPkg : String
  calleeName : String
  calleePkg : String
  typeParams : List (String × String)
  params : List (String × String)

/-- The call graph, and the files of each package in the order of their names. -/
structure Prog where
  edges : List Edge
  pkgs : List (String × List File)

def filesOf (pr : Prog) (pkg : String) : List File := (pr.pkgs.lookup pkg).getD []

/-- The cache of methods, analysis.go:610-638: by package and name; a method that was not found is there as none. -/
abbrev MCache := List ((String × String) × Option Fn)

/-- What is to be done about a question. -/
inductive Step
  /-- An answer that is kept in the cache. -/
  | keep (a : Ans)
  /-- An answer that is not. -/
  | say (a : Ans)
  /-- Another question, with the variable and package to name in the answer, if not those of the other. -/
  | follow (q : Q) (named : Option (String × String))

/-- analysis.go:599-604, 656-661 -/
def retStep (q : Q) (cpkg cfunc : String) : Ret → Step
  | .ident n => .follow ⟨n, cfunc, cpkg⟩ (some (n, cpkg))
  | .other n t => .say ⟨n, cpkg, some t, q.func⟩

/-- analysis.go:582-664: the files of the package of the callee. -/
def scanCallee (q : Q) (cpkg cfunc : String) (idx : Nat) : List File → MCache → Option Step × MCache
  | [], mc => (none, mc)
  | f :: fs, mc =>
    match (f.funcs.find? (fun g => g.name == cfunc)).bind (fun g => g.returns[idx]?) with
    | some r => (some (retStep q cpkg cfunc r), mc)
    | none =>
      let found : Option Fn := match mc.lookup (cpkg, cfunc) with
        | some m => m
        | none => f.methods.find? (fun g => g.name == cfunc)
      let mc' : MCache := match mc.lookup (cpkg, cfunc) with
        | some _ => mc
        | none => ((cpkg, cfunc), f.methods.find? (fun g => g.name == cfunc)) :: mc
      match found.bind (fun g => g.returns[idx]?) with
      | some r => (some (retStep q cpkg cfunc r), mc')
      | none => scanCallee q cpkg cfunc idx fs mc'

/-- analysis.go:571-667: the last assignment to the variable. -/
def assignStep (pr : Prog) (q : Q) (a : Assign) (mc : MCache) : Step × MCache :=
  match a.copies with
  | some y =>
    if y ≠ q.var then (.follow ⟨y, q.func, q.pkg⟩ none, mc)
    else (.keep ⟨q.var, q.pkg, some a.value, q.func⟩, mc)
  | none =>
    match a.callee with
    | none => (.keep ⟨q.var, q.pkg, some a.value, q.func⟩, mc)
    | some (cpkg, cfunc) =>
      if cfunc ≠ "" ∧ cpkg ≠ "" then
        match scanCallee q cpkg cfunc a.idx (filesOf pr cpkg) mc with
        | (some s, mc') => (s, mc')
        | (none, mc') => (.keep ⟨q.var, q.pkg, some a.value, q.func⟩, mc')
      else (.keep ⟨q.var, q.pkg, some a.value, q.func⟩, mc)

/-- analysis.go:560-683: the files of the package, and the answer if none says anything. -/
def scanFiles (pr : Prog) (q : Q) : List File → MCache → Step × MCache
  | [], mc => (.keep ⟨q.var, q.pkg, none, q.func⟩, mc)
  | f :: fs, mc =>
    match f.vars.lookup q.var with
    | some t => (.keep ⟨q.var, q.pkg, some t, q.func⟩, mc)
    | none =>
      match (f.funcs.find? (fun g => g.name == q.func)).bind (fun g => g.assigns.lookup q.var) with
      | some a => assignStep pr q a mc
      | none => scanFiles pr q fs mc

/-- analysis.go:505-558: the first call of the function. -/
def edgeStep (pr : Prog) (q : Q) : Option Step :=
  match pr.edges.find? (fun e => e.calleeName == q.func && e.calleePkg == q.pkg) with
  | none => none
  | some e =>
    match e.typeParams.lookup q.var with
    | some t =>
      if t ≠ "" then some (.keep ⟨q.var, q.pkg, some t, e.callerName⟩)
      else (e.params.lookup q.var).map fun n => .follow ⟨n, e.callerName, e.callerPkg⟩ none
    | none => (e.params.lookup q.var).map fun n => .follow ⟨n, e.callerName, e.callerPkg⟩ none

def nextStep (pr : Prog) (q : Q) (mc : MCache) : Step × MCache :=
  match edgeStep pr q with
  | some s => (s, mc)
  | none => scanFiles pr q (filesOf pr q.pkg) mc

structure St where
  answers : List (Q × Ans)
  methods : MCache

/-- The name and package of an answer found further on, analysis.go:600-601. -/
def rename (named : Option (String × String)) (a : Ans) : Ans :=
  match named with
  | some (n, p) => { a with var := n, pkg := p }
  | none => a

/-- analysis.go:450-683 -/
def trace (pr : Prog) : Nat → St → List Q → Q → Option Ans × St
  | 0, st, _, _ => (none, st)
  | n + 1, st, visited, q =>
    if q.var = "" then (some ⟨q.var, q.pkg, none, q.func⟩, st)
    else if q ∈ visited then (some ⟨q.var, q.pkg, none, q.func⟩, st)
    else match st.answers.lookup q with
      | some a => (some a, st)
      | none =>
        match nextStep pr q st.methods with
        | (.keep a, mc) => (some a, ⟨(q, a) :: st.answers, mc⟩)
        | (.say a, mc) => (some a, ⟨st.answers, mc⟩)
        | (.follow q' named, mc) =>
          let r := trace pr n ⟨st.answers, mc⟩ (q :: visited) q'
          (r.1.map (rename named), r.2)

/-- A whole text of questions, one after the other, each with its own bound. -/
def askAll (pr : Prog) : List (Nat × Q) → St → St
  | [], st => st
  | (n, q) :: qs, st => askAll pr qs (trace pr n st [] q).2

/-- The metadata before the first question. -/
def fresh : St := ⟨[], []⟩

end Verif.Origin
