/-!
# Where a decoder reads from and an encoder writes to

`json.NewDecoder(x).Decode(&v)` decodes the body of the request only if `x` is that body, and
`json.NewEncoder(x).Encode(v)` writes the response only if `x` is the response writer.  The code decides
both by following `x` back through the assignments of the function:
internal/spec/body_source.go (`bodySourceResolver`), internal/spec/response_dest.go
(`responseDestResolver`), the lookup of assignments they share (internal/spec/extractor.go:1969-2070)
and the step from a helper's parameter to the argument of its call (extractor.go:2709-2780).
-/

namespace Verif.Provenance

/-- The operators that are skipped: `&x`, `<-x`, … (`KindUnary`), `*x` (`KindStar`), `(x)` (`KindParen`). -/
inductive Wrap
  | unary | star | paren
  deriving DecidableEq, Repr

/-- internal/metadata/types.go, `CallArgument`, as `ExprToCallArgument` (internal/metadata/expression.go:34-482)
builds it.  `id` is what `ID()` (types.go:1208-1228) answers for the node; `ty` and `rty` are `GetType()` and
`GetResolvedType()`.  `nil` is the nil pointer.  A keyed element `k: v` has its key in `X` and its value in
`Fun` (expression.go:437-447).  All other kinds (literals, conversions, type assertions, index expressions,
…) are `other`; nothing below looks into them. -/
inductive Arg
  | nil
  | ident (id name ty rty : String)
  | sel (id : String) (x : Arg) (name ty rty : String)
  | call (id : String) (fn : Arg) (args : List Arg) (ty rty : String)
  | wrap (w : Wrap) (x : Arg)
  | lit (id : String) (typ : Arg) (elts : List Arg) (ty rty : String)
  | kv (id : String) (key value : Arg)
  | other (id ty rty : String)
  deriving Inhabited, Repr

/-- types.go:1208-1228.  (For `nil` and for the operators, which are skipped before `ID` is asked, any
string will do.) -/
def Arg.id : Arg → String
  | .nil => ""
  | .ident i .. => i
  | .sel i .. => i
  | .call i .. => i
  | .wrap .. => ""
  | .lit i .. => i
  | .kv i .. => i
  | .other i .. => i

/-- types.go, `Assignment`: the right-hand side and the concrete type recorded for it. -/
structure Asg where
  value : Arg
  concrete : String := ""
  deriving Inhabited, Repr

/-- An `AssignmentMap`: the assignments of each variable, in source order. -/
abbrev AMap := List (String × List Asg)

/-- `am[x]`; a missing key is the empty slice. -/
def AMap.get (am : AMap) (x : String) : List Asg := ((am.find? (·.1 = x)).map (·.2)).getD []

/-- metadata.go:301-310 and 1140-1160: `assignmentsInFunc[varName] = append(assignmentsInFunc[varName], assign)`
for one assignment. -/
def addAsg : AMap → String → Asg → AMap
  | [], x, a => [(x, [a])]
  | (y, l) :: m, x, a => if y = x then (y, l ++ [a]) :: m else (y, l) :: addAsg m x a

/-- metadata.go:301-310 and 1140-1188: all assignments of a body, in source order. -/
def collect (body : List (String × Asg)) : AMap := body.foldl (fun m s => addAsg m s.1 s.2) []

/-- A declared function (`File.Functions`) or method (`Type.Methods`; `recv ≠ ""`). -/
structure Fn where
  pkg : String
  recv : String := ""
  name : String
  amap : AMap := []
  deriving Inhabited, Repr

/-- The declarations, functions and methods apart, each in the sorted order the lookups use. -/
structure Meta where
  funcs : List Fn
  meths : List Fn
  deriving Inhabited, Repr

/-- extractor.go:1969-1984 (`FunctionInPackage`, then `FunctionAnywhere`; types.go:537-640). -/
def findFunctionByName (m : Meta) (pkg name : String) : Option Fn :=
  if name = "" then none else
  match m.funcs.find? (fun f => decide (f.pkg = pkg) && decide (f.name = name)) with
  | some f => some f
  | none => m.funcs.find? (fun f => decide (f.name = name))

/-- body_source.go:338-350. -/
def findFunction (m : Meta) (pkg name : String) : Option Fn :=
  m.funcs.find? (fun f => decide (f.pkg = pkg) && decide (f.name = name))

/-- extractor.go:2047-2070: the first method of that name and receiver whose map has the variable. -/
def methodAssignmentMap (m : Meta) (pkg recv name x : String) : AMap :=
  if name = "" then [] else
  ((m.meths.find? fun f => decide (f.pkg = pkg) && decide (f.name = name) &&
      (decide (recv = "") || decide (f.recv = recv)) && !(f.amap.get x).isEmpty).map (·.amap)).getD []

/-- The function a closure is written in (`CallGraphEdge.ParentFunction`). -/
structure Parent where
  pkg : String
  recv : String := ""
  name : String
  deriving Inhabited, Repr

/-- types.go:1480-1510, the part of a call graph edge that is read here.  `amap` holds the assignments of
the *callee's* body (metadata.go:1683-1718, 1765); `chainArgs` are the arguments of the call this one is
chained onto (`ChainParent`). -/
structure Edge where
  callerPkg : String
  callerName : String
  parent : Option Parent := none
  amap : AMap := []
  varName : String := ""
  chainArgs : Option (List Arg) := none
  args : List Arg := []
  deriving Inhabited, Repr

/-- extractor.go:1995-2011: the map of the calling function, of the function the closure is written in, or
of the method it is written in, whichever first has the variable. -/
def callerAssignmentMap (m : Meta) (e : Edge) (x : String) : AMap :=
  match (findFunctionByName m e.callerPkg e.callerName).filter (fun f => !(f.amap.get x).isEmpty) with
  | some f => f.amap
  | none =>
    match e.parent with
    | none => []
    | some p =>
      match (findFunctionByName m p.pkg p.name).filter (fun f => !(f.amap.get x).isEmpty) with
      | some f => f.amap
      | none => methodAssignmentMap m p.pkg p.recv p.name x

/-- extractor.go:2025-2038. -/
def assignmentsAt (m : Meta) (e : Edge) (x : String) : List Asg :=
  if x = "" then []
  else if !(e.amap.get x).isEmpty then e.amap.get x
  else (callerAssignmentMap m e x).get x

/-- extractor.go:2045-2052: the last recorded assignment. -/
def latestAssignment (m : Meta) (e : Edge) (x : String) : Option Arg :=
  (assignmentsAt m e x).getLast?.map (·.value)

/-- What both resolvers read: the declarations, the edge, and `TraceVariableOrigin` for the variables of the
edge's caller (internal/metadata/analysis.go:440-…), which answers with the type and the resolved type of
the origin.  It is a parameter of the model. -/
structure World where
  decls : Meta
  edge : Edge
  origin : String → Option (String × String)

/-- The assignment a variable is followed through. -/
def World.latest (W : World) (x : String) : Option Arg := latestAssignment W.decls W.edge x

/-- body_source.go:192-228 and response_dest.go:262-295, the part the two have in common: the type on the
node, else the last concrete type recorded in the edge's map.  -/
def knownType (W : World) (name ty rty : String) : String :=
  if rty ≠ "" then rty
  else if ty ≠ "" then ty
  else (((W.edge.amap.get name).reverse.find? (fun a => decide (a.concrete ≠ ""))).map (·.concrete)).getD ""

/-! ## The source of a decoder -/

/-- body_source.go:93-95: `&x` and `*x` are followed like `x`. -/
def stripBody : Arg → Arg
  | .wrap .unary x => stripBody x
  | .wrap .star x => stripBody x
  | a => a

/-- body_source.go:80-83. -/
structure Seg where
  name : String
  isCall : Bool
  deriving DecidableEq, Repr

/-- body_source.go:240-278: the identifier a chain of selectors and method calls starts at and the segments
of the chain, root first.  The Go code collects them leaf first and reverses. -/
def peel : Arg → Option ((String × String × String) × List Seg)
  | .ident _ name ty rty => some ((name, ty, rty), [])
  | .sel _ x n _ _ => (peel x).map fun r => (r.1, r.2 ++ [⟨n, false⟩])
  | .call _ (.sel _ x n _ _) _ _ _ => (peel x).map fun r => (r.1, r.2 ++ [⟨n, true⟩])
  | _ => none

/-- body_source.go:282-294, one segment. -/
def segString (s : Seg) : String := s.name ++ (if s.isCall then "()" else "")

/-- body_source.go:282-294. -/
def accessorString : List Seg → String
  | [] => ""
  | [s] => segString s
  | s :: t => segString s ++ "." ++ accessorString t

/-- What is configured for the request (config.go:200-221): the types that are a request context and the
accessors that read its body, as arbitrary predicates on strings (regular expressions). -/
structure ReqCfg where
  types : String → Bool
  accessor : String → Bool

/-- body_source.go:192-228. -/
def identTypeBody (W : World) (name ty rty : String) : String :=
  if knownType W name ty rty ≠ "" then knownType W name ty rty
  else ((W.origin name).map (·.1)).getD ""

/-- body_source.go:121-133. -/
def chainMatches (W : World) (c : ReqCfg) (r : (String × String × String) × List Seg) : Bool :=
  !r.2.isEmpty && decide (identTypeBody W r.1.1 r.1.2.1 r.1.2.2 ≠ "") &&
    c.types (identTypeBody W r.1.1 r.1.2.1 r.1.2.2) && c.accessor (accessorString r.2)

/-- body_source.go:85-187, `check` and `checkIdent`.  `vis` are the nodes visited; `none` is running out of
steps.  Of `checkIdent` only the step through the last assignment can answer true: what
`TraceVariableOrigin` finds for a parameter is looked at, but every branch answers false (166-184). -/
def check (W : World) (c : ReqCfg) : Nat → List String → Arg → Option (Bool × List String)
  | 0, _, _ => none
  | n + 1, vis, a =>
    match stripBody a with
    | .nil => some (false, vis)
    | .wrap w x => some (false, (Arg.wrap w x).id :: vis)
    | .ident i name _ _ =>
      if i ∈ vis then some (false, vis)
      else match W.latest name with
        | some rhs => check W c n (i :: vis) rhs
        | none => some (false, i :: vis)
    | b =>
      if b.id ∈ vis then some (false, vis)
      else match peel b with
        | none => some (false, b.id :: vis)
        | some r =>
          if chainMatches W c r then some (true, b.id :: vis)
          else match W.latest r.1.1 with
            | some rhs => check W c n (b.id :: vis) rhs
            | none => some (false, b.id :: vis)

/-- body_source.go:68-74, with the request configured.  `n` is the number of steps allowed. -/
def isRequestSource (W : World) (c : ReqCfg) (n : Nat) (a : Arg) : Option Bool :=
  (check W c n [] a).map (·.1)

/-- body_source.go:303-336: what a decoder or encoder that is a receiver was made from.  The first argument
of the call in the same chain, or of the call last assigned to the receiver's variable. -/
def resolveReceiverSource (m : Meta) (e : Edge) : Option Arg :=
  match e.chainArgs with
  | some (a :: _) => some a
  | _ =>
    if e.varName = "" then none
    else match findFunction m e.callerPkg e.callerName with
      | none => none
      | some f =>
        match (f.amap.get e.varName).getLast? with
        | some ⟨.call _ _ (a :: _) _ _, _⟩ => some a
        | _ => none

/-! ## The destination of an encoder -/

/-- response_dest.go:123-125, 236-238. -/
def stripAll : Arg → Arg
  | .wrap _ x => stripAll x
  | a => a

/-- config.go:140-170: the types that are a response writer and the interfaces a writer satisfies. -/
structure RespCfg where
  writer : String → Bool
  compat : String → Bool

/-- response_dest.go:262-295. -/
def identTypeDest (W : World) (name ty rty : String) : String :=
  if knownType W name ty rty ≠ "" then knownType W name ty rty
  else match W.origin name with
    | none => ""
    | some o => if o.2 ≠ "" then o.2 else o.1

/-- response_dest.go:195-221: an identifier without an assignment. -/
def paramIsWriter (W : World) (c : RespCfg) (name ty rty : String) : Bool :=
  c.writer (identTypeDest W name ty rty) ||
    (decide (name ≠ W.edge.callerName) &&
      match W.origin name with
      | none => false
      | some o => (decide (o.2 ≠ "") && c.writer o.2) || c.writer o.1)

/-- The loops `for _, el := range arg.Args { if r.reachesWriter(el, …) { return true } }`. -/
def anyReach (f : List String → Arg → Option (Bool × List String)) :
    List String → List Arg → Option (Bool × List String)
  | vis, [] => some (false, vis)
  | vis, a :: as =>
    match f vis a with
    | none => none
    | some (true, v) => some (true, v)
    | some (false, v) => anyReach f v as

/-- response_dest.go:116-223, `reachesWriter` and `reachesWriterIdent`.  Of a keyed element only `X`, the
key, is looked at (149-157: `Args`, `X` and `Sel`; the value is in `Fun`). -/
def reachesWriter (W : World) (c : RespCfg) : Nat → List String → Arg → Option (Bool × List String)
  | 0, _, _ => none
  | n + 1, vis, a =>
    match stripAll a with
    | .nil => some (false, vis)
    | .ident i name ty rty =>
      if i ∈ vis then some (false, vis)
      else if name = "" then some (false, i :: vis)
      else match W.latest name with
        | some rhs => reachesWriter W c n (i :: vis) rhs
        | none => some (paramIsWriter W c name ty rty, i :: vis)
    | .lit i typ elts _ _ =>
      if i ∈ vis then some (false, vis)
      else anyReach (reachesWriter W c n) (i :: vis) (elts ++ [typ])
    | .kv i key _ =>
      if i ∈ vis then some (false, vis)
      else anyReach (reachesWriter W c n) (i :: vis) [key]
    | .call i _ args _ _ =>
      if i ∈ vis then some (false, vis)
      else anyReach (reachesWriter W c n) (i :: vis) args
    | b => if b.id ∈ vis then some (false, vis) else some (false, b.id :: vis)

/-- response_dest.go:245-256: the type on a selector, call or literal, else what `GetArgumentInfo` renders. -/
def nodeType (info : Arg → String) (b : Arg) (ty rty : String) : String :=
  if rty ≠ "" then rty else if ty ≠ "" then ty else info b

/-- response_dest.go:233-260. -/
def leafType (W : World) (info : Arg → String) : Nat → List String → Arg → Option String
  | 0, _, _ => none
  | n + 1, vis, a =>
    match stripAll a with
    | .ident i name ty rty =>
      if i ∈ vis then some (identTypeDest W name ty rty)
      else match W.latest name with
        | none => some (identTypeDest W name ty rty)
        | some rhs =>
          match leafType W info n (i :: vis) rhs with
          | none => none
          | some t => if t ≠ "" then some t else some (identTypeDest W name ty rty)
    | .sel i x nm ty rty => some (nodeType info (.sel i x nm ty rty) ty rty)
    | .call i f as ty rty => some (nodeType info (.call i f as ty rty) ty rty)
    | .lit i t es ty rty => some (nodeType info (.lit i t es ty rty) ty rty)
    | _ => some ""

/-- response_dest.go:72-85, with the writer types configured. -/
def shouldDrop (W : World) (c : RespCfg) (info : Arg → String) (n : Nat) (a : Arg) : Option Bool :=
  match reachesWriter W c n [] a with
  | none => none
  | some (true, _) => some false
  | some (false, _) => (leafType W info n [] a).map fun t => !(decide (t = "") || c.compat t)

/-- response_dest.go:94-112, with the writer types configured: the loop over the arguments. -/
def anyArgReachesWriter (W : World) (c : RespCfg) (info : Arg → String) (n : Nat) : List Arg → Option Bool
  | [] => some false
  | .nil :: as => anyArgReachesWriter W c info n as
  | a :: as =>
    match reachesWriter W c n [] a with
    | none => none
    | some (true, _) => some true
    | some (false, _) =>
      match leafType W info n [] a with
      | none => none
      | some t => if t = "" ∨ c.compat t = true then some true else anyArgReachesWriter W c info n as

/-! ## From a helper's parameter to the argument of its call -/

/-- A node of the tracker tree on the way up: `callee` is the base id of the function its edge calls,
`caller` that of the function the call is written in, `params` its `ParamArgMap`. -/
structure Frame where
  caller : String
  callee : String
  params : List (String × Arg)
  deriving Inhabited, Repr

/-- `pe.ParamArgMap[name]`. -/
def Frame.param (f : Frame) (x : String) : Option Arg := (f.params.find? (·.1 = x)).map (·.2)

/-- extractor.go:2736-2749: the nearest ancestor that calls `enclosing` answers.  The result is the
argument with the rest of the way up, starting at the answering node. -/
def nearestCall (enclosing x : String) : List Frame → Option (Arg × List Frame)
  | [] => none
  | f :: up =>
    if f.callee ≠ enclosing then nearestCall enclosing x up
    else (f.param x).map fun a => (a, f :: up)

/-- extractor.go:2709-2750.  `here` is the node, `up` its ancestors, nearest first. -/
def argViaParent (here : Frame) (up : List Frame) : Arg → Option (Arg × List Frame)
  | .ident _ x _ _ =>
    match up with
    | [] => none
    | p :: rest =>
      match p.param x with
      | some a => some (a, p :: rest)
      | none => if here.caller = "" then none else nearestCall here.caller x (p :: rest)
  | _ => none

/-- extractor.go:2760-2780, with the number of hops left. -/
def resolveHops : Nat → Frame → List Frame → Arg → Arg × Frame
  | 0, here, _, a => (a, here)
  | n + 1, here, up, a =>
    match argViaParent here up a with
    | none => (a, here)
    | some (b, []) => (b, here)
    | some (b, f :: rest) => resolveHops n f rest b

/-- extractor.go:2760-2780: at most 8 hops. -/
def resolveArgThroughParams (here : Frame) (up : List Frame) (a : Arg) : Arg × Frame :=
  resolveHops 8 here up a

end Verif.Provenance
