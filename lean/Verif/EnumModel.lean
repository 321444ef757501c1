import Verif.Common
import Verif.Assoc

/-!
# Model: enums from constants

internal/metadata/metadata.go:1210-1271 (processVariables), internal/spec/mapper.go:2500-2618
(detectEnumFromConstants), 2625-2634 (sortedVariables), 2647-2692 (extractEnumValues), 2695-2726
(extractConstantValue), 2729-2778 (typeMatches), 3455-3468 (isInSameGroupAsTypedConstant), 1640-1651
(the call for declared types).  What the type checker knows of a constant (its type, underlying type and
value) is data of the source.  `resolveUnderlyingType` and the splitting of a type text into package and
name are parameters, as are the escapes of strconv.Quote and strconv.ParseFloat.
-/

namespace Verif.EnumModel
open Verif.Common

abbrev Str := List Char

/-! ## Source -/

/-- A constant's value (go/constant): a string, an integer, or anything else by its `String()`. -/
inductive Const
  | str (s : Str)
  | int (n : Int)
  | other (text : Str)
  deriving DecidableEq, Repr

/-- A name in a declaration, with what the type checker says of it. -/
structure CName where
  name : String
  goType : Str
  underlying : Str
  value : Const

/-- ast.ValueSpec: the declared type, if any, and the names. -/
structure CSpec where
  type : Option Str
  names : List CName

/-- ast.GenDecl of constants or variables. -/
structure Decl where
  isConst : Bool
  specs : List CSpec

/-! ## Recorded metadata -/

/-- types.go `Variable`, as far as enums read it.  An absent declared type is the empty text. -/
structure Variable where
  name : String
  isConst : Bool
  type : Str
  resolved : Str
  value : Const
  group : Nat

abbrev Vars := List (String × Variable)
abbrev Pkg := List (String × Vars)
abbrev Meta := List (String × Pkg)

/-- metadata.go:1236-1266: one name. -/
def record (isConst : Bool) (group : Nat) (type : Option Str) (vars : Vars) (n : CName) : Vars :=
  mset vars n.name ⟨n.name, isConst, type.getD [], n.underlying, n.value, group⟩

def recordSpec (isConst : Bool) (group : Nat) (vars : Vars) (s : CSpec) : Vars := s.names.foldl (record isConst group s.type) vars

/-- metadata.go:1213-1269: each constant declaration gets the next group index. -/
def processFrom : Nat → Vars → List Decl → Vars
  | _, vars, [] => vars
  | g, vars, d :: ds =>
    processFrom (if d.isConst then g + 1 else g) (d.specs.foldl (recordSpec d.isConst (if d.isConst then g + 1 else g)) vars) ds

def processVariables (ds : List Decl) : Vars := processFrom 0 [] ds

/-! ## Values -/

structure Env where
  /-- strconv.Quote of one character -/
  esc : Char → Str
  /-- strconv.ParseFloat, and the text `%v` gives for the number -/
  float : Str → Option Str
  /-- mapper.go:1659-1707 -/
  underlying : Str → Str
  /-- `typemodel.Parse(goType).Core()`: package and name, if the type names a package -/
  core : Str → Option (String × Str)

def decimal : Int → Str
  | .ofNat n => Nat.toDigits 10 n
  | .negSucc n => '-' :: Nat.toDigits 10 (n + 1)

/-- go/constant stringVal.String: quoted, and cut to 72 characters. -/
def quoted (env : Env) (s : Str) : Str :=
  if ('"' :: s.flatMap env.esc ++ ['"']).length > 72 then ('"' :: s.flatMap env.esc ++ ['"']).take 69 ++ ['.', '.', '.']
  else '"' :: s.flatMap env.esc ++ ['"']

def Const.text (env : Env) : Const → Str
  | .str s => quoted env s
  | .int n => decimal n
  | .other t => t

/-- A value as the document has it. -/
inductive Val
  | str (s : Str)
  | int (n : Int)
  | float (text : Str)
  | bool (b : Bool)
  deriving DecidableEq, Repr

/-- fmt's `%v`. -/
def Val.text : Val → String
  | .str s => String.ofList s
  | .int n => String.ofList (decimal n)
  | .float t => String.ofList t
  | .bool b => if b then "true" else "false"

def digits : Str → Option Nat
  | [] => none
  | c :: cs => if (c :: cs).all Char.isDigit then some ((c :: cs).foldl (fun n c => 10 * n + (c.toNat - 48)) 0) else none

def inRange (n : Int) : Option Int := if -9223372036854775808 ≤ n ∧ n ≤ 9223372036854775807 then some n else none

/-- strconv.ParseInt(s, 10, 64). -/
def parseInt : Str → Option Int
  | '-' :: cs => (digits cs).bind fun n => inRange (-(n : Int))
  | '+' :: cs => (digits cs).bind fun n => inRange n
  | cs => (digits cs).bind fun n => inRange n

/-- strconv.ParseBool (the values ParseInt does not take first). -/
def parseBool (s : Str) : Option Bool :=
  if ["t", "T", "TRUE", "true", "True"].contains (String.ofList s) then some true
  else if ["f", "F", "FALSE", "false", "False"].contains (String.ofList s) then some false
  else none

/-- mapper.go:2707-2720: numbers, booleans, or the text itself. -/
def unquotedValue (env : Env) (t : Str) : Val :=
  match parseInt t with
  | some n => .int n
  | none =>
    match env.float t with
    | some f => .float f
    | none =>
      match parseBool t with
      | some b => .bool b
      | none => .str t

/-- mapper.go:2695-2726. -/
def valueOfText (env : Env) (t : Str) : Val :=
  if t.length ≥ 2 ∧ t.head? = some '"' ∧ t.getLast? = some '"' then .str (t.drop 1).dropLast else unquotedValue env t

def extractConstantValue (env : Env) (c : Const) : Val := valueOfText env (c.text env)

/-- mapper.go:2680-2687: what follows a kept value. -/
def dedupFrom (last : Val) : List Val → List Val
  | [] => []
  | v :: vs => if last.text = v.text then dedupFrom last vs else v :: dedupFrom v vs

/-- mapper.go:2678-2690: neighbours with the same text collapse. -/
def dedupAdj : List Val → List Val
  | [] => []
  | v :: vs => v :: dedupFrom v vs

/-- mapper.go:2668-2673. -/
def valLe (a b : Val) : Bool := strLe a.text b.text

/-- mapper.go:2647-2692. -/
def extractEnumValues (env : Env) (cs : List Const) : List Val := dedupAdj (isort valLe (cs.map (extractConstantValue env)))

/-! ## Detection -/

/-- strings.Split(s, "."), its last part, and whether there are several. -/
def lastPart (s : Str) : Str := (s.reverse.takeWhile (· != '.')).reverse
def dotted (s : Str) : Bool := s.contains '.'

/-- mapper.go:2763-2777. -/
def qualifiedMatch (c t : Str) : Bool :=
  if dotted c && dotted t then decide (lastPart c = lastPart t)
  else if dotted c then decide (lastPart c = t)
  else if dotted t then decide (c = lastPart t)
  else false

/-- mapper.go:2729-2778. -/
def typeMatches (env : Env) (c t : Str) : Bool :=
  decide (c = t) || decide (c = '*' :: t) || decide (t = '*' :: c) || (decide (env.underlying c ≠ []) && decide (env.underlying c = t)) || qualifiedMatch c t

/-- mapper.go:3455-3468. -/
def inSameGroup (env : Env) (vars : Vars) (group : Nat) (t : Str) : Bool :=
  vars.any fun e => e.2.isConst && decide (e.2.group = group) && typeMatches env e.2.type t

/-- mapper.go:2627-2634. -/
def sortedVariables (vars : Vars) : List Variable := (sortStrings (vars.map Prod.fst)).filterMap (mget vars)

/-- mapper.go:2545-2546. -/
def sameGroupAsTyped (env : Env) (vars : Vars) (t : Str) (v : Variable) : Bool := decide (v.type = []) && inSameGroup env vars v.group t

/-- mapper.go:2538-2541. -/
def targetType (v : Variable) : Str := if v.type = [] then v.resolved else v.type

/-- A constant that was picked: the key of its type, its group, its value. -/
structure Picked where
  key : Str
  group : Nat
  value : Const

/-- mapper.go:2530-2578: one variable. -/
def pick (env : Env) (vars : Vars) (t : Str) (v : Variable) : Option Picked :=
  if v.isConst && (typeMatches env (targetType v) t || sameGroupAsTyped env vars t v) then
    some ⟨if sameGroupAsTyped env vars t v then t else targetType v, v.group, v.value⟩
  else none

def pickFile (env : Env) (t : Str) (vars : Vars) : List Picked := (sortedVariables vars).filterMap (pick env vars t)

/-- mapper.go:2523-2582: files in the order of their names. -/
def pickPkg (env : Env) (t : Str) (p : Pkg) : List Picked := (sortStrings (p.map Prod.fst)).flatMap fun f => ((mget p f).map (pickFile env t)).getD []

/-- The group indexes, sorted, each once. -/
def groupsOf (ps : List Picked) : List Nat := dedupNat (isort (fun a b => decide (a ≤ b)) (ps.map Picked.group))
where
  dedupNat : List Nat → List Nat
    | [] => []
    | a :: l => if dedupNat l |>.contains a then dedupNat l else a :: dedupNat l

/-- mapper.go:2584-2617: nothing if several types qualify; otherwise every group. -/
def collect (env : Env) (ps : List Picked) : List Val :=
  match ps with
  | [] => []
  | p :: _ =>
    if ps.all fun q => decide (q.key = p.key) then
      extractEnumValues env ((groupsOf ps).flatMap fun g => (ps.filter fun q => decide (q.group = g)).map Picked.value)
    else []

/-- mapper.go:2500-2618. -/
def detect (env : Env) (m : Meta) (goType : Str) (pkg : String) : List Val :=
  match env.core goType with
  | some (p, t) => ((mget m p).map fun p => collect env (pickPkg env t p)).getD []
  | none => ((mget m pkg).map fun p => collect env (pickPkg env goType p)).getD []

/-- mapper.go:1640-1651: the enum of the component of a declared type, whose recorded name is bare. -/
def aliasEnum (env : Env) (m : Meta) (name : Str) : List Val := detect env m name (((env.core name).map Prod.fst).getD "")

end Verif.EnumModel
