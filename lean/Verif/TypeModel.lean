import Verif.Common
/-!
# Model: type strings (internal/typemodel)

Strings are lists of characters.  The Go code indexes bytes, but every delimiter it looks for
is ASCII, so the positions it finds are character boundaries.  The `raw` field (typemodel.go:116,
the input a ref was parsed from) is not modelled.
-/

namespace Verif.TypeModel
open Verif.Common

abbrev Str := List Char

/-- typemodel.go:59-68. -/
inductive Dir
  | both | send | recv
  deriving DecidableEq, Repr

/-- typemodel.go:91-123 `TypeRef`, one constructor per `Kind` with the fields that kind uses
(table at 76-83). -/
inductive Ty
  | named (pkg name : Str) (args : List Ty) (con : Str)
  | ptr (elem : Ty)
  | slice (elem : Ty)
  | arr (len : Str) (elem : Ty)
  | map (key elem : Ty)
  | chan (dir : Dir) (elem : Ty)
  deriving Repr

/-- `unicode.IsSpace`, used by `strings.TrimSpace`. -/
def isSpace (c : Char) : Bool :=
  c == ' ' || c == '\t' || c == '\n' || c == '\x0b' || c == '\x0c' || c == '\r' || c == '\u0085' || c == '\u00a0' ||
  c == '\u1680' || (decide ('\u2000' ≤ c) && decide (c ≤ '\u200a')) || c == '\u2028' || c == '\u2029' || c == '\u202f' ||
  c == '\u205f' || c == '\u3000'

/-- `strings.TrimSpace`. -/
def trim (s : Str) : Str := ((s.dropWhile isSpace).reverse.dropWhile isSpace).reverse

/-- typemodel.go:37. -/
def sep : Str := ['-', '-', '>']

/-- `strings.HasPrefix` followed by slicing the prefix off. -/
def strip : Str → Str → Option Str
  | [], s => some s
  | _ :: _, [] => none
  | a :: p, c :: s => if a = c then strip p s else none

/-- typemodel.go:207-221 (`splitMapKey`, which starts at depth 1) and 189-203
(`matchingBracket`, which is called on a string starting with `[` and so is at depth 1 after
its first step): what precedes and what follows the bracket that closes. -/
def closeBracket : Nat → Str → Option (Str × Str)
  | _, [] => none
  | d, c :: s =>
    if c = '[' then (closeBracket (d + 1) s).map fun r => (c :: r.1, r.2)
    else if c = ']' then
      if d ≤ 1 then some ([], s) else (closeBracket (d - 1) s).map fun r => (c :: r.1, r.2)
    else (closeBracket d s).map fun r => (c :: r.1, r.2)

/-- typemodel.go:263-292; `cur` is the argument being collected. -/
def splitGo : Int → Str → Str → List Str
  | _, cur, [] => if trim cur = [] then [] else [trim cur]
  | d, cur, c :: s =>
    if c = '[' ∨ c = '(' then splitGo (d + 1) (cur ++ [c]) s
    else if c = ']' ∨ c = ')' then splitGo (d - 1) (cur ++ [c]) s
    else if c = ',' ∧ d = 0 then trim cur :: splitGo d [] s
    else splitGo d (cur ++ [c]) s

/-- typemodel.go:263. -/
def splitArgs (s : Str) : List Str := splitGo 0 [] s

/-- typemodel.go:324-334. -/
def identStart (c : Char) : Bool :=
  c == '_' || (decide ('a' ≤ c) && decide (c ≤ 'z')) || (decide ('A' ≤ c) && decide (c ≤ 'Z'))
def identRest (c : Char) : Bool := identStart c || (decide ('0' ≤ c) && decide (c ≤ '9'))
def isIdent : Str → Bool
  | [] => false
  | c :: s => identStart c && s.all identRest

/-- typemodel.go:314. -/
def notDecl : List Str :=
  [['c', 'h', 'a', 'n'], ['f', 'u', 'n', 'c'], ['s', 't', 'r', 'u', 'c', 't'], ['m', 'a', 'p'],
   ['i', 'n', 't', 'e', 'r', 'f', 'a', 'c', 'e']]

/-- `strings.IndexByte`/`strings.Cut` on one character. -/
def cutAt (x : Char) : Str → Option (Str × Str)
  | [] => none
  | c :: s => if c = x then some ([], s) else (cutAt x s).map fun r => (c :: r.1, r.2)

/-- typemodel.go:307-321. -/
def declArg (s : Str) : Option (Str × Str) :=
  match cutAt ' ' s with
  | none => none
  | some (head, rest) =>
    if head = [] then none
    else if head ∈ notDecl then none
    else if isIdent head = false then none
    else some (head, trim rest)

/-- `strings.Cut(s, Sep)`. -/
def cutSep : Str → Option (Str × Str)
  | [] => none
  | c :: s => match strip sep (c :: s) with
    | some r => some ([], r)
    | none => (cutSep s).map fun r => (c :: r.1, r.2)

/-- `strings.Split(s, Sep)`; each cut shortens the rest, so `s.length` cuts are enough. -/
def splitSep : Nat → Str → List Str
  | 0, s => [s]
  | n + 1, s => match cutSep s with
    | none => [s]
    | some (a, b) => a :: splitSep n b

/-- `strings.LastIndex(s, ".")` and the two sides. -/
def cutLastDot : Str → Option (Str × Str)
  | [] => none
  | c :: s => match cutLastDot s with
    | some r => some (c :: r.1, r.2)
    | none => if c = '.' then some ([], s) else none

/-- typemodel.go:229-234: the base and, when there is a bracketed list, the text inside it. -/
def cutArgs (s : Str) : Str × Option Str :=
  match cutAt '[' s with
  | none => (s, none)
  | some (base, rest) =>
    if base = [] then (s, none)
    else if s.getLast? = some ']' then (base, some rest.dropLast) else (s, none)

/-- typemodel.go:296-301, given the parser for the rest. -/
def parseArg (rec : Str → Ty) (a : Str) : Ty :=
  match declArg a with
  | some (name, con) => .named [] name [] con
  | none => rec a

/-- typemodel.go:235-255: the base split into qualifier and name. -/
def nameOf (rec : Str → Ty) (base : Str) (args : List Ty) : Ty :=
  match cutSep base with
  | some (pkg, rest) =>
    match splitSep rest.length rest with
    | [] => .named pkg [] args []
    | name :: segs => .named pkg name (if args = [] then segs.map (parseArg rec) else args) []
  | none =>
    match cutLastDot base with
    | some (pkg, name) => if pkg = [] then .named [] base args [] else .named pkg name args []
    | none => .named [] base args []

/-- typemodel.go:226-256. -/
def parseNamed (rec : Str → Ty) (s : Str) : Ty :=
  match cutArgs s with
  | (base, none) => nameOf rec base []
  | (base, some inner) => nameOf rec base ((splitArgs inner).map (parseArg rec))

def kMap : Str := ['m', 'a', 'p', '[']
def kSend : Str := ['c', 'h', 'a', 'n', '<', '-', ' ']
def kRecv : Str := ['<', '-', 'c', 'h', 'a', 'n', ' ']
def kChan : Str := ['c', 'h', 'a', 'n', ' ']

/-- typemodel.go:149-155: the map case, which falls out of the switch when the key never closes
or nothing follows it. -/
def parseMap (rec : Str → Ty) (s r : Str) : Ty :=
  match closeBracket 1 r with
  | none => parseNamed rec s
  | some (key, elem) => if elem = [] then parseNamed rec s else .map (rec key) (rec elem)

/-- typemodel.go:170-181: the array case. -/
def parseArr (rec : Str → Ty) (s r : Str) : Ty :=
  match closeBracket 1 r with
  | none => parseNamed rec s
  | some (len, elem) => if len = [] ∨ elem = [] then parseNamed rec s else .arr len (rec elem)

/-- typemodel.go:135-185, with the recursive call as a parameter. -/
def parseStep (rec : Str → Ty) (s : Str) : Ty :=
  if s = [] then .named [] [] [] []
  else match strip ['*'] s with
  | some r => .ptr (rec r)
  | none => match strip ['[', ']'] s with
  | some r => .slice (rec r)
  | none => match strip kMap s with
  | some r => parseMap rec s r
  | none => match strip kSend s with
  | some r => .chan .send (rec r)
  | none => match strip kRecv s with
  | some r => .chan .recv (rec r)
  | none => match strip kChan s with
  | some r => .chan .both (rec r)
  | none => match strip ['['] s with
  | some r => parseArr rec s r
  | none => parseNamed rec s

/-- typemodel.go:135 with an explicit bound on the depth of recursion; `C28_total` shows the
bound is never met by `parse`. -/
def parseF : Nat → Str → Ty
  | 0, _ => .named [] [] [] []
  | n + 1, s => parseStep (parseF n) s

/-- typemodel.go:135. -/
def parse (s : Str) : Ty := parseF (s.length + 1) s

/-- typemodel.go:131-133. -/
def Parse (s : Str) : Ty := parse (trim s)

/-- typemodel.go:336-342. -/
inductive Mode
  | dotted | internal | simple
  deriving DecidableEq, Repr

def emptyIface : List Str :=
  [['i', 'n', 't', 'e', 'r', 'f', 'a', 'c', 'e', '{', '}'], ['i', 'n', 't', 'e', 'r', 'f', 'a', 'c', 'e', ' ', '{', '}']]

/-- typemodel.go:381-384. -/
def shownName (m : Mode) (name : Str) : Str := if m = .simple ∧ name ∈ emptyIface then ['a', 'n', 'y'] else name

/-- typemodel.go:381-395. -/
def shownBase (m : Mode) (pkg name con : Str) : Str :=
  let n := if con = [] then shownName m name else shownName m name ++ ' ' :: con
  if pkg = [] then n
  else match m with
    | .simple => n
    | .internal => pkg ++ (sep ++ n)
    | .dotted => pkg ++ '.' :: n

/-- typemodel.go:401-408: the mode the arguments are rendered in. -/
def argMode : Mode → Mode
  | .dotted => .dotted
  | _ => .simple

/-- `strings.Join(args, ", ")`. -/
def joinComma : List Str → Str
  | [] => []
  | [a] => a
  | a :: b :: rest => a ++ (',' :: ' ' :: joinComma (b :: rest))

mutual
/-- typemodel.go:358-411. -/
def render (m : Mode) : Ty → Str
  | .ptr e => '*' :: render m e
  | .slice e => '[' :: ']' :: render m e
  | .arr n e => '[' :: (n ++ ']' :: render m e)
  | .map k e => kMap ++ (render m k ++ ']' :: render m e)
  | .chan .send e => kSend ++ render m e
  | .chan .recv e => kRecv ++ render m e
  | .chan .both e => kChan ++ render m e
  | .named pkg name args con =>
    if args = [] then shownBase m pkg name con
    else shownBase m pkg name con ++ '[' :: (joinComma (renderAll (argMode m) args) ++ [']'])
def renderAll (m : Mode) : List Ty → List Str
  | [] => []
  | t :: ts => render m t :: renderAll m ts
end

/-- typemodel.go:478-488. -/
def core : Ty → Ty
  | .ptr e => core e
  | .slice e => core e
  | .arr _ e => core e
  | .chan _ e => core e
  | t => t

/-- The `Pkg` field of a ref: empty unless it is a named type. -/
def pkgOf : Ty → Str
  | .named pkg _ _ _ => pkg
  | _ => []

/-- typemodel.go:437: the assignment to `core.Pkg`, seen from the outer ref. -/
def setCorePkg (p : Str) : Ty → Ty
  | .ptr e => .ptr (setCorePkg p e)
  | .slice e => .slice (setCorePkg p e)
  | .arr n e => .arr n (setCorePkg p e)
  | .chan d e => .chan d (setCorePkg p e)
  | .named _ name args con => .named p name args con
  | .map k e => .map k e

/-- typemodel.go:435-440: the package of the first qualified argument. -/
def borrowed : List Ty → Option Str
  | [] => none
  | a :: rest => if pkgOf (core a) = [] then borrowed rest else some (pkgOf (core a))

/-- typemodel.go:425-446. -/
def canonicalize (s : Str) : Str :=
  if '[' ∉ s ∨ s.getLast? ≠ some ']' then s
  else match core (Parse s) with
    | .named pkg _ args _ =>
      if args = [] then s
      else if pkg = [] then
        match borrowed args with
        | none => s
        | some p => render .internal (setCorePkg p (Parse s))
      else render .internal (Parse s)
    | _ => s

/-- typemodel.go:494-503. -/
def isGeneric (t : Ty) : Bool := match core t with | .named _ _ args _ => !args.isEmpty | _ => false
def qualified (t : Ty) : Bool := !(pkgOf (core t)).isEmpty

end Verif.TypeModel
