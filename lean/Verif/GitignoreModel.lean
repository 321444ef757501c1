import Verif.RegexModel
/-!
# Model: ignore patterns (pkg/patterns/gitignore.go)

Strings are lists of characters (the Go code works on bytes; every character it tests for is
ASCII and multi-byte characters are copied unchanged).
-/

namespace Verif.GitignoreModel
open Verif.RegexModel

/-- The regex fragments written at gitignore.go:92, 103, 112-116, 120/125, 130, 135, 173. -/
def fAnyDir : Str := ['(', '?', ':', '.', '*', '/', ')', '?']
def fDeepDir : Str := ['(', '?', ':', '.', '*', '?', '/', ')', '?']
def fBelow : Str := ['(', '?', ':', '/', '.', '*', ')', '?']
def fAll : Str := ['.', '*']
def fStar : Str := ['[', '^', '/', ']', '*']
def fAny : Str := ['[', '^', '/', ']']
def fDirOr : Str := ['(', '?', ':', '|', '/', '.', '*', ')']

/-- gitignore.go:159. -/
def specials : Str := ['.', '^', '$', '(', ')', '{', '}', '+', '|', '\\']

/-- The text before the first `x`. -/
def upTo (x : Char) : Str → Option Str
  | [] => none
  | c :: s => if c = x then some [] else (upTo x s).map (c :: ·)

/-- gitignore.go:147: `strings.ReplaceAll(charClass, "\\", "\\\\")`. -/
def escBack : Str → Str
  | [] => []
  | c :: s => if c = '\\' then '\\' :: '\\' :: escBack s else c :: escBack s

/-- gitignore.go:105-122: `**` at the end of the pattern. -/
def endDeep (prev : Option Char) (res : Str) : Str :=
  if prev = some '/' then (if res.getLast? = some '/' then res.dropLast ++ fBelow else res ++ fBelow)
  else res ++ fAll

/-- gitignore.go:95-169, the loop over the pattern.  The first argument counts the characters the
index has still to jump over (`i += 2`, `i += 3`, `i = j + 1`), `prev` is `pattern[i-1]`. -/
def emitGo : Nat → Option Char → Str → Str → Str
  | _, _, res, [] => res
  | k + 1, _, res, c :: t => emitGo k (some c) res t
  | 0, prev, res, c :: t =>
    if c = '*' then
      if t.head? = some '*' then
        if t.tail.head? = some '/' then emitGo 2 (some c) (res ++ fDeepDir) t
        else if t.tail = [] then emitGo 1 (some c) (endDeep prev res) t
        else emitGo 1 (some c) (res ++ fAll) t
      else emitGo 0 (some c) (res ++ fStar) t
    else if c = '?' then emitGo 0 (some c) (res ++ fAny) t
    else if c = '[' then
      match upTo ']' t with
      | some inner => emitGo (inner.length + 1) (some c) (res ++ '[' :: (escBack inner ++ [']'])) t
      | none => emitGo 0 (some c) (res ++ ['\\', '[']) t
    else if c = '/' then emitGo 0 (some c) (res ++ ['/']) t
    else if c ∈ specials then emitGo 0 (some c) (res ++ ['\\', c]) t
    else emitGo 0 (some c) (res ++ [c]) t

/-- `strings.TrimPrefix(s, "/")`. -/
def trimSlash : Str → Str
  | [] => []
  | c :: s => if c = '/' then s else c :: s

/-- gitignore.go:84-93: what the expression starts with. -/
def opening (pattern : Str) : Str :=
  if '/' ∉ trimSlash pattern ∧ pattern.head? ≠ some '/' then '^' :: fAnyDir else ['^']

/-- gitignore.go:75-178. -/
def patternToRegex (pattern : Str) : Str :=
  if pattern.getLast? = some '/' then
    emitGo 0 none (opening pattern.dropLast) pattern.dropLast ++ (fDirOr ++ ['$'])
  else emitGo 0 none (opening pattern) pattern ++ ['$']

/-- gitignore.go:57-64: compile and match, with literal comparison when the expression is
rejected. -/
def matchBody (posix : Str → Option ((Char → Bool) × Str)) (pattern path : Str) : Bool :=
  match compile posix (patternToRegex pattern) with
  | some r => accepts r path
  | none => decide (pattern = path)

/-- gitignore.go:39-72 (`Match`, 34-36, only forwards). -/
def Match (posix : Str → Option ((Char → Bool) × Str)) (pattern path : Str) : Bool :=
  if pattern.head? = some '!' then
    if pattern.tail = [] then false else !matchBody posix (trimSlash pattern.tail) (trimSlash path)
  else if pattern = [] then false else matchBody posix (trimSlash pattern) (trimSlash path)

/-- gitignore.go:182-189. -/
def MatchAny (posix : Str → Option ((Char → Bool) × Str)) (patterns : List Str) (path : Str) : Bool :=
  patterns.any fun p => Match posix p path

/-- gitignore.go:194-214. -/
def Filter (posix : Str → Option ((Char → Bool) × Str)) (paths inc exc : List Str) : List Str :=
  paths.filter fun path => (inc.isEmpty || MatchAny posix inc path) && !MatchAny posix exc path

end Verif.GitignoreModel
