import Verif.Common
/-!
# Model: path joining, mounting, and conversion to OpenAPI templates

Strings are lists of characters.  (The Go code works on bytes; every byte it tests
for is ASCII, so working on code points gives the same result.)
-/

namespace Verif.Paths
open Verif.Common

abbrev Str := List Char

/-! ## Joining -/

/-- `strings.TrimLeft(s, "/")`. -/
def trimL (s : Str) : Str := s.dropWhile (· == '/')

/-- `strings.TrimRight(s, "/")`. -/
def trimR (s : Str) : Str := (s.reverse.dropWhile (· == '/')).reverse

/-- extractor.go:2181-2188 `joinPaths`. -/
def joinPaths (a b : Str) : Str :=
  let a := trimR a
  let b := trimL b
  if a = [] then '/' :: b else a ++ '/' :: b

/-! ## Mounting -/

/-- extractor.go:839-843, the path part of `handleMountNode`. -/
def mountStep (mountPath infoPath : Str) : Str :=
  if infoPath ≠ [] then
    if mountPath = [] ∨ ¬ (infoPath.isSuffixOf mountPath) then joinPaths mountPath infoPath
    else mountPath
  else mountPath

/-- The mount path a node sees below a chain of mount nodes: extractor.go:894-903 hands
`mountPath` to every child; extractor.go:331 starts with `""`. -/
def mountChain (prefixes : List Str) : Str := prefixes.foldl mountStep []

/-- extractor.go:912-914 in `handleRouteNode`. -/
def routeMount (mountPath routeMountPath : Str) : Str :=
  if mountPath ≠ [] then joinPaths mountPath routeMountPath else routeMountPath

/-- mapper.go:386 `rawPath`. -/
def rawPath (mountPath path : Str) : Str := joinPaths mountPath path

/-- The raw path documented for a route registered with path `path` (and mount path
`own`, empty for most frameworks) below the given chain of mounts. -/
def documentedRaw (prefixes : List Str) (own path : Str) : Str :=
  rawPath (routeMount (mountChain prefixes) own) path

/-! ## Conversion -/

/-- `[a-zA-Z_]` -/
def isIdStart (c : Char) : Bool := c.isAlpha || c == '_'
/-- `[a-zA-Z0-9_]` -/
def isIdChar (c : Char) : Bool := c.isAlphanum || c == '_'

/-- mapper.go:963-976: having read an opening brace, find the matching closing one.
Returns the text between and the text after. `none` is "unbalanced". -/
def closeBrace : Nat → Str → Option (Str × Str)
  | _, [] => none
  | d, c :: cs =>
    if c = '{' then (closeBrace (d + 1) cs).map fun (i, r) => (c :: i, r)
    else if c = '}' then
      if d = 1 then some ([], cs) else (closeBrace (d - 1) cs).map fun (i, r) => (c :: i, r)
    else (closeBrace d cs).map fun (i, r) => (c :: i, r)

/-- mapper.go:977-980: the part before the first ':'. -/
def nameOfInner (inner : Str) : Str := inner.takeWhile (· ≠ ':')

/-- mapper.go:942-944: the part after the first ':' (empty if there is none). -/
def patternOfInner (inner : Str) : Str := (inner.dropWhile (· ≠ ':')).drop 1

/-- mapper.go:958-985, the loop of `stripParamPatterns`.  `fuel` is the number of
characters left; every iteration consumes at least one. -/
def stripLoop : Nat → Str → Str
  | 0, s => s
  | _ + 1, [] => []
  | fuel + 1, c :: cs =>
    if c ≠ '{' then c :: stripLoop fuel cs
    else match closeBrace 1 cs with
      | none => c :: cs
      | some (inner, rest) => '{' :: nameOfInner inner ++ '}' :: stripLoop fuel rest

/-- mapper.go:952-987 `stripParamPatterns`. -/
def stripParamPatterns (path : Str) : Str :=
  if '{' ∉ path then path else stripLoop path.length path

/-- State of the scan for `:([a-zA-Z_][a-zA-Z0-9_]*)`: outside a match, just after a ':',
inside a name. -/
inductive ColonState | out | colon | name
  deriving DecidableEq, Repr

/-- mapper.go:910-913: `ReplaceAllString(path, "{$1}")` for the regular expression
`:([a-zA-Z_][a-zA-Z0-9_]*)`, as the automaton of its leftmost, greedy matches. -/
def colonScan : ColonState → Str → Str
  | .out, [] => []
  | .colon, [] => [':']
  | .name, [] => ['}']
  | .out, c :: cs => if c = ':' then colonScan .colon cs else c :: colonScan .out cs
  | .colon, c :: cs =>
    if isIdStart c then '{' :: c :: colonScan .name cs
    else if c = ':' then ':' :: colonScan .colon cs
    else ':' :: c :: colonScan .out cs
  | .name, c :: cs =>
    if isIdChar c then c :: colonScan .name cs
    else if c = ':' then '}' :: colonScan .colon cs
    else '}' :: c :: colonScan .out cs

/-- mapper.go:901-916 `convertPathToOpenAPI`. -/
def convertPath (path : Str) : Str := colonScan .out (stripParamPatterns path)

/-- mapper.go:923-948 `forEachPathParam`: the (name, pattern) pairs passed to `fn`. -/
def pathParamsLoop : Nat → Str → List (Str × Str)
  | 0, _ => []
  | _ + 1, [] => []
  | fuel + 1, c :: cs =>
    if c ≠ '{' then pathParamsLoop fuel cs
    else match closeBrace 1 cs with
      | none => []
      | some (inner, rest) => (nameOfInner inner, patternOfInner inner) :: pathParamsLoop fuel rest

def pathParams (path : Str) : List (Str × Str) := pathParamsLoop path.length path

/-- extractor.go:2170-2178 `pathPlaceholders`. -/
def pathPlaceholders (path : Str) : List Str :=
  ((pathParams path).map Prod.fst).filter (fun n => decide (n ≠ []))

/-- mapper.go:991-1003 `pathParamPatterns`, as a lookup: a later entry for a name
overwrites an earlier one. -/
def patternFor (path : Str) (name : Str) : Option Str :=
  (((pathParams path).filter (fun x => decide (x.1 ≠ [] ∧ x.2 ≠ []))).reverse.find? (fun x => x.1 == name)).map Prod.snd

/-! ## ServeMux patterns -/

/-- pattern_matchers.go:392-400 `isHTTPMethod`. -/
def isHTTPMethod (s : Str) : Bool :=
  decide (s ∈ ["GET", "POST", "PUT", "DELETE", "PATCH", "OPTIONS", "HEAD", "CONNECT", "TRACE"].map String.toList)

/-- `strings.TrimSpace`, for the ASCII white space that can occur here. -/
def isSpace (c : Char) : Bool := c == ' ' || c == '\t' || c == '\n' || c == '\r' || c == '\x0b' || c == '\x0c'
def trimSpace (s : Str) : Str := ((s.dropWhile isSpace).reverse.dropWhile isSpace).reverse

def isQuote (c : Char) : Bool := c == '"' || c == '\''
/-- `strings.Trim(raw, "\"'")`. -/
def trimQuotes (s : Str) : Str := ((s.dropWhile isQuote).reverse.dropWhile isQuote).reverse

/-- pattern_matchers.go:369-380 `splitMethodFromPath`. -/
def splitMethodFromPath (raw : Str) : Str × Str :=
  let raw := trimQuotes raw
  let before := raw.takeWhile (· ≠ ' ')
  -- IndexByte ≤ 0: no space, or it is the first character
  if before.length = raw.length ∨ before = [] then ([], raw)
  else
    let candidate := (trimSpace before).map Char.toUpper
    if ¬ isHTTPMethod candidate then ([], raw)
    else (candidate, trimSpace (raw.drop (before.length + 1)))

/-- State of the scan for `\{([a-zA-Z_][a-zA-Z0-9_]*)\.\.\.\}`: what has been read since
the last '{'. -/
def wildcardAt (s : Str) : Option (Str × Str) :=
  match s with
  | c :: cs =>
    if isIdStart c then
      let name := c :: cs.takeWhile isIdChar
      match cs.dropWhile isIdChar with
      | '.' :: '.' :: '.' :: '}' :: rest => some (name, rest)
      | _ => none
    else none
  | [] => none

/-- pattern_matchers.go:386: rewrite `{name...}` to `{name}`. -/
def wildcardLoop : Nat → Str → Str
  | 0, s => s
  | _ + 1, [] => []
  | fuel + 1, c :: cs =>
    if c = '{' then
      match wildcardAt cs with
      | some (name, rest) => '{' :: name ++ '}' :: wildcardLoop fuel rest
      | none => c :: wildcardLoop fuel cs
    else c :: wildcardLoop fuel cs

/-- pattern_matchers.go:387: `strings.ReplaceAll(path, "{$}", "")`. -/
def dropAnchor : Str → Str
  | '{' :: '$' :: '}' :: rest => dropAnchor rest
  | c :: cs => c :: dropAnchor cs
  | [] => []

/-- pattern_matchers.go:385-389 `normalizeServeMuxPath`. -/
def normalizeServeMux (path : Str) : Str := dropAnchor (wildcardLoop path.length path)

/-! ## Collapsing duplicate discoveries -/

/-- `strings.Split(s, "/")`. -/
def splitSlash : Str → List Str
  | [] => [[]]
  | c :: cs =>
    if c = '/' then [] :: splitSlash cs
    else match splitSlash cs with
      | [] => [[c]]
      | w :: ws => (c :: w) :: ws

/-- extractor.go:429-435 `mountSegments`. -/
def mountSegments (mountPath : Str) : List Str :=
  let m := trimR (trimL mountPath)
  if m = [] then [] else splitSlash m

/-- extractor.go:443-451: the loop of `isSubsequence`; the first argument is what is
left of `a`. -/
def subseqLoop [DecidableEq α] : List α → List α → Bool
  | [], _ => true
  | _ :: _, [] => false
  | a :: as, b :: bs => if b = a then subseqLoop as bs else subseqLoop (a :: as) bs

/-- extractor.go:439-452 `isSubsequence`. -/
def isSubsequence [DecidableEq α] (a b : List α) : Bool := subseqLoop a b

/-- The fields of `RouteInfo` that `dropSubsumedMountPrefixes` looks at; `ext` is all
that `mergeRouteExtraction` touches. -/
structure Route (ε : Type) where
  fn : Str
  method : Str
  path : Str
  mount : Str
  ext : ε
  deriving DecidableEq, Repr

/-- extractor.go:366-371: the grouping key. -/
def Route.key {ε} (r : Route ε) : Str × Str × Str := (r.fn, r.method, r.path)

/-- extractor.go:387 (the `i == j` test at 382 never matters: the length test is strict). -/
def subsumedBy {ε} (r s : Route ε) : Bool :=
  decide (r.key = s.key) && decide ((mountSegments r.mount).length < (mountSegments s.mount).length) &&
    isSubsequence (mountSegments r.mount) (mountSegments s.mount)

/-- extractor.go:375-393 `drop`. -/
def isDropped {ε} (routes : List (Route ε)) (r : Route ε) : Bool := routes.any (subsumedBy r)

/-- extractor.go:365-425 `dropSubsumedMountPrefixes`; `merge existing next` is
`mergeRouteExtraction`. Only kept routes are written to, so each kept route is merged
with the original extraction of each dropped route of its group, in list order. -/
def dropSubsumed {ε} (merge : ε → ε → ε) (routes : List (Route ε)) : List (Route ε) :=
  (routes.filter fun r => !isDropped routes r).map fun r =>
    { r with ext := ((routes.filter fun s => isDropped routes s && decide (s.key = r.key)).map Route.ext).foldl merge r.ext }

/-- extractor.go:1056-1077 `appendUniqueStrings`. -/
def appendUnique [DecidableEq α] (base extras : List α) : List α :=
  if extras = [] then base else dedup (base ++ extras)

end Verif.Paths
