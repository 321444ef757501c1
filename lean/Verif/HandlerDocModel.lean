/-!
# Summaries and descriptions from doc comments

Models how an operation gets its summary and description from the doc comment of its
handler: `handlerDoc`, `swaggoDoc`, `splitSynopsis`, `handlerComments`,
`handlerValueComments`, `receiverTypeName`, `valueTypeKey` of
`/repo/internal/spec/mapper.go`, `findMethodByName` and `findFunctionByName` of
`extractor.go`, `findType` of `field_resolver.go`.

Texts are lists of characters.  `go/doc`'s `Synopsis` is a parameter.
-/

namespace Verif.HandlerDoc

abbrev Str := List Char

/-! ## Text -/

/-- `unicode.IsSpace`, which `strings.TrimSpace` and `strings.Fields` use. -/
def isSpace (c : Char) : Bool :=
  c.toNat ∈ [0x20, 0x09, 0x0a, 0x0b, 0x0c, 0x0d, 0x85, 0xa0, 0x1680, 0x2028, 0x2029, 0x202f,
    0x205f, 0x3000] || (0x2000 ≤ c.toNat && c.toNat ≤ 0x200a)

/-- mapper.go 2060, `isSpaceByte`.  These bytes do not occur inside the encoding of
another character, so testing characters is the same. -/
def isBlank (c : Char) : Bool := c ∈ [' ', '\t', '\n', '\r']

/-- `strings.TrimRight(s, …)` for a class of characters. -/
def trimRight (sp : Char → Bool) : Str → Str
  | [] => []
  | c :: cs =>
    match trimRight sp cs with
    | [] => if sp c then [] else [c]
    | r => c :: r

/-- `strings.TrimSpace`. -/
def trimSpace (s : Str) : Str := trimRight isSpace (s.dropWhile isSpace)

/-- `strings.Fields`, for a class of separators. -/
def words (sp : Char → Bool) : Str → List Str
  | [] => []
  | c :: cs =>
    if sp c then words sp cs
    else match cs with
      | [] => [[c]]
      | d :: _ =>
        if sp d then [c] :: words sp cs
        else match words sp cs with
          | [] => [[c]]
          | w :: ws => (c :: w) :: ws

/-- `strings.Split(text, "\n")`. -/
def splitLines : Str → List Str
  | [] => [[]]
  | c :: cs =>
    if c = '\n' then [] :: splitLines cs
    else match splitLines cs with
      | [] => [[c]]
      | l :: ls => (c :: l) :: ls

/-- `strings.Join`. -/
def join (sep : Str) : List Str → Str
  | [] => []
  | [a] => a
  | a :: b :: r => a ++ sep ++ join sep (b :: r)

/-- `strings.ToLower`, as far as it matters for comparison with `@summary` and
`@description`: the ASCII letters and the two other characters whose lower case is an
ASCII letter. -/
def lowerChar (c : Char) : Char :=
  if 'A' ≤ c ∧ c ≤ 'Z' then Char.ofNat (c.toNat + 32)
  else if c.toNat = 0x130 then 'i' else if c.toNat = 0x212a then 'k' else c

def toLower (s : Str) : Str := s.map lowerChar

/-! ## splitSynopsis (mapper.go 2039-2058) -/

/-- One round of the loop at 2047-2056: blanks, then a word, are skipped. -/
def skipWord (s : Str) : Str := (s.dropWhile isBlank).dropWhile (fun c => !isBlank c)

def skipWords : Nat → Str → Str
  | 0, s => s
  | n + 1, s => skipWords n (skipWord s)

/-- `splitSynopsis`; `syn` is `go/doc`'s `Synopsis`. -/
def splitSynopsis (syn : Str → Str) (text : Str) : Str × Str :=
  let summary := syn text
  if summary = [] then ([], [])
  else (summary, trimSpace (skipWords (words isSpace summary).length text))

/-! ## swaggoDoc (mapper.go 1982-2027) -/

inductive Section where
  | none | summary | description
  deriving DecidableEq, Repr

structure DocSt where
  ok : Bool := false
  sect : Section := .none
  lead : List Str := []
  sum : List Str := []
  desc : List Str := []
  deriving DecidableEq, Repr

/-- `append(lines, rest)` if there is something to append (1993-2001). -/
def addText (ls : List Str) (t : Str) : List Str := if t = [] then ls else ls ++ [t]

def summaryKey : Str := "@summary".toList
def descriptionKey : Str := "@description".toList

/-- An annotation line (1987-2007). -/
def annotStep (s : DocSt) (trimmed : Str) : DocSt :=
  let name := (words isSpace trimmed).headD []
  let rest := trimSpace (trimmed.drop name.length)
  let s := { s with ok := true }
  if toLower name = summaryKey then { s with sect := .summary, sum := addText s.sum rest }
  else if toLower name = descriptionKey then
    { s with sect := .description, desc := addText s.desc rest }
  else { s with sect := .none }

/-- A line of prose (2011-2018). -/
def proseStep (s : DocSt) (t : Str) : DocSt :=
  match s.sect with
  | .summary => { s with sum := s.sum ++ [t] }
  | .description => { s with desc := s.desc ++ [t] }
  | .none => if s.ok then s else { s with lead := s.lead ++ [t] }

/-- The body of the loop (1985-2018). -/
def docStep (s : DocSt) (line : Str) : DocSt :=
  let t := trimSpace line
  if t.head? = some '@' then annotStep s t
  else if t = [] then s
  else proseStep s t

/-- `swaggoDoc`; `none` when there are no annotations. -/
def swaggoDoc (syn : Str → Str) (text : Str) : Option (Str × Str) :=
  let s := (splitLines text).foldl docStep {}
  if !s.ok then none
  else
    let summary := join [' '] s.sum
    let summary := if summary = [] ∧ s.lead ≠ [] then (splitSynopsis syn (join ['\n'] s.lead)).1
      else summary
    some (summary, join ['\n'] s.desc)

/-- `handlerDoc` from the comment on (mapper.go 2073-2082). -/
def docParts (syn : Str → Str) (doc : Str) : Str × Str :=
  if doc = [] then ([], [])
  else match swaggoDoc syn doc with
    | some r => r
    | none =>
      let r := splitSynopsis syn doc
      if r.1 ≠ [] then r else (doc, [])

/-- What the operation says (mapper.go 410-419): what the route already has, and the
handler's comment for what it lacks. -/
def operationText (own : Str × Str) (doc : Str × Str) : Str × Str :=
  (if own.1 = [] then doc.1 else own.1, if own.2 = [] then doc.2 else own.2)

/-! ## Which comment -/

structure Meth where
  name : Str
  recv : Str
  doc : Str
  deriving DecidableEq, Repr

/-- A field; `core` is the package and name of its type's core if that is a named type. -/
structure Field where
  name : Str
  core : Option (Str × Str)
  deriving DecidableEq, Repr

structure TypeD where
  name : Str
  methods : List Meth := []
  fields : List Field := []
  deriving DecidableEq, Repr

structure File where
  funcs : List (Str × Str) := []
  types : List TypeD := []
  deriving DecidableEq, Repr

/-- A package: its files and their types in sorted order, and the package-level table
of types. -/
structure Pkg where
  path : Str
  files : List File
  own : List TypeD := []
  deriving DecidableEq, Repr

/-- The metadata: packages in sorted order, and `ImplementersOf` for interfaces. -/
structure Meta where
  pkgs : List Pkg
  impls : Str → List Str := fun _ => []

def Meta.files (m : Meta) (p : Str) : List File :=
  match m.pkgs.find? (·.path = p) with
  | some k => k.files
  | none => []

def fileFunc (name : Str) (f : File) : Option Str := (f.funcs.find? (·.1 = name)).map (·.2)

/-- `findFunctionByName` (extractor.go 1970-1984): the package, else the first package
that declares the name. -/
def findFunc (m : Meta) (p name : Str) : Option Str :=
  if name = [] then none
  else match (m.files p).findSome? (fileFunc name) with
    | some d => some d
    | none => m.pkgs.findSome? fun k => k.files.findSome? (fileFunc name)

/-- `strings.TrimPrefix(s, "*")`. -/
def trimStar : Str → Str
  | '*' :: s => s
  | s => s

/-- `findMethodByName` (extractor.go 2088-2111). -/
def findMeth (m : Meta) (p recv name : Str) : Option Str :=
  if name = [] then none
  else (m.files p).findSome? fun f => f.types.findSome? fun t =>
    (t.methods.find? fun x => x.name = name ∧ (recv = [] ∨ trimStar x.recv = trimStar recv)).map
      (·.doc)

/-- `findType` (field_resolver.go 198-215). -/
def findType (m : Meta) (p name : Str) : Option TypeD :=
  if p = [] ∨ name = [] then none
  else match m.pkgs.find? (·.path = p) with
    | none => none
    | some k =>
      match k.own.find? (·.name = name) with
      | some t => some t
      | none => k.files.findSome? fun f => f.types.find? (·.name = name)

/-- Splitting at the last dot (`strings.LastIndexByte(s, '.')`). -/
def splitLast : Str → Option (Str × Str)
  | [] => none
  | c :: cs =>
    match splitLast cs with
    | some (a, b) => some (c :: a, b)
    | none => if c = '.' then some ([], cs) else none

/-- `receiverTypeName` (mapper.go 1826-1848). -/
def receiverTypeName (m : Meta) (p recv : Str) : Str :=
  match splitLast recv with
  | none => recv
  | some (owner, field) =>
    match findType m p owner with
    | none => field
    | some t =>
      match t.fields.find? (·.name = field) with
      | some f =>
        match f.core with
        | some c => c.2
        | none => field
      | none => field

/-- `valueTypeKey` (mapper.go 1940-1959). -/
def valueTypeKey (m : Meta) (p name : Str) : Str :=
  match splitLast name with
  | none => []
  | some (owner, field) =>
    match findType m p owner with
    | none => []
    | some t =>
      match t.fields.findSome? (fun f =>
          if f.name = field then f.core.bind fun c => if c.1 ≠ [] then some c else none
          else none) with
      | some c => c.1 ++ ['.'] ++ c.2
      | none => []

/-- The first of several methods that the type declares (mapper.go 1905-1909,
1929-1933). -/
def firstMeth (m : Meta) (p recv : Str) (hms : List Str) : Option Str :=
  hms.findSome? (findMeth m p recv)

/-- `handlerValueComments` (mapper.go 1900-1935). -/
def valueComments (m : Meta) (p name : Str) (hms : List Str) : Str :=
  if hms = [] ∨ name = [] then []
  else match firstMeth m p (receiverTypeName m p name) hms with
    | some d => d
    | none =>
      let key := valueTypeKey m p name
      let key := if key = [] then name else key
      match m.impls key with
      | [i] =>
        match splitLast i with
        | none => []
        | some (q, t) => (firstMeth m q t hms).getD []
      | _ => []

/-- `strings.ReplaceAll(name, "-->", ".")`. -/
def replaceSep : Str → Str
  | '-' :: '-' :: '>' :: s => '.' :: replaceSep s
  | c :: s => c :: replaceSep s
  | [] => []

/-- The loop at mapper.go 1869-1871.  Every round shortens the name, so its length is
enough fuel. -/
def stripPkg (p : Str) : Nat → Str → Str
  | 0, s => s
  | n + 1, s => if (p ++ ['.']).isPrefixOf s then stripPkg p n (s.drop (p.length + 1)) else s

/-- The rendered handler without its package (mapper.go 1862-1872). -/
def bareName (p func : Str) : Str :=
  let name := replaceSep func
  if p = [] then name else stripPkg p name.length name

/-- `handlerComments` (mapper.go 1862-1889). -/
def handlerComments (m : Meta) (p func : Str) (hms : List Str) : Str :=
  let name := bareName p func
  match splitLast name with
  | some (r, meth) =>
    match findMeth m p (receiverTypeName m p r) meth with
    | some d => d
    | none => valueComments m p name hms
  | none =>
    match findFunc m p name with
    | some d => d
    | none => valueComments m p name hms

/-- `handlerDoc` (mapper.go 2068-2083). -/
def handlerDoc (syn : Str → Str) (m : Meta) (p func : Str) (hms : List Str) : Str × Str :=
  if func = [] then ([], []) else docParts syn (handlerComments m p func hms)

end Verif.HandlerDoc
