import Verif.ValidateModel

/-!
# The source view of the web UI and the saving of a configuration

Models `cmd/apispecui/main.go` (handleInsightSource, sourcePathAllowed, queryInt, findModuleRoot,
handleProject with validateProjectDir, handleSaveConfig) and the source window of
`internal/insight/export.go` (parsePos, readSourceWindow, SourceSnippet).

A path on disk is the list of its components.  The disk maps such lists to what is there; a symbolic
link holds a path text, and `walk` follows paths the way the kernel does.
-/
namespace Verif.SourceModel

open Verif.ValidateModel

abbrev Str := List Char
abbrev Path := List Str

/-! ## Paths -/

abbrev dot1 : Str := ['.']
abbrev dot2 : Str := ['.', '.']

/-- filepath.Clean on a rooted path, component by component (documented rules: empty elements and
`.` are dropped, `..` removes the element before it and stays at the root). -/
def cleanFrom : Path → List Str → Path
  | cur, [] => cur
  | cur, c :: cs => if c = [] ∨ c = dot1 then cleanFrom cur cs else if c = dot2 then cleanFrom cur.dropLast cs else cleanFrom (cur ++ [c]) cs

/-- filepath.IsAbs. -/
def isAbs (p : Str) : Bool := p.head? == some '/'

/-- filepath.Abs: `cwd` is the (clean) working directory. -/
def absPath (cwd : Path) (p : Str) : Path := cleanFrom (if isAbs p then [] else cwd) (splitC '/' p)

/-- filepath.Rel between two clean absolute paths, in components. -/
def relParts : Path → Path → List Str
  | [], ts => ts
  | bs, [] => bs.map fun _ => dot2
  | b :: bs, t :: ts => if b = t then relParts bs ts else (b :: bs).map (fun _ => dot2) ++ t :: ts

/-- filepath.Rel, the text. -/
def rel (base targ : Path) : Str := if relParts base targ = [] then dot1 else joinC '/' (relParts base targ)

/-- main.go:1826. -/
def relInside (r : Str) : Bool := r != dot2 && !(['.', '.', '/'].isPrefixOf r)

/-! ## Disk -/

inductive Node
  | missing
  | dir
  | file (lines : List Str)
  | link (target : Str)

abbrev Disk := Path → Node

/-- Resolution of a path by the operating system: physical, component by component, following
links (`fuel` bounds the number of steps; running out is the error for a loop of links). -/
def walk (fs : Disk) : Nat → Path → List Str → Option Path
  | 0, _, _ => none
  | _ + 1, cur, [] => some cur
  | n + 1, cur, c :: cs =>
    if c = [] ∨ c = dot1 then walk fs n cur cs
    else if c = dot2 then walk fs n cur.dropLast cs
    else match fs (cur ++ [c]) with
      | .missing => none
      | .dir => walk fs n (cur ++ [c]) cs
      | .file _ => if cs = [] then some (cur ++ [c]) else none
      | .link t => walk fs n (if isAbs t then [] else cur) (splitC '/' t ++ cs)

/-- What a path text names for the operating system (the working directory is itself looked up). -/
def locate (fs : Disk) (fuel : Nat) (cwd : Path) (p : Str) : Option Path :=
  if isAbs p then walk fs fuel [] (splitC '/' p) else walk fs fuel [] (cwd ++ splitC '/' p)

/-- os.Open and reading it: the lines of the file. -/
def readLines (fs : Disk) (fuel : Nat) (cwd : Path) (p : Str) : Option (List Str) :=
  (locate fs fuel cwd p).bind fun q => match fs q with
    | .file ls => some ls
    | _ => none

/-! ## Positions and windows -/

/-- export.go:308-331 parsePos; the second part is the line. -/
def parsePos (pos : Str) : Str × Int :=
  let parts := splitC ':' (trimSpace pos)
  if trimSpace pos = [] then ([], 0)
  else if parts.length < 2 then ([], 0)
  else
    let last := parts.getLast?.getD []
    let whole : Str × Int := match atoi last with
      | some line => (joinC ':' parts.dropLast, line)
      | none => ([], 0)
    if (atoi last).isSome && decide (3 ≤ parts.length) then
      match atoi (parts.dropLast.getLast?.getD []) with
      | some line => (joinC ':' parts.dropLast.dropLast, line)
      | none => whole
    else whole

/-- export.go:256-259, 299-302. -/
def windowStart (line before : Int) : Int := if line - before < 1 then 1 else line - before

/-- export.go:264-276: the loop over the lines, `n` lines having been read. -/
def window (start stop : Int) : Int → List Str → List Str
  | _, [] => []
  | n, l :: ls =>
    if n + 1 < start then window start stop (n + 1) ls
    else if n + 1 > stop then []
    else l :: window start stop (n + 1) ls

/-- bufio.Scanner with a limit: it ends at the first line that is too long. -/
def scanned (fits : Str → Bool) (ls : List Str) : List Str := ls.takeWhile fits

/-- What the server's process sees. -/
structure World where
  fs : Disk
  fuel : Nat
  cwd : Path
  /-- the lines the scanner's buffer can hold (1 MB) -/
  fits : Str → Bool
  /-- build.Default.GOROOT; none when empty -/
  goroot : Str
  /-- goModCache(), main.go:1833-1845 -/
  modcache : Str

/-- export.go:249-278. -/
def readSourceWindow (w : World) (pos : Str) (before after : Int) : Str :=
  let file := (parsePos pos).1
  let line := (parsePos pos).2
  if file = [] ∨ line ≤ 0 then []
  else match readLines w.fs w.fuel w.cwd file with
    | none => []
    | some ls => joinC '\n' (window (windowStart line before) (line + after) 0 (scanned w.fits ls))

/-- main.go:1851-1864 queryInt. -/
def queryInt (v : Str) (d : Int) : Int :=
  if v = [] then d
  else match atoi v with
    | none => d
    | some n => if n < 0 then d else if n > 200 then 200 else n

/-! ## The roots -/

/-- os.Stat(path) == nil. -/
def exists' (w : World) (p : Path) : Bool :=
  match walk w.fs w.fuel [] p with
  | none => false
  | some q => match w.fs q with
    | .missing => decide (q = [])
    | _ => true

def goMod : Str := ['g', 'o', '.', 'm', 'o', 'd']

/-- main.go:559-569: upwards from a directory (given reversed). -/
def modRootFrom (w : World) : Path → Option Path
  | [] => if exists' w [goMod] then some [] else none
  | d :: ds => if exists' w ((d :: ds).reverse ++ [goMod]) then some (d :: ds).reverse else modRootFrom w ds

/-- main.go:554-570 findModuleRoot, made absolute as its caller does (1822); none when the text is empty. -/
def moduleRoot (w : World) (start : Str) : Option Path :=
  match modRootFrom w (absPath w.cwd start).reverse with
  | some r => some r
  | none => if start = [] then none else some (absPath w.cwd start)

/-- main.go:1818-1824: a root that is given as text. -/
def textRoot (w : World) (s : Str) : Option Path := if s = [] then none else some (absPath w.cwd s)

/-- main.go:1816-1817. -/
def roots (w : World) (inputDir : Str) : List (Option Path) := [moduleRoot w inputDir, textRoot w w.goroot, textRoot w w.modcache]

/-- main.go:1815-1831 sourcePathAllowed. -/
def sourcePathAllowed (w : World) (inputDir : Str) (abs : Path) : Bool :=
  (roots w inputDir).any fun r => match r with
    | none => false
    | some base => relInside (rel base abs)

/-! ## The handlers -/

structure SourceRequest where
  get : Bool
  pos : Str
  before : Str
  after : Str

inductive Reply
  | methodNotAllowed
  | badRequest
  | forbidden
  | notFound
  | conflict
  | failed
  | source (file : Path) (code : Str) (start line : Int)
  | done
deriving DecidableEq

/-- main.go:1777-1810 handleInsightSource. -/
def handleSource (w : World) (inputDir : Str) (r : SourceRequest) : Reply :=
  if !r.get then .methodNotAllowed
  else
    let file := (parsePos r.pos).1
    if file = [] then .badRequest
    else
      let abs := absPath w.cwd file
      if !sourcePathAllowed w inputDir abs then .forbidden
      else
        let before := queryInt r.before 3
        let after := queryInt r.after 26
        let line := (parsePos r.pos).2
        let code := readSourceWindow w r.pos before after
        if code = [] then .notFound
        else .source abs code (windowStart line before) line

/-- main.go:629-645 validateProjectDir: the directory, absolute. -/
def validateProjectDir (w : World) (dir : Str) : Option Path :=
  if trimSpace dir = [] then none
  else match walk w.fs w.fuel [] (absPath w.cwd dir) with
    | none => none
    | some q => match w.fs q with
      | .dir => some (absPath w.cwd dir)
      | _ => if q = [] then some (absPath w.cwd dir) else none

def render (p : Path) : Str := '/' :: joinC '/' p

/-- main.go:803-821 handleProject: the new directory of the server. -/
def handleProject (w : World) (inputDir : Str) (dir : Str) : Str × Reply :=
  match validateProjectDir w dir with
  | none => (inputDir, .badRequest)
  | some p => (render p, .done)

end Verif.SourceModel
