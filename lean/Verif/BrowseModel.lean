/-!
# Model: the folder picker of the UI

`handleBrowse` (cmd/apispecui/main.go:1282-1368).

Simplified: paths are clean and absolute, as `filepath.Abs` makes them, with `/`; texts are compared by character, which
for UTF-8 is the order of the bytes; the text of error messages is left out.  `sort.Slice` is not modelled: a listing is
any order of the entries in which no entry comes before one that is less, which is what `sort.Slice` guarantees.
-/

namespace Verif.Browse

abbrev Str := List Char

/-- What a name in a folder is, without following links: a folder, or anything else. -/
structure DirEnt where
  name : Str
  isDir : Bool
deriving DecidableEq

/-- The file system, as asked: `abs`, `os.Stat` (is it a folder, after links), `os.ReadDir`, existence, `ToLower`. -/
structure FS where
  home : Option Str
  abs : Str → Option Str
  stat : Str → Option Bool
  readDir : Str → Option (List DirEnt)
  lower : Str → Str
  blank : Str → Bool

/-- main.go:1265-1270 -/
structure Entry where
  name : Str
  path : Str
  hasGoMod : Bool
  dir : Bool
deriving DecidableEq

/-- `filepath.Join(abs, name)` for a clean absolute path and a name without slash. -/
def join (abs name : Str) : Str := if abs = ['/'] then '/' :: name else abs ++ '/' :: name

/-- `filepath.Dir` of a clean absolute path. -/
def dirOf (p : Str) : Str :=
  match (p.reverse.dropWhile (fun c => decide (c ≠ '/'))).reverse with
  | [] => ['.']
  | ['/'] => ['/']
  | q => q.dropLast

/-- The order of Go's strings. -/
def slt : Str → Str → Bool
  | [], [] => false
  | [], _ :: _ => true
  | _ :: _, [] => false
  | a :: as, b :: bs => decide (a.toNat < b.toNat) || (decide (a.toNat = b.toNat) && slt as bs)

/-- main.go:1319-1341: what is made of a name. -/
def entryOf (fs : FS) (abs : Str) (wantYAML : Bool) (e : DirEnt) : Option Entry :=
  if e.name.head? = some '.' then none
  else if e.isDir then some ⟨e.name, join abs e.name, (fs.stat (join (join abs e.name) "go.mod".toList)).isSome, true⟩
  else if wantYAML && (".yaml".toList.isSuffixOf (fs.lower e.name) || ".yml".toList.isSuffixOf (fs.lower e.name)) then
    some ⟨e.name, join abs e.name, false, false⟩
  else none

/-- main.go:1342-1352 -/
def less (fs : FS) (a b : Entry) : Bool :=
  if a.dir != b.dir then a.dir
  else if a.dir && a.hasGoMod != b.hasGoMod then a.hasGoMod
  else slt (fs.lower a.name) (fs.lower b.name)

inductive Resp
  | err (status : Nat)
  | ok (path parent : Str) (hasGoMod : Bool) (entries : List Entry)

/-- main.go:1287-1294 -/
def startPath (fs : FS) (p : Str) : Str := if fs.blank p then fs.home.getD ['/'] else p

/-- main.go:1282-1368; `sorted` is what `sort.Slice` makes of the entries. -/
def handleBrowse (fs : FS) (sorted : List Entry → List Entry) (get : Bool) (p files : Str) : Resp :=
  if !get then .err 405
  else match fs.abs (startPath fs p) with
    | none => .err 400
    | some abs =>
      match fs.stat abs with
      | none => .err 400
      | some false => .err 400
      | some true =>
        match fs.readDir abs with
        | none => .err 500
        | some es =>
          .ok abs (if dirOf abs = abs then [] else dirOf abs) (fs.stat (join abs "go.mod".toList)).isSome
            (sorted (es.filterMap (entryOf fs abs (decide (files = "yaml".toList)))))

end Verif.Browse
