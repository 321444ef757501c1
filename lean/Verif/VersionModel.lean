/-!
# Model: the version that the command shows

`detectVersionInfo` (cmd/apispec/main.go:46-116), which `--version` asks before it prints.

Simplified: texts are lists of characters, so the first seven bytes of a revision are its first seven characters; revisions
are hexadecimal.
-/

namespace Verif.Version

abbrev Text := List Char

/-- main.go:47-52: what is printed. -/
structure Shown where
  version : Text
  commit : Text
  date : Text
  go : Text
deriving DecidableEq

/-- What the runtime knows about the build. -/
structure Build where
  go : Text
  path : Text
  version : Text
  settings : List (Text × Text)

/-- `strings.Contains` -/
def contains (p : Text) : Text → Bool
  | [] => p.isPrefixOf []
  | x :: xs => p.isPrefixOf (x :: xs) || contains p xs

/-- What the loop over the settings keeps. -/
structure Seen where
  commit : Text
  date : Text
  vcs : Bool
  modified : Bool

/-- main.go:76-93: one setting. -/
def setting (s : Seen) (kv : Text × Text) : Seen :=
  if kv.1 = "vcs.revision".toList then { s with vcs := true, commit := if 7 ≤ kv.2.length then kv.2.take 7 else kv.2 }
  else if kv.1 = "vcs.time".toList then { s with vcs := true, date := kv.2 }
  else if kv.1 = "vcs.modified".toList then (if kv.2 = "true".toList then { s with modified := true } else s)
  else s

/-- main.go:62-104 -/
def fromBuild (v : Shown) (b : Build) : Shown :=
  let go := if b.go ≠ [] then b.go else v.go
  let v1 := if b.version ≠ [] ∧ b.version ≠ "(devel)".toList then b.version else v.version
  let s := b.settings.foldl setting ⟨v.commit, v.date, false, false⟩
  let v2 := if s.modified ∧ ¬ contains "+dirty".toList v1 then v1 ++ "+dirty".toList else v1
  let v3 := if s.vcs ∧ (v2 = "0.0.1".toList ∨ v2 = "(devel)".toList) then "dev".toList else v2
  ⟨v3, s.commit, s.date, go⟩

/-- main.go:55-116 -/
def detectVersionInfo (v : Shown) (info : Option Build) : Shown :=
  if v.version ≠ "0.0.1".toList then v
  else
    let v := match info with
      | some b => fromBuild v b
      | none => v
    if v.version = "0.0.1".toList ∨ v.version = "(devel)".toList then
      { v with version := if (info.map (·.path)) = some "github.com/ehabterra/apispec".toList then "latest (go install)".toList else "unknown (go install)".toList }
    else v

end Verif.Version
