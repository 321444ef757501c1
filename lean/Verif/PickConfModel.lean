/-!
# Model: the configuration that the editor suggests to load

`findSuggestedConfig` and `looksLikeAPISpecConfig` (cmd/apispecui/main.go:731-790).

Simplified: a path is the folder, a slash and the name, as `filepath.Join` gives for cleaned folders.  Of the lists of a
configuration only the lengths are kept.  Whether a file parses as a configuration is part of the file system.
-/

namespace Verif.PickConf

abbrev Text := List Char

/-- internal/spec/openapi.go:30-37; contact and licence are kept as whether they are there. -/
structure Info where
  title : Text
  terms : Text
  description : Text
  version : Text
  contact : Bool
  license : Bool
deriving DecidableEq

/-- internal/spec/config.go:47-101; the two contexts are kept as whether they are given. -/
structure Framework where
  routes : Nat
  handlerMethods : Nat
  requests : Nat
  responses : Nat
  params : Nat
  mounts : Nat
  entrypoints : Nat
  security : Nat
  requestContext : Bool
  responseContext : Bool
deriving DecidableEq

structure Filter where
  files : Nat
  packages : Nat
  functions : Nat
  types : Nat
deriving DecidableEq

/-- internal/spec/config.go:815-819 -/
structure Defaults where
  request : Text
  response : Text
  status : Int
deriving DecidableEq

/-- internal/spec/config.go:829-871 -/
structure Config where
  framework : Framework
  typeMapping : Nat
  externalTypes : Nat
  overrides : Nat
  incl : Filter
  excl : Filter
  defaults : Defaults
  info : Info
  servers : Nat
  security : Nat
  schemes : Nat
  mappings : Nat
  tags : Nat
  docs : Bool
deriving DecidableEq

/-- What is at a path. -/
inductive Entry where
  | missing
  | folder
  | other
  | config (c : Config)
deriving DecidableEq

/-- main.go:733 -/
def names : List Text := ["apispec.yaml".toList, "apispec.yml".toList, ".apispec.yaml".toList, ".apispec.yml".toList]

/-- main.go:766-768 -/
def ie (x : Filter) : Bool := x.files > 0 || x.packages > 0 || x.functions > 0 || x.types > 0

/-- main.go:761-790 -/
def looksLike : Entry → Bool
  | .config c =>
    c.info.title ≠ [] || c.framework.routes > 0 || c.framework.requests > 0 || c.framework.responses > 0 || c.framework.params > 0 ||
    c.framework.mounts > 0 || c.framework.security > 0 || c.mappings > 0 || c.typeMapping > 0 || c.externalTypes > 0 || c.overrides > 0 ||
    c.servers > 0 || c.security > 0 || c.schemes > 0 || c.tags > 0 || c.docs || c.defaults ≠ ⟨[], [], 0⟩ || ie c.incl || ie c.excl
  | _ => false

/-- main.go:744-752: one folder. -/
def inFolder (fs : Text → Entry) (base : Text) : List Text → Option Text
  | [] => none
  | n :: ns =>
    let path := base ++ '/' :: n
    if fs path = .missing ∨ fs path = .folder then inFolder fs base ns
    else if looksLike (fs path) then some path
    else inFolder fs base ns

/-- main.go:738-756: the folders; `seen` are those looked at. -/
def inFolders (fs : Text → Entry) (seen : List Text) : List Text → Text
  | [] => []
  | b :: bs =>
    if b = [] ∨ b ∈ seen then inFolders fs seen bs
    else match inFolder fs b names with
      | some p => p
      | none => inFolders fs (b :: seen) bs

/-- main.go:737-757 -/
def findSuggestedConfig (fs : Text → Entry) (dir root : Text) : Text := inFolders fs [] [dir, root]

end Verif.PickConf
