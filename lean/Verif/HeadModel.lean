/-!
# Model: the head of the document

What the document says about the API as a whole: the defaults of `NewEngine` (internal/engine/engine.go:346-392), the
completion of the configuration (engine.go:771-800), and the document built from it
(`MapMetadataToOpenAPIWithDiagnostics`, internal/spec/mapper.go:284-311).
-/

namespace Verif.Head

/-- internal/spec/openapi.go:40-44 -/
structure Contact where
  name : String
  url : String
  email : String
  deriving DecidableEq

/-- openapi.go:47-50 -/
structure License where
  name : String
  url : String
  deriving DecidableEq

/-- openapi.go:30-37 -/
structure Info where
  title : String
  desc : String
  terms : String
  version : String
  contact : Option Contact
  license : Option License
  deriving DecidableEq

/-- The options of `EngineConfig` (engine.go:110-125) that describe the API. -/
structure Opts where
  title : String
  version : String
  desc : String
  terms : String
  contactName : String
  contactURL : String
  contactEmail : String
  licenseName : String
  licenseURL : String
  openapi : String
  deriving DecidableEq

/-- The parts of the configuration (internal/spec/config.go, type APISpecConfig) copied into the document; servers,
security, tags and documentation are opaque. -/
structure Config (α : Type) where
  info : Info
  servers : α
  security : α
  tags : α
  docs : α

structure Doc (α : Type) where
  openapi : String
  info : Info
  servers : α
  security : α
  tags : α
  docs : α

/-- `FullLicenseNotice` (engine.go:107). -/
abbrev notice : String := "\n\nCopyright 2026 Ehab Terra. Licensed under the Apache License 2.0. See LICENSE and NOTICE."

def orElse (s d : String) : String := if s = "" then d else s

/-- `NewEngine` (engine.go:346-392); the limits are left out. -/
def newEngine (o : Opts) : Opts :=
  { o with
    title := orElse o.title "Generated API"
    version := orElse o.version "1.0.0"
    contactName := orElse o.contactName "Ehab"
    contactURL := orElse o.contactURL "https://ehabterra.github.io/"
    contactEmail := orElse o.contactEmail "ehabterra@hotmail.com"
    openapi := orElse o.openapi "3.1.1" }

/-- The description (engine.go:775-781): `strings.HasSuffix` before the notice is added. -/
def withNotice (d : String) : String := if notice.toList.isSuffixOf d.toList then d else d ++ notice

/-- The completion of the configuration (engine.go:771-800). -/
def fill (o : Opts) (i : Info) : Info :=
  ⟨orElse i.title o.title, orElse i.desc (withNotice o.desc), orElse i.terms o.terms, orElse i.version o.version,
   some (i.contact.getD ⟨o.contactName, o.contactURL, o.contactEmail⟩), some (i.license.getD ⟨o.licenseName, o.licenseURL⟩)⟩

/-- The information of the document (mapper.go:284-298). -/
def mapInfo (title version : String) (i : Info) : Info :=
  if i.title ≠ "" ∨ i.desc ≠ "" ∨ i.version ≠ "" then { i with title := orElse i.title title, version := orElse i.version version }
  else ⟨title, "", "", version, none, none⟩

/-- The effective configuration of a run (engine.go:771-800, 918-934): what `--output-config` writes. -/
def effective {α : Type} (o : Opts) (c : Config α) : Config α := { c with info := fill (newEngine o) c.info }

/-- The document (mapper.go:300-311). -/
def document {α : Type} (o : Opts) (c : Config α) : Doc α :=
  ⟨(newEngine o).openapi, mapInfo (newEngine o).title (newEngine o).version (effective o c).info, c.servers, c.security, c.tags, c.docs⟩

/-- The options of a run from the UI (cmd/apispecui/main.go:928-970): from the request, nothing else. -/
def uiOpts (i : Info) (openapi : String) : Opts :=
  let o : Opts := ⟨i.title, i.version, i.desc, "", "", "", "", "", "", openapi⟩
  let o := match i.contact with
    | some c => { o with contactName := c.name, contactURL := c.url, contactEmail := c.email }
    | none => o
  match i.license with
  | some l => { o with licenseName := l.name, licenseURL := l.url }
  | none => o

/-- No options given. -/
def noOpts : Opts := ⟨"", "", "", "", "", "", "", "", "", ""⟩

end Verif.Head
