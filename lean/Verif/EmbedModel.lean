import Verif.Assoc

/-!
# Model: the fields of a struct and the properties of its schema

`processStructFields` and `buildAnonStructType` of `/repo/internal/metadata/metadata.go`
and the property loop of `generateStructSchema` in `/repo/internal/spec/mapper.go`.

Simplified: a tag is what `jsonFieldOmitted` and `extractJSONName` read from it (they are
modelled in `TagsModel`); a property carries the name of the field it was made from, in
place of that field's schema (`SchemaGenModel`); `ast.IsExported` is a parameter.
-/

namespace Verif.Embed

open Verif.Common

/-- What a struct tag says to `encoding/json`: `json:"-"`, or a name. -/
structure Tag where
  skip : Bool := false
  name : Option String := none
  deriving DecidableEq, Repr

/-- One line of a struct type, `a, b T` with a tag; no names: an embedded type.  `ty` is
the type's name, without a pointer. -/
structure Line where
  names : List String
  ty : String
  tag : Tag := {}
  deriving DecidableEq, Repr

/-- `Type.Fields` and `Type.Embeds`. -/
structure Recorded where
  fields : List (String × Tag) := []
  embeds : List String := []
  deriving DecidableEq, Repr

/-- metadata.go 1045-1108: an embedded type is recorded apart, and each name of a line is
a field. -/
def processStructFields : List Line → Recorded
  | [] => {}
  | l :: r =>
    let rest := processStructFields r
    if l.names = [] then { rest with embeds := l.ty :: rest.embeds }
    else { rest with fields := l.names.map (fun n => (n, l.tag)) ++ rest.fields }

/-- metadata.go 1014-1043, for a variable whose type is an inline struct: `go/types` lists
an embedded type as a field called like the type. -/
def buildAnonStructType : List Line → Recorded
  | [] => {}
  | l :: r =>
    let rest := buildAnonStructType r
    if l.names = [] then { rest with fields := (l.ty, l.tag) :: rest.fields }
    else { rest with fields := l.names.map (fun n => (n, l.tag)) ++ rest.fields }

/-- One turn of mapper.go 1465-1598: fields with `json:"-"` and unexported fields are
skipped (1473-1484); the property has the tag's name if there is one (1501-1504, 1597). -/
def addProperty (exported : String → Bool) (m : List (String × String)) (f : String × Tag) :
    List (String × String) :=
  if f.2.skip || !exported f.1 then m else mset m (f.2.name.getD f.1) f.1

/-- The properties of `generateStructSchema` (mapper.go 1428-1602). -/
def properties (exported : String → Bool) (r : Recorded) : List (String × String) :=
  r.fields.foldl (addProperty exported) []

end Verif.Embed
