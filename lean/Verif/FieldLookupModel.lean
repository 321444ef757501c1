import Verif.Assoc
/-!
# Model: the declared type of a selected field

`lookupFieldType`, `splitPkgType` and `stripPointer` (internal/spec/field_resolver.go:102-157), which give the type of
`x.Field` when the checker recorded none, and `findType` (198-216; packages' and files' types are one table).
-/

namespace Verif.FieldLookup
open Verif.Common

abbrev Str := List Char

/-- What is read of a struct: its fields with their types, and its embedded types as they are spelled. -/
structure StructRec where
  fields : List (Str × Str)
  embeds : List Str

abbrev Meta := List ((Str × Str) × StructRec)

/-- field_resolver.go:102-105 -/
def stripPointer : Str → Str
  | '*' :: t => t
  | t => t

/-- field_resolver.go:111-117 -/
def splitPkgType (t : Str) : Str × Str :=
  match t.reverse.dropWhile (fun c => decide (c ≠ '.')) with
  | [] => ([], t)
  | _ :: r => (r.reverse, (t.reverse.takeWhile (fun c => decide (c ≠ '.'))).reverse)

/-- field_resolver.go:198-216 -/
def findType (m : Meta) (pkg name : Str) : Option StructRec := if pkg = [] ∨ name = [] then none else mget m (pkg, name)

/-- The loop of field_resolver.go:146-155 over the embedded types. -/
def firstEmbed (f : Str → Str → Option Str) : List Str → Option Str
  | [] => some []
  | e :: es =>
    let s := splitPkgType (stripPointer e)
    if s.2 = [] then firstEmbed f es
    else match f s.1 s.2 with
      | none => none
      | some r => if r = [] then firstEmbed f es else some r

/-- field_resolver.go:132-157; the empty text is "not found", none if the recursion does not end within `fuel` calls. -/
def lookupFieldType (m : Meta) (field : Str) : Nat → Str → Str → Option Str
  | 0, _, _ => none
  | fuel + 1, pkg, name =>
    match findType m pkg name with
    | none => some []
    | some t =>
      match t.fields.find? (fun f => decide (f.1 = field)) with
      | some f => some f.2
      | none => firstEmbed (lookupFieldType m field fuel) t.embeds

end Verif.FieldLookup
