import Verif.Assoc
/-!
# Model: the method that is run for a handler value

`handlerMethodKeys`, `splitTypeKey` (internal/spec/handler_value.go:88-138, 163-171), `findType`
(internal/spec/field_resolver.go:198-216) and `ImplementersOf` (internal/metadata/types.go:648-695, without the cache).
The type of the argument (`handlerValueTypeOf`) is given.
-/

namespace Verif.HandlerValue
open Verif.Common

abbrev Str := List Char

/-- What is read of a recorded type: is it an interface, its `ImplementedBy`, the names of its methods and its
`Implements`. -/
structure TypeRec where
  iface : Bool
  implementedBy : List Str
  methods : List Str
  implements : List Str

/-- The recorded types, by package and name, in the order of packages and names. -/
abbrev Meta := List ((Str × Str) × TypeRec)

/-- handler_value.go:165-171: the split at the last dot. -/
def splitTypeKey (key : Str) : Option (Str × Str) :=
  match key.reverse.dropWhile (fun c => decide (c ≠ '.')) with
  | [] => none
  | _ :: r => some (r.reverse, (key.reverse.takeWhile (fun c => decide (c ≠ '.'))).reverse)

/-- field_resolver.go:198-216 (types of packages and of files are one table). -/
def findType (m : Meta) (pkg name : Str) : Option TypeRec := if pkg = [] ∨ name = [] then none else mget m (pkg, name)

/-- types.go:673-683 -/
def implementersOf (m : Meta) (key : Str) : List Str :=
  if key = [] then [] else m.filterMap fun e => if e.2.implements.contains key then some (e.1.1 ++ '.' :: e.1.2) else none

/-- The loops of handler_value.go:108-114 and 119-125. -/
def collect (f : Str → Str → Option (List Str)) : List Str → Option (List Str)
  | [] => some []
  | k :: ks =>
    match splitTypeKey k with
    | none => collect f ks
    | some (p, n) =>
      match f p n, collect f ks with
      | some a, some b => some (a ++ b)
      | _, _ => none

/-- handler_value.go:97-138; none if the recursion does not end within `fuel` calls. -/
def handlerMethodKeys (m : Meta) (handlerMethods : List Str) : Nat → Str → Str → Option (List Str)
  | 0, _, _ => none
  | fuel + 1, pkg, name =>
    if handlerMethods = [] ∨ pkg = [] ∨ name = [] then some []
    else match findType m pkg name with
      | none => collect (handlerMethodKeys m handlerMethods fuel) (implementersOf m (pkg ++ '.' :: name))
      | some t =>
        if t.iface then collect (handlerMethodKeys m handlerMethods fuel) t.implementedBy
        else some ((handlerMethods.filter fun x => t.methods.contains x).map fun x => pkg ++ '.' :: (name ++ '.' :: x))

end Verif.HandlerValue
