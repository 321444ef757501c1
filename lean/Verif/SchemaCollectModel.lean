import Verif.SchemaGenModel

/-!
# Collecting the used types of the routes

Models `collectUsedTypesFromRoutes` and `preprocessingBodyType`.
-/

namespace Verif.SchemaGen

open Verif.Common

/-- `preprocessingBodyType` (extractor.go 2307-2318): one leading `[]`, then one `*`,
is cut off. -/
def bodyKey : Ty → Ty
  | .slice e => derive e
  | t => derive t

/-- What component generation reads of a route: the body types of its request and
responses, polymorphic members included, as the route records them (after
`preprocessingBodyType`), and the types mapped for it. -/
structure RouteTypes where
  bodies : List Ty
  used : List (Ty × Schema)
  deriving DecidableEq, Repr, Inhabited

/-- One route of `collectUsedTypesFromRoutes` (mapper.go 1103-1148): the bodies are
marked without a schema, then the used types with theirs, in any order.  Left out are
the parameters' references (1133-1143): their last path segment is a component's name,
not a type's, and a component of that name exists or a placeholder is made. -/
def collectRoute (used : List (Ty × Schema)) (r : RouteTypes) : List (Ty × Schema) :=
  r.used.foldl (fun u kv => (mark { used := u } kv.1 kv.2).used)
    (r.bodies.foldl (fun u t => (mark { used := u } t .absent).used) used)

/-- `collectUsedTypesFromRoutes` (mapper.go 1100-1151). -/
def collect (routes : List RouteTypes) : List (Ty × Schema) := routes.foldl collectRoute []

end Verif.SchemaGen
