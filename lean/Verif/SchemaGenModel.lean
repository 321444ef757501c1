import Verif.Assoc

/-!
# Schema generation: from Go types to OpenAPI schemas

Models `mapGoTypeToOpenAPISchema`, `generateSchemaFromType`,
`generateStructSchema`, `generateAliasSchema`, `resolveUnderlyingType`,
`markUsedType`, `mapGoTypeForRoute` and `generateSchemas` of
`/repo/internal/spec/mapper.go`.

The code passes Go types around as text and parses them on the way.  Here a type
is the tree that text denotes.  What is left out:

* parsing: that text and tree correspond is the business of `TypeModel` (C28);
  `untypedConstantDefault` and `unqualifyContainer` (2796-2799) repair text that
  denotes no tree and have no counterpart;
* generic instances: `Page[User]` is a name like any other here (`base` is the
  whole text) and the type table answers for the instance;
* channels, functions and constrained type parameters;
* everything that decorates a schema (enum values, validation tags, lengths).
-/

namespace Verif.SchemaGen

open Verif.Common

/-- A Go type, as `typemodel.Parse` reads it (typemodel.go 131-256).  An anonymous
struct is a chain of fields ending in `lit`. -/
inductive Ty where
  /-- A name `IsPrimitiveType` knows (metadata.go 738-744). -/
  | prim (n : String)
  /-- A declared name; `pkg = ""` when the text carries no package. -/
  | name (pkg base : String)
  | ptr (e : Ty)
  | slice (e : Ty)
  | arr (len : String) (e : Ty)
  | map (key value : Ty)
  /-- `struct{}` with no (more) fields. -/
  | lit
  /-- One serialised field of an anonymous struct, then the others. -/
  | fld (label : String) (t : Ty) (rest : Ty)
  deriving DecidableEq, Repr, Inhabited

/-- A schema.  `absent` is Go's nil pointer; an object's properties are a chain
ending in `obj` (`{type: object}`). -/
inductive Schema where
  | absent
  /-- `$ref` to the component of a type. -/
  | ref (t : Ty)
  /-- A schema with a scalar `type` and nothing else but a format. -/
  | scalar (kind : String)
  | obj
  | prop (label : String) (s : Schema) (rest : Schema)
  | array (items : Schema)
  /-- `{type: object, additionalProperties: …}`. -/
  | mapOf (value : Schema)
  /-- `unresolvedExternalPlaceholder`: an object with an explanation. -/
  | hole (t : Ty)
  deriving DecidableEq, Repr, Inhabited

/-- The serialised fields of a declared struct (metadata `Type.Fields`, without
those `generateStructSchema` skips at 1473).  `sub` is a field whose type is an
inline struct: the metadata gives it a synthetic name ending in `_nested`
(metadata.go 1037, 1092). -/
inductive Body where
  | done
  | field (label : String) (t : Ty) (rest : Body)
  | sub (label key : String) (inner : Body) (rest : Body)
  deriving DecidableEq, Repr, Inhabited

/-- The right-hand side of `type A B`: an identifier, as written, hence without a
package (metadata.go 714-717). -/
inductive Ident where
  | builtin (n : String)
  | declared (n : String)
  deriving DecidableEq, Repr, Inhabited

@[reducible] def Ident.ty : Ident → Ty
  | .builtin n => .prim n
  | .declared n => .name "" n

/-- A type declaration, by the kinds of `processTypeKind` (metadata.go 702-729):
`alias` is `type A B`; `other` has an underlying container (`none`: not recorded).
`pkg` is the declaring package. -/
inductive Decl where
  | struct (pkg : String) (b : Body)
  | iface
  | alias (pkg : String) (target : Ident)
  | other (pkg : String) (target : Option Ty)
  deriving DecidableEq, Repr, Inhabited

/-- What the generator consults and does not change.

* `find`: `typeByName` on the parsed name (mapper.go 1209-1232).
* `conf`: `lookupConfigSchema`, the user's `typeMapping` (external_types.go 99-116).
* `extern`: `resolveExternalType` for a bare name (external_types.go 147-211).
* `extMap`: a user `externalTypes` entry matched by `mapGoTypeToOpenAPISchema`
  (mapper.go 2835-2841), `extGen`: the same matched after the separator is
  rewritten (mapper.go 1263-1270, 1036-1043). -/
structure Ctx where
  find : String → String → Option Decl
  conf : Ty → Option Schema := fun _ => none
  extern : Ty → Option Schema := fun _ => none
  extMap : Ty → Option Schema := fun _ => none
  extGen : Ty → Option Schema := fun _ => none

/-! ## Tests on types -/

/-- `strings.TrimPrefix(goType, "*")`. -/
def derive : Ty → Ty
  | .ptr e => e
  | t => t

def isPrimName : Ty → Bool
  | .prim _ => true
  | _ => false

/-- `metadata.IsPrimitiveType` (metadata.go 733-797): a listed name, or a slice,
array or map of listed names, under at most one pointer. -/
def isPrim (t : Ty) : Bool :=
  match derive t with
  | .prim _ => true
  | .slice e => isPrimName e
  | .arr _ e => isPrimName e
  | .map k v => isPrimName k && isPrimName v
  | _ => false

/-- `strings.Contains(key, "map[")`. -/
def hasMap : Ty → Bool
  | .ptr e => hasMap e
  | .slice e => hasMap e
  | .arr _ e => hasMap e
  | .map _ _ => true
  | .fld _ t r => hasMap t || hasMap r
  | _ => false

/-- `isAnonStructLiteral`: `strings.Contains(goType, "struct{")`
(mapper.go 3255-3257). -/
def hasLit : Ty → Bool
  | .ptr e => hasLit e
  | .slice e => hasLit e
  | .arr _ e => hasLit e
  | .map k v => hasLit k || hasLit v
  | .lit => true
  | .fld _ _ _ => true
  | _ => false

def isSlice : Ty → Bool
  | .slice _ => true
  | _ => false

/-- `TypeRef.Core` (typemodel.go 478-488): through pointers, slices and arrays. -/
def core : Ty → Ty
  | .ptr e => core e
  | .slice e => core e
  | .arr _ e => core e
  | t => t

def isInfix (p : List Char) : List Char → Bool
  | [] => p.isEmpty
  | c :: cs => p.isPrefixOf (c :: cs) || isInfix p cs

/-- A name that may stand for a component: not ending in `_nested` and not a
synthetic anonymous-struct name (mapper.go 3226, 3234; metadata.go 919, 960). -/
def refable (base : String) : Bool :=
  !("_nested".toList.isSuffixOf base.toList) &&
    !(isInfix "_apispec_anonstruct_".toList base.toList)

/-- `canAddRefSchemaForType` (mapper.go 3207-3249). -/
def canAddRef (t : Ty) : Bool :=
  !isPrim t && !isSlice t && !hasMap t && !hasLit t &&
    match core t with
    | .name _ b => refable b
    | _ => true

/-- `isPrimitiveShapedSchema` (mapper.go 3437-3448). -/
def primShaped : Schema → Bool
  | .scalar _ => true
  | .array _ => true
  | _ => false

def isRef : Schema → Bool
  | .ref _ => true
  | _ => false

/-- `shouldPromoteToComponent` (mapper.go 157-165). -/
def promote (t : Ty) (q : Schema) : Bool :=
  q != .absent && !isRef q && canAddRef t && !primShaped q

/-- `addRefSchemaForType` (mapper.go 3450-3454). -/
def addRef (t : Ty) : Schema := .ref (derive t)

/-- `isInlineExternalType` (external_types.go 219-222). -/
def inlineExt (c : Ctx) (t : Ty) : Bool :=
  match c.extern t with
  | some q => primShaped q
  | none => false

/-- The innermost name under every constructor, a map's value included
(`namedLeaf`, mapper.go 1414-1425). -/
def leaf : Ty → Ty
  | .ptr e => leaf e
  | .slice e => leaf e
  | .arr _ e => leaf e
  | .map _ v => leaf v
  | t => t

/-- `qualifyFieldType` / `qualifyTypeRef` (mapper.go 1371-1408): the declaring
package goes to the innermost name if it has none.  An anonymous struct gets the
package glued in front, which every reader ignores, so it is unchanged here. -/
def qualify (pkg : String) : Ty → Ty
  | .ptr e => .ptr (qualify pkg e)
  | .slice e => .slice (qualify pkg e)
  | .arr n e => .arr n (qualify pkg e)
  | .map k v => .map k (qualify pkg v)
  | .name p b => if p = "" then .name pkg b else .name p b
  | t => t

/-! ## resolveUnderlyingType (mapper.go 1659-1715) -/

/-- The alias target of the type a piece of text names, if it is an alias
(1684-1695). `findTypesInMetadata` looks up the parsed core. -/
def aliasOf (c : Ctx) (t : Ty) : Option Ty :=
  if isPrim t then none
  else match core t with
    | .name p b =>
      match c.find p b with
      | some (.alias _ target) => some target.ty
      | _ => none
    | _ => none

/-- The text left after `map[` is cut (1670) reads as a name whose package is
`K]pkg` (typemodel.go 235-255): no such package exists, so the lookup falls back
to the bare name; a value without a package is not found at all. -/
def aliasOfMap (c : Ctx) (v : Ty) : Option Ty :=
  match leaf v with
  | .name p b =>
    if p = "" then none
    else match c.find "" b with
      | some (.alias _ target) => some target.ty
      | _ => none
  | _ => none

/-- `resolveUnderlyingType`: one leading `[]`, then `map[`, then `[]`, then `*` are
cut off, and the first of those that was present is put back. -/
def resolve (c : Ctx) (t : Ty) : Option Ty :=
  match t with
  | .slice (.map _ v) => (aliasOfMap c v).map .slice
  | .map _ v => (aliasOfMap c v).map fun u => .map u u
  | .slice (.slice (.ptr e)) => (aliasOf c e).map .slice
  | .slice (.slice e) => (aliasOf c e).map .slice
  | .slice (.ptr e) => (aliasOf c e).map .slice
  | .slice e => (aliasOf c e).map .slice
  | .ptr e => (aliasOf c e).map .ptr
  | e => aliasOf c e

/-! ## The text surgery of the map branch (mapper.go 2983-2999)

The map branch looks for the first `map[` anywhere in the text and for the first
`]`.  It is meant for map types, but an anonymous struct whose text has no bracket
before its first map field satisfies the test too.  The text after the key, with
the text before the map glued in front by a dot, is then mapped as the value. -/

/-- What the first bracket of a type's text opens: none, a slice or array, or a map
— with its key and the type read from the glued text. -/
inductive Scan where
  | none
  | other
  | found (key : Ty) (glued : Ty)
  deriving DecidableEq, Repr

/-- A map's value with a dot glued in front.  The text of a container behind the dot
reads as one unknown name. -/
def glue : Ty → Ty
  | .prim n => .name "" ("." ++ n)
  | .name p b => if p = "" then .name "" ("." ++ b) else .name ("." ++ p) b
  | _ => .name "" "."

def scan : Ty → Scan
  | .ptr e =>
    match scan e with
    | .found k g => .found k (.ptr g)
    | r => r
  | .slice _ => .other
  | .arr _ _ => .other
  | .map k v => .found k (glue v)
  | .fld l t r =>
    match scan t with
    | .none =>
      match scan r with
      | .found k g => .found k (.fld l t g)
      | x => x
    | .other => .other
    | .found k g => .found k (.fld l g r)
  | _ => .none

/-! ## State -/

abbrev Comps := List (Ty × Schema)

/-- `usedTypes` and the two halves of `visitedTypes` (the keys carry the name of
the function that set them: mapper.go 1241, 2780). -/
structure St where
  used : List (Ty × Schema) := []
  vis : List Ty := []
  gen : List Ty := []
  deriving DecidableEq, Repr, Inhabited

/-- A used type with a schema. -/
def usedSome (s : St) (t : Ty) : Bool :=
  match mget s.used t with
  | some q => q != .absent
  | none => false

/-- `markUsedType` (mapper.go 1717-1733). -/
def mark (s : St) (t : Ty) (q : Schema) : St :=
  if usedSome s t then s
  else
    let s1 := { s with used := mset s.used t q }
    match t with
    | .ptr e => if usedSome s1 e then s1 else { s1 with used := mset s1.used e q }
    | _ => s1

/-- `maps.Copy(dst, src)`. -/
def copy (dst src : Comps) : Comps := src.foldl (fun d kv => mset d kv.1 kv.2) dst

/-- Setting a property of an object: a later field of the same name replaces it. -/
def setProp (o : Schema) (label : String) (q : Schema) : Schema :=
  match o with
  | .prop l s r => if l = label then .prop l q r else .prop l s (setProp r label q)
  | r => .prop label q r

/-- The default mappings (mapper.go 3148-3164); a listed name without one
(`error`, `complex64`, `nil`) has no schema. -/
def primSchema (n : String) : Schema :=
  if n = "string" then .scalar "string"
  else if n ∈ ["int", "int8", "int16", "int32", "int64", "rune"] then .scalar "integer"
  else if n ∈ ["uint", "uint8", "uint16", "uint32", "uint64", "byte"] then .scalar "natural"
  else if n ∈ ["float32", "float64"] then .scalar "number"
  else if n = "bool" then .scalar "boolean"
  else if n = "time.Time" then .scalar "date-time"
  else if n ∈ ["interface{}", "struct{}", "any"] then .obj
  else .absent

/-! ## The generator

Every call of the generator makes a decision, then at most one further call, then
puts the answer together.  The decision is a `Plan`; the four recursive functions
at the end of this section carry plans out. -/

/-- What every function returns: the schema, the components found on the way and
the state. -/
abbrev Ans := Schema × Comps × St

/-- A decision: an answer, or one further call and what to make of its answer. -/
inductive Plan where
  | done (r : Ans)
  /-- `mapGoTypeToOpenAPISchema` on a type. -/
  | go (s : St) (t : Ty) (fin : Ans → Ans)
  /-- `schemaFromAnonStructLiteral` on a chain of fields. -/
  | lit (s : St) (t : Ty) (fin : Ans → Ans)
  /-- `generateSchemaFromType` on a declaration. -/
  | decl (s : St) (key : Ty) (d : Decl) (fin : Ans → Ans)
  /-- The field loop of `generateStructSchema`. -/
  | body (s : St) (pkg : String) (b : Body) (fin : Ans → Ans)

/-- Add the components found by the callee: `maps.Copy(schemas, newSchemas)`. -/
def gather (out : Comps) : Ans → Ans
  | (q, more, s) => (q, copy out more, s)

/-- Is the element a byte?  An array looks at the resolved element too
(mapper.go 2890, 3061). -/
def isByte (fixed : Bool) (e r : Ty) : Bool :=
  e == .prim "byte" || (if fixed then r == .prim "byte" else e == .prim "uint8")

/-- An array whose element is in use already (mapper.go 2925-2936, 3082-3090). -/
def finStored (r : Ty) (out : Comps) : Ans → Ans
  | (q, more, s) => (.array (addRef r), copy out more, mark s r q)

/-- An array around its element's schema, which becomes a component if it is worth
one (mapper.go 2939-2979, 3093-3130). -/
def finElem (r : Ty) (out : Comps) : Ans → Ans
  | (q, more, s) =>
    if promote r q then (.array (addRef r), mset (copy out more) r q, s)
    else (.array q, copy out more, s)

/-- A map around its value's schema (mapper.go 3007-3044). -/
def finMap (r : Ty) (out : Comps) : Ans → Ans
  | (q, more, s) =>
    if promote r q then (.mapOf (addRef r), mset (copy out more) r q, s)
    else (.mapOf q, copy out more, s)

/-- The array branch (mapper.go 2879-2980, `fixed`) and the slice branch
(3054-3131) of `mapGoTypeToOpenAPISchema`.  `promote` fails for a primitive, so the
slice branch's extra test of the element (3099) and the array's separate path for
primitive elements (2902-2915) need no case. -/
def planElem (c : Ctx) (s : St) (fixed : Bool) (e : Ty) (out : Comps) : Plan :=
  let r := (resolve c e).getD e
  if isByte fixed e r then .done (.scalar "byte", out, s)
  else if isPrim r || inlineExt c e then .go s r (finElem r out)
  else match mget s.used e with
    | none => .go s r (finElem r out)
    | some .absent => .go s r (finStored r out)
    | some q => .done (finStored r out (q, [], s))

/-- The placeholder and the reference to it (mapper.go 3189-3201). -/
def unresolved (t : Ty) (out : Comps) (s : St) : Ans :=
  (addRef t, if (mget out t).isSome then out else mset out t (.hole t), s)

/-- What `mapGoTypeToOpenAPISchema` makes of a declared type (mapper.go 3174-3184,
and 3189-3201 when no schema came back). -/
def finName (t : Ty) (out : Comps) : Ans → Ans
  | (q, more, s) =>
    if q = .absent then unresolved t out s
    else if canAddRef t then
      (addRef t, copy (mset out t q) more, mark s t (addRef t))
    else (q, copy out more, mark s t q)

/-- The dispatch on the shape of the type (mapper.go 2866-3204). -/
def planShape (c : Ctx) (s : St) (out : Comps) (t : Ty) : Plan :=
  match t with
  | .ptr e => .go s e (gather out)
  | .arr _ e => planElem c s true e out
  | .map k v =>
    if k = .prim "string" then
      let r := (resolve c v).getD v
      .go s r (finMap r out)
    else .done (.obj, out, s)
  | .slice e => planElem c s false e out
  | .lit => .done (.obj, out, s)
  | .fld _ _ _ =>
    match scan t with
    | .found k g =>
      if k = .prim "string" then .go s g (finMap g out)
      else .done (.obj, out, s)
    | _ => .lit s t (gather out)
  | .prim n => .done (primSchema n, out, s)
  | .name p b =>
    match c.find p b with
    | some d => .decl s t d (finName t out)
    | none => .done (unresolved t out s)

/-- A user `externalTypes` entry contributes its component (mapper.go 2835-2841). -/
def ownComps (c : Ctx) (t : Ty) : Comps :=
  match c.extMap t with
  | some q => [(t, q)]
  | none => []

/-- `mapGoTypeToOpenAPISchema` (mapper.go 2783-3205) up to its first further
call: the cycle guard, the guard on used types, the user's `typeMapping`, the
known external types, then the shape of the type. -/
def planGo (c : Ctx) (s : St) (t : Ty) : Plan :=
  let d := derive t
  if (s.vis.contains t || s.vis.contains d) && canAddRef d && !inlineExt c d then
    .done (addRef t, [], s)
  else
    let s := { s with vis := t :: s.vis }
    if usedSome s d && canAddRef d && !inlineExt c d then .done (addRef d, [], s)
    else match c.conf t with
      | some q => .done (q, [], if primShaped q then s else mark s t q)
      | none =>
        match c.extern t with
        | some q => .done (q, ownComps c t,
            if q != .absent && !primShaped q then mark s t q else s)
        | none => planShape c s (ownComps c t) t

/-- A declaration's schema is recorded as its use (mapper.go 1298-1302). -/
def finDecl (key : Ty) : Ans → Ans
  | (q, out, s) => (q, out, mark s key q)

/-- `generateSchemaFromType` (mapper.go 1244-1303) up to its first further call. -/
def planDecl (c : Ctx) (s : St) (key : Ty) (d : Decl) : Plan :=
  if s.gen.contains key && canAddRef key then .done (addRef key, [], s)
  else
    let s := { s with gen := key :: s.gen }
    if usedSome s key && canAddRef key then
      .done (addRef key, [(key, (mget s.used key).getD .absent)], s)
    else match c.extGen key with
      | some q => .done (q, [], mark s key q)
      | none =>
        match d with
        | .struct pkg b => .body s pkg b (finDecl key)
        | .iface => .done (finDecl key (.obj, [], s))
        | .alias pkg u => .go s (qualify pkg u.ty) (finDecl key)
        | .other pkg (some u) => .go s (qualify pkg u) (finDecl key)
        | .other _ none => .done (finDecl key (.obj, [], s))

/-- A field whose type is in use already (mapper.go 1538-1547). -/
def finUsed (d : Ty) (out : Comps) : Ans → Ans
  | (q, more, s) => (addRef d, mset (copy out more) d q, mark s d q)

/-- A field whose type is not (mapper.go 1550-1560). -/
def finField (d : Ty) (out : Comps) : Ans → Ans
  | (q, more, s) =>
    if promote d q then (addRef d, copy (mset out d q) more, s)
    else (q, copy out more, s)

/-- The type a field is mapped as: an alias is replaced by its target unless the
text starts with `[]` or contains a map, and a name gets the package of the struct
(mapper.go 1492-1498, 1524-1528). -/
def fieldType (c : Ctx) (pkg : String) (t : Ty) : Ty :=
  let t := if isSlice t || hasMap t then t else (resolve c t).getD t
  if isPrim t then t else qualify pkg t

/-- One field that is not an inline struct (mapper.go 1492-1561). -/
def planField (c : Ctx) (s : St) (pkg : String) (t : Ty) (out : Comps) : Plan :=
  let t := fieldType c pkg t
  let d := derive t
  if isPrim t || inlineExt c d then .go s d (finField d out)
  else match mget s.used d with
    | none => .go s d (finField d out)
    | some .absent => .go s t (finUsed d out)
    | some q => .done (finUsed d out (q, [], s))

mutual

/-- `mapGoTypeToOpenAPISchema`.  `none`: the call depth exceeds the fuel. -/
def mapGo (c : Ctx) : Nat → St → Ty → Option Ans
  | 0, _, _ => none
  | f + 1, s, t => run c f (planGo c s t)

/-- Carrying out a plan. -/
def run (c : Ctx) : Nat → Plan → Option Ans
  | 0, _ => none
  | _ + 1, .done r => some r
  | f + 1, .go s t fin => (mapGo c f s t).map fin
  | f + 1, .lit s t fin => (mapLit c f s t .obj []).map fin
  | f + 1, .decl s key d fin => (run c f (planDecl c s key d)).map fin
  | f + 1, .body s pkg b fin => (mapBody c f s pkg b .obj []).map fin

/-- `schemaFromAnonStructLiteral` (mapper.go 3268-3303): the fields in order. -/
def mapLit (c : Ctx) : Nat → St → Ty → Schema → Comps → Option Ans
  | 0, _, _, _, _ => none
  | f + 1, s, .fld label t rest, o, out =>
    match mapGo c f s t with
    | none => none
    | some (q, more, s) => mapLit c f s rest (setProp o label q) (copy out more)
  | _ + 1, s, _, o, out => some (o, out, s)

/-- The field loop of `generateStructSchema` (mapper.go 1466-1599). -/
def mapBody (c : Ctx) : Nat → St → String → Body → Schema → Comps → Option Ans
  | 0, _, _, _, _, _ => none
  | _ + 1, s, _, .done, o, out => some (o, out, s)
  | f + 1, s, pkg, .sub label key inner rest, o, out =>
    match run c f (planDecl c s (.name "" key) (.struct pkg inner)) with
    | none => none
    | some (q, more, s) => mapBody c f s pkg rest (setProp o label q) (copy out more)
  | f + 1, s, pkg, .field label t rest, o, out =>
    match run c f (planField c s pkg t out) with
    | none => none
    | some (q, out, s) => mapBody c f s pkg rest (setProp o label q) out

end

/-- `generateSchemaFromType`. -/
def mapDecl (c : Ctx) (f : Nat) (s : St) (key : Ty) (d : Decl) : Option Ans :=
  run c f (planDecl c s key d)

/-- `mapGoTypeForRoute` (mapper.go 84-98): map a type on behalf of a route and
record the components found in the route's used types. -/
def forRoute (c : Ctx) (f : Nat) (used : List (Ty × Schema)) (t : Ty) :
    Option (Schema × List (Ty × Schema)) :=
  match mapGo c f { used := used } t with
  | none => none
  | some (q, out, s) => some (q, out.foldl note s.used)
where
  note (used : List (Ty × Schema)) (kv : Ty × Schema) : List (Ty × Schema) :=
    if kv.2 = .absent then used
    else match mget used kv.1 with
      | some .absent => mset used kv.1 kv.2
      | some _ => used
      | none => mset used kv.1 kv.2

/-- One round of `generateSchemas` (mapper.go 1028-1097).  A round whose type is not
found, or whose core names no declaration, registers a placeholder. -/
def emit (c : Ctx) (f : Nat) (st : List (Ty × Schema) × Comps) (key : Ty) :
    Option (List (Ty × Schema) × Comps) :=
  let (used, comps) := st
  if anonKey key then some (used, comps)
  else
    let comps := asked comps
    match c.extern key with
    | some q => some (used, if q != .absent && !primShaped q then mset comps key q else comps)
    | none =>
      match lookup key with
      | none =>
        some (used, if canAddRef key && (mget comps key).isNone then mset comps key (.hole key)
          else comps)
      | some d =>
        match mapDecl c f { used := used } key d with
        | none => none
        | some (q, out, s) =>
          some (s.used, copy (if q = .absent then comps else mset comps key q) out)
where
  /-- The schema the user gave for this type (mapper.go 1036-1044); the `continue`
  there continues the inner loop, so the round goes on. -/
  asked (comps : Comps) : Comps :=
    match c.extGen key with
    | some q => mset comps key q
    | none => comps
  anonKey (t : Ty) : Bool :=
    match leaf t with
    | .name _ b => isInfix "_apispec_anonstruct_".toList b.toList
    | _ => false
  lookup (t : Ty) : Option Decl :=
    if isPrim t then none
    else match core t with
      | .name p b => c.find p b
      | _ => none

/-- `generateSchemas` (mapper.go 1024-1098): the types used when it starts, in
order; types that become used meanwhile get no round of their own. -/
def generate (c : Ctx) (f : Nat) (used : List (Ty × Schema)) (order : List Ty) (comps : Comps) :
    Option Comps :=
  (order.foldl (fun st key => st.bind fun st => emit c f st key) (some (used, comps))).map (·.2)

end Verif.SchemaGen
