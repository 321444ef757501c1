import Verif.Assoc
/-!
# Model: where the trace of an operation starts

`resolveHandlerKey`, `resolveInterfaceImplHandler`, `implMethodPos`, `splitOpID`, `splitOpID3`, `candidateHandlerKeys` and
`findFuncLitInFile` (internal/insight/endpoint.go:241-437, 459-487).

Simplified: positions are a file and a line; `sameSourceFile` is a parameter; the names of implementers are split into
package and type; of the two results only the key is kept.  Go's maps are lists in any order.
-/

namespace Verif.TraceRoot
open Verif.Common

abbrev Str := List Char

/-- A function or method: name, file and line. -/
structure Decl where
  name : Str
  file : Str
  line : Nat

structure TypeD where
  name : Str
  methods : List Decl
  iface : Bool
  implementedBy : List (Str × Str)

structure FileD where
  types : List TypeD
  funcs : List Decl

structure PkgD where
  types : List TypeD
  files : List FileD

/-- The packages; the functions that call something, by key; and those among them that are function literals, with file
and line, in the order of keys. -/
structure Meta where
  pkgs : List (Str × PkgD)
  callers : List Str
  lits : List (Str × Str × Nat)

/-- endpoint.go:374-392 -/
def splitOpID (op : Str) : Str × Str :=
  let rest := (op.reverse.takeWhile (fun c => decide (c ≠ '/'))).reverse
  let head := (op.reverse.dropWhile (fun c => decide (c ≠ '/'))).reverse
  match rest.dropWhile (fun c => decide (c ≠ '.')) with
  | [] => ([], [])
  | _ :: tail => (head ++ rest.takeWhile (fun c => decide (c ≠ '.')), (tail.reverse.takeWhile (fun c => decide (c ≠ '.'))).reverse)

/-- `strings.Split(s, ".")` -/
def splitDots : Str → List Str
  | [] => [[]]
  | c :: cs =>
    match splitDots cs with
    | [] => [[]]
    | p :: ps => if c = '.' then [] :: p :: ps else (c :: p) :: ps

/-- endpoint.go:331-347 -/
def splitOpID3 (op : Str) : Str × Str × Str :=
  let rest := (op.reverse.takeWhile (fun c => decide (c ≠ '/'))).reverse
  let head := (op.reverse.dropWhile (fun c => decide (c ≠ '/'))).reverse
  match splitDots rest with
  | p :: q :: qs =>
    match (q :: qs).reverse with
    | m :: r :: _ => (head ++ p, r, m)
    | [m] => (head ++ p, [], m)
    | [] => ([], [], [])
  | _ => ([], [], [])

/-- The part `scanType` of endpoint.go:404-414. -/
def scanType (pkg name : Str) (t : TypeD) : List (Str × Str × Nat) :=
  (t.methods.filter fun d => decide (d.name = name)).map fun d => (pkg ++ '.' :: (t.name ++ '.' :: name), d.file, d.line)

/-- endpoint.go:398-437: the candidates with their positions. -/
def candidates (m : Meta) (pkg name : Str) : List (Str × Str × Nat) :=
  if pkg = [] ∨ name = [] then []
  else match mget m.pkgs pkg with
    | none => []
    | some p => p.types.flatMap (scanType pkg name) ++ p.files.flatMap fun f =>
        f.types.flatMap (scanType pkg name) ++
        (f.funcs.filter fun d => decide (d.name = name)).map fun d => (pkg ++ '.' :: name, d.file, d.line)

/-- The loop of endpoint.go:473-483. -/
def nearest (same : Str → Str → Bool) (file : Str) (after : Nat) : Option (Str × Nat) → List (Str × Str × Nat) → Option (Str × Nat)
  | best, [] => best
  | best, (k, f, l) :: ls =>
    if !same file f || decide (l < after) then nearest same file after best ls
    else match best with
      | some (_, b) => if l < b then nearest same file after (some (k, l)) ls else nearest same file after best ls
      | none => nearest same file after (some (k, l)) ls

/-- endpoint.go:459-487 -/
def findFuncLitInFile (same : Str → Str → Bool) (m : Meta) (file : Str) (after : Nat) : Option Str :=
  (nearest same file after none m.lits).map (·.1)

/-- endpoint.go:351-369 -/
def implMethodPos (m : Meta) (pkg type name : Str) : Option (Str × Nat) :=
  match mget m.pkgs pkg with
  | none => none
  | some p => (p.files.flatMap fun f => (f.types.filter fun t => decide (t.name = type)).flatMap fun t =>
      t.methods.filter fun d => decide (d.name = name)).head?.map fun d => (d.file, d.line)

/-- The loop of endpoint.go:298-320 over the implementers of an interface. -/
def implementer (same : Str → Str → Bool) (m : Meta) (name : Str) : List (Str × Str) → Option Str
  | [] => none
  | (p, t) :: r =>
    let key := p ++ '.' :: (t ++ '.' :: name)
    if m.callers.contains key then some key
    else match implMethodPos m p t name with
      | some (f, l) =>
        if f = [] then implementer same m name r
        else match findFuncLitInFile same m f l with
          | some k => some k
          | none => implementer same m name r
      | none => implementer same m name r

/-- endpoint.go:283-325 -/
def resolveInterfaceImplHandler (same : Str → Str → Bool) (m : Meta) (op : Str) : Option Str :=
  let (pkg, recv, name) := splitOpID3 op
  if pkg = [] ∨ recv = [] ∨ name = [] then none
  else match mget m.pkgs pkg with
    | none => none
    | some p => p.files.findSome? fun f =>
        match f.types.find? (fun t => decide (t.name = recv)) with
        | some t => if t.iface then implementer same m name t.implementedBy else none
        | none => none

/-- endpoint.go:241-275 -/
def resolveHandlerKey (same : Str → Str → Bool) (m : Meta) (op : Str) : Str :=
  if m.callers.contains op then op
  else
    let cs := candidates m (splitOpID op).1 (splitOpID op).2
    match (cs.map (·.1)).find? (fun k => m.callers.contains k) with
    | some k => k
    | none =>
      match (cs.find? fun c => decide (c.2.1 ≠ [])).bind fun c => findFuncLitInFile same m c.2.1 c.2.2 with
      | some k => k
      | none => (resolveInterfaceImplHandler same m op).getD op

end Verif.TraceRoot
