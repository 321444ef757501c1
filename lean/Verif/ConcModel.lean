import Verif.Assoc
/-!
# Model: the shared caches under concurrency

internal/spec/regex_cache.go:36-63 (cachedRegex), 91-116 (cachedMatch),
internal/metadata/typeref.go:26-54 (TypeRefOf), internal/metadata/types.go:81-98 (StringPool.Get).
Any number of goroutines; each critical section (a read under RLock, or everything under Lock) is one
atomic step, and everything between two critical sections is local.  Compiling, matching and parsing
are arbitrary functions; every compilation and every parse makes a new object.
-/

namespace Verif.ConcModel
open Verif.Common

/-- What the library does: compile a pattern, match a value, parse the type string of a pool index. -/
structure Lib where
  Re : Type
  Ref : Type
  compile : String → Option Re
  isMatch : Re → String → Bool
  parse : Nat → Ref

/-- Where a goroutine is. -/
inductive Thread
  /-- cachedRegex: before the read, before the write lock, returned -/
  | rx0 (p : String) | rx1 (p : String) | rxDone (p : String) (r : Option Nat)
  /-- cachedMatch: before its read, before cachedRegex's read, before cachedRegex's write lock, before
  its own write lock, returned -/
  | m0 (p v : String) | m1 (p v : String) | m2 (p v : String) | m3 (p v : String) (b : Bool) | mDone (p v : String) (b : Bool)
  /-- TypeRefOf: before the read, before parsing, before the write lock, returned -/
  | t0 (id : Nat) | t1 (id : Nat) | t2 (id ref : Nat) | tDone (id ref : Nat)

/-- The shared state: objects made so far, the caches, the goroutines. -/
structure State (L : Lib) where
  regexes : List L.Re
  rxCache : List (String × Nat)
  matchCache : List (String × List (String × Bool))
  refs : List L.Ref
  refCache : List (Nat × Nat)
  threads : Nat → Thread

/-- Goroutine `i` moves to `t`. -/
def goto {L : Lib} (s : State L) (i : Nat) (t : Thread) : State L := { s with threads := fun j => if j = i then t else s.threads j }

/-- regex_cache.go:46-62: the section under the write lock, and what it returns. -/
def lockedRegex {L : Lib} (s : State L) (p : String) : State L × Option Nat :=
  match mget s.rxCache p with
  | some re => (s, some re)
  | none =>
    match L.compile p with
    | none => (s, none)
    | some re => ({ s with regexes := s.regexes ++ [re], rxCache := mset s.rxCache p s.regexes.length }, some s.regexes.length)

/-- regex_cache.go:102: `err == nil && re.MatchString(value)`. -/
def matched {L : Lib} (s : State L) (r : Option Nat) (v : String) : Bool :=
  match r with
  | none => false
  | some re => match s.regexes[re]? with
    | some x => L.isMatch x v
    | none => false

/-- regex_cache.go:104-111. -/
def storeMatch {L : Lib} (s : State L) (p v : String) (b : Bool) : State L :=
  { s with matchCache := mset s.matchCache p (mset ((mget s.matchCache p).getD []) v b) }

/-- typeref.go:40-53. -/
def storeRef {L : Lib} (s : State L) (id ref : Nat) : State L × Nat :=
  match mget s.refCache id with
  | some r => (s, r)
  | none => ({ s with refCache := mset s.refCache id ref }, ref)

/-- regex_cache.go:92-98. -/
def cachedResult {L : Lib} (s : State L) (p v : String) : Option Bool := (mget s.matchCache p).bind fun inner => mget inner v

/-- One step of goroutine `i`. -/
def step {L : Lib} (s : State L) (i : Nat) : State L :=
  match s.threads i with
  | .rx0 p => match mget s.rxCache p with
    | some re => goto s i (.rxDone p (some re))
    | none => goto s i (.rx1 p)
  | .rx1 p => goto (lockedRegex s p).1 i (.rxDone p (lockedRegex s p).2)
  | .m0 p v => match cachedResult s p v with
    | some b => goto s i (.mDone p v b)
    | none => goto s i (.m1 p v)
  | .m1 p v => match mget s.rxCache p with
    | some re => goto s i (.m3 p v (matched s (some re) v))
    | none => goto s i (.m2 p v)
  | .m2 p v => goto (lockedRegex s p).1 i (.m3 p v (matched (lockedRegex s p).1 (lockedRegex s p).2 v))
  | .m3 p v b => goto (storeMatch s p v b) i (.mDone p v b)
  | .t0 id => match mget s.refCache id with
    | some r => goto s i (.tDone id r)
    | none => goto s i (.t1 id)
  | .t1 id => goto { s with refs := s.refs ++ [L.parse id] } i (.t2 id s.refs.length)
  | .t2 id ref => goto (storeRef s id ref).1 i (.tDone id (storeRef s id ref).2)
  | .rxDone _ _ | .mDone _ _ _ | .tDone _ _ => s

/-- A schedule: which goroutine moves next. -/
def exec {L : Lib} (s : State L) : List Nat → State L
  | [] => s
  | i :: is => exec (step s i) is

/-- What a goroutine is started with. -/
inductive Request
  | regex (p : String)
  | match (p v : String)
  | typeRef (id : Nat)

def begin : Request → Thread
  | .regex p => .rx0 p
  | .match p v => .m0 p v
  | .typeRef id => .t0 id

/-- Empty caches, every goroutine with its request. -/
def start (L : Lib) (req : Nat → Request) : State L := ⟨[], [], [], [], [], fun i => begin (req i)⟩

/-! ## The string pool, which has no lock -/

/-- types.go:81-98: before the map read, before `len`, before the map write, before the append. -/
inductive PoolThread
  | g0 (s : String) | g1 (s : String) | g2 (s : String) (idx : Nat) | g3 (s : String) (idx : Nat) | gDone (s : String) (idx : Nat)
  deriving DecidableEq

structure Pool where
  strings : List (String × Nat)
  values : List String
  threads : List PoolThread

def poolStep (p : Pool) (i : Nat) : Pool :=
  match p.threads[i]? with
  | some (.g0 s) => match mget p.strings s with
    | some idx => { p with threads := p.threads.set i (.gDone s idx) }
    | none => { p with threads := p.threads.set i (.g1 s) }
  | some (.g1 s) => { p with threads := p.threads.set i (.g2 s p.values.length) }
  | some (.g2 s idx) => { p with strings := mset p.strings s idx, threads := p.threads.set i (.g3 s idx) }
  | some (.g3 s idx) => { p with values := p.values ++ [s], threads := p.threads.set i (.gDone s idx) }
  | _ => p

def poolExec (p : Pool) : List Nat → Pool
  | [] => p
  | i :: is => poolExec (poolStep p i) is

end Verif.ConcModel
