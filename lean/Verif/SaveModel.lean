import Verif.SourceModel

/-!
# Writing files: configurations saved from the web UI, documents written by the command

Models `handleSaveConfig` (cmd/apispecui/main.go 1975-2021) and the file part of `writeOutput`
(cmd/apispec/main.go 506-560) as a transition system.  Every request runs in a goroutine of its own (net/http) and
every command in a process of its own, so any number of jobs interleave; a crash is an execution that ends.
-/
namespace Verif.SaveModel

open Verif.SourceModel (Path Str)

/-- One request or command. -/
structure Job where
  path : Path
  /-- handleSaveConfig with Overwrite unset: refuse to write over a file (main.go:1997-2002) -/
  guarded : Bool
  /-- handleSaveConfig encodes into a buffer before it opens the file (2008-2016); writeOutput encodes after (cmd/apispec/main.go:514-549) -/
  early : Bool
  /-- what is encoded; none when building or encoding it fails -/
  doc : Option Str

inductive Phase
  /-- not begun -/
  | waiting
  /-- past the checks, nothing opened -/
  | checked
  /-- the file is open and this much is written -/
  | opened (written : Nat)
  | ok
  | refused
deriving DecidableEq

structure State where
  /-- regular files: none = does not exist -/
  disk : Path → Option Str
  phase : Nat → Phase

def setFile (d : Path → Option Str) (p : Path) (c : Option Str) : Path → Option Str := fun q => if q = p then c else d q

def setPhase (f : Nat → Phase) (i : Nat) (x : Phase) : Nat → Phase := fun j => if j = i then x else f j

/-- A write at an offset: what was there before it stays (a hole is filled with zeros), what follows stays. -/
def writeAt (old : Str) (n : Nat) (chunk : Str) : Str :=
  (old ++ List.replicate (n - old.length) (Char.ofNat 0)).take n ++ chunk ++ old.drop (n + chunk.length)

/-- The steps of the jobs; `jobs i` is what the i-th one does. -/
inductive Step (jobs : Nat → Job) : State → State → Prop
  /-- main.go:1980-1996: bad request, bad path, no such directory -/
  | reject {s} (i : Nat) : s.phase i = .waiting → Step jobs s { s with phase := setPhase s.phase i .refused }
  /-- main.go:1997-2002 -/
  | conflict {s} (i : Nat) : s.phase i = .waiting → (jobs i).guarded = true → (s.disk (jobs i).path).isSome = true →
      Step jobs s { s with phase := setPhase s.phase i .refused }
  /-- main.go:1997-2002, nothing there or not asked -/
  | check {s} (i : Nat) : s.phase i = .waiting → ((jobs i).guarded = true → s.disk (jobs i).path = none) →
      Step jobs s { s with phase := setPhase s.phase i .checked }
  /-- main.go:2003-2015: building or encoding fails before the file is opened -/
  | unrendered {s} (i : Nat) : s.phase i = .checked → (jobs i).early = true → (jobs i).doc = none →
      Step jobs s { s with phase := setPhase s.phase i .refused }
  /-- opening fails (main.go:2018; cmd/apispec/main.go:516-519) -/
  | noOpen {s} (i : Nat) : s.phase i = .checked → Step jobs s { s with phase := setPhase s.phase i .refused }
  /-- O_WRONLY|O_CREATE|O_TRUNC (os.WriteFile; cmd/apispec/main.go:516) -/
  | open {s} (i : Nat) : s.phase i = .checked → ((jobs i).early = true → (jobs i).doc.isSome = true) →
      Step jobs s ⟨setFile s.disk (jobs i).path (some []), setPhase s.phase i (.opened 0)⟩
  /-- cmd/apispec/main.go:530-541, 543-546: encoding fails after the file is opened; or a write fails -/
  | fail {s} (i n : Nat) : s.phase i = .opened n → Step jobs s { s with phase := setPhase s.phase i .refused }
  /-- some bytes are written -/
  | write {s} (i n k : Nat) (doc old : Str) : s.phase i = .opened n → (jobs i).doc = some doc → n + k ≤ doc.length →
      s.disk (jobs i).path = some old →
      Step jobs s ⟨setFile s.disk (jobs i).path (some (writeAt old n ((doc.drop n).take k))), setPhase s.phase i (.opened (n + k))⟩
  /-- everything is written; the answer is "ok" -/
  | finish {s} (i : Nat) (doc : Str) : (jobs i).doc = some doc → s.phase i = .opened doc.length →
      Step jobs s { s with phase := setPhase s.phase i .ok }

/-- Executions: any number of steps of any jobs in any order. -/
inductive Run (jobs : Nat → Job) : State → State → Prop
  | refl {s} : Run jobs s s
  | step {a b c} : Run jobs a b → Step jobs b c → Run jobs a c

end Verif.SaveModel
