import Verif.Assoc
/-!
# Model: generation requests of the UI server

cmd/apispecui/main.go:356-384 (currentDir, setDir), 803-822 (handleProject), 838-1117 (handleGenerate),
1197-1207 (handleGenerateCancel).

A state is the shared server, the request handlers and the contexts cancelled so far.  One action is one
section under the server's mutex (or one step outside it), so an execution is an arbitrary interleaving of
the sections of arbitrarily many requests.  Project directories and requests are numbers; a context is named
after its request.  What a result says is not modelled, only which run made it, from which directory and with
the configuration of which directory.
-/

namespace Verif.UiModel
open Verif.Common

/-- A generation: its number (genEpoch), the directory its configuration was read from (main.go:876) and
the one it analyses (main.go:930). -/
structure Job where
  epoch : Nat
  cfg : Nat
  dir : Nat
deriving DecidableEq

/-- main.go:307-354. -/
structure Server where
  dir : Nat
  spec : Option Job
  lastResult : Option Job
  lastErr : Option Job
  /-- metaCache: the analysis kept for a directory. -/
  cache : List (Nat × Job)
  running : Bool
  stopping : Bool
  epoch : Nat
  /-- genCancel: the request whose context it cancels. -/
  cancel : Option Nat
  /-- genPhase: the run it is a phase of; none if empty. -/
  phase : Option Nat
deriving DecidableEq

/-- Where a request is. -/
inductive Pc
  /-- handleGenerate, body decoded: the directory asked for, `force`. -/
  | start (want : Option Nat) (force : Bool)
  /-- main.go:865-869. -/
  | chosen (d : Nat) (force : Bool)
  /-- main.go:874. -/
  | dirSet (force : Bool)
  /-- main.go:876-880. -/
  | ready (cfg : Nat) (force : Bool)
  /-- main.go:892-925: the run slot is claimed. -/
  | claimed (epoch cfg : Nat)
  /-- main.go:1003-1010: the engine goroutine is started, the handler is in its select. -/
  | waiting (job : Job)
  /-- main.go:1011-1028: the handler saw its context cancelled; the background goroutine is left. -/
  | stopped (job : Job)
  /-- main.go:1030-1031: the engine's result is received, the context cancelled. -/
  | received (job : Job) (ok : Bool)
  /-- main.go:1034: `superseded()` was false. -/
  | publishing (job : Job) (ok : Bool)
  /-- main.go:1065-1079. -/
  | published (job : Job)
  /-- Only finishRun is left. -/
  | finishing (job : Job)
  /-- handleProject, directory validated. -/
  | switch (d : Nat)
  /-- handleGenerateCancel. -/
  | cancelStart
  | cancelHolds (ctx : Nat)
  | finished
deriving DecidableEq

/-- The engine goroutine of a request. -/
inductive Engine
  | idle
  | working
  | done (ok : Bool)
deriving DecidableEq

/-- What a handler answers. -/
inductive Reply
  | ok (job : Job)
  | stopped
  | superseded
  | failed
  | conflict
  | bad
deriving DecidableEq

structure Thread where
  pc : Pc
  engine : Engine
  reply : Option Reply
deriving DecidableEq

structure State where
  srv : Server
  threads : List Thread
  cancelled : List Nat
  /-- Not in the program: the generations that have published a spec, in order. -/
  completed : List Nat
deriving DecidableEq

/-- An action: a request arrives, the next section of a request is executed, its validation fails, its
handler takes the cancellation branch of the select, its engine ends, its engine reports a phase. -/
inductive Act
  | new (pc : Pc)
  | go (i : Nat)
  | fail (i : Nat)
  | stop (i : Nat)
  | engine (i : Nat) (ok : Bool)
  | phase (i : Nat)
deriving DecidableEq

/-- main.go:362-384. -/
def setDir (s : Server) (d : Nat) : Server :=
  if s.dir = d then { s with cache := [] }
  else { s with dir := d, cache := [], spec := none, lastResult := none, lastErr := none }

/-- main.go:982-992. -/
def finishRun (s : Server) (epoch : Nat) : Server :=
  if s.epoch = epoch then { s with running := false, stopping := false, cancel := none, phase := none } else s

/-- main.go:916-924. -/
def claim (s : Server) (i : Nat) : Server :=
  { s with epoch := s.epoch + 1, running := true, stopping := false, phase := some (s.epoch + 1), cancel := some i }

def setThread (s : State) (i : Nat) (t : Thread) : State := { s with threads := s.threads.set i t }

/-- The next section of request `i`. -/
def goStep (s : State) (i : Nat) (t : Thread) : Option State :=
  match t.pc with
  | .start want force => some (setThread s i { t with pc := .chosen (want.getD s.srv.dir) force })
  | .chosen d force => some (setThread { s with srv := setDir s.srv d } i { t with pc := .dirSet force })
  | .dirSet force => some (setThread s i { t with pc := .ready s.srv.dir force })
  | .ready cfg force =>
    if s.srv.running then
      if force then
        -- main.go:909-914: the in-flight run is cancelled and abandoned.
        some (setThread { s with srv := claim s.srv i, cancelled := s.cancelled ++ s.srv.cancel.toList } i { t with pc := .claimed (s.srv.epoch + 1) cfg })
      else
        -- main.go:894-907; the request's own, unused context is cancelled too, which nobody sees.
        some (setThread s i { t with pc := .finished, reply := some .conflict })
    else some (setThread { s with srv := claim s.srv i } i { t with pc := .claimed (s.srv.epoch + 1) cfg })
  | .claimed epoch cfg => some (setThread s i { t with pc := .waiting ⟨epoch, cfg, s.srv.dir⟩, engine := .working })
  | .waiting job =>
    match t.engine with
    | .done ok => some (setThread { s with cancelled := s.cancelled ++ [i] } i { t with pc := .received job ok })
    | _ => none
  | .stopped job =>
    match t.engine with
    | .done _ => some (setThread { s with srv := finishRun s.srv job.epoch, cancelled := s.cancelled ++ [i] } i { t with pc := .finished })
    | _ => none
  | .received job ok =>
    if s.srv.epoch ≠ job.epoch then some (setThread s i { t with pc := .finished, reply := some .superseded })
    else some (setThread s i { t with pc := .publishing job ok })
  | .publishing job ok =>
    if ok then
      some (setThread { s with srv := { s.srv with spec := some job, lastErr := none, phase := none, cache := mset s.srv.cache s.srv.dir job }, completed := s.completed ++ [job.epoch] } i
        { t with pc := .published job })
    else if s.cancelled.contains i then
      some (setThread { s with srv := { s.srv with phase := none } } i { t with pc := .finishing job, reply := some .stopped })
    else some (setThread { s with srv := { s.srv with phase := none, lastErr := some job } } i { t with pc := .finishing job, reply := some .failed })
  | .published job => some (setThread { s with srv := { s.srv with lastResult := some job } } i { t with pc := .finishing job, reply := some (.ok job) })
  | .finishing job => some (setThread { s with srv := finishRun s.srv job.epoch } i { t with pc := .finished })
  | .switch d => some (setThread { s with srv := setDir s.srv d } i { t with pc := .finished })
  | .cancelStart =>
    match s.srv.cancel with
    | none => some (setThread s i { t with pc := .finished, reply := some .conflict })
    | some ctx => some (setThread s i { t with pc := .cancelHolds ctx })
  | .cancelHolds ctx => some (setThread { s with cancelled := s.cancelled ++ [ctx] } i { t with pc := .finished })
  | .finished => none

/-- Requests start in one of these places. -/
def initial : Pc → Bool
  | .start _ _ => true
  | .switch _ => true
  | .cancelStart => true
  | _ => false

/-- One action; none if it is not possible. -/
def act (s : State) : Act → Option State
  | .new pc => if initial pc then some { s with threads := s.threads ++ [⟨pc, .idle, none⟩] } else none
  | .go i =>
    match s.threads[i]? with
    | some t => goStep s i t
    | none => none
  | .fail i =>
    -- main.go:870-873, 877-880: validation of the directory or of the configuration fails.
    match s.threads[i]? with
    | some t =>
      match t.pc with
      | .chosen _ _ => some (setThread s i { t with pc := .finished, reply := some .bad })
      | .dirSet _ => some (setThread s i { t with pc := .finished, reply := some .bad })
      | _ => none
    | none => none
  | .stop i =>
    -- main.go:1012-1028.
    match s.threads[i]? with
    | some t =>
      match t.pc with
      | .waiting job =>
        if s.cancelled.contains i then
          some (setThread { s with srv := if s.srv.epoch = job.epoch then { s.srv with stopping := true, phase := some job.epoch } else s.srv } i
            { t with pc := .stopped job, reply := some .stopped })
        else none
      | _ => none
    | none => none
  | .engine i ok =>
    match s.threads[i]? with
    | some t => if t.engine = .working then some (setThread s i { t with engine := .done ok }) else none
    | none => none
  | .phase i =>
    -- main.go:950-958.
    match s.threads[i]? with
    | some t =>
      if t.engine = .working then
        match t.pc with
        | .waiting job => some { s with srv := { s.srv with phase := some job.epoch } }
        | .stopped job => some { s with srv := { s.srv with phase := some job.epoch } }
        | _ => none
      else none
    | none => none

/-- main.go:393-420: a new server. -/
def init (dir : Nat) : State := ⟨⟨dir, none, none, none, [], false, false, 0, none, none⟩, [], [], []⟩

/-- A sequence of actions. -/
def exec : State → List Act → Option State
  | s, [] => some s
  | s, a :: as =>
    match act s a with
    | some s' => exec s' as
    | none => none

end Verif.UiModel
