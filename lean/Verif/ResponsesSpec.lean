import Verif.ResponsesModel
/-! # Specification vocabulary for responses -/

namespace Verif.Responses
open Verif.Common

/-- `r` is at least as good a choice as `c`: concrete beats generic, then the smaller
type name. -/
def AtLeast (r c : Resp) : Prop :=
  (c.concrete = true → r.concrete = true) ∧ (r.concrete = c.concrete → r.bodyType ≤ c.bodyType)

/-- The same where a response with a body beats one without. -/
def AtLeastBody (r c : Resp) : Prop :=
  (c.bodyType ≠ "" → r.bodyType ≠ "") ∧ ((c.bodyType = "" ↔ r.bodyType = "") → AtLeast r c)

/-- A status write without a body, e.g. `c.Status(404)`. -/
def StatusOnly (f : Frag) : Prop := (100 ≤ f.resp.status ∧ f.resp.status < 600) ∧ f.resp.bodyType = ""
/-- A body written without a readable status, e.g. `c.JSON(err)`. -/
def BodyOnly (f : Frag) : Prop :=
  ¬ (100 ≤ f.resp.status ∧ f.resp.status < 600) ∧ f.resp.statusUnresolved = false ∧ f.resp.bodyType ≠ ""
/-- A status write whose value could not be read. -/
def Unreadable (f : Frag) : Prop :=
  ¬ (100 ≤ f.resp.status ∧ f.resp.status < 600) ∧ f.resp.statusUnresolved = true

instance (f : Frag) : Decidable (StatusOnly f) := by unfold StatusOnly; exact inferInstance
instance (f : Frag) : Decidable (BodyOnly f) := by unfold BodyOnly; exact inferInstance
instance (f : Frag) : Decidable (Unreadable f) := by unfold Unreadable; exact inferInstance

/-- The status a body-only write on `chain` takes over, given what was written before it:
that of the last status-only write on the chain, unless a body was written since. -/
def claimed (before : List Frag) (chain : String) : Option Int :=
  match (before.filter fun g => decide (g.chain = chain ∧ (StatusOnly g ∨ BodyOnly g))).getLast? with
  | some g => if StatusOnly g then some g.resp.status else none
  | none => none

/-- The response of a body-only write, with the implicit status forgotten if an unreadable
status write came before on its chain. -/
def effective (before : List Frag) (f : Frag) : Resp :=
  if (before.any fun g => decide (g.chain = f.chain ∧ Unreadable g)) then { f.resp with implicit := 0 } else f.resp

/-- The responses the fragments document under a known status, in order. -/
def directFrom (before : List Frag) : List Frag → List Resp
  | [] => []
  | f :: fs =>
    (if 100 ≤ f.resp.status ∧ f.resp.status < 600 then [f.resp]
     else if BodyOnly f then
       (match claimed before f.chain with
        | some s => [{ effective before f with status := s }]
        | none => [])
     else []) ++ directFrom (before ++ [f]) fs

/-- The body-only writes that took over no status, in order. -/
def leftFrom (before : List Frag) : List Frag → List Frag
  | [] => []
  | f :: fs =>
    (if BodyOnly f ∧ claimed before f.chain = none then [{ f with resp := effective before f }] else []) ++
      leftFrom (before ++ [f]) fs

/-- What the leftover bodies are stored as: the implicit status, or -1, -2, … in order. -/
def leftResps (n : Nat) : List Frag → List Resp
  | [] => []
  | f :: fs =>
    if f.resp.implicit > 0 then { f.resp with status := f.resp.implicit } :: leftResps n fs
    else { f.resp with status := -((n : Int) + 1) } :: leftResps (n + 1) fs

/-- The leftovers that count: those written closest to the handler. -/
def shallow (depths : String → Option Nat) (l : List Frag) : List Frag :=
  l.filter fun f => decide (∀ g ∈ l, depthOf depths f ≤ depthOf depths g)

/-- A response table in which every slot holds a response of that status, once. -/
def SlotsOk (m : RespMap) : Prop := (m.map Prod.fst).Nodup ∧ ∀ k r, (k, r) ∈ m → k = slot r.status

/-- Statuses that must not have a body. -/
def NoBodyStatus (s : Int) : Prop := (100 ≤ s ∧ s ≤ 199) ∨ s = 204 ∨ s = 205 ∨ s = 304

/-- The response chosen among several observations of one slot, in the order met. -/
def choose (l : List Resp) : Option Resp := l.foldl (fun acc r => preferResp acc (some r)) none

end Verif.Responses
