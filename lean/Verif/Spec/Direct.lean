import Verif.Model.Prog
/-
Vocabulary for C80, C81: what a thread does that processes events itself, as a stack of calls.
-/

namespace Verif.Spec.Direct

/-- What a thread is in the middle of. -/
inductive Frame
  | api (c : Api) (acc : Bool)           -- an API call; acc: it has put an event into the queue
  | cb (c : Cb)                          -- user code
  | proc (m : MId) (ev : Ev)             -- processing of an event
deriving DecidableEq, Repr

/-- Calls in progress, innermost first, and the events in the queues. -/
structure State where
  stack : List Frame
  waiting : QId → List (MId × Ev)

/-- No event waits in the queue of the call. -/
def State.drained (queue : MId → QId) (g : State) : Api → Bool
  | .fire m _ => (g.waiting (queue m)).isEmpty
  | _ => true

def State.init : State := ⟨[], fun _ => []⟩

/-- The event that is put into a queue for `ev`: `ev` itself, or a safe copy of it. -/
def Sent (ev e : Ev) : Prop := e = ev ∨ e.name = ev.name ∧ ∃ n, e.oid = .copy n

instance (ev e : Ev) : Decidable (Sent ev e) :=
  match h : e.oid with
  | .client .. => decidable_of_iff (e = ev) (by simp [Sent, h])
  | .copy n => decidable_of_iff (e = ev ∨ e.name = ev.name) (by simp [Sent, h])

/-- `queue m`: queue of the strategy of machine `m`. What may happen next:
* an event is put into the queue by `fire`, once per call;
* an event is taken by a call of `fire` that has put one into the same queue (or is called by such a call ..), first in first out;
* the processing of an event ends when everything that was called meanwhile has returned;
* `fire` returns normally after putting an event into the queue: then the queue is empty. -/
def next (queue : MId → QId) (g : State) : Obs → Option State
  | .enter c => some { g with stack := .api c false :: g.stack }
  | .accepted q m e =>
    match g.stack with
    | .api (.fire m' ev) false :: fs =>
      if m' = m ∧ queue m = q ∧ Sent ev e then
        some { stack := .api (.fire m' ev) true :: fs, waiting := fset g.waiting q (g.waiting q ++ [(m, e)]) }
      else none
    | _ => none
  | .taken q m e =>
    match g.stack, g.waiting q with
    | .api (.fire m' ev) true :: fs, x :: xs =>
      if queue m' = q ∧ x = (m, e) then
        some { stack := .proc m e :: .api (.fire m' ev) true :: fs, waiting := fset g.waiting q xs }
      else none
    | _, _ => none
  | .done m e =>
    match g.stack with
    | .proc m' e' :: fs => if m' = m ∧ e' = e then some { g with stack := fs } else none
    | _ => none
  | .cb c => some { g with stack := .cb c :: g.stack }
  | .cbRet c _ =>
    match g.stack with
    | .cb c' :: fs => if c' = c then some { g with stack := fs } else none
    | _ => none
  | .leave c r =>
    match g.stack with
    | .api c' acc :: fs =>
      if c' = c ∧ (acc = true → r = none → g.drained queue c = true) then
        some { g with stack := fs }
      else none
    | _ => none
  | .submitted .. | .rejected .. | .taskDropped .. => none
  | _ => some g

/-- The history `tr` of a program that consists of thread `t` only. -/
def run (queue : MId → QId) (t : Tid) : State → List (Tid × Obs) → Option State
  | g, [] => some g
  | g, (u, o) :: tr =>
    if u = t then
      match next queue g o with
      | some g => run queue t g tr
      | none => none
    else none

/-- The states that machine `m` has been in, in order. -/
def states (m : MId) (tr : List (Tid × Obs)) : List St :=
  tr.filterMap fun e => match e.2 with
    | .cur m' s _ => if m' = m then some s else none
    | _ => none

/-- The states that the listener was told machine `m` has arrived in. -/
def told (m : MId) (tr : List (Tid × Obs)) : List St :=
  tr.filterMap fun e => match e.2 with
    | .cb (.end_ m' _ _ b) => if m' = m then some b else none
    | _ => none

/-- `b` can follow `a` according to the table. -/
def Leads (tbl : Table) (a b : St) : Prop := ∃ row ev, tbl.row? (some a) = some row ∧ row.target (some ev) = some b

end Verif.Spec.Direct
