import Verif.Model.Context
/-
Vocabulary for C84: histories of an app whose list of subsystems changes. `Model/Context` is imported for its entries only.
-/

namespace Verif.Spec.Ctx
open Verif.Ctx (Entry LRef Sub)

/-- The list given last. -/
def listNow (log : List Entry) : Option LRef :=
  log.foldl (fun r e => match e with | .given l => l | _ => r) (some 0)

/-- The elements of a list. -/
def elems (log : List Entry) (l : LRef) : List (Option Sub) :=
  log.foldl (fun xs e => match e with
    | .changed l' ys => if l' = l then ys else xs
    | .put l' i x => if l' = l then xs.set i x else xs
    | _ => xs) []

/-- Subsystems called, in order. -/
def called (up : Bool) (log : List Entry) : List Sub :=
  log.filterMap fun | .call u x => if u = up then some x else none | _ => none

/-- Beginning and end of phases. -/
def bound : Entry → Bool
  | .begun .. | .finished _ | .aborted _ => true
  | _ => false

/-- Is list `l` changed? -/
def touched (l : LRef) : Entry → Bool
  | .changed l' _ | .put l' _ _ => l' = l
  | _ => false

/-- A phase begins at the end of `a`, `mid` happens during it. -/
def During (log a : List Entry) (up : Bool) (l : Option LRef) (xs : List (Option Sub)) (mid rest : List Entry) : Prop :=
  log = a ++ .begun up l xs :: (mid ++ rest) ∧ ∀ e ∈ mid, bound e = false

/-- Events fired, by anybody or by a loop at its end. -/
def eventsOf (log : List Entry) : List Ev :=
  log.filterMap fun | .fired ev => some ev | .finished _ => some evtComplete | .aborted _ => some evtError | _ => none

def takenOf (log : List Entry) : List Ev := log.filterMap fun | .taken ev => some ev | _ => none

def statesOf (log : List Entry) : List String := log.filterMap fun | .state s => some s | _ => none

/-- The lifecycle of an app (C41): state, event, next state. -/
def lifecycle : List (String × String × String) :=
  [("UNINITIALISED", "start", "STARTING"),
   ("STARTING", "complete", "STARTED"), ("STARTING", "error", "STOPPED"),
   ("STARTED", "stop", "STOPPING"), ("STARTED", "error", "STOPPED"),
   ("STOPPING", "complete", "STOPPED"), ("STOPPING", "error", "STOPPED"),
   ("STOPPED", "start", "STARTING"), ("STOPPED", "stop", "_END_")]

def next (s : String) (ev : Ev) : Option String :=
  if ev.cls = 0 then (lifecycle.find? fun t => t.1 = s ∧ t.2.1 = ev.name).map (·.2.2) else none

/-- The state that events lead to. -/
def leads (evs : List Ev) : String := evs.foldl (fun s ev => (next s ev).getD s) "UNINITIALISED"

end Verif.Spec.Ctx
