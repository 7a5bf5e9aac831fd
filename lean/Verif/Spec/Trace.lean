import Verif.Model.Prog
/-
Specification: projections of the history. They mention only what is recorded, not the model's memory.
-/

namespace Verif.Spec

abbrev Trace := List (Tid × Obs)

/-- The events accepted into queue `q`, in order. -/
def accepted (q : QId) (tr : Trace) : List (Ev × MId) :=
  tr.filterMap fun e => match e.2 with
    | .accepted q' m ev => if q' = q then some (ev, m) else none
    | _ => none

/-- The events taken from queue `q` for processing, in order. -/
def taken (q : QId) (tr : Trace) : List (Ev × MId) :=
  tr.filterMap fun e => match e.2 with
    | .taken q' m ev => if q' = q then some (ev, m) else none
    | _ => none

/-- The events waiting in queue `q` after history `tr`. -/
def waiting (q : QId) (tr : Trace) : List (Ev × MId) := (accepted q tr).drop (taken q tr).length

end Verif.Spec
