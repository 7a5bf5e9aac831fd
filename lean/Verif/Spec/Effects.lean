import Verif.Spec.Event
/-
Specification of the state of a machine when user code throws: which callback of an event threw decides where the event leads.
-/

namespace Verif.Spec

/-- Callbacks that come after the change of state. -/
def late : Cb → Bool
  | .end_ .. | .action _ .entry _ _ _ => true
  | _ => false

/-- Where an event leads; `c` is the callback that threw, if one did. After the change of state, an exception skips the end of the
machine that goes with a final state. -/
def Desc.effect (d : Desc) (x : MSt) (ev : Ev) (c : Option Cb) : MSt :=
  match c with
  | none => d.next x ev
  | some c => match late c, d.reaction x.cur ev with
    | true, .goes b => ⟨some b, b.name == resEnd⟩
    | _, _ => x

/-- Events of machine `m` in the steps of a worker, each with the callback that threw; `r`: the event in processing. -/
def outStep (m : MId) (s : Option (Ev × Option Cb) × List (Ev × Option Cb)) (o : Obs) :
    Option (Ev × Option Cb) × List (Ev × Option Cb) :=
  match o, s with
  | .taken _ m' ev, (r, l) => if m' = m then (some (ev, none), l) else (r, l)
  | .cbRet (.flowEx ..) _, s => s
  | .cbRet c (some _), (some (ev, none), l) => (some (ev, some c), l)
  | .done m' _, (some e, l) => if m' = m then (none, l ++ [e]) else (some e, l)
  | _, s => s

/-- The completed events of machine `m` in the steps of a worker, in order, each with the callback that threw. -/
def outcomes (m : MId) (os : List Obs) : List (Ev × Option Cb) := (os.foldl (outStep m) (none, [])).2

/-- The state of a machine after events with given outcomes. -/
def Desc.lead (d : Desc) (x : MSt) (l : List (Ev × Option Cb)) : MSt := l.foldl (fun x e => d.effect x e.1 e.2) x

end Verif.Spec
