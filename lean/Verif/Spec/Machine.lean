import Verif.Model.Prog
/-
Specification: what one machine has to do for an event (`Desc.plan`) and in `start()` (`Desc.startPlan`), as a list of
steps. The automata of Spec/Calls.lean and Spec/Monitor.lean insist on these steps.
-/

namespace Verif.Spec

/-- Steps of the processing of one event. -/
inductive Item
  | cb (c : Cb)               -- call user code
  | upd (s : St) (b : Bool)   -- decide to enter s (the machine ends iff b)
  | halt (s : St)             -- decide to enter s and end, unless the machine has already ended
  | cur (s : St)              -- the current state becomes s
  | thr (x : Exc)             -- exception x is in flight
deriving DecidableEq, Repr

/-- A machine as its documentation sees it. -/
structure Desc where
  m : MId
  table : Table
  endSt : St                   -- the _END_ state
  nacts : Kind → Nat → Nat     -- number of entry/exit actions of a state object

/-- A state in which the machine ends: never configured, or configured with `itEnds()`. -/
def Desc.final (d : Desc) (s : St) : Bool :=
  match d.table.row? (some s) with
  | none => true
  | some r => match r.target (some immKey) with
    | some x => x.name == resEnd
    | none => false

/-- Actions of a state, in order. -/
def Desc.actions (d : Desc) (k : Kind) (s : St) (ev : Ev) (i n : Nat) : List Item :=
  (List.range' i n).map fun j => .cb (.action d.m k s.oid j ev)

/-- A listener call, if there is a listener. -/
def note (lst : Bool) (c : Cb) : List Item := if lst then [.cb c] else []

/-- What has to happen for event `ev` in state `a`; `lst` says if a listener is installed. -/
def Desc.plan (d : Desc) (lst : Bool) (a : Option St) (ev : Ev) : List Item :=
  match a, d.table.row? a with
  | some a, some row =>
    match row.target (some ev.key) with
    | none => [.cb (.unmapped d.m ev)]
    | some b =>
      if b.name = resNoop then
        note lst (.begin d.m a ev b) ++ note lst (.end_ d.m a ev b)
      else
        note lst (.begin d.m a ev b) ++ d.actions .exit a ev 0 (d.nacts .exit a.oid) ++
        [.upd b (b.name == resEnd), .cur b] ++
        d.actions .entry b ev 0 (d.nacts .entry b.oid) ++ note lst (.end_ d.m a ev b) ++
        (if d.final b then [.halt d.endSt, .cur d.endSt] else [])
  | _, _ => [.thr .npe]

/-- What has to happen in `start()` with initial state `i` once it has been entered. -/
def Desc.startPlan (d : Desc) (noSt : St) (lst : Bool) (i : St) : List Item :=
  note lst (.begin d.m noSt immEv i) ++ d.actions .entry i immEv 0 (d.nacts .entry i.oid) ++
  note lst (.end_ d.m noSt immEv i)

end Verif.Spec
