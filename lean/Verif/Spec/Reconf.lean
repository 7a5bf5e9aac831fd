import Verif.Model.Reconf
/-
Vocabulary for C82: the story of a machine that is configured while it runs. `Model/Reconf` is imported for its entries of the history only.
-/

namespace Verif.Spec.Reconf
open Verif.Reconf (Entry)

/-- The configuration calls that have been made. -/
def calls (log : List Entry) : List CfgCall :=
  log.filterMap fun | .cfg k _ => some k | _ => none

/-- The configuration they result in (C01-C08). -/
def config (rs : Reserved) (log : List Entry) : CfgSt := cfgRun rs (calls log) .empty

/-- The state the machine is in. -/
def stateOf (log : List Entry) : Option St :=
  log.foldl (fun s e => match e with
    | .started x => some x
    | .cur x _ => some x
    | _ => s) none

/-- Is the machine ended? -/
def endedOf (log : List Entry) : Bool :=
  log.foldl (fun b e => match e with
    | .cur x _ => x.name == "_END_"
    | .cleared => false
    | _ => b) false

/-- Where `ev` leads to in state `s`: `none` if `s` is not configured, `some none` if the event is not mapped. -/
def lead (cfg : CfgSt) (s : Option St) (ev : Ev) : Option (Option St) :=
  match s with
  | none => none
  | some s => (AMap.get? cfg.table s.name).map fun r => (AMap.get? r.ents (some ev.key)).join

/-- State `s` is final: it is not configured, or ends immediately. -/
def final (cfg : CfgSt) (s : St) : Bool :=
  match AMap.get? cfg.table s.name with
  | none => true
  | some r => match (AMap.get? r.ents (some ⟨0, "_immediate_"⟩)).join with
    | none => false
    | some x => x.name == "_END_"

/-- What is done by user code, or by the library in order to call it. -/
def user : Entry → Bool
  | .cfg .. | .queued _ | .unexpected _ | .cb _ | .note _ | .uncaught _ => true
  | .cur x u => u && x.name == "_END_"
  | _ => false

def Users (us : List Entry) : Prop := ∀ e ∈ us, user e = true

/-- Something was thrown. -/
def failed (us : List Entry) : Bool :=
  us.any fun | .cb (.flowEx ..) => true | .uncaught _ => true | _ => false

/-- What is done for `ev`, taken at the end of history `a`. -/
inductive Handled (rs : Reserved) (a : List Entry) (ev : Ev) : List Entry → Prop
  /-- The machine is ended: nothing. -/
  | ended : endedOf a = true → Handled rs a ev []
  /-- The state is not configured. -/
  | lost {us} : endedOf a = false → lead (config rs a) (stateOf a) ev = none → Users us → failed us = true → Handled rs a ev us
  /-- The event is not mapped. -/
  | unmapped {us} : endedOf a = false → lead (config rs a) (stateOf a) ev = some none → Users us →
      Handled rs a ev (.cb (.unmapped 0 ev) :: us)
  /-- Nothing is to be done for it. -/
  | stays {us to} : endedOf a = false → lead (config rs a) (stateOf a) ev = some (some to) → to.name = "_NOOP_" → Users us → Handled rs a ev us
  /-- The transition does not take place: user code throws or stops the machine. -/
  | prevented {us to} : endedOf a = false → lead (config rs a) (stateOf a) ev = some (some to) → to.name ≠ "_NOOP_" → Users us →
      (failed us = true ∨ endedOf (a ++ us) = true) → Handled rs a ev us
  /-- The transition takes place, the machine goes on. -/
  | moved {us vs to} : endedOf a = false → lead (config rs a) (stateOf a) ev = some (some to) → to.name ≠ "_NOOP_" → Users us → Users vs →
      endedOf (a ++ us) = false →
      (failed vs = true ∨ endedOf (a ++ us ++ .cur to false :: vs) = true ∨ final (config rs (a ++ us ++ .cur to false :: vs)) to = false) →
      Handled rs a ev (us ++ .cur to false :: vs)
  /-- The transition takes place and the state is final in the end. -/
  | final {us vs to e} : endedOf a = false → lead (config rs a) (stateOf a) ev = some (some to) → to.name ≠ "_NOOP_" → Users us → Users vs →
      endedOf (a ++ us) = false → endedOf (a ++ us ++ .cur to false :: vs) = false → failed vs = false →
      final (config rs (a ++ us ++ .cur to false :: vs)) to = true → e.name = "_END_" →
      Handled rs a ev (us ++ .cur to false :: (vs ++ [.cur e false]))

/-- Stories of a machine. -/
inductive Story (rs : Reserved) : List Entry → Prop
  | nil : Story rs []
  | user {a e} : Story rs a → user e = true → Story rs (a ++ [e])
  | started {a s} : Story rs a → Story rs (a ++ [.started s])
  | cleared {a} : Story rs a → Story rs (a ++ [.cleared])
  | event {a ev mid} : Story rs a → Handled rs (a ++ [.taken ev]) ev mid → Story rs (a ++ .taken ev :: (mid ++ [.done ev]))

/-! ### Calls of user code, the queue, the start -/

/-- Calls of the transition listener and of actions, and state changes made by event processing. -/
def lib : Entry → Bool
  | .cb (.begin ..) | .cb (.end_ ..) | .cb (.action ..) | .cur _ false => true
  | _ => false

def libs (us : List Entry) : List Entry := us.filter lib

/-- User code has stopped the machine. -/
def stopped (us : List Entry) : Bool := us.any fun | .cur _ u => u | _ => false

/-- What there is to be called: whether there is a transition listener, and how many actions a state object has. -/
structure Called where
  listener : Bool
  acts : Kind → Nat → Nat

/-- What there is to be called in a program. -/
def called (c : Reconf.Code) : Called := ⟨c.listener.isSome, fun k oid => (c.acts k oid).length⟩

def Called.tell (n : Called) (k : Cb) : List Entry := if n.listener then [.cb k] else []

def Called.all (n : Called) (k : Kind) (s : St) (ev : Ev) : List Entry := (List.range (n.acts k s.oid)).map fun i => .cb (.action 0 k s.oid i ev)

/-- What is to be called for `ev`, taken at the end of history `a`; `mid` is what has happened since. -/
inductive Plan (n : Called) (rs : Reserved) (a : List Entry) (ev : Ev) (mid : List Entry) : List Entry → Prop
  /-- Nothing. -/
  | nothing : endedOf a = true ∨ lead (config rs a) (stateOf a) ev = none ∨ lead (config rs a) (stateOf a) ev = some none → Plan n rs a ev mid []
  /-- The listener only. -/
  | stays {s s' to} : endedOf a = false → lead (config rs a) (stateOf a) ev = some (some to) → to.name = "_NOOP_" → stateOf a = some s →
      (s' = s ∨ s' = rs.endSt ∧ stopped mid = true) → Plan n rs a ev mid (n.tell (.begin 0 s ev to) ++ n.tell (.end_ 0 s' ev to))
  /-- The listener, the exit actions, the entry actions, the listener. If user code stops the machine, what comes next is the end state's. -/
  | goes {s x y to moves ends} : endedOf a = false → lead (config rs a) (stateOf a) ev = some (some to) → to.name ≠ "_NOOP_" → stateOf a = some s →
      (x = s ∨ x = rs.endSt ∧ stopped mid = true) → (y = to ∨ y = rs.endSt ∧ stopped mid = true) →
      (moves = [.cur to false] ∨ moves = [] ∧ stopped mid = true) → (ends = [] ∨ ends = [.cur rs.endSt false]) →
      Plan n rs a ev mid (n.tell (.begin 0 s ev to) ++ n.all .exit x ev ++ moves ++ n.all .entry y ev ++ n.tell (.end_ 0 s ev to) ++ ends)

/-- What `start()` is to call. -/
def startPlan (n : Called) (rs : Reserved) (i : St) : List Entry :=
  n.tell (.begin 0 rs.noSt immEv i) ++ n.all .entry i immEv ++ n.tell (.end_ 0 rs.noSt immEv i)

def notTaken : Entry → Bool
  | .taken _ => false
  | _ => true

/-- Has the machine been started? -/
def startedOf (log : List Entry) : Bool := log.any fun | .started _ => true | _ => false

def queuedOf (log : List Entry) : List Ev := log.filterMap fun | .queued ev => some ev | _ => none
def takenOf (log : List Entry) : List Ev := log.filterMap fun | .taken ev => some ev | _ => none

/-- The flow listener has been told about an exception since the last event was taken. -/
def reported (a : List Entry) : Bool := (a.reverse.takeWhile notTaken).any fun | .cb (.flowEx ..) => true | _ => false

/-- What may be recorded after history `a`. -/
def Fits (rs : Reserved) (a : List Entry) : Entry → Prop
  | .queued _ => startedOf a = true ∧ endedOf a = false
  | .unexpected _ => startedOf a = false ∨ endedOf a = true
  | .started s => startedOf a = false ∧ AMap.get? (config rs a).table s.name ≠ none
  | .cfg k x => x = k.throws rs (config rs a)
  | .cb (.flowEx _ _ x) => x.isException = true
  | .uncaught x => x.isException = true → reported a = true
  | _ => True

end Verif.Spec.Reconf
