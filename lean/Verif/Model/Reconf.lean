import Verif.Model.Config
import Verif.Model.Code
/-
A machine that is configured while it runs: nothing in GenericStateMachine.java:64-135 asks whether the machine has been started. One machine with a
strategy of its own. The code of the library is that of Model/Code with the table read from memory at the moment where Java reads it.
Simplified: everything happens in one thread at a time, client code runs between the processing of two events; no bound on the queue; user code
calls `start()` and `startInState()` at the top level only; the flow listener does nothing for events before the start and after the
end; the listener is never replaced.
Java paths are relative to /repo/src/main/java/com/webotech/statemachine/.
-/

namespace Verif.Reconf

/-- Entries of the history. -/
inductive Entry
  | cfg (k : CfgCall) (x : Option Exc)   -- a configuration call, and what it threw
  | queued (ev : Ev)
  | unexpected (ev : Ev)                 -- fired before the start or after the end
  | taken (ev : Ev)
  | done (ev : Ev)                       -- processing is over
  | started (s : St)                     -- start() or startInState(): the state is set
  | cleared                              -- isEnded.set(false)
  | cur (s : St) (user : Bool)           -- the state is set; user: by a call of stop()
  | cb (c : Cb)                          -- user code is called
  | uncaught (x : Exc)                   -- not caught by event processing
  | note (n : Nat)
deriving DecidableEq, Repr

/-- Memory: GenericStateMachine.java:33-43, and the queue of its strategy. -/
structure W where
  cfg : CfgSt
  cur : Option St
  started : Bool
  ended : Bool
  queue : List Ev
  log : List Entry
deriving DecidableEq, Repr

/-- A machine that has just been built (GenericStateMachine.java:39-40, 46-62). -/
def W.init : W := ⟨.empty, none, false, false, [], []⟩

/-- Java statements: on a throw, what has been done stays. -/
abbrev M := EStateM Exc W

/-- Calls of user code. -/
inductive RCall
  | cfg (k : CfgCall)
  | fire (ev : Ev)
  | stop
  | isStarted
  | isEnded
  | getCurrentState
  | note (n : Nat)

def RCall.Res : RCall → Type
  | .cfg _ => Option Exc
  | .fire _ => Unit
  | .stop => Unit
  | .isStarted => Bool
  | .isEnded => Bool
  | .getCurrentState => Option St
  | .note _ => Unit

/-- User code. -/
inductive RProg
  | done
  | thr (x : Exc)
  | call (u : RCall) (k : u.Res → RProg)

/-- The user code of a program, and the reserved states of the machine. -/
structure Code where
  res : Reserved
  acts : Kind → Nat → List (Ev → RProg)
  listener : Option (Bool → St → Ev → St → RProg)
  unmapped : Ev → RProg
  flowEx : Ev → Exc → RProg

variable (c : Code)

def emit (e : Entry) : M Unit := modify fun w => { w with log := w.log ++ [e] }

/-- GenericStateMachine.java:318-322. -/
def updateCurrentState (s : St) (user : Bool) : M Unit := do
  if !(← get).ended then
    modify fun w => { w with ended := s.eqv c.res.endSt, cur := some s }
    emit (.cur s user)

/-- GenericStateMachine.java:252-254. -/
def stop (user : Bool) : M Unit := updateCurrentState c c.res.endSt user

/-- GenericStateMachine.java:285-293, DefaultEventStrategy.java:70-86. -/
def fire (ev : Ev) : M Unit := do
  let w ← get
  if !w.started || w.ended then emit (.unexpected ev)
  else
    modify fun w => { w with queue := w.queue ++ [ev] }
    emit (.queued ev)

/-- Meaning of the calls of user code. -/
def RCall.run : (u : RCall) → M u.Res
  | .cfg k => do
    let x := k.throws c.res (← get).cfg
    modify fun w => { w with cfg := k.after c.res w.cfg }
    emit (.cfg k x)
    return x
  | .fire ev => Reconf.fire ev
  | .stop => Reconf.stop c true
  | .isStarted => return (← get).started
  | .isEnded => return (← get).ended
  | .getCurrentState => return (← get).cur
  | .note n => emit (.note n)

/-- Meaning of user code. -/
def RProg.run : RProg → M Unit
  | .done => pure ()
  | .thr x => throw x
  | .call u k => do RProg.run (k (← u.run c))

/-- A call of user code by the library. -/
def callback (k : Cb) (p : RProg) : M Unit := do
  emit (.cb k)
  p.run c

/-- GenericStateMachine.java:187-205. -/
def notifyListener (complete : Bool) (f : Option St) (ev : Ev) (t : St) : M Unit :=
  match c.listener with
  | none => pure ()
  | some l =>
    let f := f.getD c.res.noSt
    callback c (if complete then .end_ 0 f ev t else .begin 0 f ev t) (l complete f ev t)

/-- The loop of `actions.forEach(..)` (NamedState.java:34, 39). -/
def runActs (k : Kind) (oid : Nat) (ev : Ev) : Nat → List (Ev → RProg) → M Unit
  | _, [] => pure ()
  | i, a :: as => do
    callback c (.action 0 k oid i ev) (a ev)
    runActs k oid ev (i + 1) as

/-- NamedState.java:33-40. -/
def onState (k : Kind) (s : St) (ev : Ev) : M Unit := runActs c k s.oid ev 0 (c.acts k s.oid)

/-- Dereference: NPE on null. -/
def deref {α : Type} : Option α → M α
  | none => throw .npe
  | some a => pure a

/-- TransitionTask.java:33-47: after `toState` has been looked up. Whether it is final is looked up after everything else (lines 44-45). -/
def transition (ev : Ev) (to : St) : M Unit := do
  let from_ := (← get).cur
  notifyListener c false from_ ev to
  onState c .exit (← deref (← get).cur) ev
  updateCurrentState c to false
  onState c .entry (← deref (← get).cur) ev
  notifyListener c true from_ ev to
  if isFinal (← get).cfg.table c.res to then
    stop c false

/-- TransitionTask.java:26-48. `states` is the map that the configuration methods change. -/
def execute (ev : Ev) : M Unit := do
  let w ← get
  let row ← deref (w.cfg.table.row? w.cur)
  match row.target (some ev.key) with
  | none => callback c (.unmapped 0 ev) (c.unmapped ev)
  | some to =>
    if c.res.noopSt.eqv to then
      notifyListener c false (← get).cur ev to
      notifyListener c true (← get).cur ev to
    else transition c ev to

/-- DefaultEventStrategy.java:95-98: the catch block. What the flow listener throws, and errors, end the task. -/
def report (ev : Ev) (x : Exc) : M Unit :=
  if x.isException then
    tryCatch (callback c (.flowEx 0 ev x) (c.flowEx ev x)) fun y => emit (.uncaught y)
  else emit (.uncaught x)

/-- DefaultEventStrategy.java:92-101, one event. -/
def processOne (ev : Ev) : M Unit := do
  emit (.taken ev)
  if !(← get).ended then
    tryCatch (execute c ev) (report c ev)
  emit (.done ev)

/-- GenericStateMachine.java:216-240. -/
def start : M Unit := do
  let w ← get
  match startChecks w.cfg.init w.cfg.table, w.cfg.init with
  | some x, _ => throw x
  | none, none => throw .npe
  | none, some i =>
    if w.started then throw (.ise .alreadyStarted)
    else
      modify fun w => { w with started := true, cur := some i }
      emit (.started i)
      notifyListener c false none immEv i
      onState c .entry i immEv
      notifyListener c true none immEv i
      modify fun w => { w with ended := false }
      emit .cleared

/-- GenericStateMachine.java:257-267. -/
def startInState (s : Option St) : M Unit := do
  let w ← get
  match w.cfg.table.row? s, s with
  | some _, some s =>
    if w.started then throw (.ise .alreadyStarted)
    else
      modify fun w => { w with started := true, cur := some s }
      emit (.started s)
      modify fun w => { w with ended := false }
      emit .cleared
  | _, _ => throw (.ise .notConfigured)

/-- What can happen next. -/
inductive Step
  | code (p : RProg)                     -- a client runs code
  | start
  | startInState (s : Option St)
  | process                              -- the worker takes an event

/-- Memory afterwards, whatever is thrown. -/
def after {α : Type} (p : M α) (w : W) : W :=
  match p w with
  | .ok _ w' => w'
  | .error _ w' => w'

def step (w : W) : Step → Option W
  | .code p => some (after (p.run c) w)
  | .start => some (after (start c) w)
  | .startInState s => some (after (startInState s) w)
  | .process =>
    match w.queue with
    | [] => none
    | ev :: q => some (after (processOne c ev) { w with queue := q })

/-- Follow a schedule. -/
def runs (w : W) : List Step → Option W
  | [] => some w
  | x :: xs => match step c w x with
    | none => none
    | some w' => runs w' xs

/-- What can be reached from a machine that has just been built. -/
def Reach (w : W) : Prop := ∃ xs, runs c .init xs = some w

end Verif.Reconf
