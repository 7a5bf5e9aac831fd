import Verif.Model.Service
/-
The list of subsystems of an app, when it changes while the app runs (AbstractAppContext.java:17, 33, 41-44, 66-68). The lists are
`java.util.ArrayList`s, which clients may change too; lists that cannot be changed are lists nobody changes.
The thread of the app handles events one by one in the order they were fired (C13, C15); the phases of starting and stopping are the loops of
AbstractAppService.java:76-96. In between, and between two steps of a loop, anybody may fire events and change lists.
Simplified: `hasNext()` and `next()` of an iterator are one step, so are `getSubsystems()`, `size()` and `listIterator(..)`; what subsystems do is not
modelled, except whether they throw; the state machine is the table of C41.
Java paths are relative to /repo/src/main/java/com/webotech/statemachine/service/.
-/

namespace Verif.Ctx

abbrev LRef := Nat
abbrev Sub := Nat

/-- Entries of the history. -/
inductive Entry
  | given (l : Option LRef)                                          -- withSubsystems
  | changed (l : LRef) (xs : List (Option Sub))                      -- a list gets other elements (add, remove, ..)
  | put (l : LRef) (i : Nat) (x : Option Sub)                        -- List.set
  | begun (up : Bool) (l : Option LRef) (xs : List (Option Sub))     -- a phase begins with this list and these elements
  | call (up : Bool) (x : Sub)                                       -- start or stop of a subsystem
  | ret (up : Bool) (x : Sub) (ok : Bool)
  | finished (up : Bool)                                             -- the loop is over, `complete` is fired
  | aborted (up : Bool)                                              -- an exception, `error` is fired
  | state (n : String)                                               -- the state of the app
  | fired (ev : Ev)                                                  -- by anybody but the loops
  | taken (ev : Ev)
deriving DecidableEq, Repr

/-- The iterator of a loop: java.util.ArrayList.Itr, ListItr. `calling`: the subsystem that has been called and has not yet returned. -/
structure It where
  up : Bool
  l : LRef
  cursor : Nat
  expected : Nat                                                     -- expectedModCount
  calling : Option Sub
deriving DecidableEq, Repr

structure W where
  ref : Option LRef                                                  -- subsystemsRef
  items : LRef → List (Option Sub)
  mod : LRef → Nat                                                   -- modCount
  state : String                                                     -- getLifecycleState()
  queue : List Ev                                                    -- events fired
  it : Option It                                                     -- the loop in progress
  log : List Entry

/-- A new app (AbstractAppContext.java:33: the empty list). -/
def W.init : W := ⟨some 0, fun _ => [], fun _ => 0, STATE_UNINITIALISED, [], none, []⟩

def W.emit (w : W) (e : Entry) : W := { w with log := w.log ++ [e] }

/-- HandleExceptionAction and AbstractAppService.java:71-74: the exception handler fires `error`. -/
def W.abort (w : W) (up : Bool) : W :=
  ({ w with it := none, queue := w.queue ++ [evtError] }).emit (.aborted up)

/-- AbstractAppService.java:79 and 90-91: the iterator is made. A null list gives a NullPointerException. -/
def W.beginPhase (w : W) (up : Bool) : W :=
  match w.ref with
  | none => (w.emit (.begun up none [])).abort up
  | some l =>
    ({ w with it := some ⟨up, l, if up then 0 else (w.items l).length, w.mod l, none⟩ }).emit (.begun up (some l) (w.items l))

/-- The configuration of the machine of an app (C41). -/
def lifeCfg : CfgSt := cfgRun ⟨0, 6, 7⟩
  (lifecycleCalls ⟨STATE_UNINITIALISED, 1⟩ ⟨STATE_STARTING, 2⟩ ⟨STATE_STARTED, 3⟩ ⟨STATE_STOPPING, 4⟩ ⟨STATE_STOPPED, 5⟩) .empty

/-- Where an event leads to: LifecycleStateMachineUtil.java:74-86. -/
def target (s : String) (ev : Ev) : Option String :=
  (lifeCfg.table.row? (some ⟨s, 0⟩)).bind fun r => (r.target (some ev.key)).map (·.name)

/-- An event is handled: the entry action of the new state begins (AbstractAppService.java:76, 87). -/
def W.handle (w : W) (ev : Ev) : W :=
  match target w.state ev with
  | none => w
  | some s =>
    let w := ({ w with state := s }).emit (.state s)
    if s = STATE_STARTING then w.beginPhase true
    else if s = STATE_STOPPING then w.beginPhase false
    else w

/-- One turn of a loop: AbstractAppService.java:79-82 forwards, 92-95 backwards, with `hasNext`, `next`, `hasPrevious`, `previous` of the iterators of
ArrayList: the end is reached when the cursor is the size (0), whether or not the list has been changed. -/
def W.turn (w : W) (i : It) : W :=
  if i.cursor = (if i.up then (w.items i.l).length else 0) then
    ({ w with it := none, queue := w.queue ++ [evtComplete] }).emit (.finished i.up)
  else if w.mod i.l ≠ i.expected then w.abort i.up                   -- ConcurrentModificationException
  else
    let k := if i.up then i.cursor else i.cursor - 1
    match (w.items i.l)[k]? with
    | some (some x) =>
      ({ w with it := some { i with cursor := if i.up then i.cursor + 1 else i.cursor - 1, calling := some x } }).emit (.call i.up x)
    | _ => w.abort i.up                                              -- NullPointerException (or NoSuchElementException)

/-- What can happen next. -/
inductive Step
  | given (l : Option LRef)
  | changed (l : LRef) (xs : List (Option Sub))
  | put (l : LRef) (i : Nat) (x : Option Sub)
  | fire (ev : Ev)
  | take                                                             -- the app handles the next event
  | turn                                                             -- the loop goes on
  | ret (ok : Bool)                                                  -- the subsystem returns or throws
deriving DecidableEq, Repr

def step (w : W) : Step → Option W
  | .given l => some (({ w with ref := l }).emit (.given l))
  | .changed l xs => some (({ w with items := fset w.items l xs, mod := fset w.mod l (w.mod l + 1) }).emit (.changed l xs))
  | .put l i x => some (({ w with items := fset w.items l ((w.items l).set i x) }).emit (.put l i x))
  | .fire ev => some (({ w with queue := w.queue ++ [ev] }).emit (.fired ev))
  | .take => match w.it, w.queue with
    | none, ev :: q => some ((({ w with queue := q }).emit (.taken ev)).handle ev)
    | _, _ => none
  | .turn => match w.it with
    | some i => match i.calling with
      | none => some (w.turn i)
      | some _ => none
    | none => none
  | .ret ok => match w.it with
    | some i => match i.calling with
      | some x =>
        let w := ({ w with it := some { i with calling := none } }).emit (.ret i.up x ok)
        some (if ok then w else w.abort i.up)
      | none => none
    | none => none

def runs (w : W) : List Step → Option W
  | [] => some w
  | x :: xs => match step w x with
    | none => none
    | some w' => runs w' xs

def Reach (w : W) : Prop := ∃ xs, runs .init xs = some w

end Verif.Ctx
