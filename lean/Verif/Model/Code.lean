import Verif.Model.Prog
/-
The runtime methods, statement by statement. Java paths are relative to /repo/src/main/java/com/webotech/statemachine/.
-/

namespace Verif
open Prog

/-- The parts of a `DefaultEventStrategy`, possibly wrapped in a `DropDuplicateEventStrategy`
(DefaultEventStrategy.java:18-25, 45-62; DropDuplicateEventStrategy.java:20). `table` is the map its `TransitionTask`
was given last by `setStates` (TransitionTask.java:20, 50-52; GenericStateMachine.java:59). -/
structure StratCfg where
  queue : QId
  exec : EId
  maxQ : Int
  dropDup : Bool
  table : Table

/-- The parts of a machine that do not change once it is configured (GenericStateMachine.java:33-38, 41). -/
structure MachCfg where
  strat : SId
  table : Table
  init : Option St
  res : Reserved

/-- Everything that does not change while the program runs. -/
structure Env where
  mach : MId → MachCfg
  strat : SId → StratCfg
  width : EId → Nat                                         -- number of worker threads
  acts : Kind → Nat → List (Ev → MId → UProg)               -- actions of a state object
  listener : LId → Bool → St → Ev → St → UProg              -- onStateChangeEnd (true) / onStateChangeBegin (false)
  unmapped : SId → Ev → MId → UProg                         -- unmappedEventHandler
  flowEx : SId → Ev → MId → Exc → UProg                     -- onExceptionDuringEventProcessing
  flowAfter : SId → Ev → MId → UProg                        -- onEventAfterMachineEnd
  flowBefore : SId → Ev → MId → UProg                       -- onEventBeforeMachineStart
  proc : Nat → UProg                                        -- procedures of user code

variable (env : Env)

/-- Call user code and record its outcome in the history. -/
def userCall (c : Cb) (call : Call) : Prog Unit := do
  let r ← (invoke call).attempt
  lift (.emit (.cbRet c (outcome r)))
  ofExcept r

/-- Record the call of user code, then do it. -/
def callback (c : Cb) (call : Call) : Prog Unit := do
  lift (.emit (.cb c))
  userCall c call

/-- GenericStateMachine.java:187-205. `stateMachineListener` is read twice. -/
def notifyListener (m : MId) (complete : Bool) (f : Option St) (ev : Ev) (t : Option St) : Prog Unit := do
  let l ← lift (.getListener m)
  if l.isSome then
    let no := (env.mach m).res.noSt
    let f := f.getD no
    let t := t.getD no
    let c : Cb := if complete then .end_ m f ev t else .begin m f ev t
    match ← lift (.notify m c) with
    | none => thr .npe
    | some l => userCall c (.listener l complete f ev t)

/-- The loop of `actions.forEach(..)` (NamedState.java:34, 39), from action `i`, `n` actions to go. -/
def runActs (m : MId) (k : Kind) (oid : Nat) (ev : Ev) : Nat → Nat → Prog Unit
  | _, 0 => ret ()
  | i, n + 1 => do
    callback (.action m k oid i ev) (.action k oid i ev m)
    runActs m k oid ev (i + 1) n

/-- NamedState.java:33-40 `onEntry` / `onExit`. -/
def onState (k : Kind) (s : St) (ev : Ev) (m : MId) : Prog Unit :=
  runActs m k s.oid ev 0 (env.acts k s.oid).length

/-- GenericStateMachine.java:318-322. `api` only labels the history: called from `stop()` by user code, or from
event processing. (Writes by `start()` and `startInState()` are labelled like those of `stop()`.) -/
def updateCurrentState (m : MId) (s : St) (api : Bool) : Prog Unit := do
  if ← lift (.casEnded m s (s.eqv (env.mach m).res.endSt) api) then
    lift (.setCur m s api)

/-- GenericStateMachine.java:252-254. -/
def stop (m : MId) (api : Bool) : Prog Unit := updateCurrentState env m (env.mach m).res.endSt api

/-- Dereference: NPE on null. -/
def deref {α : Type} : Option α → Prog α
  | none => thr .npe
  | some a => ret a

/-- TransitionTask.java:44-47: must the machine end after a transition to `to`? -/
def isFinal (table : Table) (res : Reserved) (to : St) : Bool :=
  match table.row? (some to) with
  | none => true
  | some r => match r.target (some immKey) with
    | none => false
    | some x => res.endSt.eqv x

/-- TransitionTask.java:26-48. -/
def execute (s : SId) (ev : Ev) (m : MId) : Prog Unit := do
  let res := (env.mach m).res
  let table := (env.strat s).table
  let row ← deref (table.row? (← lift (.getCur m)))
  match row.target (some ev.key) with
  | none => callback (.unmapped m ev) (.unmapped s ev m)
  | some to =>
    if res.noopSt.eqv to then
      notifyListener env m false (← lift (.getCur m)) ev (some to)
      notifyListener env m true (← lift (.getCur m)) ev (some to)
    else
      let from_ ← lift (.getCur m)
      notifyListener env m false from_ ev (some to)
      onState env .exit (← deref (← lift (.getCur m))) ev m
      updateCurrentState env m to false
      onState env .entry (← deref (← lift (.getCur m))) ev m
      notifyListener env m true from_ ev (some to)
      if isFinal table res to then
        stop env m false

/-- DefaultEventStrategy.java:92-101: the try/catch/finally around one event. `cm` is the machine captured when the
task was submitted. -/
def processOne (s : SId) (cm : MId) (p : PairId) (ev : Ev) (m : MId) : Prog Unit := do
  let r ← (do
    if !(← lift (.getEnded cm)) then
      execute env s ev m).attempt
  let r ← match r with
    | .ok () => ret (.ok ())
    | .error x =>
      if x.isException then
        (callback (.flowEx m ev x) (.flowEx s ev m x)).attempt
      else ret (.error x)
  lift (.poolGive s p)
  ofExcept r

/-- DefaultEventStrategy.java:88-102: the drain task. The loop is a call of itself. -/
def drain (s : SId) (cm : MId) : Prog Unit := do
  let q := (env.strat s).queue
  if ← lift (.qIsEmpty q) then
    ret ()
  else
    let p ← deref (← lift (.poll q))
    let (ev, m) ← deref (← lift (.getPair p))
    processOne env s cm p ev m
    invoke (.drain s cm)

/-- DropDuplicateEventStrategy.java:45: `anyMatch` over the elements of the queue. -/
def anyEqual (ev : Ev) : List PairId → Prog Bool
  | [] => ret false
  | p :: ps => do
    let (en, _) ← deref (← lift (.getPair p))
    if en.eqv ev then ret true else anyEqual ev ps

/-- DefaultEventStrategy.java:70-104. -/
def processEventDefault (s : SId) (ev : Ev) (m : MId) : Prog Unit := do
  let c := env.strat s
  let queueSize ← lift (.qSize c.queue)
  if c.maxQ > 0 && (queueSize : Int) ≥ c.maxQ then
    callback (.flowFull m ev) (.flowEx s ev m (.ise .queueFull))
  else
    let p ← lift (.poolTake s)
    if (← lift (.getPayload ev.oid)).isSome then
      let ev' ← lift (.newCopy ev)
      lift (.setPair p ev' m)
    else
      lift (.setPair p ev m)
    lift (.offer c.queue p)
    if !(← lift (.submit c.exec s m)) then
      thr .rejected

/-- DropDuplicateEventStrategy.java:43-50, or directly DefaultEventStrategy.java:70. -/
def processEvent (s : SId) (ev : Ev) (m : MId) : Prog Unit := do
  if (env.strat s).dropDup then
    let ps ← lift (.qSnap (env.strat s).queue)
    if ← anyEqual ev ps then
      lift (.emit (.dropped m ev))
    else processEventDefault env s ev m
  else processEventDefault env s ev m

/-- GenericStateMachine.java:285-293. -/
def fire (m : MId) (ev : Ev) : Prog Unit := do
  let s := (env.mach m).strat
  if !(← lift (.getStarted m)) then
    callback (.flowBefore m ev) (.flowBefore s ev m)
  else
    let e ← do
      if ← lift (.getStarted m) then lift (.getEnded m) else ret false
    if e then
      callback (.flowAfter m ev) (.flowAfter s ev m)
    else
      processEvent env s ev m

/-- GenericStateMachine.java:216-241. The checks of lines 217-231 read only the configuration. -/
def start (m : MId) : Prog Unit := do
  let c := env.mach m
  match startChecks c.init c.table, c.init with
  | some x, _ => thr x
  | none, none => thr .npe
  | none, some i =>
    if ← lift (.casStarted m) then
      lift (.setCur m i true)
      notifyListener env m false (some c.res.noSt) immEv (some i)
      onState env .entry i immEv m
      notifyListener env m true (some c.res.noSt) immEv (some i)
      lift (.clearEnded m)
    else thr (.ise .alreadyStarted)

/-- GenericStateMachine.java:257-267. -/
def startInState (m : MId) (s : Option St) : Prog Unit := do
  match (env.mach m).table.row? s, s with
  | some _, some s =>
    if ← lift (.casStarted m) then
      lift (.setCur m s true)
      lift (.clearEnded m)
    else thr (.ise .alreadyStarted)
  | _, _ => thr (.ise .notConfigured)

/-- An API call by user code: the call and its outcome are recorded in the history. -/
def api (c : Api) (p : Prog Unit) : Prog (Except Exc Unit) := do
  lift (.emit (.enter c))
  let r ← p.attempt
  lift (.emit (.leave c (outcome r)))
  ret r

/-- Meaning of the calls of user code. -/
def UCall.prog : (u : UCall) → Prog u.Res
  | .fire m ev => api (.fire m ev) (Verif.fire env m ev)
  | .stop m => api (.stop m) (Verif.stop env m true)
  | .start m => api (.start m) (Verif.start env m)
  | .startInState m s => api (.startInState m s) (Verif.startInState env m s)
  | .isStarted m => lift (.getStarted m)
  | .isEnded m => lift (.getEnded m)
  | .getCurrentState m => lift (.getCur m)
  | .getEventQueueSize m => lift (.qSize (env.strat (env.mach m).strat).queue)
  | .setListener m l => lift (.setListener m l)
  | .getPayload o => lift (.getPayload o)
  | .setPayload o v => lift (.setPayload o v)
  | .proc i => (invoke (.proc i)).attempt
  | .note n => lift (.emit (.user n))
  | .getMem a => lift (.getMem a)
  | .setMem a v => lift (.setMem a v)
  | .await n => lift (.await n)
  | .countDown n => lift (.countDown n)
  | .setIntr => lift .setIntr

/-- Meaning of user code. -/
def UProg.denote : UProg → Prog Unit
  | .done => ret ()
  | .thr x => Prog.thr x
  | .call u k => (u.prog env).bind fun r => (k r).denote

/-- Bodies of calls. A missing action is never called. -/
def body : Call → Prog Unit
  | .action k oid i ev m => match (env.acts k oid)[i]? with
    | some a => (a ev m).denote env
    | none => ret ()
  | .listener l c f ev t => (env.listener l c f ev t).denote env
  | .unmapped s ev m => (env.unmapped s ev m).denote env
  | .flowEx s ev m x => (env.flowEx s ev m x).denote env
  | .flowAfter s ev m => (env.flowAfter s ev m).denote env
  | .flowBefore s ev m => (env.flowBefore s ev m).denote env
  | .proc i => (env.proc i).denote env
  | .drain s m => drain env s m

end Verif
