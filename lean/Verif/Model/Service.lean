import Verif.Model.User
import Verif.Model.Config
/-
The application service: LifecycleStateMachineUtil and AbstractAppService. To the state machine, all this is user code.
Java paths are relative to /repo/src/main/java/com/webotech/statemachine/service/.
Not modelled: log lines (except the one about the interrupted latch), the context object.
-/

namespace Verif

/-- LifecycleStateMachineUtil.java:19-22 (static objects). -/
def evtStart : Ev := ⟨0, "start", .client 9001⟩
def evtComplete : Ev := ⟨0, "complete", .client 9002⟩
def evtStop : Ev := ⟨0, "stop", .client 9003⟩
def evtError : Ev := ⟨0, "error", .client 9004⟩

/-- LifecycleStateMachineUtil.java:23-27 -/
def STATE_UNINITIALISED : String := "UNINITIALISED"
def STATE_STARTING : String := "STARTING"
def STATE_STARTED : String := "STARTED"
def STATE_STOPPING : String := "STOPPING"
def STATE_STOPPED : String := "STOPPED"

/-- LifecycleStateMachineUtil.java:74-86 `configureAppStateMachine`. -/
def lifecycleCalls (uninitialised starting started stopping stopped : St) : List CfgCall :=
  [.initialSate (some uninitialised), .receives (some evtStart), .itTransitionsTo (some starting),
   .when_ (some starting), .receives (some evtComplete), .itTransitionsTo (some started),
   .when_ (some starting), .receives (some evtError), .itTransitionsTo (some stopped),
   .when_ (some started), .receives (some evtStop), .itTransitionsTo (some stopping),
   .when_ (some started), .receives (some evtError), .itTransitionsTo (some stopped),
   .when_ (some stopping), .receives (some evtComplete), .itTransitionsTo (some stopped),
   .when_ (some stopping), .receives (some evtError), .itTransitionsTo (some stopped),
   .when_ (some stopped), .receives (some evtStart), .itTransitionsTo (some starting),
   .when_ (some stopped), .receives (some evtStop), .itEnds]

/-- An `AbstractAppService` with its subsystems (AbstractAppService.java:28-31, 53-65; AbstractAppContext.java:65-68). -/
structure App where
  id : Nat
  m : MId                              -- appStateMachine
  latch : Nat                          -- appLatch
  exitOnStop : Bool                    -- isExitOnStop
  nsubs : Nat                          -- number of subsystems
  sub : Nat → Bool → UProg             -- `start` (true) and `stop` (false) of the k-th subsystem
  uninit : St
  starting : St
  started : St
  stopping : St
  stopped : St

namespace App
variable (a : App)

/-- `appStateMachine.fire(ev)` -/
def fire (ev : Ev) : UProg := .call (.fire a.m ev) UProg.ofRes

/-- AbstractAppService.java:71-74 -/
def exceptionHandler (_ : Exc) : UProg := .call (.getCurrentState a.m) fun _ => a.fire evtError

/-- Call of `start` or `stop` of a subsystem, recorded in the history. -/
def callSub (k : Nat) (up : Bool) (next : UProg) : UProg :=
  .note (.sub a.id k up) ((a.sub k up).handle fun r => .note (.subRet a.id k up (outcome r)) (match r with
    | .ok _ => next
    | .error x => .thr x))

/-- AbstractAppService.java:79-82: the rest of the loop from subsystem `k` on, `n` to go. -/
def startLoop : Nat → Nat → UProg
  | _, 0 => a.fire evtComplete
  | k, n + 1 => a.callSub k true (startLoop (k + 1) n)

/-- AbstractAppService.java:90-95: the rest of the loop, `k` is the cursor of the list iterator. -/
def stopLoop : Nat → UProg
  | 0 => a.fire evtComplete
  | k + 1 => a.callSub k false (stopLoop k)

/-- AbstractAppService.java:76-83, entry action of STARTING. -/
def startingAction : UProg := handleException (a.startLoop 0 a.nsubs) a.exceptionHandler

/-- AbstractAppService.java:84-86, entry action of STARTED. -/
def startedAction : UProg := handleException .done a.exceptionHandler

/-- AbstractAppService.java:87-96, entry action of STOPPING. -/
def stoppingAction : UProg := handleException (a.stopLoop a.nsubs) a.exceptionHandler

/-- AbstractAppService.java:97-103, entry action of STOPPED. -/
def stoppedAction : UProg :=
  if a.exitOnStop then
    (a.fire evtStop).andThen (.call (.countDown a.latch) fun _ => .done)
  else .done

/-- AbstractAppService.java:177-179 `stateName`, compared with a literal. -/
def named (s : Option St) (n : String) : Bool := s.elim false fun s => s.name == n

/-- AbstractAppService.java:149-160 `stop()`. -/
def stopBody : UProg :=
  .call (.getCurrentState a.m) fun s =>
    if named s STATE_STARTED || !a.exitOnStop && named s STATE_STOPPED then a.fire evtStop
    else if !(a.exitOnStop && named s STATE_STOPPED) then .thr (.ise .appState)
    else .done

/-- AbstractAppService.java:163-167 `error(e)`. -/
def errorBody : UProg := a.fire evtError

/-- A call of a method, recorded in the history. -/
def recorded (c : AppCall) (b : UProg) : UProg :=
  .note (.app a.id c) (b.handle fun r => .note (.appRet a.id c (outcome r)) (UProg.ofRes r))

/-- AbstractAppService.java:131-135, the finally block. -/
def startFinally : UProg :=
  .call (.isEnded a.m) fun e => if !e then a.recorded .stop a.stopBody else .done

/-- AbstractAppService.java:120-143 `start()`. -/
def startBody : UProg :=
  .call (.getCurrentState a.m) fun s =>
    .call (.isStarted a.m) fun b =>
      if !b then
        (UProg.call (.start a.m) UProg.ofRes).andThen <|
        (a.fire evtStart).andThen <|
        .call (.await a.latch) fun intr =>
          if intr then .note (.intr a.id) (.call .setIntr fun _ => a.startFinally)
          else a.startFinally
      else if !a.exitOnStop && named s STATE_STOPPED then a.fire evtStart
      else .thr (.ise .appState)

def methodBody : AppCall → UProg
  | .start => a.startBody
  | .stop => a.stopBody
  | .error => a.errorBody

/-- A call of a public method of the app. -/
def method (c : AppCall) : UProg := a.recorded c (a.methodBody c)

/-- The actions of the app's states, by object identity. -/
def action (oid : Nat) : Option UProg :=
  if oid = a.starting.oid then some a.startingAction
  else if oid = a.stopping.oid then some a.stoppingAction
  else if oid = a.stopped.oid then some a.stoppedAction
  else none

/-- API calls that only the app itself can make (`appStateMachine`, `appLatch` are private fields; the marks belong to the
app's methods). -/
def own : UCall → Bool
  | .fire m _ | .stop m | .start m | .startInState m _ => m == a.m
  | .await n | .countDown n => n == a.latch
  | .note (.sub i ..) | .note (.subRet i ..) | .note (.app i _) | .note (.appRet i ..) | .note (.intr i) => i == a.id
  | _ => false

/-- Code outside the app: anything that uses the app through its public methods. -/
inductive Outside : UProg → Prop
  | done : Outside .done
  | thr (x : Exc) : Outside (.thr x)
  | call (u : UCall) (k : u.Res → UProg) : a.own u = false → (∀ r, Outside (k r)) → Outside (.call u k)
  | method (c : AppCall) (k : Except Exc Unit → UProg) : (∀ r, Outside (k r)) → Outside ((a.method c).handle k)

/-- The app is part of the program `env`: its machine is configured as in AbstractAppService.java:53-107, everything else is
outside code. Its machine uses the default handlers, which only write to the log (DefaultUnexpectedFlowListener.java,
EventProcessingStrategyFactory.java); the entry action of STARTED does nothing. -/
structure Wired (env : Env) : Prop where
  names : a.uninit.name = STATE_UNINITIALISED ∧ a.starting.name = STATE_STARTING ∧ a.started.name = STATE_STARTED ∧
    a.stopping.name = STATE_STOPPING ∧ a.stopped.name = STATE_STOPPED
  oids : [a.uninit.oid, a.starting.oid, a.started.oid, a.stopping.oid, a.stopped.oid].Nodup
  entry : ∀ oid p, a.action oid = some p → env.acts .entry oid = [fun _ _ => p]
  entryStarted : env.acts .entry a.started.oid = [fun _ _ => a.startedAction]
  entryUninit : env.acts .entry a.uninit.oid = []
  exit : ∀ s ∈ [a.uninit, a.starting, a.started, a.stopping, a.stopped], env.acts .exit s.oid = []
  other : ∀ k oid f, f ∈ env.acts k oid → (k = .entry → a.action oid = none) → ∀ ev m, a.Outside (f ev m)
  init : (env.mach a.m).init = some a.uninit
  table : (env.mach a.m).table =
    (cfgRun (env.mach a.m).res (lifecycleCalls a.uninit a.starting a.started a.stopping a.stopped) .empty).table
  otherInit : ∀ m s, (env.mach m).init = some s → a.action s.oid = none
  unmapped : ∀ s ev m, a.Outside (env.unmapped s ev m)
  flowEx : ∀ s ev m x, a.Outside (env.flowEx s ev m x)
  flowAfter : ∀ s ev m, a.Outside (env.flowAfter s ev m)
  flowBefore : ∀ s ev m, a.Outside (env.flowBefore s ev m)
  flowOwn : ∀ ev m x, env.flowEx (env.mach a.m).strat ev m x = .done ∧ env.flowAfter (env.mach a.m).strat ev m = .done ∧
    env.flowBefore (env.mach a.m).strat ev m = .done
  listener : ∀ l c f ev t, a.Outside (env.listener l c f ev t)
  proc : ∀ i, a.Outside (env.proc i)
  sub : ∀ k up, a.Outside (a.sub k up)

end App
end Verif
