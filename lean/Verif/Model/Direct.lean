import Verif.Model.Sem
/-
Executors that execute a task in the thread that hands it over, before `execute` returns. (docs/05-events.md:30-31: "your own
`ExecutorService`"; for example one that is `Runnable::run`, or a saturated `ThreadPoolExecutor` with `CallerRunsPolicy`.)
`d e`: executor `e` is of this kind; it is never shut down. All other executors are those of Model/Code and Model/Sem: without executors of this
kind the definitions below are those of Model/Code and Model/Sem (`Direct.step_none` in Props/Direct).
-/

namespace Verif.Direct
open Prog

variable (env : Env) (d : EId → Bool)

/-- DefaultEventStrategy.java:70-104. If the executor is of this kind, line 87 calls lines 88-102. -/
def processEventDefault (s : SId) (ev : Ev) (m : MId) : Prog Unit := do
  let c := env.strat s
  let queueSize ← lift (.qSize c.queue)
  if c.maxQ > 0 && (queueSize : Int) ≥ c.maxQ then
    callback (.flowFull m ev) (.flowEx s ev m (.ise .queueFull))
  else
    let p ← lift (.poolTake s)
    if (← lift (.getPayload ev.oid)).isSome then
      let ev' ← lift (.newCopy ev)
      lift (.setPair p ev' m)
    else
      lift (.setPair p ev m)
    lift (.offer c.queue p)
    if d c.exec then
      invoke (.drain s m)
    else if !(← lift (.submit c.exec s m)) then
      thr .rejected

/-- DropDuplicateEventStrategy.java:43-50, or directly DefaultEventStrategy.java:70. -/
def processEvent (s : SId) (ev : Ev) (m : MId) : Prog Unit := do
  if (env.strat s).dropDup then
    let ps ← lift (.qSnap (env.strat s).queue)
    if ← anyEqual ev ps then
      lift (.emit (.dropped m ev))
    else processEventDefault env d s ev m
  else processEventDefault env d s ev m

/-- GenericStateMachine.java:285-293. -/
def fire (m : MId) (ev : Ev) : Prog Unit := do
  let s := (env.mach m).strat
  if !(← lift (.getStarted m)) then
    callback (.flowBefore m ev) (.flowBefore s ev m)
  else
    let e ← do
      if ← lift (.getStarted m) then lift (.getEnded m) else ret false
    if e then
      callback (.flowAfter m ev) (.flowAfter s ev m)
    else
      processEvent env d s ev m

/-- Meaning of the calls of user code: only `fire` is another one than in Model/Code. -/
def uprog : (u : UCall) → Prog u.Res
  | .fire m ev => api (.fire m ev) (fire env d m ev)
  | u => u.prog env

/-- Meaning of user code. -/
def denote : UProg → Prog Unit
  | .done => ret ()
  | .thr x => Prog.thr x
  | .call u k => (uprog env d u).bind fun r => denote (k r)

/-- Bodies of calls. The drain task (DefaultEventStrategy.java:88-102) is the one of Model/Code. -/
def body : Call → Prog Unit
  | .action k oid i ev m => match (env.acts k oid)[i]? with
    | some a => denote env d (a ev m)
    | none => ret ()
  | .listener l c f ev t => denote env d (env.listener l c f ev t)
  | .unmapped s ev m => denote env d (env.unmapped s ev m)
  | .flowEx s ev m x => denote env d (env.flowEx s ev m x)
  | .flowAfter s ev m => denote env d (env.flowAfter s ev m)
  | .flowBefore s ev m => denote env d (env.flowBefore s ev m)
  | .proc i => denote env d (env.proc i)
  | .drain s m => drain env s m

/-- One step of thread `t` executing `p`. -/
def runThread (c : Conf) (t : Tid) : Prog Unit → Option Conf
  | .ret () => some { c with thr := fset c.thr t none }
  | .thr x => some { w := c.w.log t (.uncaught x), thr := fset c.thr t none }
  | .op o k =>
    if enabled t o c.w then
      let (r, w') := exec t o c.w
      some { w := w', thr := fset c.thr t (some (k r)) }
    else none
  | .call f k => some { c with thr := fset c.thr t (some ((body env d f).handle k)) }

/-- The successor configuration, if the choice is possible. -/
def step (c : Conf) : Choice → Option Conf
  | .begin n u =>
    match c.thr (.client n) with
    | some _ => none
    | none => some { c with thr := fset c.thr (.client n) (some (denote env d u)) }
  | .run t =>
    match c.thr t with
    | none => none
    | some p => runThread env d c t p
  | x => Verif.step env c x

/-- Follow a schedule. -/
def runs (c : Conf) : List Choice → Option Conf
  | [] => some c
  | x :: xs => match step env d c x with
    | none => none
    | some c' => runs c' xs

/-- Reachability from a given configuration. -/
def ReachFrom (c0 c : Conf) : Prop := ∃ xs, runs env d c0 xs = some c

end Verif.Direct
