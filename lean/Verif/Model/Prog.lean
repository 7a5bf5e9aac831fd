import Verif.Model.Config
/-
Shared memory, atomic operations, programs, user code.
Java paths are relative to /repo/src/main/java/com/webotech/statemachine/.
-/

namespace Verif

/-- Threads. `worker e i` is the i-th worker thread of executor e; `env` only labels history entries that are
caused by no modelled thread. -/
inductive Tid
  | client (n : Nat)
  | worker (e : EId) (i : Nat)
  | env
deriving DecidableEq, Repr

/-- Entry or exit actions of a state (NamedState.java:23-24). -/
inductive Kind
  | entry
  | exit
deriving DecidableEq, Repr

/-- Invocations of user code by the library. -/
inductive Cb
  | begin (m : MId) (f : St) (ev : Ev) (t : St)                 -- onStateChangeBegin, GenericStateMachine.java:202
  | end_ (m : MId) (f : St) (ev : Ev) (t : St)                  -- onStateChangeEnd, GenericStateMachine.java:200
  | action (m : MId) (k : Kind) (oid : Nat) (i : Nat) (ev : Ev) -- NamedState.java:34, 39
  | unmapped (m : MId) (ev : Ev)                                -- TransitionTask.java:29
  | flowEx (m : MId) (ev : Ev) (x : Exc)                        -- DefaultEventStrategy.java:97
  | flowFull (m : MId) (ev : Ev)                                -- DefaultEventStrategy.java:73
  | flowAfter (m : MId) (ev : Ev)                               -- GenericStateMachine.java:289
  | flowBefore (m : MId) (ev : Ev)                              -- GenericStateMachine.java:287
deriving DecidableEq, Repr

/-- API methods whose calls and returns are recorded in the history. -/
inductive Api
  | fire (m : MId) (ev : Ev)
  | stop (m : MId)
  | start (m : MId)
  | startInState (m : MId) (s : Option St)
deriving DecidableEq, Repr

/-- Methods of an app (service/api/AppService.java). -/
inductive AppCall
  | start | stop | error
deriving DecidableEq, Repr

/-- Things user code does that are worth recording. An app `a` (AbstractAppService) is user code of the state machine. -/
inductive Mark
  | num (n : Nat)                                                -- anything
  | log (s : String)                                             -- a line written to the log
  | consumer (l : LId)                                           -- MultiConsumerStateMachineListener.java:49, 56
  | sub (a : Nat) (k : Nat) (up : Bool)                          -- k-th subsystem's start / stop called
  | subRet (a : Nat) (k : Nat) (up : Bool) (r : Option Exc)      -- .. returned / threw
  | app (a : Nat) (c : AppCall)                                  -- method of the app called
  | intr (a : Nat)                                               -- "Main latch was interrupted" logged by the app
  | appRet (a : Nat) (c : AppCall) (r : Option Exc)              -- .. returned / threw
deriving DecidableEq, Repr

instance (n : Nat) : OfNat Mark n := ⟨.num n⟩

/-- Entries of the history. `none : Option Exc` as an outcome means "returned normally". -/
inductive Obs
  | enter (c : Api)                               -- API method called
  | leave (c : Api) (r : Option Exc)              -- API method returned / threw
  | cb (c : Cb)                                   -- user code called
  | cbRet (c : Cb) (r : Option Exc)               -- user code returned / threw
  | started (m : MId)                             -- CAS on isStarted succeeded
  | cleared (m : MId)                             -- isEnded.set(false)
  | upd (m : MId) (s : St) (b : Bool) (api : Bool) -- CAS on isEnded false -> b succeeded, s is about to be written
  | cur (m : MId) (s : St) (api : Bool)           -- currentState written (api: by start/startInState/stop)
  | listener (m : MId) (l : Option LId)           -- stateMachineListener written
  | dropped (m : MId) (ev : Ev)                   -- dropped as a duplicate
  | accepted (q : QId) (m : MId) (ev : Ev)        -- offered to the queue
  | submitted (s : SId) (m : MId)                 -- executor took the drain task
  | rejected (s : SId) (m : MId)                  -- executor refused the drain task
  | taken (q : QId) (m : MId) (ev : Ev)           -- polled from the queue
  | done (m : MId) (ev : Ev)                      -- pair given back to the pool
  | copied (n : Nat) (src : Ev) (v : Option Val)  -- safe copy n made of src, with payload v
  | payload (o : EvOid) (v : Option Val)          -- setPayload
  | taskDropped (s : SId) (m : MId)               -- shutdownNow threw a pending task away
  | uncaught (x : Exc)                            -- a thread's run method ended with x
  | user (n : Mark)                               -- something user code does
  | latch (n : Nat)                               -- countDown
deriving DecidableEq, Repr

/-- The mutable fields of one machine (GenericStateMachine.java:29-30, 40, 44). -/
structure Mach where
  started : Bool
  ended : Bool
  cur : Option St
  listener : Option LId
deriving DecidableEq, Repr

/-- Shared memory. -/
structure World where
  mach : MId → Mach
  payload : EvOid → Option Val                 -- NamedStateEvent.java:17
  pair : PairId → Option (Ev × MId)            -- EventMachinePair.java:17-18
  nextPair : Nat                               -- allocation counter
  nextCopy : Nat                               -- allocation counter
  queue : QId → List PairId                    -- DefaultEventStrategy.java:20 eventQueue
  pool : SId → List PairId                     -- EventMachinePairPool.java:15
  tasks : EId → List (SId × MId)               -- pending drain tasks, with the captured machine
  shut : EId → Bool                            -- executor shut down
  latch : Nat → Nat                            -- CountDownLatch counts
  intr : Tid → Bool                            -- interrupt flags
  mem : Nat → Nat                              -- memory of user code
  trace : List (Tid × Obs)                     -- history, oldest first

def fset {α β : Type} [DecidableEq α] (f : α → β) (a : α) (b : β) : α → β := fun x => if x = a then b else f x

@[simp] theorem fset_same {α β : Type} [DecidableEq α] (f : α → β) (a : α) (b : β) : fset f a b a = b := by simp [fset]
theorem fset_ne {α β : Type} [DecidableEq α] (f : α → β) {a x : α} (b : β) (h : x ≠ a) : fset f a b x = f x := by
  simp [fset, h]

/-- Atomic operations. -/
inductive Op
  | getStarted (m : MId)                                   -- isStarted.get(), GenericStateMachine.java:271
  | casStarted (m : MId)                                   -- isStarted.compareAndSet(false, true), :232, :261
  | getEnded (m : MId)                                     -- isEnded.get(), :276
  | clearEnded (m : MId)                                   -- isEnded.set(false), :237, :263
  | casEnded (m : MId) (s : St) (b : Bool) (api : Bool)    -- isEnded.compareAndSet(false, b), :319 (s: for the history)
  | getCur (m : MId)                                       -- this.currentState, :297
  | setCur (m : MId) (s : St) (api : Bool)                 -- currentState = s, :233, :262, :320
  | getListener (m : MId)                                  -- this.stateMachineListener != null, :189
  | notify (m : MId) (c : Cb)                              -- this.stateMachineListener.onStateChange..(..), :200, :202
  | setListener (m : MId) (l : Option LId)                 -- :315
  | qSize (q : QId)                                        -- eventQueue.size(), DefaultEventStrategy.java:66
  | qSnap (q : QId)                                        -- elements seen by eventQueue.stream(), DropDuplicateEventStrategy.java:45
  | qIsEmpty (q : QId)                                     -- eventQueue.isEmpty(), DefaultEventStrategy.java:88
  | offer (q : QId) (p : PairId)                           -- eventQueue.offer(p), :86
  | poll (q : QId)                                         -- eventQueue.poll(), :89
  | poolTake (s : SId)                                     -- EventMachinePairPool.java:20-26
  | poolGive (s : SId) (p : PairId)                        -- EventMachinePairPool.java:31-35
  | setPair (p : PairId) (ev : Ev) (m : MId)               -- EventMachinePair.java:24-27
  | getPair (p : PairId)                                   -- EventMachinePair.java:29-35
  | getPayload (o : EvOid)                                 -- NamedStateEvent.java:38-40
  | setPayload (o : EvOid) (v : Option Val)                -- NamedStateEvent.java:43-45
  | newCopy (ev : Ev)                                      -- new NamedStateEvent<>(stateEvent), NamedStateEvent.java:23-25
  | submit (e : EId) (s : SId) (m : MId)                   -- executor.execute(..), DefaultEventStrategy.java:87
  | emit (o : Obs)                                         -- record something in the history
  | getMem (a : Nat)                                       -- user memory
  | setMem (a : Nat) (v : Nat)
  | await (n : Nat)                                        -- CountDownLatch.await()
  | countDown (n : Nat)                                    -- CountDownLatch.countDown()
  | setIntr                                                -- Thread.currentThread().interrupt()
deriving DecidableEq, Repr

/-- Result types. `casX`: success; `notify`: the listener called, `none` = the field was null (NPE); `submit`: accepted;
`await`: `true` = InterruptedException. -/
@[reducible] def Op.Res : Op → Type
  | .getStarted _ | .casStarted _ | .getEnded _ | .casEnded .. | .qIsEmpty _ | .submit .. | .await _ => Bool
  | .getCur _ => Option St
  | .getListener _ | .notify .. => Option LId
  | .qSize _ | .getMem _ => Nat
  | .qSnap _ => List PairId
  | .poll _ => Option PairId
  | .poolTake _ => PairId
  | .getPair _ => Option (Ev × MId)
  | .getPayload _ => Option Val
  | .newCopy _ => Ev
  | _ => Unit

def World.log (w : World) (t : Tid) (o : Obs) : World := { w with trace := w.trace ++ [(t, o)] }

/-- Effect of an atomic operation done by thread `t`. -/
def exec (t : Tid) : (o : Op) → World → o.Res × World
  | .getStarted m, w => ((w.mach m).started, w)
  | .casStarted m, w =>
    if (w.mach m).started then (false, w)
    else (true, ({ w with mach := fset w.mach m { w.mach m with started := true } }).log t (.started m))
  | .getEnded m, w => ((w.mach m).ended, w)
  | .clearEnded m, w => ((), ({ w with mach := fset w.mach m { w.mach m with ended := false } }).log t (.cleared m))
  | .casEnded m s b api, w =>
    if (w.mach m).ended then (false, w)
    else (true, ({ w with mach := fset w.mach m { w.mach m with ended := b } }).log t (.upd m s b api))
  | .getCur m, w => ((w.mach m).cur, w)
  | .setCur m s api, w => ((), ({ w with mach := fset w.mach m { w.mach m with cur := some s } }).log t (.cur m s api))
  | .getListener m, w => ((w.mach m).listener, w)
  | .notify m c, w =>
    match (w.mach m).listener with
    | none => (none, w)
    | some l => (some l, w.log t (.cb c))
  | .setListener m l, w =>
    ((), ({ w with mach := fset w.mach m { w.mach m with listener := l } }).log t (.listener m l))
  | .qSize q, w => ((w.queue q).length, w)
  | .qSnap q, w => (w.queue q, w)
  | .qIsEmpty q, w => ((w.queue q).isEmpty, w)
  | .offer q p, w =>
    let w' := { w with queue := fset w.queue q (w.queue q ++ [p]) }
    ((), match w.pair p with
      | some (ev, m) => w'.log t (.accepted q m ev)
      | none => w')
  | .poll q, w =>
    match w.queue q with
    | [] => (none, w)
    | p :: ps =>
      let w' := { w with queue := fset w.queue q ps }
      (some p, match w.pair p with
        | some (ev, m) => w'.log t (.taken q m ev)
        | none => w')
  | .poolTake s, w =>
    match w.pool s with
    | [] => (w.nextPair, { w with nextPair := w.nextPair + 1 })
    | p :: ps => (p, { w with pool := fset w.pool s ps })
  | .poolGive s p, w =>
    let w' := { w with pool := fset w.pool s (w.pool s ++ [p]) }
    ((), match w.pair p with
      | some (ev, m) => w'.log t (.done m ev)
      | none => w')
  | .setPair p ev m, w => ((), { w with pair := fset w.pair p (some (ev, m)) })
  | .getPair p, w => (w.pair p, w)
  | .getPayload o, w => (w.payload o, w)
  | .setPayload o v, w => ((), ({ w with payload := fset w.payload o v }).log t (.payload o v))
  | .newCopy ev, w =>
    (⟨0, ev.name, .copy w.nextCopy⟩,
      ({ w with nextCopy := w.nextCopy + 1, payload := fset w.payload (.copy w.nextCopy) (w.payload ev.oid) }).log t
        (.copied w.nextCopy ev (w.payload ev.oid)))
  | .submit e s m, w =>
    if w.shut e then (false, w.log t (.rejected s m))
    else (true, ({ w with tasks := fset w.tasks e (w.tasks e ++ [(s, m)]) }).log t (.submitted s m))
  | .emit o, w => ((), w.log t o)
  | .getMem a, w => (w.mem a, w)
  | .setMem a v, w => ((), { w with mem := fset w.mem a v })
  | .await _, w => if w.intr t then (true, { w with intr := fset w.intr t false }) else (false, w)
  | .countDown n, w => ((), ({ w with latch := fset w.latch n (w.latch n - 1) }).log t (.latch n))
  | .setIntr, w => ((), { w with intr := fset w.intr t true })

/-- Only `await` can block. -/
def enabled (t : Tid) : Op → World → Bool
  | .await n, w => w.intr t || w.latch n == 0
  | _, _ => true

/-- Calls whose body is looked up when they are executed: user code, and the loop of the drain task. -/
inductive Call
  | action (k : Kind) (oid : Nat) (i : Nat) (ev : Ev) (m : MId)
  | listener (l : LId) (complete : Bool) (f : St) (ev : Ev) (t : St)
  | unmapped (s : SId) (ev : Ev) (m : MId)
  | flowEx (s : SId) (ev : Ev) (m : MId) (x : Exc)
  | flowAfter (s : SId) (ev : Ev) (m : MId)
  | flowBefore (s : SId) (ev : Ev) (m : MId)
  | proc (i : Nat)
  | drain (s : SId) (m : MId)
deriving DecidableEq, Repr

/-- Programs of a thread. -/
inductive Prog (α : Type)
  | ret (a : α)
  | thr (x : Exc)
  | op (o : Op) (k : o.Res → Prog α)
  | call (c : Call) (k : Except Exc Unit → Prog α)

namespace Prog
variable {α β : Type}

/-- Run `p`, then continue with its outcome. -/
def handle : Prog α → (Except Exc α → Prog β) → Prog β
  | ret a, f => f (.ok a)
  | thr x, f => f (.error x)
  | op o k, f => op o (fun r => handle (k r) f)
  | call c k, f => call c (fun r => handle (k r) f)

def bind (p : Prog α) (f : α → Prog β) : Prog β :=
  p.handle fun
    | .ok a => f a
    | .error x => thr x

instance : Monad Prog where
  pure := ret
  bind := bind

/-- Run `p` and hand its outcome over as a value. -/
def attempt (p : Prog α) : Prog (Except Exc α) := p.handle ret

/-- (Re)throw. -/
def ofExcept : Except Exc α → Prog α
  | .ok a => ret a
  | .error x => thr x

def lift (o : Op) : Prog o.Res := op o ret

def invoke (c : Call) : Prog Unit := call c ofExcept

end Prog

/-- The outcome as recorded in the history. -/
def outcome {α : Type} : Except Exc α → Option Exc
  | .ok _ => none
  | .error x => some x

/-! ### User code -/

/-- What user code (actions, listeners, handlers, client threads) can do: call the public API, throw, use its own
memory, wait for latches, call its own (possibly recursive) procedures. -/
inductive UCall
  | fire (m : MId) (ev : Ev)
  | stop (m : MId)
  | start (m : MId)
  | startInState (m : MId) (s : Option St)
  | isStarted (m : MId)
  | isEnded (m : MId)
  | getCurrentState (m : MId)
  | getEventQueueSize (m : MId)
  | setListener (m : MId) (l : Option LId)
  | getPayload (o : EvOid)
  | setPayload (o : EvOid) (v : Option Val)
  | proc (i : Nat)
  | note (n : Mark)
  | getMem (a : Nat)
  | setMem (a : Nat) (v : Nat)
  | await (n : Nat)
  | countDown (n : Nat)
  | setIntr
deriving DecidableEq, Repr

@[reducible] def UCall.Res : UCall → Type
  | .fire .. | .stop _ | .start _ | .startInState .. | .proc _ => Except Exc Unit
  | .isStarted _ | .isEnded _ | .await _ => Bool
  | .getCurrentState _ => Option St
  | .getEventQueueSize _ | .getMem _ => Nat
  | .getPayload _ => Option Val
  | _ => Unit

/-- User code: any well-founded tree of such calls, branching on their results; loops through `proc`. -/
inductive UProg
  | done
  | thr (x : Exc)
  | call (u : UCall) (k : u.Res → UProg)

end Verif
