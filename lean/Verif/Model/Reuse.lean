import Verif.Model.Sem
/-
Threads and scheduler as in Model/Sem.lean, but `EventMachinePairPool.take()` (EventMachinePairPool.java:20-26) may return any pair of the pool, or a new one, and pairs
may disappear from the pool. The latter is what `fire(null)` does (GenericStateMachine.java:285-293, DefaultEventStrategy.java:70-80): it takes a pair and throws a
NullPointerException before it has put it into the queue.
Java paths are relative to /repo/src/main/java/com/webotech/statemachine/.
-/

namespace Verif.Reuse
open Prog

/-- Take a new pair, or the i-th one of the pool (EventMachinePairPool.java:20-26). -/
def take (s : SId) (o : Option Nat) (w : World) : Option (PairId × World) := match o with
  | none => some (w.nextPair, { w with nextPair := w.nextPair + 1 })
  | some i => (w.pool s)[i]?.map fun p => (p, { w with pool := fset w.pool s ((w.pool s).eraseIdx i) })

/-- What can happen next: a choice of the scheduler; thread `t` takes a pair; a pair is taken and lost. -/
inductive RChoice
  | sched (x : Choice)
  | take (t : Tid) (o : Option Nat)
  | waste (s : SId) (o : Option Nat)

/-- The choice of the scheduler. -/
def RChoice.forget : RChoice → Option Choice
  | .sched x => some x
  | .take t _ => some (.run t)
  | .waste _ _ => none

variable (env : Env)

/-- Pairs are taken somehow. -/
def step (c : Conf) : RChoice → Option Conf
  | .sched x => Verif.step env c x
  | .take t o => match c.thr t with
    | some (.op (.poolTake s) k) => (Reuse.take s o c.w).map fun r => ⟨r.2, fset c.thr t (some (k r.1))⟩
    | _ => none
  | .waste s o => (Reuse.take s o c.w).map fun r => { c with w := r.2 }

def runs (c : Conf) : List RChoice → Option Conf
  | [] => some c
  | x :: xs => match step env c x with
    | none => none
    | some c' => runs c' xs

/-- A way of choosing a pair. -/
def Pick := World → SId → Option Nat

/-- It chooses pairs that exist. -/
def Pick.Valid (f : Pick) : Prop := ∀ w s i, f w s = some i → i < (w.pool s).length

/-- `new EventMachinePair()` every time. -/
def Pick.new : Pick := fun _ _ => none

/-- The library's way: the first pair of the pool if there is one. -/
def Pick.first : Pick := fun w s => if (w.pool s).isEmpty then none else some 0

/-- Pairs are taken in the given way. -/
def stepBy (f : Pick) (c : Conf) (x : Choice) : Option Conf := match x with
  | .run t => match c.thr t with
    | some (.op (.poolTake s) k) => (take s (f c.w s) c.w).map fun r => ⟨r.2, fset c.thr t (some (k r.1))⟩
    | _ => Verif.step env c x
  | x => Verif.step env c x

def runsBy (f : Pick) (c : Conf) : List Choice → Option Conf
  | [] => some c
  | x :: xs => match stepBy env f c x with
    | none => none
    | some c' => runsBy f c' xs

/-- DropDuplicateEventStrategy.java:45 for `null`: `event.equals(null)` is false for all events of the queue. -/
def noneEqual : List PairId → Prog Unit
  | [] => ret ()
  | p :: ps => do
    let _ ← deref (← lift (.getPair p))
    noneEqual ps

/-- DefaultEventStrategy.java:70-80 for `null`: `stateEvent.getPayload()` throws. `nul` stands for `null` in the arguments of callbacks. -/
def processNull (nul : Ev) (s : SId) (m : MId) : Prog Unit := do
  let c := env.strat s
  if c.dropDup then
    let ps ← lift (.qSnap c.queue)
    noneEqual ps
  let queueSize ← lift (.qSize c.queue)
  if c.maxQ > 0 && (queueSize : Int) ≥ c.maxQ then
    callback (.flowFull m nul) (.flowEx s nul m (.ise .queueFull))
  else
    let _ ← lift (.poolTake s)
    thr .npe

/-- GenericStateMachine.java:285-293 for `null`. -/
def fireNull (nul : Ev) (m : MId) : Prog Unit := do
  let s := (env.mach m).strat
  if !(← lift (.getStarted m)) then
    callback (.flowBefore m nul) (.flowBefore s nul m)
  else
    let e ← do
      if ← lift (.getStarted m) then lift (.getEnded m) else ret false
    if e then
      callback (.flowAfter m nul) (.flowAfter s nul m)
    else
      processNull env nul s m

end Verif.Reuse
