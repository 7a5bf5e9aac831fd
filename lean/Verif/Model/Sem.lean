import Verif.Model.Code
/-
Threads and scheduler.
-/

namespace Verif

/-- A configuration: shared memory, and what every thread still has to do (`none`: idle). -/
structure Conf where
  w : World
  thr : Tid → Option (Prog Unit)

/-- What the scheduler (or the outside world) can do next. -/
inductive Choice
  | begin (n : Nat) (u : UProg)         -- idle client thread n begins to execute u
  | run (t : Tid)                       -- thread t does one step
  | dispatch (e : EId) (i j : Nat)      -- idle worker i of executor e takes the j-th pending task
  | interrupt (t : Tid)                 -- somebody interrupts t
  | shutdown (e : EId) (now : Bool)     -- shutdown() / shutdownNow() of executor e

/-- `shutdownNow()` throws the pending tasks away. -/
def World.dropTasks (w : World) (e : EId) : World :=
  { w with
    tasks := fset w.tasks e []
    trace := w.trace ++ (w.tasks e).map (fun t => (Tid.env, Obs.taskDropped t.1 t.2)) }

variable (env : Env)

/-- One step of thread `t` executing `p`. -/
def runThread (c : Conf) (t : Tid) : Prog Unit → Option Conf
  | .ret () => some { c with thr := fset c.thr t none }
  | .thr x => some { w := c.w.log t (.uncaught x), thr := fset c.thr t none }
  | .op o k =>
    if enabled t o c.w then
      let (r, w') := exec t o c.w
      some { w := w', thr := fset c.thr t (some (k r)) }
    else none
  | .call f k => some { c with thr := fset c.thr t (some ((body env f).handle k)) }

/-- The successor configuration, if the choice is possible. -/
def step (c : Conf) : Choice → Option Conf
  | .begin n u =>
    match c.thr (.client n) with
    | some _ => none
    | none => some { c with thr := fset c.thr (.client n) (some (u.denote env)) }
  | .run t =>
    match c.thr t with
    | none => none
    | some p => runThread env c t p
  | .dispatch e i j =>
    if i < env.width e then
      match c.thr (.worker e i), (c.w.tasks e)[j]? with
      | none, some (s, m) =>
        some { w := { c.w with tasks := fset c.w.tasks e ((c.w.tasks e).eraseIdx j) },
               thr := fset c.thr (.worker e i) (some (drain env s m)) }
      | _, _ => none
    else none
  | .interrupt t => some { c with w := { c.w with intr := fset c.w.intr t true } }
  | .shutdown e now =>
    let w := { c.w with shut := fset c.w.shut e true }
    some { c with w := if now then w.dropTasks e else w }

/-- Follow a schedule. -/
def runs (c : Conf) : List Choice → Option Conf
  | [] => some c
  | x :: xs => match step env c x with
    | none => none
    | some c' => runs c' xs

/-- Reachability from a given configuration. -/
def ReachFrom (c0 c : Conf) : Prop := ∃ xs, runs env c0 xs = some c

/-- All machines built and not started, empty queues, no threads running. Payloads of client events, user memory,
latches and listeners installed by the builder are arbitrary. -/
structure Initial (c : Conf) : Prop where
  idle : ∀ t, c.thr t = none
  mach : ∀ m, (c.w.mach m).started = false ∧ (c.w.mach m).ended = false ∧ (c.w.mach m).cur = none
  pair : ∀ p, c.w.pair p = none
  nextPair : c.w.nextPair = 0
  nextCopy : c.w.nextCopy = 0
  queue : ∀ q, c.w.queue q = []
  pool : ∀ s, c.w.pool s = []
  tasks : ∀ e, c.w.tasks e = []
  trace : c.w.trace = []

/-- Reachable from some initial configuration. -/
def Reach (c : Conf) : Prop := ∃ c0, Initial c0 ∧ ReachFrom env c0 c

end Verif
