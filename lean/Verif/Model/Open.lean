import Verif.Model.Sem
/-
Threads and scheduler as in Model/Sem.lean, and calls of `updateCurrentState(state)` from outside the library: the method is public
(GenericStateMachine.java:318-322), although `StateMachine` does not have it. Such a call returns nothing and throws nothing, so it is modelled as something that happens
besides what the threads do; a callback that calls it does so by having it happen at that moment. `updateCurrentState(getEndState())` is `stop()`
(GenericStateMachine.java:252-254), which user code can call anyway.
Java paths are relative to /repo/src/main/java/com/webotech/statemachine/.
-/

namespace Verif.Open

/-- A configuration, and the calls that have passed the check of line 319: machine and new state. -/
structure OConf where
  conf : Conf
  call : Nat → Option (MId × St)

inductive OChoice
  | sched (x : Choice)
  | enter (i : Nat) (m : MId) (s : St)
  | write (i : Nat)

variable (env : Env)

/-- GenericStateMachine.java:319: `isEnded.compareAndSet(false, state.equals(endState))`, for other states than the end state; GenericStateMachine.java:320. -/
def step (c : OConf) : OChoice → Option OConf
  | .sched x => (Verif.step env c.conf x).map fun d => { c with conf := d }
  | .enter i m s => match c.call i with
    | some _ => none
    | none =>
      if s.eqv (env.mach m).res.endSt then none
      else if (c.conf.w.mach m).ended then some c
      else some { c with call := fset c.call i (some (m, s)) }
  | .write i => match c.call i with
    | none => none
    | some (m, s) =>
      some ⟨{ c.conf with w := { c.conf.w with mach := fset c.conf.w.mach m { c.conf.w.mach m with cur := some s } } }, fset c.call i none⟩

def runs (c : OConf) : List OChoice → Option OConf
  | [] => some c
  | x :: xs => match step env c x with
    | none => none
    | some c' => runs c' xs

/-- Nobody is in `updateCurrentState()`. -/
def init (c : Conf) : OConf := ⟨c, fun _ => none⟩

end Verif.Open
