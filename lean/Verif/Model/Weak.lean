import Verif.Model.Sem
/-
Threads and scheduler as in Model/Sem.lean, but the plain field `currentState` (GenericStateMachine.java:44) is not sequentially consistent: when a thread
reads it (GenericStateMachine.java:297, `getCurrentState()`), anything may come out. Which values can come out is said by Spec/Weak.lean.
-/

namespace Verif.Weak

/-- What can happen next: a choice of the scheduler, or thread `t` reads `currentState` of a machine and gets `v`. -/
inductive WChoice
  | sched (x : Choice)
  | read (t : Tid) (v : Option St)

variable (env : Env) (M : MId → Prop) [DecidablePred M]

/-- GenericStateMachine.java:297 for machines in `M`; the fields of the other machines are sequentially consistent. -/
def step (c : Conf) : WChoice → Option Conf
  | .sched x => Verif.step env c x
  | .read t v => match c.thr t with
    | some (.op (.getCur m) k) => if M m then some { c with thr := fset c.thr t (some (k v)) } else none
    | _ => none

def runs (c : Conf) : List WChoice → Option Conf
  | [] => some c
  | x :: xs => match step env M c x with
    | none => none
    | some c' => runs c' xs

end Verif.Weak
