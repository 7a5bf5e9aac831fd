import Verif.Model.Sem
import Verif.Spec.HB
/-
Threads and scheduler as in Model/Sem.lean, but plain fields are not sequentially consistent: currentState and stateMachineListener of the machines
(GenericStateMachine.java:44, 40), the two fields of the pooled pairs (EventMachinePair.java:17-18) and the payloads of events (NamedStateEvent.java:17). When a thread
reads one of them, anything may come out. Which values can come out is said by Spec/Plain.lean. (Model/Weak.lean is this for currentState alone.)
Memory `c.w` still contains what has been written last, in the order of the execution.
-/

namespace Verif.Plain
open Verif.Spec.HB

/-- Contents of a field; the two fields of a pair are taken together. -/
inductive Content
  | state (v : Option St)
  | listener (v : Option LId)
  | pair (e : Option Ev) (m : Option MId)
  | payload (v : Option Val)
deriving DecidableEq

def content (w : World) : Cell → Content
  | .cur m => .state (w.mach m).cur
  | .listener m => .listener (w.mach m).listener
  | .pair p => .pair ((w.pair p).map (·.1)) ((w.pair p).map (·.2))
  | .payload o => .payload (w.payload o)

/-- The field that an operation reads: GenericStateMachine.java:297, 189, 200, 202; EventMachinePair.java:29-35; NamedStateEvent.java:38-40, 23-25. -/
def source : Op → Option Cell
  | .getCur m => some (.cur m)
  | .getListener m | .notify m _ => some (.listener m)
  | .getPair p => some (.pair p)
  | .getPayload o => some (.payload o)
  | .newCopy ev => some (.payload ev.oid)
  | _ => none

/-- An operation that reads a field, and gets `v`. As `exec` otherwise. (If one field of a pair is null and the other is not, the operation fails as if both were.) -/
def execRead (t : Tid) : (o : Op) → Content → World → Option (o.Res × World)
  | .getCur _, .state v, w => some (v, w)
  | .getListener _, .listener v, w => some (v, w)
  | .notify _ c, .listener v, w => match v with
    | none => some (none, w)
    | some l => some (some l, w.log t (.cb c))
  | .getPair _, .pair e m, w => match e, m with
    | some e, some m => some (some (e, m), w)
    | _, _ => some (none, w)
  | .getPayload _, .payload v, w => some (v, w)
  | .newCopy ev, .payload v, w =>
    some (⟨0, ev.name, .copy w.nextCopy⟩,
      ({ w with nextCopy := w.nextCopy + 1, payload := fset w.payload (.copy w.nextCopy) v }).log t (.copied w.nextCopy ev v))
  | _, _, _ => none

/-- What can happen next: a choice of the scheduler, or thread `t` reads a field and gets `v`. -/
inductive PChoice
  | sched (x : Choice)
  | read (t : Tid) (v : Content)

variable (env : Env) (M : Cell → Prop) [DecidablePred M]

/-- The fields in `M` are weak, the others sequentially consistent. -/
def step (c : Conf) : PChoice → Option Conf
  | .sched x => Verif.step env c x
  | .read t v => match c.thr t with
    | some (.op o k) => match source o with
      | some x => if M x then (execRead t o v c.w).map fun r => ⟨r.2, fset c.thr t (some (k r.1))⟩ else none
      | none => none
    | _ => none

def runs (c : Conf) : List PChoice → Option Conf
  | [] => some c
  | x :: xs => match step env M c x with
    | none => none
    | some c' => runs c' xs

end Verif.Plain
