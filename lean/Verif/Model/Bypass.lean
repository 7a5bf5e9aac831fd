import Verif.Model.Plain
/-
Threads and scheduler as in Model/Sem.lean, but events may be handed to a strategy directly: `processEvent` of DefaultEventStrategy (DefaultEventStrategy.java:70-104) and of
DropDuplicateEventStrategy (DropDuplicateEventStrategy.java:43-50) is public, and `EventProcessingStrategy` is an interface that user code may implement by calling
one of them. What is left out then are the checks of `fire` (GenericStateMachine.java:286-291).
Simplified: the strategy is the one of the machine. The history records such a call like a call of `fire`.
-/

namespace Verif.Bypass
open Verif.Spec.HB Verif.Plain

variable (env : Env)

/-- A step of the scheduler; or a thread that would call `fire(ev)` of machine `m` calls `processEvent(ev, m)` of its strategy instead (line 292 without the lines before). -/
inductive Step (c : Conf) : Conf → Prop
  | sched {x : Choice} {c' : Conf} : Verif.step env c x = some c' → Step c c'
  | direct {t : Tid} {m : MId} {ev : Ev} {k : Except Exc Unit → Prog Unit} : c.thr t = some ((fire env m ev).handle k) →
      Step c { c with thr := fset c.thr t (some ((processEvent env (env.mach m).strat ev m).handle k)) }

inductive Runs : Conf → Conf → Prop
  | refl (c : Conf) : Runs c c
  | step {c d e : Conf} : Runs c d → Step env d e → Runs c e

/-- A step of the scheduler; a read of a plain field in `M` that returns anything; a read of `isStarted` or `isEnded` (GenericStateMachine.java:29-30) that returns anything. -/
inductive FStep (M : Cell → Prop) [DecidablePred M] (c : Conf) : Conf → Prop
  | plain {x : PChoice} {c' : Conf} : Plain.step env M c x = some c' → FStep M c c'
  | started {t : Tid} {m : MId} {k : Bool → Prog Unit} (b : Bool) : c.thr t = some (.op (.getStarted m) k) → FStep M c ⟨c.w, fset c.thr t (some (k b))⟩
  | ended {t : Tid} {m : MId} {k : Bool → Prog Unit} (b : Bool) : c.thr t = some (.op (.getEnded m) k) → FStep M c ⟨c.w, fset c.thr t (some (k b))⟩

inductive FRuns (M : Cell → Prop) [DecidablePred M] : Conf → Conf → Prop
  | refl (c : Conf) : FRuns M c c
  | step {c d e : Conf} : FRuns M c d → FStep env M d e → FRuns M c e

end Verif.Bypass
