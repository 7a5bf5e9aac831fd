import Verif.Spec.Live
/-
Specification: executors that serve several queues, in infinite executions.
-/

namespace Verif.Spec
variable {env : Env}

/-- Executor `e` begins its tasks in the order in which they were submitted. -/
def Run.inOrder (r : Run env) (e : EId) : Prop := ∀ i k n, r.pick i = some (.dispatch e k n) → n = 0

/-- Thread `t` has nothing to do again and again. -/
def Run.idles (r : Run env) (t : Tid) : Prop := ∀ i, ∃ j, i ≤ j ∧ (r.conf j).thr t = none

end Verif.Spec
