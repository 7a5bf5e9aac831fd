import Verif.Spec.App
import Verif.Spec.Live
/-
Specification: calls of the methods of an app, in infinite executions.
-/

namespace Verif.Spec.App

variable {env : Env}

/-- The call of method `c` of the app that thread `t` made at position `pos` of the history returns, with outcome `o`, as the last entry
of `tr`. -/
def Returns (a : App) (t : Tid) (pos : Nat) (c : AppCall) (o : Option Exc) (tr : List (Tid × Obs)) : Prop :=
  ∃ pre, tr = pre ++ [(t, .user (.appRet a.id c o))] ∧ (openCalls a t pre).head? = some (pos, c)

/-- The call of `start()` made at `pos` hangs in user code called by the `start()` of the machine. -/
def Hangs (a : App) (r : Run env) (t : Tid) (pos : Nat) : Prop :=
  ∃ i pre post, (r.conf i).w.trace = pre ++ (t, .enter (.start a.m)) :: post ∧ (openCalls a t pre).head? = some (pos, .start) ∧ r.hangs t pre

/-- The call of `start()` made at `pos` waits for ever: the thread can do nothing, the latch is never released, the thread never
interrupted. -/
def Waits (a : App) (r : Run env) (t : Tid) (pos : Nat) : Prop :=
  ∃ i, ∀ j, i ≤ j → Verif.step env (r.conf j) (.run t) = none ∧ (r.conf j).w.latch a.latch ≠ 0 ∧ (r.conf j).w.intr t = false ∧
    (openCalls a t (r.conf j).w.trace).head? = some (pos, .start)

end Verif.Spec.App
