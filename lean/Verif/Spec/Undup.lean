import Verif.Model.Sem
/-
Specification: the same program without the check for duplicates.
-/

namespace Verif.Spec.Undup

/-- Strategies `D` are DefaultEventStrategy instead of DropDuplicateEventStrategy (EventProcessingStrategyFactory.java:33-46). -/
def undup (env : Env) (D : SId → Bool) : Env := { env with
  strat := fun s => { env.strat s with dropDup := (env.strat s).dropDup && !D s } }

/-- The entry of the history that says that an event was dropped by a strategy in `D`. -/
def Dropped (env : Env) (D : SId → Bool) : Tid × Obs → Prop
  | (_, .dropped m _) => D (env.mach m).strat = true
  | _ => False

end Verif.Spec.Undup
