import Verif.Model.Sem
/-
Specification: limits. The bounds of event queues and the number of worker threads of executors.
-/

namespace Verif.Spec.Limits

/-- The same program with other bounds of queues (DefaultEventStrategy.java:40-43, a bound that is not positive is no bound) and other numbers of worker threads. -/
def limited (env : Env) (b : SId → Int) (n : EId → Nat) : Env := { env with
  strat := fun s => { env.strat s with maxQ := b s }
  width := n }

/-- A queue of `n` events is full. -/
def IsFull (b : Int) (n : Nat) : Prop := 0 < b ∧ b ≤ n

/-- Bound `b'` is no lower than bound `b`. -/
def Higher (b b' : Int) : Prop := b' ≤ 0 ∨ (0 < b ∧ b ≤ b')

/-- The entry of the history that says that an event was refused since a queue was full. -/
def Refused : Tid × Obs → Prop
  | (_, .cb (.flowFull _ _)) => True
  | _ => False

/-- The choice uses only workers that exist if executors have `n` threads. -/
def Uses (n : EId → Nat) : Choice → Prop
  | .dispatch e i _ => i < n e
  | _ => True

end Verif.Spec.Limits
