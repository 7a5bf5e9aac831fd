import Verif.Spec.Calls
/-
Specification: the flags of a machine, as the history tells them, without currentState, listeners and payloads.
-/

namespace Verif.Spec.Loose

/-- Has `start()` or `startInState()` taken effect? -/
def started (m : MId) (tr : List (Tid × Obs)) : Bool := tr.any fun e => match e.2 with
  | .started m' => m' = m
  | _ => false

/-- Has the machine ended? The end state was entered, and the machine was not started anew (`startInState()` clears the flag) since. -/
def ended (m : MId) (tr : List (Tid × Obs)) : Bool := tr.foldl (fun b e => match e.2 with
  | .upd m' _ x _ => if m' = m then x else b
  | .cleared m' => if m' = m then false else b
  | _ => b) false

/-- A machine is started once, and enters no states once it has ended. -/
def Legal (tr : List (Tid × Obs)) : Prop := ∀ pre u x post, tr = pre ++ (u, x) :: post →
  (∀ m, x = .started m → started m pre = false) ∧ ∀ m s b k, x = .upd m s b k → ended m pre = false

end Verif.Spec.Loose
