import Verif.Model.Sem
/-
Specification: client threads that only ask, and an execution without them.
-/

namespace Verif.Spec.Asking

/-- Calls that only ask: `isStarted()`, `isEnded()`, `getCurrentState()`, `getEventQueueSize()`, `getPayload()`, a look at memory, a note in the history. -/
def question : UCall → Bool
  | .isStarted _ | .isEnded _ | .getCurrentState _ | .getEventQueueSize _ | .getPayload _ | .getMem _ | .note _ => true
  | _ => false

/-- User code that only asks; what it asks next may depend on the answers. -/
inductive Asks : UProg → Prop
  | done : Asks .done
  | thr (x : Exc) : Asks (.thr x)
  | call {u : UCall} {k : u.Res → UProg} (hu : question u = true) (hk : ∀ r, Asks (k r)) : Asks (.call u k)

variable (N : Nat → Bool)

/-- Client threads `N`. -/
def mine : Tid → Bool
  | .client n => N n
  | _ => false

/-- Choices that do not concern them. -/
def keep : Choice → Bool
  | .begin n _ => !N n
  | .run t => !mine N t
  | _ => true

/-- They only ask. -/
def Only (x : Choice) : Prop := ∀ n u, x = .begin n u → N n = true → Asks u

/-- The configuration without them and what they wrote into the history. -/
def without (c : Conf) : Conf where
  w := { c.w with trace := c.w.trace.filter fun e => !mine N e.1 }
  thr t := if mine N t = true then none else c.thr t

end Verif.Spec.Asking
