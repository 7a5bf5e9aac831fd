import Verif.Model.Queues
/-
Vocabulary for C85: histories of a queue. `Model/Queues` is imported for its entries only.
-/

namespace Verif.Spec.Qs
open Verif.Qs (Entry Tok)

/-- Events accepted, in order. -/
def accepted (log : List Entry) : List Tok := log.filterMap fun | .accept t => some t | _ => none

/-- Events taken, in order. -/
def taken (log : List Entry) : List Tok := log.filterMap fun | .take _ t => some t | _ => none

/-- What is in the queue, in order of arrival. -/
def inQueue (log : List Entry) : List Tok :=
  log.foldl (fun q e => match e with | .accept t => q ++ [t] | .take _ t => q.erase t | _ => q) []

/-- Is this the fate of `t`? -/
def decides (t : Tok) : Entry → Bool
  | .accept t' | .refuse t' | .rejected _ t' => t' = t
  | _ => false

/-- How many of the elements of the queue at one time are still there at another? -/
def stayed (a b : List Entry) : Nat := ((inQueue a).filter (· ∈ inQueue b)).length

/-- Events are fired one after the other: by one thread, or with a lock. -/
def Alone (log : List Entry) : Prop :=
  ∀ a p t m p' t' r, log = a ++ .fire p t :: (m ++ .fire p' t' :: r) → .ret p t ∈ m

end Verif.Spec.Qs
