import Verif.Model.Scan
/-
Vocabulary for C87: histories of a queue. `Model/Scan` is imported for its entries only.
-/

namespace Verif.Spec.Scan
open Verif.Scan (Entry Tok)

/-- Events accepted, in order. -/
def accepted (log : List Entry) : List Tok := log.filterMap fun | .accept t => some t | _ => none

/-- Events taken, in order. -/
def taken (log : List Entry) : List Tok := log.filterMap fun | .take _ t => some t | _ => none

/-- Events in the queue, in order. -/
def waiting (log : List Entry) : List Tok := (accepted log).drop (taken log).length

/-- Events taken by a worker, in order. -/
def takenBy (k : Nat) (log : List Entry) : List Tok := log.filterMap fun | .take k' t => if k' = k then some t else none | _ => none

/-- Is this the fate of `t`? -/
def decides (t : Tok) : Entry → Bool
  | .accept t' | .drop _ t' => t' = t
  | _ => false

/-- Events are fired one after the other: by one thread, or with a lock. -/
def Alone (log : List Entry) : Prop :=
  ∀ a p t m p' t' r, log = a ++ .fire p t :: (m ++ .fire p' t' :: r) → .ret p t ∈ m

end Verif.Spec.Scan
