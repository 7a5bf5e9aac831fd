import Verif.Spec.Checks
/-
Specification: rules for the use of the library that suffice for all strategies, also for those that drop duplicates.
-/

namespace Verif.Spec.Safe
open Verif.Plain Verif.Spec.HB Verif.Spec.Plain Verif.Spec.Checks

/-- Event object `o` belongs to thread `t0`. Other threads use its payload after they have removed the event from a queue. Its payload is not changed any more when it
has been put into a queue. -/
structure Delivered (t0 : Tid) (o : EvOid) (H : List Did) : Prop where
  uses : ∀ (i : Nat) d, H[i]? = some d → d.reads (.payload o) ∨ d.writes (.payload o) →
    d.tid = t0 ∨ ∃ k < i, ∃ p ev m, H[k]? = some (.op d.tid (.getPair p) (some (ev, m))) ∧ Taken H k p ∧ ev.oid = o
  sets : ∀ (i j : Nat) d u p ev m, H[i]? = some d → d.writes (.payload o) → H[j]? = some (.op u (.setPair p ev m) ()) → ev.oid = o → d.tid = t0 ∧ i < j

/-- The fields of pairs: what the checks for duplicates read. -/
def Pairs : Cell → Prop
  | .pair _ => True
  | _ => False

instance : DecidablePred Pairs := fun f => by cases f <;> unfold Pairs <;> infer_instance

end Verif.Spec.Safe
