import Verif.Spec.Course
/-
Specification: what a thread does for one event, in which order and how often, whoever interferes.
-/

namespace Verif.Spec.Course

/-- Callbacks and changes of the state. -/
inductive Deed
  | call (c : Cb)
  | enter (m : MId) (s : St)
deriving DecidableEq

/-- The deeds of thread `t`, without those inside API calls of user code. `d`: number of API calls the thread is in. -/
def deeds (t : Tid) (d : Nat) : List (Tid × Obs) → List Deed
  | [] => []
  | e :: tr => (if e.1 = t ∧ d = 0 then
      (match e.2 with
      | .cb c => [Deed.call c]
      | .upd m s _ false => [Deed.enter m s]
      | _ => [])
    else []) ++ deeds t (callStep t d e) tr

/-- The callbacks among the deeds. -/
def calledOf : List Deed → List Cb := List.filterMap fun x => match x with | .call c => some c | .enter .. => none

/-- Perhaps `x`. -/
def Maybe (x : Deed) (l : List Deed) : Prop := l = [] ∨ l = [x]

/-- All actions of a state, in order. -/
def allActions (d : Desc) (k : Kind) (x : St) (ev : Ev) : List Deed :=
  (List.range (d.nacts k x.oid)).map fun i => .call (.action d.m k x.oid i ev)

/-- The table leads with `ev` from some state to `b`. -/
def aims (d : Desc) (ev : Ev) (b : St) : Prop := ∃ a row, d.table.row? a = some row ∧ row.target (some ev.key) = some b

/-- All that may be done for an event. -/
inductive Script (d : Desc) (ev : Ev) : List Deed → Prop
  | skipped : Script d ev []
  | unmapped : Script d ev [.call (.unmapped d.m ev)]
  | stays {a a' b l1 l2} : aims d ev b → b.name = resNoop →
      Maybe (.call (.begin d.m a ev b)) l1 → Maybe (.call (.end_ d.m a' ev b)) l2 → Script d ev (l1 ++ l2)
  | moves {a b x y l1 l2 l3 l4} : aims d ev b → b.name ≠ resNoop →
      Maybe (.call (.begin d.m a ev b)) l1 → Maybe (.enter d.m b) l2 → Maybe (.call (.end_ d.m a ev b)) l3 →
      Maybe (.enter d.m d.endSt) l4 → (l4 ≠ [] → d.final b = true) →
      Script d ev (l1 ++ allActions d .exit x ev ++ l2 ++ allActions d .entry y ev ++ l3 ++ l4)

/-- Part of what may be done for an event: the processing has not ended, or it was broken off by an exception, which may have
been reported. -/
def Part (d : Desc) (ev : Ev) (l : List Deed) : Prop :=
  ∃ full p, Script d ev full ∧ p <+: full ∧ (l = p ∨ ∃ x, l = p ++ [.call (.flowEx d.m ev x)])

/-- What has been done for an event whose processing has ended. `threw x`: user code threw `x`. -/
inductive Finished (d : Desc) (ev : Ev) (threw : Exc → Prop) (l : List Deed) : Prop
  | whole : Script d ev l → Finished d ev threw l
  | reported {full p x} : Script d ev full → p <+: full → l = p ++ [.call (.flowEx d.m ev x)] → x.isException = true →
      (x = .npe ∨ threw x) → Finished d ev threw l
  | error {full x} : Script d ev full → l <+: full → threw x → x.isException = false → Finished d ev threw l

end Verif.Spec.Course
