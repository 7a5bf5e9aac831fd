import Verif.Spec.Trace
/-
Specification: why an event may be dropped as a duplicate.
-/

namespace Verif.Spec

/-- After history `tr`, thread `t` is in the middle of `fire(ev)` on `m`: nothing visible has happened in this call, except that
the event may have been copied. -/
def Firing (tr : Trace) (t : Tid) (m : MId) (ev : Ev) : Prop :=
  ∃ pre post, tr = pre ++ (t, .enter (.fire m ev)) :: post ∧ ∀ e ∈ post, e.1 = t → ∃ n src v, e.2 = .copied n src v

/-- The copy that is made of an event with payload. -/
def copyOf (ev : Ev) (n : Nat) : Ev := ⟨0, ev.name, .copy n⟩

/-- A reason for thread `t` to drop `ev`: an equal event is waiting in queue `q`, or another thread is just firing one to a
machine with the same queue. -/
def Reason (queue : MId → QId) (q : QId) (tr : Trace) (t : Tid) (ev : Ev) : Prop :=
  (∃ x ∈ waiting q tr, x.1.eqv ev = true) ∨
  ∃ t' m' ev', t' ≠ t ∧ queue m' = q ∧ Firing tr t' m' ev' ∧ (ev'.eqv ev = true ∨ ∃ n, (copyOf ev' n).eqv ev = true)

end Verif.Spec
