import Verif.Model.Sem
/-
Specification: an execution in which threads are not interrupted.
-/

namespace Verif.Spec.Calm

variable (I : Tid → Bool)

/-- Everything but interrupts of threads `I` from outside. -/
def calm : Choice → Bool
  | .interrupt t => !I t
  | _ => true

/-- Equal in everything but the interrupt status of threads `I`. -/
structure Alike (c d : Conf) : Prop where
  world : d.w = { c.w with intr := d.w.intr }
  intr : ∀ t, I t = false → d.w.intr t = c.w.intr t
  thr : d.thr = c.thr

end Verif.Spec.Calm
