import Verif.Model.Sem
/-
Specification: an execution in which executors are not shut down in an orderly way.
-/

namespace Verif.Spec.Orderly

variable (E : EId → Bool)

/-- Everything but `shutdown()` of executors `E`. -/
def going : Choice → Bool
  | .shutdown e false => !E e
  | _ => true

/-- Equal in everything but whether executors `E` are shut down. -/
structure Like (c d : Conf) : Prop where
  world : d.w = { c.w with shut := d.w.shut }
  shut : ∀ e, E e = false → d.w.shut e = c.w.shut e
  thr : d.thr = c.thr

end Verif.Spec.Orderly
