import Verif.Model.Sem
/-
Specification: when two configurations are equal to everybody but the pool of pairs, and what a program does.
-/

namespace Verif.Spec.Reuse

/-- Same history, same machines, same payloads, same tasks, same memory of user code, same waiting events, same threads busy. -/
structure Equal (c c' : Conf) : Prop where
  trace : c'.w.trace = c.w.trace
  mach : c'.w.mach = c.w.mach
  payload : c'.w.payload = c.w.payload
  tasks : c'.w.tasks = c.w.tasks
  shut : c'.w.shut = c.w.shut
  latch : c'.w.latch = c.w.latch
  intr : c'.w.intr = c.w.intr
  mem : c'.w.mem = c.w.mem
  waiting : ∀ q, (c'.w.queue q).map c'.w.pair = (c.w.queue q).map c.w.pair
  idle : ∀ t, c'.thr t = none ↔ c.thr t = none

/-- The operations that a program may do one after the other, and its outcome, whatever the operations return and the calls do. -/
inductive Path {α : Type} : Prog α → List Op → Except Exc α → Prop
  | ret (a : α) : Path (.ret a) [] (.ok a)
  | thr (x : Exc) : Path (.thr x) [] (.error x)
  | op {o : Op} {k : o.Res → Prog α} {r : o.Res} {os : List Op} {x : Except Exc α} : Path (k r) os x → Path (.op o k) (o :: os) x
  | call {c : Call} {k : Except Exc Unit → Prog α} {r : Except Exc Unit} {os : List Op} {x : Except Exc α} : Path (k r) os x → Path (.call c k) os x

end Verif.Spec.Reuse
