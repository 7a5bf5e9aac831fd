import Verif.Model.Sem
/-
Specification: when two configurations, reached in whatever ways, are the same to everybody.
-/

namespace Verif.Spec.Cycle

/-- Same machines, same payloads and number of copied events, same tasks, same executors, same memory of user code, same waiting events, same threads busy.
Nothing is said about the history, the pool of pairs and the pairs that have been used. -/
structure Same (c c' : Conf) : Prop where
  mach : c'.w.mach = c.w.mach
  payload : c'.w.payload = c.w.payload
  nextCopy : c'.w.nextCopy = c.w.nextCopy
  tasks : c'.w.tasks = c.w.tasks
  shut : c'.w.shut = c.w.shut
  latch : c'.w.latch = c.w.latch
  intr : c'.w.intr = c.w.intr
  mem : c'.w.mem = c.w.mem
  waiting : ∀ q, (c'.w.queue q).map c'.w.pair = (c.w.queue q).map c.w.pair
  idle : ∀ t, c'.thr t = none ↔ c.thr t = none

end Verif.Spec.Cycle
