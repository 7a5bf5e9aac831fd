import Verif.Model.Sem
/-
Specification: other threads do the same work.
-/

namespace Verif.Spec.Shuffle

/-- Client threads and the threads of every executor are exchanged among each other. -/
structure Shuffle where
  client : Nat → Nat
  client' : Nat → Nat
  worker : EId → Nat → Nat
  worker' : EId → Nat → Nat
  cl : ∀ n, client' (client n) = n
  cr : ∀ n, client (client' n) = n
  wl : ∀ e i, worker' e (worker e i) = i
  wr : ∀ e i, worker e (worker' e i) = i

/-- The way back. -/
def Shuffle.back (f : Shuffle) : Shuffle := ⟨f.client', f.client, f.worker', f.worker, f.cr, f.cl, f.wr, f.wl⟩

variable (f : Shuffle)

def Shuffle.tid : Tid → Tid
  | .client n => .client (f.client n)
  | .worker e i => .worker e (f.worker e i)
  | .env => .env

def Shuffle.choice : Choice → Choice
  | .begin n u => .begin (f.client n) u
  | .run t => .run (f.tid t)
  | .dispatch e i j => .dispatch e (f.worker e i) j
  | .interrupt t => .interrupt (f.tid t)
  | .shutdown e now => .shutdown e now

/-- History: the same, by other threads. -/
def Shuffle.history (l : List (Tid × Obs)) : List (Tid × Obs) := l.map fun e => (f.tid e.1, e.2)

/-- Threads have been exchanged, with their interrupt status and what they wrote into the history. Everything else is the same. -/
def Shuffle.conf (c : Conf) : Conf where
  w := { c.w with intr := fun t => c.w.intr (f.back.tid t), trace := f.history c.w.trace }
  thr t := c.thr (f.back.tid t)

/-- The threads of executors remain threads of executors. -/
def Shuffle.Fits (env : Env) : Prop := ∀ e i, i < env.width e → f.worker e i < env.width e

end Verif.Spec.Shuffle
