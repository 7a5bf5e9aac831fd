import Verif.Model.Sem
/-
Specification: listeners that only watch, and programs that do not know whether they are watched.
-/

namespace Verif.Spec.Watch

/-- Who watches what. -/
structure Watch where
  mach : MId → Bool      -- machines that have a listener that only watches
  lst : LId → Bool       -- listeners that only watch
  mem : Nat → Bool       -- memory of these listeners
  log : Mark → Bool      -- what these listeners write down

variable (V : Watch)

/-- Calls that change nothing but the memory and the notes of listeners that only watch. -/
def Watch.Looks : UCall → Bool
  | .isStarted _ | .isEnded _ | .getCurrentState _ | .getEventQueueSize _ | .getPayload _ | .getMem _ => true
  | .setMem a _ => V.mem a
  | .note n => V.log n
  | _ => false

/-- A listener only watches: it looks around, and does not throw. -/
inductive Watch.Quiet : UProg → Prop
  | done : Quiet .done
  | call (u : UCall) {k : u.Res → UProg} (hu : V.Looks u = true) (hk : ∀ r, Quiet (k r)) : Quiet (.call u k)

/-- Calls that do not change who watches what, and do not use the memory of listeners that only watch. -/
def Watch.Apart : UCall → Bool
  | .setListener m none => !V.mach m
  | .setListener m (some l) => !V.mach m && !V.lst l
  | .getMem a => !V.mem a
  | .setMem a _ => !V.mem a
  | _ => true

/-- All other user code keeps apart. -/
inductive Watch.Keeps : UProg → Prop
  | done : Keeps .done
  | thr (x : Exc) : Keeps (.thr x)
  | call (u : UCall) {k : u.Res → UProg} (hu : V.Apart u = true) (hk : ∀ r, Keeps (k r)) : Keeps (.call u k)

structure Watch.Env (env : Verif.Env) : Prop where
  watcher : ∀ l b f ev t, V.lst l = true → V.Quiet (env.listener l b f ev t)
  listener : ∀ l b f ev t, V.lst l = false → V.Keeps (env.listener l b f ev t)
  acts : ∀ k o, ∀ a ∈ env.acts k o, ∀ ev m, V.Keeps (a ev m)
  unmapped : ∀ s ev m, V.Keeps (env.unmapped s ev m)
  flowEx : ∀ s ev m x, V.Keeps (env.flowEx s ev m x)
  flowAfter : ∀ s ev m, V.Keeps (env.flowAfter s ev m)
  flowBefore : ∀ s ev m, V.Keeps (env.flowBefore s ev m)
  proc : ∀ i, V.Keeps (env.proc i)

/-- Programs of client threads keep apart. -/
def Watch.Choice : Verif.Choice → Prop
  | .begin _ u => V.Keeps u
  | _ => True

/-- Listeners that only watch are not used otherwise. -/
def Watch.Others (w : World) : Prop := ∀ m, V.mach m = false → ∀ l, (w.mach m).listener = some l → V.lst l = false

/-- All machines to be watched are watched. -/
def Watch.On (w : World) : Prop := (∀ m, V.mach m = true → ∃ l, (w.mach m).listener = some l ∧ V.lst l = true) ∧ V.Others w

/-- Machines to be watched have no listeners. -/
def Watch.Off (w : World) : Prop := (∀ m, V.mach m = true → (w.mach m).listener = none) ∧ V.Others w

def Watch.cbSeen : Cb → Bool
  | .begin m .. | .end_ m .. => !V.mach m
  | _ => true

/-- What is left of a history without the calls of listeners that only watch and without their notes. -/
def Watch.seen : Obs → Bool
  | .cb c | .cbRet c _ => V.cbSeen c
  | .user n => !V.log n
  | _ => true

/-- Two worlds are alike, but for what concerns listeners that only watch. -/
structure Watch.Like (w w' : World) : Prop where
  mach : ∀ m, (w.mach m).started = (w'.mach m).started ∧ (w.mach m).ended = (w'.mach m).ended ∧ (w.mach m).cur = (w'.mach m).cur
  listener : ∀ m, V.mach m = false → (w.mach m).listener = (w'.mach m).listener
  payload : w.payload = w'.payload
  pair : w.pair = w'.pair
  nextPair : w.nextPair = w'.nextPair
  nextCopy : w.nextCopy = w'.nextCopy
  queue : w.queue = w'.queue
  pool : w.pool = w'.pool
  tasks : w.tasks = w'.tasks
  shut : w.shut = w'.shut
  latch : w.latch = w'.latch
  intr : w.intr = w'.intr
  mem : ∀ a, V.mem a = false → w.mem a = w'.mem a
  trace : w.trace.filter (fun e => V.seen e.2) = w'.trace.filter (fun e => V.seen e.2)

end Verif.Spec.Watch
