import Verif.Model.Sem
/-
Specification: groups of machines that share nothing with the rest of the program.
-/

namespace Verif.Spec.Groups

/-- What belongs to a group: machines, strategies, queues, executors, listeners, client threads, event objects made by clients, memory, latches and procedures of user code. -/
structure Group where
  mach : MId → Bool
  strat : SId → Bool
  queue : QId → Bool
  exec : EId → Bool
  lst : LId → Bool
  client : Nat → Bool
  obj : Nat → Bool
  mem : Nat → Bool
  latch : Nat → Bool
  proc : Nat → Bool

/-- The rest of the program. -/
def Group.rest (G : Group) : Group where
  mach x := !G.mach x
  strat x := !G.strat x
  queue x := !G.queue x
  exec x := !G.exec x
  lst x := !G.lst x
  client x := !G.client x
  obj x := !G.obj x
  mem x := !G.mem x
  latch x := !G.latch x
  proc x := !G.proc x

/-! ### Copies of events -/

/-- Copies of events (DefaultEventStrategy.java:81) are other objects in another execution: `f` says which. -/
def renOid (f : Nat → Nat) : EvOid → EvOid
  | .client n => .client n
  | .copy n => .copy (f n)

def renEv (f : Nat → Nat) (e : Ev) : Ev := ⟨e.cls, e.name, renOid f e.oid⟩

def renCb (f : Nat → Nat) : Cb → Cb
  | .begin m a ev b => .begin m a (renEv f ev) b
  | .end_ m a ev b => .end_ m a (renEv f ev) b
  | .action m k o i ev => .action m k o i (renEv f ev)
  | .unmapped m ev => .unmapped m (renEv f ev)
  | .flowEx m ev x => .flowEx m (renEv f ev) x
  | .flowFull m ev => .flowFull m (renEv f ev)
  | .flowAfter m ev => .flowAfter m (renEv f ev)
  | .flowBefore m ev => .flowBefore m (renEv f ev)

def renApi (f : Nat → Nat) : Api → Api
  | .fire m ev => .fire m (renEv f ev)
  | c => c

def renObs (f : Nat → Nat) : Obs → Obs
  | .enter c => .enter (renApi f c)
  | .leave c r => .leave (renApi f c) r
  | .cb c => .cb (renCb f c)
  | .cbRet c r => .cbRet (renCb f c) r
  | .dropped m ev => .dropped m (renEv f ev)
  | .accepted q m ev => .accepted q m (renEv f ev)
  | .taken q m ev => .taken q m (renEv f ev)
  | .done m ev => .done m (renEv f ev)
  | .copied n ev v => .copied (f n) (renEv f ev) v
  | .payload o v => .payload (renOid f o) v
  | o => o

/-- User code with other copies of events. -/
def renUser (f : Nat → Nat) : UProg → UProg
  | .done => .done
  | .thr x => .thr x
  | .call (.fire m ev) k => .call (.fire m (renEv f ev)) fun r => renUser f (k r)
  | .call (.getPayload o) k => .call (.getPayload (renOid f o)) fun r => renUser f (k r)
  | .call (.setPayload o v) k => .call (.setPayload (renOid f o) v) fun r => renUser f (k r)
  | .call u k => .call u fun r => renUser f (k r)

/-! ### User code -/

variable (G : Group) (D : Nat → Prop)

/-- Event objects of the group: made by its clients, or copies `D` made for it. -/
def Group.Oid : EvOid → Prop
  | .client n => G.obj n = true
  | .copy n => D n

/-- Calls that concern only the group. -/
def Group.Call : UCall → Prop
  | .fire m ev => G.mach m = true ∧ G.Oid D ev.oid
  | .stop m | .start m | .startInState m _ | .isStarted m | .isEnded m | .getCurrentState m | .getEventQueueSize m => G.mach m = true
  | .setListener m l => G.mach m = true ∧ ∀ k, l = some k → G.lst k = true
  | .getPayload o => G.Oid D o
  | .setPayload o _ => G.Oid D o
  | .proc i => G.proc i = true
  | .getMem a | .setMem a _ => G.mem a = true
  | .await n | .countDown n => G.latch n = true
  | .note _ | .setIntr => True

/-- User code that concerns only the group. -/
inductive Group.User : UProg → Prop
  | done : Group.User .done
  | thr (x : Exc) : Group.User (.thr x)
  | call (u : UCall) {k : u.Res → UProg} (hu : G.Call D u) (hk : ∀ r, Group.User (k r)) : Group.User (.call u k)

/-- User code that is given an event: it concerns only the group, if the event is one of the group or the reserved event that is passed by `start()`; and it cannot tell
copies of events apart. -/
structure Group.Code (g : Ev → UProg) : Prop where
  own : ∀ D ev, (ev = immEv ∨ G.Oid D ev.oid) → G.User D (g ev)
  same : ∀ f ev, g (renEv f ev) = renUser f (g ev)

/-- Every state object. -/
def AllStates : Nat → Prop := fun _ => True

/-- The machines, strategies and user code of a group use only what belongs to the group. Actions matter only if they are actions of states `S`. -/
structure Group.Env (S : Nat → Prop) (env : Verif.Env) : Prop where
  strat : ∀ m, G.mach m = true → G.strat (env.mach m).strat = true
  queue : ∀ s, G.strat s = true → G.queue (env.strat s).queue = true
  exec : ∀ s, G.strat s = true → G.exec (env.strat s).exec = true
  acts : ∀ k o, S o → ∀ a ∈ env.acts k o, ∀ m, G.mach m = true → G.Code fun ev => a ev m
  listener : ∀ l b f t, G.lst l = true → G.Code fun ev => env.listener l b f ev t
  unmapped : ∀ s m, G.strat s = true → G.mach m = true → G.Code fun ev => env.unmapped s ev m
  flowEx : ∀ s m x, G.strat s = true → G.mach m = true → G.Code fun ev => env.flowEx s ev m x
  flowAfter : ∀ s m, G.strat s = true → G.mach m = true → G.Code fun ev => env.flowAfter s ev m
  flowBefore : ∀ s m, G.strat s = true → G.mach m = true → G.Code fun ev => env.flowBefore s ev m
  proc : ∀ i, G.proc i = true → G.Code fun _ => env.proc i

/-! ### Other programs -/

/-- The call leads only to states `S`. -/
def StaysCall (S : Nat → Prop) : UCall → Prop
  | .startInState _ (some s) => S s.oid
  | _ => True

/-- User code that names only states `S` to `startInState`. -/
inductive Stays (S : Nat → Prop) : UProg → Prop
  | done : Stays S .done
  | thr (x : Exc) : Stays S (.thr x)
  | call (u : UCall) {k : u.Res → UProg} (hu : StaysCall S u) (hk : ∀ r, Stays S (k r)) : Stays S (.call u k)

/-- Machines of the group get only into states `S`. -/
structure Group.Within (S : Nat → Prop) (env : Verif.Env) : Prop where
  init : ∀ m, G.mach m = true → ∀ s, (env.mach m).init = some s → S s.oid
  end_ : ∀ m, G.mach m = true → S (env.mach m).res.endSt.oid
  table : ∀ s, G.strat s = true → ∀ x row k to, Table.row? (env.strat s).table x = some row → row.target k = some to → S to.oid
  acts : ∀ k o, S o → ∀ a ∈ env.acts k o, ∀ ev m, G.mach m = true → Stays S (a ev m)
  listener : ∀ l b f ev t, G.lst l = true → Stays S (env.listener l b f ev t)
  unmapped : ∀ s ev m, G.strat s = true → G.mach m = true → Stays S (env.unmapped s ev m)
  flowEx : ∀ s ev m x, G.strat s = true → G.mach m = true → Stays S (env.flowEx s ev m x)
  flowAfter : ∀ s ev m, G.strat s = true → G.mach m = true → Stays S (env.flowAfter s ev m)
  flowBefore : ∀ s ev m, G.strat s = true → G.mach m = true → Stays S (env.flowBefore s ev m)
  proc : ∀ i, G.proc i = true → Stays S (env.proc i)

/-- Two programs agree on the group: its machines and strategies are configured in the same way, and its user code and the actions of states `S` are the same. -/
structure Group.Agree (S : Nat → Prop) (env env' : Verif.Env) : Prop where
  mach : ∀ m, G.mach m = true → env'.mach m = env.mach m
  strat : ∀ s, G.strat s = true → env'.strat s = env.strat s
  width : ∀ e, G.exec e = true → env'.width e = env.width e
  acts : ∀ k o, S o → ∀ m, G.mach m = true → (env'.acts k o).map (fun a ev => a ev m) = (env.acts k o).map fun a ev => a ev m
  listener : ∀ l, G.lst l = true → env'.listener l = env.listener l
  unmapped : ∀ s ev m, G.strat s = true → G.mach m = true → env'.unmapped s ev m = env.unmapped s ev m
  flowEx : ∀ s ev m x, G.strat s = true → G.mach m = true → env'.flowEx s ev m x = env.flowEx s ev m x
  flowAfter : ∀ s ev m, G.strat s = true → G.mach m = true → env'.flowAfter s ev m = env.flowAfter s ev m
  flowBefore : ∀ s ev m, G.strat s = true → G.mach m = true → env'.flowBefore s ev m = env.flowBefore s ev m
  proc : ∀ i, G.proc i = true → env'.proc i = env.proc i

/-- The group starts alike: the same listeners, the same payloads of its event objects, memory, latches and so on. -/
structure Group.Alike (w w' : World) : Prop where
  mach : ∀ m, G.mach m = true → w'.mach m = w.mach m
  payload : ∀ n, G.obj n = true → w'.payload (.client n) = w.payload (.client n)
  copies : ∀ n, w'.payload (.copy n) = none
  shut : ∀ e, G.exec e = true → w'.shut e = w.shut e
  latch : ∀ n, G.latch n = true → w'.latch n = w.latch n
  intr : ∀ n, G.client n = true → w'.intr (.client n) = w.intr (.client n)
  intrWorker : ∀ e i, G.exec e = true → w'.intr (.worker e i) = w.intr (.worker e i)
  mem : ∀ a, G.mem a = true → w'.mem a = w.mem a

/-! ### Executions -/

/-- Threads of the group. -/
def Group.tid : Tid → Bool
  | .client n => G.client n
  | .worker e _ => G.exec e
  | .env => false

/-- Choices that concern the group. -/
def Group.choice : Choice → Bool
  | .begin n _ => G.client n
  | .run t => G.tid t
  | .dispatch e _ _ => G.exec e
  | .interrupt t => G.tid t
  | .shutdown e _ => G.exec e

/-- Client threads of the group run programs of the group (which know of no copies of events yet). -/
def Group.Begins : Choice → Prop
  | .begin n u => G.client n = true → G.User (fun _ => False) u
  | _ => True

/-- Client threads of the group name only states `S` to `startInState`. -/
def Group.BeginsIn (S : Nat → Prop) : Choice → Prop
  | .begin n u => G.client n = true → Stays S u
  | _ => True

/-- Entries of the history that concern the group: made by its threads, or tasks thrown away by `shutdownNow()`. -/
def Group.entry : Tid × Obs → Bool
  | (.env, .taskDropped s _) => G.strat s
  | (t, _) => G.tid t

/-- Machines of the group have listeners of the group; there are no copies of events yet. -/
structure Group.Start (w : World) : Prop where
  listener : ∀ m, G.mach m = true → ∀ l, (w.mach m).listener = some l → G.lst l = true
  payload : ∀ n, w.payload (.copy n) = none

end Verif.Spec.Groups
