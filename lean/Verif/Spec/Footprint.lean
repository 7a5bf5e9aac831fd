import Verif.Spec.HB
/-
Specification: what can be read off the source code of the clients. `A t u`: in thread `t`, user code may make the call `u`. What the library may do in that thread.
-/

namespace Verif.Spec.Footprint
open Verif.Spec.HB

/-- All calls in a piece of user code are among those allowed. -/
def Within (A : UCall → Prop) : UProg → Prop
  | .done | .thr _ => True
  | .call u k => A u ∧ ∀ r, Within A (k r)

/-- All callbacks and procedures make calls that are allowed in every thread, and what client threads begin with makes calls that are allowed in these. -/
structure Obeys (env : Env) (A : Tid → UCall → Prop) (xs : List Choice) : Prop where
  acts : ∀ t k oid a, a ∈ env.acts k oid → ∀ ev m, Within (A t) (a ev m)
  listener : ∀ t l c f ev s, Within (A t) (env.listener l c f ev s)
  unmapped : ∀ t s ev m, Within (A t) (env.unmapped s ev m)
  flowEx : ∀ t s ev m x, Within (A t) (env.flowEx s ev m x)
  flowAfter : ∀ t s ev m, Within (A t) (env.flowAfter s ev m)
  flowBefore : ∀ t s ev m, Within (A t) (env.flowBefore s ev m)
  proc : ∀ t i, Within (A t) (env.proc i)
  clients : ∀ n u, Choice.begin n u ∈ xs → Within (A (.client n)) u

variable (env : Env) (A : Tid → UCall → Prop)

/-- Thread `t` may start machine `m`. -/
def Starts (t : Tid) (m : MId) : Prop := A t (.start m) ∨ ∃ s, A t (.startInState m s)

/-- `ev` is the event `e`, or the safe copy of it. -/
def Copy (ev e : Ev) : Prop := ev = e ∨ ev.cls = 0 ∧ ev.name = e.name ∧ ∃ n, ev.oid = .copy n

/-- Somebody may have fired `ev` to machine `m`. -/
def Fired (m : MId) (ev : Ev) : Prop := ∃ t e, A t (.fire m e) ∧ Copy ev e

/-- Callbacks. -/
def Called (t : Tid) : Cb → Prop
  | .begin m _ ev _ | .end_ m _ ev _ | .action m _ _ _ ev => Starts A t m ∧ ev = immEv ∨ Fired A m ev
  | .unmapped m ev | .flowEx m ev _ => Fired A m ev
  | .flowFull m ev | .flowAfter m ev | .flowBefore m ev => A t (.fire m ev)

/-- Recorded calls of the API. -/
def Entered (t : Tid) : Api → Prop
  | .fire m ev => A t (.fire m ev)
  | .stop m => A t (.stop m)
  | .start m => A t (.start m)
  | .startInState m s => A t (.startInState m s)

/-- What may be done. -/
def Licensed : Did → Prop
  | .op t (.setListener m l) _ => A t (.setListener m l)
  | .op t (.setPayload o v) _ => A t (.setPayload o v)
  | .op t (.casStarted m) _ | .op t (.clearEnded m) _ => Starts A t m
  | .op t (.setCur m _ true) _ | .op t (.casEnded m _ _ true) _ => Starts A t m ∨ A t (.stop m)
  | .op _ (.setCur m _ false) _ | .op _ (.casEnded m _ _ false) _ => ∃ ev, Fired A m ev
  | .op t (.getCur m) _ => A t (.getCurrentState m) ∨ ∃ ev, Fired A m ev
  | .op t (.getListener m) _ => Starts A t m ∨ ∃ ev, Fired A m ev
  | .op t (.notify m c) _ => Called A t c ∧ (Starts A t m ∨ ∃ ev, Fired A m ev)
  | .op t (.setPair _ ev m) _ => ∃ e, A t (.fire m e) ∧ Copy ev e
  | .op t (.newCopy ev) _ => ∃ m, A t (.fire m ev)
  | .op t (.offer q _) _ => ∃ m ev, A t (.fire m ev) ∧ q = (env.strat (env.mach m).strat).queue
  | .op t (.submit e s m) _ => (∃ ev, A t (.fire m ev)) ∧ s = (env.mach m).strat ∧ e = (env.strat s).exec
  | .op t (.emit (.enter c)) _ => Entered A t c
  | .op t (.emit (.cb c)) _ => Called A t c
  | .op t (.emit (.dropped m ev)) _ => A t (.fire m ev)
  | .op t (.emit (.user n)) _ => A t (.note n)
  | .op t (.setMem a v) _ => A t (.setMem a v)
  | .op t (.getMem a) _ => A t (.getMem a)
  | .op t (.await n) _ => A t (.await n)
  | .op t (.countDown n) _ => A t (.countDown n)
  | .op t .setIntr _ => A t .setIntr
  | .take _ e s m => (∃ t ev, A t (.fire m ev)) ∧ s = (env.mach m).strat ∧ e = (env.strat s).exec
  | _ => True

end Verif.Spec.Footprint
