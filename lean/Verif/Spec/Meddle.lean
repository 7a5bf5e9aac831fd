import Verif.Model.Plain
import Verif.Spec.Fate
/-
Specification: a client thread that only sets listeners and payloads; and the fates of API calls, without what depends on listeners and payloads.
-/

namespace Verif.Spec.Meddle
open Verif.Spec.Calls Verif.Spec.HB

inductive Write
  | listener (m : MId) (l : Option LId)
  | payload (o : EvOid) (v : Option Val)

/-- Client code that does these writes, one after the other. -/
def meddler : List Write → UProg
  | [] => .done
  | .listener m l :: ws => .call (.setListener m l) fun _ => meddler ws
  | .payload o v :: ws => .call (.setPayload o v) fun _ => meddler ws

/-- The writes, as they appear in a history. -/
def isWrite : Obs → Prop
  | .listener .. | .payload .. => True
  | _ => False

/-- A history without the entries of client `n`. -/
def without (n : Nat) (tr : List (Tid × Obs)) : List (Tid × Obs) := tr.filter fun e => e.1 ≠ .client n

/-- Only reads of currentState are weak. -/
def onlyCur (M : Cell → Prop) : Cell → Prop
  | .cur m => M (.cur m)
  | _ => False

instance (M : Cell → Prop) [DecidablePred M] : DecidablePred (onlyCur M) := fun f => by cases f <;> unfold onlyCur <;> infer_instance

/-- `v` is a possible content of field `f`. -/
def Fits : Cell → Plain.Content → Prop
  | .cur _, .state _ | .listener _, .listener _ | .pair _, .pair _ _ | .payload _, .payload _ => True
  | _, _ => False

/-- Memory that contains `v` in field `f`. -/
def put (w : World) (f : Cell) (v : Plain.Content) : World := match f, v with
  | .cur m, .state v => { w with mach := fset w.mach m { w.mach m with cur := v } }
  | .listener m, .listener v => { w with mach := fset w.mach m { w.mach m with listener := v } }
  | .payload o, .payload v => { w with payload := fset w.payload o v }
  | .pair p, .pair (some e) (some m) => { w with pair := fset w.pair p (some (e, m)) }
  | .pair p, .pair _ _ => { w with pair := fset w.pair p none }
  | _, _ => w

section
variable (cfg : Cfg) (mem : Mem) (mid : List (Tid × Obs))

/-- What `fire(ev)` can do: `FireFate`, except that nothing is said about when the payload was null, and what it was. -/
inductive LooseFate (m : MId) (ev : Ev) : List Obs → Option Exc → Prop
  | before {r} : During mem mid (fun mem => mem.started m = false) →
      LooseFate m ev [.cb (.flowBefore m ev), .cbRet (.flowBefore m ev) r] r
  | after {r} : During mem mid (fun mem => mem.started m = true) → During mem mid (fun mem => mem.ended m = true) →
      LooseFate m ev [.cb (.flowAfter m ev), .cbRet (.flowAfter m ev) r] r
  | full {r} : During mem mid (fun mem => mem.started m = true) → During mem mid (fun mem => mem.ended m = false) →
      During mem mid (fun mem => isFull cfg mem m = true) → During mem mid (NoDup cfg mem m ev) →
      LooseFate m ev [.cb (.flowFull m ev), .cbRet (.flowFull m ev) r] r
  | dropped : cfg.dropDup m = true → During mem mid (fun mem => mem.started m = true) →
      During mem mid (fun mem => mem.ended m = false) → LooseFate m ev [.dropped m ev] none
  | queued : Admitted cfg mem mid m ev →
      LooseFate m ev [.accepted (cfg.queue m) m ev, .submitted (cfg.strat m) m] none
  | refused : Admitted cfg mem mid m ev →
      LooseFate m ev [.accepted (cfg.queue m) m ev, .rejected (cfg.strat m) m] (some .rejected)
  | queuedCopy {n v} : Admitted cfg mem mid m ev → During mem mid (fun mem => mem.copies = n) →
      LooseFate m ev [.copied n ev v, .accepted (cfg.queue m) m (copyOf ev n), .submitted (cfg.strat m) m] none
  | refusedCopy {n v} : Admitted cfg mem mid m ev → During mem mid (fun mem => mem.copies = n) →
      LooseFate m ev [.copied n ev v, .accepted (cfg.queue m) m (copyOf ev n), .rejected (cfg.strat m) m] (some .rejected)

/-- What `start()` can do: `StartFate`, without the listener. -/
inductive LooseStart (m : MId) : List Obs → Option Exc → Prop
  | failed {x} : cfg.fail (.start m) = some x → LooseStart m [] (some x)
  | already : cfg.fail (.start m) = none → During mem mid (fun mem => mem.started m = true) →
      LooseStart m [] (some (.ise .alreadyStarted))
  | entered {s rest r} : cfg.fail (.start m) = none → cfg.init m = some s → (∀ o ∈ rest, tailObs m o) → (r = none → .cleared m ∈ rest) →
      LooseStart m (.started m :: .cur m s true :: rest) r

end
end Verif.Spec.Meddle
