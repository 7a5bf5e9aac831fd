import Verif.Spec.Calls
/-
Specification of a whole API call, from its entry in the history to its return: what the call itself does, and what was
true at some moment while it was open.
-/

namespace Verif.Spec.Calls

/-- Entries of thread `t`, from nesting depth `d` to depth 0, that belong to the call at depth 0 itself: not those of
calls nested in it, and not what user code does on its own. `none`: calls and returns do not match. -/
def own (t : Tid) : Nat → List (Tid × Obs) → Option (List Obs)
  | d, [] => if d = 0 then some [] else none
  | d, (u, o) :: tr =>
    if u ≠ t then own t d tr
    else match o with
      | .enter _ => own t (d + 1) tr
      | .leave .. => match d with
        | 0 => none
        | d + 1 => own t d tr
      | .taskDropped .. => own t d tr
      | o => if d = 0 ∧ userObs o = false then (own t d tr).map (o :: ·) else own t d tr

/-- A call of `k` by thread `t` which begins after the history `pre`, returns `r`, does `os` itself; `mid` is everything
that happens meanwhile, in all threads. -/
structure IsCall (tr : List (Tid × Obs)) (t : Tid) (k : Api) (pre mid : List (Tid × Obs)) (os : List Obs)
    (r : Option Exc) : Prop where
  split : ∃ post, tr = pre ++ (t, .enter k) :: (mid ++ (t, .leave k r) :: post)
  own : own t 0 mid = some os

/-- The memory after a history. -/
def memAt (mem : Mem) (tr : List (Tid × Obs)) : Mem := tr.foldl (fun mem e => mem.step e.2) mem

/-- `P` holds at some moment during `mid`, which begins with memory `mem`. -/
def During (mem : Mem) (mid : List (Tid × Obs)) (P : Mem → Prop) : Prop := ∃ a, a <+: mid ∧ P (memAt mem a)

section
variable (cfg : Cfg) (mem : Mem) (mid : List (Tid × Obs))

/-- No duplicate of `ev` that was waiting in the beginning is still waiting in memory `now`. -/
def NoDup (m : MId) (ev : Ev) (now : Mem) : Prop :=
  cfg.dropDup m = true → ∀ e ∈ (mem.acc (cfg.queue m)).drop (now.tk (cfg.queue m)), e.eqv ev = false

/-- The conditions under which `fire` puts an event into the queue. -/
structure Admitted (m : MId) (ev : Ev) : Prop where
  started : During mem mid fun mem => mem.started m = true
  alive : During mem mid fun mem => mem.ended m = false
  room : During mem mid fun mem => isFull cfg mem m = false
  fresh : During mem mid (NoDup cfg mem m ev)

/-- The copy of an event. -/
def copyOf (ev : Ev) (n : Nat) : Ev := ⟨0, ev.name, .copy n⟩

/-- The possible fates of an event: what `fire(ev)` does and how it returns. -/
inductive FireFate (m : MId) (ev : Ev) : List Obs → Option Exc → Prop
  | before {r} : During mem mid (fun mem => mem.started m = false) →
      FireFate m ev [.cb (.flowBefore m ev), .cbRet (.flowBefore m ev) r] r
  | after {r} : During mem mid (fun mem => mem.started m = true) → During mem mid (fun mem => mem.ended m = true) →
      FireFate m ev [.cb (.flowAfter m ev), .cbRet (.flowAfter m ev) r] r
  | full {r} : During mem mid (fun mem => mem.started m = true) → During mem mid (fun mem => mem.ended m = false) →
      During mem mid (fun mem => isFull cfg mem m = true) → During mem mid (NoDup cfg mem m ev) →
      FireFate m ev [.cb (.flowFull m ev), .cbRet (.flowFull m ev) r] r
  | dropped : cfg.dropDup m = true → During mem mid (fun mem => mem.started m = true) →
      During mem mid (fun mem => mem.ended m = false) → FireFate m ev [.dropped m ev] none
  | queued : Admitted cfg mem mid m ev → During mem mid (fun mem => mem.pay ev.oid = none) →
      FireFate m ev [.accepted (cfg.queue m) m ev, .submitted (cfg.strat m) m] none
  | refused : Admitted cfg mem mid m ev → During mem mid (fun mem => mem.pay ev.oid = none) →
      FireFate m ev [.accepted (cfg.queue m) m ev, .rejected (cfg.strat m) m] (some .rejected)
  | queuedCopy {n v} : Admitted cfg mem mid m ev → During mem mid (fun mem => (mem.pay ev.oid).isSome = true) →
      During mem mid (fun mem => mem.pay ev.oid = v ∧ mem.copies = n) →
      FireFate m ev [.copied n ev v, .accepted (cfg.queue m) m (copyOf ev n), .submitted (cfg.strat m) m] none
  | refusedCopy {n v} : Admitted cfg mem mid m ev → During mem mid (fun mem => (mem.pay ev.oid).isSome = true) →
      During mem mid (fun mem => mem.pay ev.oid = v ∧ mem.copies = n) →
      FireFate m ev [.copied n ev v, .accepted (cfg.queue m) m (copyOf ev n), .rejected (cfg.strat m) m] (some .rejected)

/-- What `stop()` does. -/
inductive StopFate (m : MId) : List Obs → Option Exc → Prop
  | already : During mem mid (fun mem => mem.ended m = true) → StopFate m [] none
  | ended : StopFate m [.upd m (cfg.endSt m) true true, .cur m (cfg.endSt m) true] none

/-- What `startInState(s)` does. -/
inductive StartInFate (m : MId) (s : Option St) : List Obs → Option Exc → Prop
  | failed {x} : cfg.fail (.startInState m s) = some x → StartInFate m s [] (some x)
  | already : cfg.fail (.startInState m s) = none → During mem mid (fun mem => mem.started m = true) →
      StartInFate m s [] (some (.ise .alreadyStarted))
  | ok {s'} : cfg.fail (.startInState m s) = none → s = some s' →
      StartInFate m s [.started m, .cur m s' true, .cleared m] none

/-- Steps of a plan that have been done. -/
def ran : List Item → List Obs
  | [] => []
  | .cb c :: pl => .cb c :: .cbRet c none :: ran pl
  | _ :: pl => ran pl

/-- A callback, the return of one, or the reset of `isEnded`. -/
def tailObs (m : MId) (o : Obs) : Prop := (∃ c, o = .cb c) ∨ (∃ c r, o = .cbRet c r) ∨ o = .cleared m

/-- What `start()` does. If somebody replaces the listener in the meantime, less is promised. -/
inductive StartFate (m : MId) : List Obs → Option Exc → Prop
  | failed {x} : cfg.fail (.start m) = some x → StartFate m [] (some x)
  | already : cfg.fail (.start m) = none → During mem mid (fun mem => mem.started m = true) →
      StartFate m [] (some (.ise .alreadyStarted))
  | ok {s lst} : cfg.fail (.start m) = none → cfg.init m = some s → During mem mid (fun mem => mem.lst m = lst) →
      StartFate m (.started m :: .cur m s true :: (ran (cfg.plan m lst s) ++ [.cleared m])) none
  | threw {s lst pl c rest x} : cfg.fail (.start m) = none → cfg.init m = some s →
      During mem mid (fun mem => mem.lst m = lst) → cfg.plan m lst s = pl ++ .cb c :: rest →
      StartFate m (.started m :: .cur m s true :: (ran pl ++ [.cb c, .cbRet c (some x)])) (some x)
  | swapped {s rest r u l} : cfg.fail (.start m) = none → cfg.init m = some s → (u, .listener m l) ∈ mid →
      (∀ o ∈ rest, tailObs m o) → (r = none → .cleared m ∈ rest) →
      StartFate m (.started m :: .cur m s true :: rest) r

end
end Verif.Spec.Calls
