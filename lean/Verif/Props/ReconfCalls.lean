import Verif.Proofs.ReconfCalls
import Verif.Props.Reconf
/-
C82: what is called for an event and by `start()` while the configuration may change, the order of events, and what is reported.
-/

namespace Verif
open Reconf Spec.Reconf
variable {c : Code} {w : W}

/-- C82: for each event that is taken, listener and actions are called in the usual order (`Plan`), all of them unless something is thrown. -/
theorem C82_calls (h : Reach c w) {a r : List Entry} {ev : Ev} (hl : w.log = a ++ .taken ev :: r) :
    ∃ mid b L, r = mid ++ .done ev :: b ∧ (∀ e, .done e ∉ mid) ∧ Plan (called c) c.res (a ++ [.taken ev]) ev mid L ∧
      libs mid <+: L ∧ (failed mid = false → libs mid = L) := by
  obtain ⟨mid, b, h1, h2, L, h3⟩ := (reach_tells h).2.1.event_at hl
  exact ⟨mid, b, L, h1, (fun e he => by cases h2 _ he), h3⟩

/-- C82: before the first event is taken, what is called is the beginning of what `start()` is to call; all of it if `start()` returns;
`startInState()` calls nothing. -/
theorem C82_start (h : Reach c w) {a r : List Entry} {s : St} (hl : w.log = a ++ .started s :: r) :
    libs (r.takeWhile notTaken) <+: startPlan (called c) c.res s ∧
    (.cleared ∈ r → libs (r.takeWhile notTaken) = startPlan (called c) c.res s ∨ r.head? = some .cleared ∧ libs (r.takeWhile notTaken) = []) :=
  (reach_tells h).2.2 a s r hl

/-- C82: events are taken in the order in which they were queued, and none is lost. -/
theorem C82_fifo (h : Reach c w) : queuedOf w.log = takenOf w.log ++ w.queue := (reach_tells h).1.fifo

/-- C82: an event is queued if the machine is started and not ended, otherwise it is reported; a machine is started once only, in a state that
is configured at that moment; a configuration call throws what it would throw before the start (C01-C08); the flow listener is told about exceptions only, and what
ends the thread is an error or something thrown by the flow listener. -/
theorem C82_entry (h : Reach c w) {a b : List Entry} {e : Entry} (hl : w.log = a ++ e :: b) : Fits c.res a e := (reach_tells h).1.each a e b hl

namespace Reconf.Ex
open Verif.Ex (rs A B e f)

/-- A listener, two exit actions of A, of which the first configures a new target for `f`, and an entry action of A and of B. -/
def busy : Code := { quiet with
  listener := some fun _ _ _ _ => .done
  acts := fun k oid => match k, oid with
    | .exit, 1 => [fun _ => cfg [.when_ (some A), .receives (some f), .itTransitionsTo (some A)], fun _ => .done]
    | .entry, _ => [fun _ => .call (.fire f) fun _ => .done]
    | _, _ => [] }

def worked : W := got busy [fired e, .code (cfg calls), .start, fired e, .process, .process]

theorem worked_reach : Reach busy worked := got_reach (by decide +kernel)

end Reconf.Ex

open Verif.Ex (rs A B e f)

/-- C82_calls: the calls for `e`, which comes second. -/
example : A.oid = 1 ∧ ∃ a r, Ex.worked.log = a ++ .taken e :: r ∧ libs (r.takeWhile (· ≠ .done e)) =
    [.cb (.begin 0 A e B), .cb (.action 0 .exit 1 0 e), .cb (.action 0 .exit 1 1 e), .cur B false, .cb (.action 0 .entry 2 0 e), .cb (.end_ 0 A e B),
      .cur rs.endSt false] :=
  ⟨rfl, Ex.worked.log.take 14, Ex.worked.log.drop 15, by decide +kernel, by decide +kernel⟩

/-- C82_start: listener, entry action, listener. -/
example : ∃ a r, Ex.worked.log = a ++ .started A :: r ∧ .cleared ∈ r ∧ libs (r.takeWhile notTaken) =
    [.cb (.begin 0 rs.noSt immEv A), .cb (.action 0 .entry 1 0 immEv), .cb (.end_ 0 rs.noSt immEv A)] :=
  ⟨Ex.worked.log.take 4, Ex.worked.log.drop 5, by decide +kernel, by decide +kernel, by decide +kernel⟩

/-- C82_fifo, C82_entry: `e` is fired before the start and reported; two events are taken in order, one is waiting. -/
example : queuedOf Ex.worked.log = [f, e, f] ∧ takenOf Ex.worked.log = [f, e] ∧ Ex.worked.queue = [f] ∧ Ex.worked.log.head? = some (.unexpected e) := by
  decide +kernel

end Verif
