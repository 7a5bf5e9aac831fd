import Verif.Proofs.Undup
import Verif.Props.Limits
/-
C105: a strategy that drops duplicates, but did not have to, does what a default strategy does.
-/

namespace Verif
open Verif.Spec.Undup

section
variable {env : Env} {D : SId → Bool} {c0 c : Conf} {xs : List Choice}

/-- C105. An execution in which strategies `D` drop no event: leave out the steps in which they check for duplicates; what remains is an execution of the program in which they
are default strategies, with the same history, and everything is in the same state in the end. -/
theorem C105_undup (hc : Initial c0) (hx : runs env c0 xs = some c) (hd : ∀ e ∈ c.w.trace, ¬Dropped env D e) :
    ∃ ys d, ys.Sublist xs ∧ runs (undup env D) c0 ys = some d ∧ d.w = c.w ∧ ∀ t, (d.thr t).isNone = (c.thr t).isNone := by
  obtain ⟨ys, d, h1, h2, h3⟩ := Undup.runs_sim (D := D) ⟨c0, hc, [], rfl⟩ (Undup.sim_refl c0) hx hd
  exact ⟨ys, d, h1, h2, h3.w, h3.idle⟩

/-- C105. So whatever is true of all histories of a program with default strategies is true of all histories of the same program with strategies that drop duplicates, as long as
nothing is dropped. -/
theorem C105_histories {P : List (Tid × Obs) → Prop} (h : ∀ c, Reach (undup env fun _ => true) c → P c.w.trace) (hr : Reach env c) (hd : ∀ t m ev, (t, .dropped m ev) ∉ c.w.trace) :
    P c.w.trace := by
  obtain ⟨c0, hc, xs, hx⟩ := hr
  obtain ⟨ys, d, _, h2, h3, _⟩ := C105_undup (D := fun _ => true) hc hx fun e he hd' => by
    obtain ⟨t, o⟩ := e
    cases o with
    | dropped m ev => exact hd t m ev he
    | _ => exact hd'
  rw [← h3]
  exact h d ⟨c0, hc, ys, h2⟩

end

namespace Demo

/-- Go and stay are fired; duplicates would be dropped. -/
def freshC : Conf := drive (env acts 0 true) (conf false) manyX

theorem fresh_runs : ∃ ys, (∀ y ∈ ys, y ∈ manyX) ∧ runs (env acts 0 true) (conf false) ys = some freshC := eyes_runs _ _ _

theorem fresh_facts : (freshC.w.queue 0).length = 2 ∧ (freshC.w.trace.all fun | (_, .dropped _ _) => false | _ => true) = true := by decide +kernel

theorem fresh_kept (t : Tid) (m : MId) (ev : Ev) : (t, .dropped m ev) ∉ freshC.w.trace := fun h => by
  have := List.all_eq_true.1 fresh_facts.2 _ h
  cases this

/-- Go is fired twice. -/
def againX : List Choice := Choice.begin 0 (client 0 [go, go]) :: runN (.client 0) 60

end Demo

/-- Go and stay are both accepted by a default strategy, too. -/
example : ∃ ys d, runs (undup (Demo.env Demo.acts 0 true) fun _ => true) (Demo.conf false) ys = some d ∧ d.w = Demo.freshC.w ∧ (d.w.queue 0).length = 2 := by
  obtain ⟨ys, _, h⟩ := Demo.fresh_runs
  obtain ⟨zs, d, _, h1, h2, _⟩ := C105_undup (D := fun _ => true) (Demo.conf_initial false) h fun e he hd => by
    obtain ⟨t, o⟩ := e
    cases o with
    | dropped m ev => exact Demo.fresh_kept t m ev he
    | _ => exact hd
  exact ⟨zs, d, h1, h2, by rw [h2]; exact Demo.fresh_facts.1⟩

/-- Without the check there are fewer steps. -/
example : ((drive (Demo.env Demo.acts 0 true) (Demo.conf false) (Demo.manyX.take 29)).w.queue 0).length <
    ((drive (undup (Demo.env Demo.acts 0 true) fun _ => true) (Demo.conf false) (Demo.manyX.take 29)).w.queue 0).length := by
  decide +kernel

/-- It makes a difference if an event is dropped. -/
example : ((drive (Demo.env Demo.acts 0 true) (Demo.conf false) Demo.againX).w.queue 0).length = 1 ∧
    ((drive (undup (Demo.env Demo.acts 0 true) fun _ => true) (Demo.conf false) Demo.againX).w.queue 0).length = 2 := by
  decide +kernel

end Verif
