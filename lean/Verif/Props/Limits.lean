import Verif.Proofs.Limits
import Verif.Props.Groups
/-
C104: limits that are not reached make no difference.
-/

namespace Verif
open Verif.Spec.Limits

section
variable {env : Env} {b : SId → Int} {n : EId → Nat} {c0 c : Conf} {xs : List Choice}

/-- C104. Whatever can happen with certain bounds of queues and numbers of threads, without an event being refused since a queue is full, can happen with higher bounds (or
none) and more threads, and it makes no difference to anything: histories, states, queues, memory. -/
theorem C104_raise (hb : ∀ s, Higher (env.strat s).maxQ (b s)) (hn : ∀ e, env.width e ≤ n e) (hx : runs env c0 xs = some c) (hr : ∀ e ∈ c.w.trace, ¬Refused e) :
    ∃ d, runs (limited env b n) c0 xs = some d ∧ d.w = c.w ∧ ∀ t, (d.thr t).isNone = (c.thr t).isNone := by
  obtain ⟨d, h1, h2⟩ := Limits.runs_sim (H := fun _ _ => True) (F := True) (b := b) (n := n) (fun s k _ => by
      by_cases h : IsFull (env.strat s).maxQ k
      · exact .inr ⟨trivial, h⟩
      · refine .inl ⟨fun h' => absurd h' h, fun h' => absurd ?_ h⟩
        obtain ⟨h3, h4⟩ := h'
        rcases hb s with h5 | ⟨h5, h6⟩
        · omega
        · exact ⟨h5, by omega⟩)
    (fun _ _ _ => trivial) (Limits.sim_refl c0) hx (fun _ _ _ _ _ _ => trivial) (fun _ => hr) (Limits.runs_uses hx hn)
  exact ⟨d, h1, h2.w, h2.idle⟩

/-- C104. Other bounds make no difference as long as no queue gets a size for which they make one; and threads that are not used are not needed. -/
theorem C104_same (hx : runs env c0 xs = some c)
    (hs : ∀ ys zs c1, xs = ys ++ zs → runs env c0 ys = some c1 → ∀ s, IsFull (env.strat s).maxQ (c1.w.queue (env.strat s).queue).length ↔ IsFull (b s) (c1.w.queue (env.strat s).queue).length)
    (hn : ∀ x ∈ xs, Uses n x) : ∃ d, runs (limited env b n) c0 xs = some d ∧ d.w = c.w ∧ ∀ t, (d.thr t).isNone = (c.thr t).isNone := by
  obtain ⟨d, h1, h2⟩ := Limits.runs_sim (H := fun q k => ∀ s, (env.strat s).queue = q → (IsFull (env.strat s).maxQ k ↔ IsFull (b s) k)) (F := False) (b := b) (n := n)
    (fun s k h => .inl (h s rfl)) (fun q k h s hs => absurd hs (h s)) (Limits.sim_refl c0) hx (fun ys zs c1 h h' s s' e => by rw [← e]; exact hs ys zs c1 h h' s') (fun h => h.elim) hn
  exact ⟨d, h1, h2.w, h2.idle⟩

/-- C104. In particular a bound can be introduced if queues stay shorter. -/
theorem C104_bound (hu : ∀ s, (env.strat s).maxQ ≤ 0) (hx : runs env c0 xs = some c)
    (hs : ∀ ys zs c1, xs = ys ++ zs → runs env c0 ys = some c1 → ∀ s, b s ≤ 0 ∨ ((c1.w.queue (env.strat s).queue).length : Int) < b s) :
    ∃ d, runs (limited env b env.width) c0 xs = some d ∧ d.w = c.w ∧ ∀ t, (d.thr t).isNone = (c.thr t).isNone :=
  C104_same hx (fun ys zs c1 h h' s => by
    have h1 := hu s
    have h2 := hs ys zs c1 h h' s
    constructor
    · rintro ⟨h3, _⟩; omega
    · rintro ⟨h3, h4⟩; omega) (Limits.runs_uses hx fun _ => Nat.le_refl _)

end

namespace Demo

/-- Client 0 starts the machine and fires go. -/
def fewX : List Choice := Choice.begin 0 (client 0 [go]) :: runN (.client 0) 40

/-- Bound 1, one worker. -/
def fewC : Conf := drive (env acts 1) (conf false) fewX

theorem few_runs : ∃ ys, (∀ y ∈ ys, y ∈ fewX) ∧ runs (env acts 1) (conf false) ys = some fewC := eyes_runs _ _ _

theorem few_facts : (fewC.w.queue 0).length = 1 ∧ (fewC.w.trace.all fun | (_, .cb (.flowFull _ _)) => false | _ => true) = true := by decide +kernel

/-- The same and one more event. -/
def manyX : List Choice := Choice.begin 0 (client 0 [go, stay]) :: runN (.client 0) 60

/-- Start, fire go, process it. -/
def shortX : List Choice := Choice.begin 0 (client 0 [go]) :: (runN (.client 0) 19 ++ [.dispatch 0 0 0] ++ runN (.worker 0 0) 30)

theorem short_runs : ∃ c, runs (env acts 0) (conf false) shortX = some c ∧ c.w.mach 0 = ⟨true, false, some B, none⟩ := by
  have h : ((runs (env acts 0) (conf false) shortX).map fun c => c.w.mach 0) = some ⟨true, false, some B, none⟩ := by decide +kernel
  exact Option.map_eq_some_iff.1 h

theorem short_queue : ((List.range (shortX.length + 1)).all fun k => match runs (env acts 0) (conf false) (shortX.take k) with
    | some c => decide ((c.w.queue 0).length < 2)
    | none => true) = true := by decide +kernel

end Demo

/-- Bound 1 was not exceeded: the same happens without a bound and with four workers. -/
example : ∃ ys d, runs (limited (Demo.env Demo.acts 1) (fun _ => 0) fun _ => 4) (Demo.conf false) ys = some d ∧ d.w = Demo.fewC.w ∧ (d.w.queue 0).length = 1 := by
  obtain ⟨ys, _, h⟩ := Demo.few_runs
  obtain ⟨d, h1, h2, _⟩ := C104_raise (b := fun _ => 0) (n := fun _ => 4) (fun _ => .inl (by decide)) (fun _ => by show 1 ≤ 4; decide) h fun e he hr => by
    have := List.all_eq_true.1 Demo.few_facts.2 e he
    obtain ⟨t, o⟩ := e
    cases o with
    | cb c => cases c with
      | flowFull => cases this
      | _ => exact hr
    | _ => exact hr
  exact ⟨ys, d, h1, h2, by rw [h2]; exact Demo.few_facts.1⟩

/-- It does make a difference if an event is refused. -/
example : ((drive (Demo.env Demo.acts 1) (Demo.conf false) Demo.manyX).w.queue 0).length = 1 ∧
    ((drive (limited (Demo.env Demo.acts 1) (fun _ => 0) fun _ => 1) (Demo.conf false) Demo.manyX).w.queue 0).length = 2 := by
  decide +kernel

/-- The queue is never longer than one: bound 2 makes no difference. -/
example : ∃ d, runs (limited (Demo.env Demo.acts 0) (fun s => if s = 0 then 2 else 0) fun _ => 1) (Demo.conf false) Demo.shortX = some d ∧
    d.w.mach 0 = ⟨true, false, some Demo.B, none⟩ := by
  obtain ⟨c, h1, h2⟩ := Demo.short_runs
  obtain ⟨d, h3, h4, _⟩ := C104_bound (b := fun s => if s = 0 then 2 else 0) (fun _ => by show (0 : Int) ≤ 0; decide) h1 fun ys zs c1 e h s => by
    by_cases hs : s = 0
    · subst hs
      refine .inr ?_
      have h5 := List.all_eq_true.1 Demo.short_queue ys.length (List.mem_range.2 (by rw [e, List.length_append]; omega))
      rw [show Demo.shortX.take ys.length = ys by rw [e]; simp, h] at h5
      have h6 : (c1.w.queue 0).length < 2 := of_decide_eq_true h5
      show ((c1.w.queue 0).length : Int) < 2
      omega
    · exact .inl (by rw [if_neg hs]; decide)
  exact ⟨d, h3, by rw [h4]; exact h2⟩

end Verif
