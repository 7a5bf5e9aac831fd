import Verif.Props.Cycle
import Verif.Props.Wait
import Verif.Props.Footprint
import Verif.Proofs.Calm
/-
C109: interrupts concern only threads that wait outside the state machine.
-/

namespace Verif
open Verif.Spec.Calm Verif.Spec.HB Verif.Spec.Footprint

section
variable {env : Env} {A : Tid → UCall → Prop} {I : Tid → Bool} {c0 c d : Conf} {xs : List Choice}

/-- C109. If threads `I` do not wait for latches, the same happens when they are not interrupted. -/
theorem C109_without (hw : ∀ t n r, I t = true → .op t (.await n) r ∉ history env c xs) (h : runs env c xs = some d) :
    ∃ d', runs env c (xs.filter (calm I)) = some d' ∧ Alike I d d' := by
  obtain ⟨d', h1, h2, _⟩ := Calm.runs_calm (.refl c) hw h
  exact ⟨d', h1, h2⟩

/-- C109. … and the same happens when they are interrupted, at any time and however often. -/
theorem C109_with (hw : ∀ t n r, I t = true → .op t (.await n) r ∉ history env c (xs.filter (calm I))) (h : runs env c (xs.filter (calm I)) = some d) :
    ∃ d', runs env c xs = some d' ∧ Alike I d d' := Calm.calm_runs (.refl c) hw h

/-- C109. State machines never wait: threads on which their users (user code, or `start()` of a service) do not wait may be interrupted at any time and however often. -/
theorem C109_library (ho : Obeys env A (xs.filter (calm I))) (hi : Initial c0) (ha : ∀ t n, I t = true → ¬A t (.await n)) (h : runs env c0 (xs.filter (calm I)) = some d) :
    ∃ d', runs env c0 xs = some d' ∧ Alike I d d' :=
  C109_with (fun t n _ ht hm => ha t n ht (C91_licensed ho hi _ hm)) h

end

theorem Spec.Calm.Alike.mach {I : Tid → Bool} {c d : Conf} (h : Alike I c d) : d.w.mach = c.w.mach := by rw [h.world]

namespace Demo

theorem foot_end : ((drive (env acts) conf7 footX).w.mach 0).cur = some B := by decide +kernel

end Demo

/-- Whenever the worker is interrupted while client 0 starts a machine and fires an event, the event is processed. -/
example : ∃ xs : List Choice, runs (Demo.env Demo.acts) Demo.conf7 xs = some (drive (Demo.env Demo.acts) Demo.conf7 Demo.footX) ∧ ∀ k, ∃ d, runs (Demo.env Demo.acts) Demo.conf7 (xs.take k ++ .interrupt (.worker 0 0) :: xs.drop k) = some d ∧ (d.w.mach 0).cur = some Demo.B := by
  obtain ⟨xs, h1, h2, h3⟩ := Demo.hist_real (Demo.env Demo.acts) Demo.conf7 Demo.footX
  have hc : ∀ x ∈ xs, calm (fun _ => true) x = true := by
    intro x hx
    have h := h3 x hx
    simp only [Demo.footX, Demo.runN, List.mem_append, List.mem_cons, List.not_mem_nil, or_false, List.mem_replicate] at h
    rcases h with ((rfl | ⟨_, rfl⟩) | rfl) | ⟨_, rfl⟩ <;> rfl
  refine ⟨xs, h1, fun k => ?_⟩
  have hf : (xs.take k ++ .interrupt (.worker 0 0) :: xs.drop k).filter (calm fun _ => true) = xs := by
    rw [List.filter_append, List.filter_cons_of_neg (by simp [calm]), List.filter_eq_self.2 fun x hx => hc x (List.mem_of_mem_take hx),
      List.filter_eq_self.2 fun x hx => hc x (List.mem_of_mem_drop hx), List.take_append_drop]
  obtain ⟨d, g1, g2⟩ := C109_library (I := fun _ => true) (A := Demo.Asks) (xs := xs.take k ++ .interrupt (.worker 0 0) :: xs.drop k) (by rw [hf]; exact Demo.obeys_asks h3) Demo.conf7_initial
    (fun t n _ h => by rcases Demo.asks_zero h with ⟨m, h, h'⟩ | ⟨m, ev, h, h'⟩ | ⟨n, h⟩ <;> cases h) (by rw [hf]; exact h1)
  refine ⟨d, g1, ?_⟩
  rw [g2.mach]
  exact Demo.foot_end

/-- It matters for a thread that waits: it can only go on because it is interrupted. -/
example : ∃ c xs, ReachFrom Demo.deaf Demo.deafConf c ∧ (runs Demo.deaf c xs).isSome = true ∧ runs Demo.deaf c (xs.filter (calm fun _ => true)) = none :=
  ⟨_, [.interrupt (.client 0), .run (.client 0)], ⟨_, Demo.trim_runs Demo.deaf Demo.deafConf Demo.deafXs⟩, by decide +kernel,
    by rw [← Option.isNone_iff_eq_none]; decide +kernel⟩

end Verif
