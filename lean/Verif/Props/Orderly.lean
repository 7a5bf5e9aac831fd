import Verif.Props.Cycle
import Verif.Props.Footprint
import Verif.Proofs.Orderly
/-
C110: an orderly shutdown of executors loses nothing that has been submitted.
-/

namespace Verif
open Verif.Spec.Orderly Verif.Spec.HB

section
variable {env : Env} {E : EId → Bool} {c d : Conf} {xs : List Choice}

/-- C110. As long as nothing is submitted to executors `E`, the same happens if they are shut down, at any time. -/
theorem C110_with (hw : ∀ t e s m r, E e = true → .op t (.submit e s m) r ∉ history env c (xs.filter (going E))) (h : runs env c (xs.filter (going E)) = some d) :
    ∃ d', runs env c xs = some d' ∧ Like E d d' := Orderly.going_runs (.refl c) hw h

/-- C110. … and the same happens if they are not. -/
theorem C110_without (hw : ∀ t e s m r, E e = true → .op t (.submit e s m) r ∉ history env c xs) (h : runs env c xs = some d) :
    ∃ d', runs env c (xs.filter (going E)) = some d' ∧ Like E d d' := by
  obtain ⟨d', h1, h2, _⟩ := Orderly.runs_going (.refl c) hw h
  exact ⟨d', h1, h2⟩

end

theorem Spec.Orderly.Like.mach {E : EId → Bool} {c d : Conf} (h : Like E c d) : d.w.mach = c.w.mach := by rw [h.world]

namespace Demo

/-- Client 0 has started a machine and fired an event. -/
def firedC : Conf := drive (env acts) conf ([.begin 0 (client 0 [go])] ++ runN (.client 0) 100)

/-- The worker processes it. -/
def firedX : List Choice := [.dispatch 0 0 0] ++ runN (.worker 0 0) 100

def submits : Did → Bool
  | .op _ (.submit ..) _ => true
  | _ => false

theorem fired_none : (hist (env acts) firedC firedX).all (fun d => !submits d) = true := by decide +kernel

theorem fired_end : (firedC.w.mach 0).cur = some A ∧ ((drive (env acts) firedC firedX).w.mach 0).cur = some B := by decide +kernel

end Demo

/-- Whenever the executor is shut down after the event has been fired, the event is processed. -/
example : ∃ xs : List Choice, runs (Demo.env Demo.acts) Demo.firedC xs = some (drive (Demo.env Demo.acts) Demo.firedC Demo.firedX) ∧
    ∀ k, ∃ d, runs (Demo.env Demo.acts) Demo.firedC (xs.take k ++ .shutdown 0 false :: xs.drop k) = some d ∧ (d.w.mach 0).cur = some Demo.B := by
  obtain ⟨xs, h1, h2, h3⟩ := Demo.hist_real (Demo.env Demo.acts) Demo.firedC Demo.firedX
  have hc : ∀ x ∈ xs, going (fun _ => true) x = true := by
    intro x hx
    have h := h3 x hx
    simp only [Demo.firedX, Demo.runN, List.mem_append, List.mem_cons, List.not_mem_nil, or_false, List.mem_replicate] at h
    rcases h with rfl | ⟨_, rfl⟩ <;> rfl
  refine ⟨xs, h1, fun k => ?_⟩
  have hf : (xs.take k ++ .shutdown 0 false :: xs.drop k).filter (going fun _ => true) = xs := by
    rw [List.filter_append, List.filter_cons_of_neg (by simp [going]), List.filter_eq_self.2 fun x hx => hc x (List.mem_of_mem_take hx),
      List.filter_eq_self.2 fun x hx => hc x (List.mem_of_mem_drop hx), List.take_append_drop]
  obtain ⟨d, g1, g2⟩ := C110_with (E := fun _ => true) (c := Demo.firedC) (xs := xs.take k ++ .shutdown 0 false :: xs.drop k)
    (fun t e s m r _ hm => by
      rw [hf, h2] at hm
      have := List.all_eq_true.1 Demo.fired_none _ hm
      cases this)
    (by rw [hf]; exact h1)
  refine ⟨d, g1, ?_⟩
  rw [g2.mach]
  exact Demo.fired_end.2

/-- It matters for events fired later: they are not processed. -/
example : ∃ c xs, Reach (Demo.env Demo.acts) c ∧ (runs (Demo.env Demo.acts) c (xs.filter (going fun _ => true))).isSome = true ∧ runs (Demo.env Demo.acts) c xs = none :=
  ⟨_, .shutdown 0 false :: Choice.begin 0 (Demo.fireP Demo.go) :: (Demo.runN (.client 0) 10 ++ [.dispatch 0 0 0]), Demo.begin_reach, by decide +kernel,
    by rw [← Option.isNone_iff_eq_none]; decide +kernel⟩

end Verif
