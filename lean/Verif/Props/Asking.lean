import Verif.Props.Watch
import Verif.Props.Reuse
import Verif.Proofs.Asking
/-
C107: client threads that only ask make no difference, and are answered.
-/

namespace Verif
open Verif.Asking Verif.Spec.Asking

section
variable {env : Env} {N : Nat → Bool} {c0 c : Conf} {xs : List Choice}

/-- C107. Leave out client threads that only ask: everything else happens as before. The history is the same except for their entries; everything in memory is the same. -/
theorem C107_without (hi : Initial c0) (ho : ∀ x ∈ xs, Only N x) (hr : runs env c0 xs = some c) : runs env c0 (xs.filter (keep N)) = some (without N c) := by
  have := runs_without (without_initial hi).2 ho hr
  rwa [(without_initial hi).1] at this

/-- C107. Such a thread never waits: whatever the others have left undone, it can do all that remains to be done, and that makes no difference to them. -/
theorem C107_answered {n : Nat} (hi : Initial c0) (ho : ∀ x ∈ xs, Only N x) (hr : runs env c0 xs = some c) (hn : N n = true) (hb : c.thr (.client n) ≠ none) :
    ∃ k d, runs env c (List.replicate k (.run (.client n))) = some d ∧ d.thr (.client n) = none ∧ without N d = without N c := by
  cases hp : c.thr (.client n) with
  | none => exact absurd hp hb
  | some p => exact answered hn hp (inv_runs (without_initial hi).2 ho hr (.client n) p hn hp)

/-- C107. What is true of all histories without such threads is true of what the others do when there are such threads. -/
theorem C107_histories {P : List (Tid × Obs) → Prop} (hi : Initial c0) (ho : ∀ x ∈ xs, Only N x) (hr : runs env c0 xs = some c)
    (hP : ∀ ys d, (∀ y ∈ ys, y ∈ xs ∧ keep N y = true) → runs env c0 ys = some d → P d.w.trace) : P (c.w.trace.filter fun e => !mine N e.1) :=
  hP _ _ (fun _ h => List.mem_filter.1 h) (C107_without hi ho hr)

end

namespace Demo

/-- Ask for the state of the machine, and if it is not A, whether it has ended; note that. -/
def quizP : UProg := .call (.getCurrentState 0) fun s => if s = some A then .done else .call (.isEnded 0) fun b => .call (.note (if b then 31 else 32)) fun _ => .done

theorem quiz_asks : Asks quizP := .call rfl fun s => by
  by_cases h : s = some A
  · rw [if_pos h]; exact .done
  · rw [if_neg h]; exact .call rfl fun _ => .call rfl fun _ => .done

/-- Client 1 asks while client 0 starts the machine and fires go, and it is processed. -/
def quizX : List Choice := [Choice.begin 0 (client 0 [go])] ++ runN (.client 0) 20 ++ [.dispatch 0 0 0] ++ runN w0 20 ++ [.begin 1 quizP] ++ runN (.client 1) 2 ++ runN w0 20 ++
  runN (.client 1) 10

def quizC : Conf := drive (env acts) conf quizX

theorem quiz_runs : ∃ ys, (∀ y ∈ ys, y ∈ quizX) ∧ runs (env acts) conf ys = some quizC := eyes_runs _ _ _

theorem quiz_facts : (Tid.client 1, Obs.user 32) ∈ quizC.w.trace ∧ (quizC.w.mach 0).cur = some B ∧ (quizC.thr (.client 1)).isNone = true := by decide +kernel

theorem quiz_only : ∀ x ∈ quizX, Only (fun n => n == 1) x := by
  intro x hx n u e hn
  subst e
  have hn : n = 1 := by simpa using hn
  subst hn
  simp [quizX, runN] at hx
  subst hx
  exact quiz_asks

/-- The middle of it. -/
def quizB : Conf := drive (env acts) conf (quizX.take 44)

theorem quizB_runs : ∃ ys, (∀ y ∈ ys, y ∈ quizX.take 44) ∧ runs (env acts) conf ys = some quizB := eyes_runs _ _ _

theorem quizB_facts : (quizB.thr (.client 1)).isSome = true ∧ (quizB.thr w0).isSome = true := by decide +kernel

end Demo

/-- Without client 1, the machine goes to B as well; the note is missing. -/
example : ∃ ys d, runs (Demo.env Demo.acts) Demo.conf ys = some d ∧ (d.w.mach 0).cur = some Demo.B ∧ (∀ e ∈ d.w.trace, e.1 ≠ Tid.client 1) ∧
    (Tid.client 1, Obs.user 32) ∈ Demo.quizC.w.trace := by
  obtain ⟨ys, h1, h2⟩ := Demo.quiz_runs
  have := C107_without (N := fun n => n == 1) (Demo.conf_initial _) (fun y hy => Demo.quiz_only y (h1 y hy)) h2
  refine ⟨_, without (fun n => n == 1) Demo.quizC, this, ?_, fun e he h => ?_, Demo.quiz_facts.1⟩
  · have h3 : ∀ c, (without (fun n => n == 1) c).w.mach = c.w.mach := fun _ => rfl
    rw [h3]
    exact Demo.quiz_facts.2.1
  · have h3 : ∀ c, e ∈ (without (fun n => n == 1) c).w.trace → (!mine (fun n => n == 1) e.1) = true := fun c he => (List.mem_filter.1 he).2
    have := h3 _ he
    rw [h] at this
    cases this

/-- Client 1 has begun and the worker is in the middle of its work: client 1 can finish. -/
example : ∃ c, Reach (Demo.env Demo.acts) c ∧ c.thr (.client 1) ≠ none ∧ c.thr Demo.w0 ≠ none ∧ ∃ k d, runs (Demo.env Demo.acts) c (List.replicate k (.run (.client 1))) = some d ∧
    d.thr (.client 1) = none ∧ without (fun n => n == 1) d = without (fun n => n == 1) c := by
  obtain ⟨ys, h1, h2⟩ := Demo.quizB_runs
  exact ⟨Demo.quizB, ⟨_, Demo.conf_initial _, _, h2⟩, fun h => (by have := Demo.quizB_facts.1; rw [h] at this; cases this), fun h => (by have := Demo.quizB_facts.2; rw [h] at this; cases this),
    C107_answered (n := 1) (Demo.conf_initial _) (fun y hy => Demo.quiz_only y (List.mem_of_mem_take (h1 y hy))) h2 rfl fun h => (by have := Demo.quizB_facts.1; rw [h] at this; cases this)⟩

end Verif
