import Verif.Props.Cycle
import Verif.Proofs.Shuffle
/-
C108: it does not matter which thread makes a call.
-/

namespace Verif
open Verif.Shuffling Verif.Spec.Shuffle

section
variable {env : Env} {f : Shuffle} {c0 c d : Conf} {xs : List Choice}

theorem shuffle_conf (h : ∀ t, f.tid t ≠ t → c.thr t = none ∧ c.w.intr t = false) : f.conf c = Cycle.past (f.history c.w.trace) c := by
  have both : ∀ t, c.thr (f.back.tid t) = c.thr t ∧ c.w.intr (f.back.tid t) = c.w.intr t := by
    intro t
    by_cases ht : f.back.tid t = t
    · rw [ht]; exact ⟨rfl, rfl⟩
    · have h1 : f.tid (f.back.tid t) ≠ f.back.tid t := fun e => ht (by rw [tid_back] at e; exact e.symm)
      have h2 : f.tid t ≠ t := fun e => ht (by have := congrArg f.back.tid e; rw [back_tid] at this; exact this.symm)
      exact ⟨(h _ h1).1.trans (h _ h2).1.symm, (h _ h1).2.trans (h _ h2).2.symm⟩
  obtain ⟨w, thr⟩ := c
  simp only [Shuffle.conf, Cycle.past]
  congr 1
  · congr 1
    funext t; exact (both t).2
  · funext t; exact (both t).1

/-- C108. Whatever can be done can be done with the client threads, and the threads of every executor, exchanged; nothing else changes. -/
theorem C108_shuffle (hf : f.Fits env) (h : runs env c xs = some d) : runs env (f.conf c) (xs.map f.choice) = some (f.conf d) := runs_conf hf h

/-- C108. At any time, other threads that are not busy (nor interrupted) may take over: what happens from then on is the same, but done by them. -/
theorem C108_next (hf : f.Fits env) (hi : ∀ t, f.tid t ≠ t → c.thr t = none ∧ c.w.intr t = false) (h : runs env c xs = some d) :
    ∃ l d', d.w.trace = c.w.trace ++ l ∧ runs env c (xs.map f.choice) = some d' ∧ d'.w = { (f.conf d).w with trace := c.w.trace ++ f.history l } ∧ d'.thr = (f.conf d).thr := by
  obtain ⟨l, h1, _⟩ := Cycle.runs_past h
  have h2 := runs_conf hf h
  obtain ⟨l', h3, h4⟩ := Cycle.runs_past h2
  rw [show (f.conf d).w.trace = f.history d.w.trace from rfl, show (f.conf c).w.trace = f.history c.w.trace from rfl, h1] at h3
  have h5 : l' = f.history l := by
    simp only [Shuffle.history, List.map_append] at h3
    exact (List.append_cancel_left h3).symm
  have h6 := h4 c.w.trace
  rw [shuffle_conf hi, show Cycle.past c.w.trace (Cycle.past (f.history c.w.trace) c) = c from rfl, h5] at h6
  exact ⟨l, _, h1, h6, rfl, rfl⟩

/-- C108. What is a history remains one when threads are exchanged. -/
theorem C108_histories (hf : f.Fits env) (hc : Initial c0) (hn : ∀ t, c0.w.intr t = false) (h : ReachFrom env c0 c) :
    ∃ d, ReachFrom env c0 d ∧ d.w.trace = f.history c.w.trace ∧ d.w.mach = c.w.mach ∧ d.w.queue = c.w.queue ∧ d.w.tasks = c.w.tasks ∧ d.w.payload = c.w.payload ∧ d.w.mem = c.w.mem := by
  obtain ⟨xs, hx⟩ := h
  have h1 := runs_conf hf hx
  rw [shuffle_conf fun t _ => ⟨hc.idle t, hn t⟩, show Cycle.past (f.history c0.w.trace) c0 = c0 by rw [hc.trace]; show Cycle.past [] c0 = c0; rw [← hc.trace]; rfl] at h1
  exact ⟨f.conf c, ⟨_, h1⟩, rfl, rfl, rfl, rfl, rfl, rfl⟩

end

namespace Demo

/-- Clients 0 and 1 change places. -/
def placesF : Shuffle where
  client n := match n with | 0 => 1 | 1 => 0 | n + 2 => n + 2
  client' n := match n with | 0 => 1 | 1 => 0 | n + 2 => n + 2
  worker _ i := i
  worker' _ i := i
  cl n := match n with | 0 => rfl | 1 => rfl | _ + 2 => rfl
  cr n := match n with | 0 => rfl | 1 => rfl | _ + 2 => rfl
  wl _ _ := rfl
  wr _ _ := rfl

theorem round_first : (Tid.client 0, Obs.enter (.fire 0 back)) ∈ roundC.w.trace.drop beginC.w.trace.length := by decide +kernel

end Demo

/-- Client 0 has started a machine; client 1 may go on instead. -/
example : ∃ d, ReachFrom (Demo.env Demo.acts) Demo.beginC d ∧ d.w.mach = Demo.roundC.w.mach ∧ (Tid.client 1, Obs.enter (.fire 0 Demo.back)) ∈ d.w.trace := by
  obtain ⟨l, d, h1, h2, h3, _⟩ := C108_next (f := Demo.placesF) (fun _ _ h => h) (fun t _ => ⟨Demo.begin_idle t, Demo.begin_rest.2.2.2.2.1 t⟩) Demo.round_runs
  have h5 : ∀ (c : Conf) T, ({ (Demo.placesF.conf c).w with trace := T } : World).mach = c.w.mach := fun _ _ => rfl
  refine ⟨d, ⟨_, h2⟩, by rw [h3, h5], ?_⟩
  have h4 := Demo.round_first
  rw [h1, List.drop_left] at h4
  rw [h3]
  exact List.mem_append_right _ (List.mem_map.2 ⟨_, h4, rfl⟩)

/-- It matters if the other thread is busy. -/
example : ∃ c d xs, Reach (Demo.env Demo.acts) c ∧ runs (Demo.env Demo.acts) c xs = some d ∧ runs (Demo.env Demo.acts) c (xs.map Demo.placesF.choice) = none :=
  ⟨_, _, [.begin 1 (Demo.fireP Demo.go)], Demo.reach_drive (Demo.reach_conf _) [.begin 0 (Demo.fireP Demo.go)], rfl, rfl⟩

end Verif
