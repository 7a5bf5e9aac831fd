import Verif.Model.Sem
import Verif.Spec.Shuffle
/-
Every step can be done by another thread.
-/

namespace Verif.Shuffling
open Verif.Spec.Shuffle

variable {env : Env} {f : Shuffle} {c d : Conf}

theorem back_tid (t : Tid) : f.back.tid (f.tid t) = t := by
  cases t <;> simp [Shuffle.tid, Shuffle.back, f.cl, f.wl]

theorem tid_back (t : Tid) : f.tid (f.back.tid t) = t := by
  cases t <;> simp [Shuffle.tid, Shuffle.back, f.cr, f.wr]

theorem fset_tid {β : Type} (h : Tid → β) (t : Tid) (b : β) : (fun u => fset h t b (f.back.tid u)) = fset (fun u => h (f.back.tid u)) (f.tid t) b := by
  funext u
  by_cases hu : u = f.tid t
  · subst hu; simp [back_tid]
  · rw [fset_ne _ _ hu, fset_ne]
    intro h
    exact hu (by rw [← h, tid_back])

/-- The world with threads exchanged. -/
def world (f : Shuffle) (w : World) : World := { w with intr := fun t => w.intr (f.back.tid t), trace := f.history w.trace }

theorem world_log (w : World) (t : Tid) (o : Obs) : world f (w.log t o) = (world f w).log (f.tid t) o := by
  simp [world, World.log, Shuffle.history]

theorem exec_world (t : Tid) (o : Op) (w : World) : exec (f.tid t) o (world f w) = ((exec t o w).1, world f (exec t o w).2) ∧ enabled (f.tid t) o (world f w) = enabled t o w := by
  refine ⟨?_, by cases o <;> simp [enabled, world, back_tid]⟩
  cases o with
  | casStarted m => cases h : (w.mach m).started <;> simp [exec, h, world, World.log, Shuffle.history]
  | casEnded m => cases h : (w.mach m).ended <;> simp [exec, h, world, World.log, Shuffle.history]
  | notify m => cases h : (w.mach m).listener <;> simp [exec, h, world, World.log, Shuffle.history]
  | offer _ p => cases h : w.pair p <;> simp [exec, h, world, World.log, Shuffle.history]
  | poolGive _ p => cases h : w.pair p <;> simp [exec, h, world, World.log, Shuffle.history]
  | poll q =>
    cases h : w.queue q with
    | nil => simp [exec, h, world]
    | cons p _ => cases h' : w.pair p <;> simp [exec, h, h', world, World.log, Shuffle.history]
  | poolTake s => cases h : w.pool s <;> simp [exec, h, world]
  | submit e => cases h : w.shut e <;> simp [exec, h, world, World.log, Shuffle.history]
  | await => cases h : w.intr t <;> simp [exec, h, world, back_tid, fset_tid]
  | setIntr => simp [exec, world, fset_tid]
  | _ => simp [exec, world, World.log, Shuffle.history]

theorem conf_thr (w : World) (t : Tid) (a : Option (Prog Unit)) : f.conf ⟨w, fset c.thr t a⟩ = ⟨world f w, fset (f.conf c).thr (f.tid t) a⟩ := by
  simp only [Shuffle.conf, fset_tid]
  rfl

theorem step_conf {x : Choice} (hf : f.Fits env) (h : step env c x = some d) : step env (f.conf c) (f.choice x) = some (f.conf d) := by
  have thr : ∀ t, (f.conf c).thr (f.tid t) = c.thr t := fun t => by simp [Shuffle.conf, back_tid]
  cases x with
  | begin n u =>
    simp only [step] at h
    split at h
    · cases h
    next hp =>
      cases h
      have h1 : (f.conf c).thr (.client (f.client n)) = none := (thr (.client n)).trans hp
      simp only [step, Shuffle.choice, h1]
      rw [conf_thr]
      rfl
  | run t =>
    simp only [step] at h
    split at h
    · cases h
    next p hp =>
      simp only [step, Shuffle.choice, (thr t).trans hp]
      cases p with
      | ret => cases h; simp only [runThread]; rw [conf_thr]; rfl
      | thr x => cases h; simp only [runThread]; rw [conf_thr, world_log]; rfl
      | op o k =>
        simp only [runThread] at h
        split at h
        next he =>
          cases h
          obtain ⟨h1, h2⟩ := exec_world (f := f) t o c.w
          have h3 : exec (f.tid t) o (f.conf c).w = _ := h1
          have h4 : enabled (f.tid t) o (f.conf c).w = true := h2.trans he
          simp only [runThread, h4, if_true, h3]
          rw [conf_thr]
        · cases h
      | call g k => cases h; simp only [runThread]; rw [conf_thr]; rfl
  | dispatch e i j =>
    simp only [step] at h
    split at h
    next hw =>
      split at h
      next s m h1 h2 =>
        cases h
        have h1' : (f.conf c).thr (.worker e (f.worker e i)) = none := (thr (.worker e i)).trans h1
        have h2' : ((f.conf c).w.tasks e)[j]? = some (s, m) := h2
        simp only [step, Shuffle.choice, hf e i hw, if_true, h1', h2']
        rw [conf_thr]
        rfl
      · cases h
    · cases h
  | interrupt t =>
    cases h
    simp only [step, Shuffle.choice, Shuffle.conf, fset_tid]
  | shutdown e now =>
    cases now
    · cases h; rfl
    · cases h
      simp [step, Shuffle.choice, Shuffle.conf, World.dropTasks, Shuffle.history, Shuffle.tid, Function.comp_def]

theorem runs_conf {xs : List Choice} (hf : f.Fits env) (h : runs env c xs = some d) : runs env (f.conf c) (xs.map f.choice) = some (f.conf d) := by
  induction xs generalizing c with
  | nil => cases h; rfl
  | cons x xs ih =>
    simp only [runs] at h
    split at h
    · cases h
    next c1 h1 =>
      simp only [List.map_cons, runs, step_conf hf h1]
      exact ih h

end Verif.Shuffling
