import Verif.Spec.HB
import Verif.Spec.Orderly
/-
Only `submit` looks whether an executor is shut down.
-/

namespace Verif.Orderly
open Verif.Spec.Orderly Verif.Spec.HB

variable {env : Env} {E : EId → Bool} {c c' d d' : Conf}

theorem _root_.Verif.Spec.Orderly.Like.refl (c : Conf) : Like E c c := ⟨rfl, fun _ _ => rfl, rfl⟩

theorem _root_.Verif.Spec.Orderly.Like.symm (h : Like E c d) : Like E d c := by
  obtain ⟨h1, h2, h3⟩ := h
  obtain ⟨⟨⟩, _⟩ := c
  obtain ⟨⟨⟩, _⟩ := d
  simp only [World.mk.injEq] at h1
  obtain ⟨rfl, rfl, rfl, rfl, rfl, rfl, rfl, rfl, _, rfl, rfl, rfl, rfl⟩ := h1
  exact ⟨rfl, fun t ht => (h2 t ht).symm, h3.symm⟩

theorem exec_like {w : World} {i : EId → Bool} {t : Tid} {o : Op} (hi : ∀ u, E u = false → i u = w.shut u) (ho : ∀ e s m, E e = true → o ≠ .submit e s m) :
    (exec t o { w with shut := i }).1 = (exec t o w).1 ∧ enabled t o { w with shut := i } = enabled t o w ∧
    ∃ i', (exec t o { w with shut := i }).2 = { (exec t o w).2 with shut := i' } ∧ ∀ u, E u = false → i' u = (exec t o w).2.shut u := by
  cases o with
  | submit e s m =>
    have he : i e = w.shut e := hi e (by
      cases h : E e with
      | false => rfl
      | true => exact absurd rfl (ho e s m h))
    refine ⟨?_, rfl, i, ?_, ?_⟩ <;> simp only [exec, he] <;> split <;> first | rfl | exact hi
  | _ => first
    | exact ⟨rfl, rfl, _, rfl, hi⟩
    | (refine ⟨?_, rfl, i, ?_, ?_⟩ <;> simp only [exec] <;> (repeat' split) <;> first | rfl | exact hi)

theorem step_like {x : Choice} (h : Like E c d) (ha : ∀ t e s m r, E e = true → did c x ≠ some (.op t (.submit e s m) r)) (hs : step env c x = some c') :
    ∃ d', step env d x = some d' ∧ Like E c' d' ∧ did d x = did c x := by
  obtain ⟨w, thr⟩ := c
  obtain ⟨w', thr'⟩ := d
  obtain ⟨h1, hi, h3⟩ := h
  simp only at h1 hi h3
  generalize w'.shut = i at h1 hi
  subst h1 h3
  cases x with
  | begin n u =>
    simp only [step] at hs ⊢
    split at hs
    · cases hs
    · cases hs; exact ⟨_, rfl, ⟨rfl, hi, rfl⟩, rfl⟩
  | run t =>
    simp only [step] at hs ⊢
    split at hs
    · cases hs
    next p hp =>
      simp only [did, hp] at ha ⊢
      cases p with
      | ret => cases hs; exact ⟨_, rfl, ⟨rfl, hi, rfl⟩, rfl⟩
      | thr x => cases hs; exact ⟨_, rfl, ⟨rfl, hi, rfl⟩, rfl⟩
      | op o k =>
        simp only [runThread] at hs ⊢
        have ho : ∀ e s m, E e = true → o ≠ .submit e s m := by
          rintro e s m he rfl
          exact ha t e s m _ he rfl
        obtain ⟨g1, g2, i', g3, g4⟩ := exec_like (E := E) (w := w) (i := i) (t := t) (o := o) hi ho
        rw [g1, g2, g3]
        split at hs
        next he =>
          cases hs
          exact ⟨_, if_pos he, ⟨rfl, g4, rfl⟩, rfl⟩
        · cases hs
      | call f k => cases hs; exact ⟨_, rfl, ⟨rfl, hi, rfl⟩, rfl⟩
  | dispatch e j k =>
    simp only [step] at hs ⊢
    split at hs
    next hw =>
      split at hs
      next s m h1 h2 =>
        cases hs
        rw [if_pos hw]
        exact ⟨_, rfl, ⟨rfl, hi, rfl⟩, rfl⟩
      · cases hs
    · cases hs
  | interrupt t => cases hs; exact ⟨_, rfl, ⟨rfl, hi, rfl⟩, rfl⟩
  | shutdown e now =>
    have h : ∀ u, E u = false → fset i e true u = fset w.shut e true u := fun u hu => by
      by_cases h : u = e
      · subst h; simp
      · simpa [fset_ne _ _ h] using hi u hu
    cases now <;> (cases hs; exact ⟨_, rfl, ⟨rfl, h, rfl⟩, rfl⟩)

theorem shutdown_like {e : EId} (h : Like E c d) (ht : E e = true) : Like E { c with w := { c.w with shut := fset c.w.shut e true } } d :=
  ⟨h.world, fun u hu => (h.shut u hu).trans (fset_ne _ _ (by rintro rfl; rw [ht] at hu; cases hu)).symm, h.thr⟩

/-- No task is submitted to executors `E`. -/
def NoSubmit (E : EId → Bool) (H : List Did) : Prop := ∀ t e s m r, E e = true → .op t (.submit e s m) r ∉ H

theorem runs_going {xs : List Choice} (h : Like E c d) (ha : NoSubmit E (history env c xs)) (hs : runs env c xs = some c') :
    ∃ d', runs env d (xs.filter (going E)) = some d' ∧ Like E c' d' ∧ NoSubmit E (history env d (xs.filter (going E))) := by
  induction xs generalizing c d with
  | nil => cases hs; exact ⟨d, rfl, h, fun _ _ _ _ _ _ h => by cases h⟩
  | cons x xs ih =>
    simp only [runs] at hs
    split at hs
    · cases hs
    next c1 h1 =>
      simp only [history, h1] at ha
      have ha1 : NoSubmit E (history env c1 xs) := fun t e s m r ht hm => ha t e s m r ht (List.mem_append_right _ hm)
      have ha0 : ∀ t e s m r, E e = true → did c x ≠ some (.op t (.submit e s m) r) := fun t e s m r ht h => ha t e s m r ht (List.mem_append_left _ (by rw [h]; exact List.mem_singleton.2 rfl))
      cases hk : going E x with
      | true =>
        obtain ⟨d1, g1, g2, g3⟩ := step_like h ha0 h1
        obtain ⟨d', g4, g5, g6⟩ := ih g2 ha1 hs
        rw [List.filter_cons_of_pos hk]
        refine ⟨d', by simp only [runs, g1]; exact g4, g5, fun t e s m r ht hm => ?_⟩
        simp only [history, g1, g3] at hm
        rcases List.mem_append.1 hm with hm | hm
        · exact ha t e s m r ht (List.mem_append_left _ hm)
        · exact g6 t e s m r ht hm
      | false =>
        rw [List.filter_cons_of_neg (by simp [hk])]
        cases x with
        | shutdown e now =>
          cases now with
          | true => cases hk
          | false =>
            cases h1
            exact ih (shutdown_like h (by simpa [going] using hk)) ha1 hs
        | _ => cases hk

theorem going_runs {xs : List Choice} (h : Like E c d) (ha : NoSubmit E (history env c (xs.filter (going E)))) (hs : runs env c (xs.filter (going E)) = some c') :
    ∃ d', runs env d xs = some d' ∧ Like E c' d' := by
  induction xs generalizing c d with
  | nil => cases hs; exact ⟨d, rfl, h⟩
  | cons x xs ih =>
    cases hk : going E x with
    | true =>
      rw [List.filter_cons_of_pos hk] at hs ha
      simp only [runs] at hs
      split at hs
      · cases hs
      next c1 h1 =>
        simp only [history, h1] at ha
        obtain ⟨d1, g1, g2, _⟩ := step_like h (fun t e s m r ht h => ha t e s m r ht (List.mem_append_left _ (by rw [h]; exact List.mem_singleton.2 rfl))) h1
        obtain ⟨d', g4, g5⟩ := ih g2 (fun t e s m r ht hm => ha t e s m r ht (List.mem_append_right _ hm)) hs
        exact ⟨d', by simp only [runs, g1]; exact g4, g5⟩
    | false =>
      rw [List.filter_cons_of_neg (by simp [hk])] at hs ha
      cases x with
      | shutdown e now =>
        cases now with
        | true => cases hk
        | false => exact ih (shutdown_like h.symm (by simpa [going] using hk)).symm ha hs
      | _ => cases hk

end Verif.Orderly
