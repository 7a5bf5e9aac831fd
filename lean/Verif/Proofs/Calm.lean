import Verif.Spec.HB
import Verif.Spec.Calm
/-
Only `await` looks at the interrupt status.
-/

namespace Verif.Calm
open Verif.Spec.Calm Verif.Spec.HB

variable {env : Env} {I : Tid → Bool} {c c' d d' : Conf}

theorem _root_.Verif.Spec.Calm.Alike.refl (c : Conf) : Alike I c c := ⟨rfl, fun _ _ => rfl, rfl⟩

theorem _root_.Verif.Spec.Calm.Alike.symm (h : Alike I c d) : Alike I d c := by
  obtain ⟨h1, h2, h3⟩ := h
  obtain ⟨⟨⟩, _⟩ := c
  obtain ⟨⟨⟩, _⟩ := d
  simp only [World.mk.injEq] at h1
  obtain ⟨rfl, rfl, rfl, rfl, rfl, rfl, rfl, rfl, rfl, rfl, _, rfl, rfl⟩ := h1
  exact ⟨rfl, fun t ht => (h2 t ht).symm, h3.symm⟩

theorem exec_alike {w : World} {i : Tid → Bool} {t : Tid} {o : Op} (hi : ∀ u, I u = false → i u = w.intr u) (ho : I t = true → ∀ n, o ≠ .await n) :
    (exec t o { w with intr := i }).1 = (exec t o w).1 ∧ enabled t o { w with intr := i } = enabled t o w ∧
    ∃ i', (exec t o { w with intr := i }).2 = { (exec t o w).2 with intr := i' } ∧ ∀ u, I u = false → i' u = (exec t o w).2.intr u := by
  cases o with
  | await n =>
    have ht : I t = false := by
      cases h : I t with
      | false => rfl
      | true => exact absurd rfl (ho h n)
    have he : i t = w.intr t := hi t ht
    refine ⟨?_, by simp only [enabled, he], ?_⟩
    · simp only [exec, he]; split <;> rfl
    · simp only [exec, he]
      split
      · refine ⟨_, rfl, fun u hu => ?_⟩
        by_cases h : u = t
        · subst h; simp
        · simpa [fset_ne _ _ h] using hi u hu
      · exact ⟨_, rfl, hi⟩
  | setIntr =>
    refine ⟨rfl, rfl, _, rfl, fun u hu => ?_⟩
    simp only [exec]
    by_cases h : u = t
    · subst h; simp
    · simpa [fset_ne _ _ h] using hi u hu
  | _ => first
    | exact ⟨rfl, rfl, _, rfl, hi⟩
    | (refine ⟨?_, rfl, i, ?_, ?_⟩ <;> simp only [exec] <;> (repeat' split) <;> first | rfl | exact hi)

theorem step_alike {x : Choice} (h : Alike I c d) (ha : ∀ t n r, I t = true → did c x ≠ some (.op t (.await n) r)) (hs : step env c x = some c') :
    ∃ d', step env d x = some d' ∧ Alike I c' d' ∧ did d x = did c x := by
  obtain ⟨w, thr⟩ := c
  obtain ⟨w', thr'⟩ := d
  obtain ⟨h1, hi, h3⟩ := h
  simp only at h1 hi h3
  generalize w'.intr = i at h1 hi
  subst h1 h3
  cases x with
  | begin n u =>
    simp only [step] at hs ⊢
    split at hs
    · cases hs
    · cases hs; exact ⟨_, rfl, ⟨rfl, hi, rfl⟩, rfl⟩
  | run t =>
    simp only [step] at hs ⊢
    split at hs
    · cases hs
    next p hp =>
      simp only [did, hp] at ha ⊢
      cases p with
      | ret => cases hs; exact ⟨_, rfl, ⟨rfl, hi, rfl⟩, rfl⟩
      | thr x => cases hs; exact ⟨_, rfl, ⟨rfl, hi, rfl⟩, rfl⟩
      | op o k =>
        simp only [runThread] at hs ⊢
        have ho : I t = true → ∀ n, o ≠ .await n := by
          rintro ht n rfl
          exact ha t n _ ht rfl
        obtain ⟨g1, g2, i', g3, g4⟩ := exec_alike (I := I) (w := w) (i := i) (t := t) (o := o) hi ho
        rw [g1, g2, g3]
        split at hs
        next he =>
          cases hs
          exact ⟨_, if_pos he, ⟨rfl, g4, rfl⟩, rfl⟩
        · cases hs
      | call f k => cases hs; exact ⟨_, rfl, ⟨rfl, hi, rfl⟩, rfl⟩
  | dispatch e j k =>
    simp only [step] at hs ⊢
    split at hs
    next hw =>
      split at hs
      next s m h1 h2 =>
        cases hs
        rw [if_pos hw]
        exact ⟨_, rfl, ⟨rfl, hi, rfl⟩, rfl⟩
      · cases hs
    · cases hs
  | interrupt t =>
    cases hs
    refine ⟨_, rfl, ⟨rfl, fun u hu => ?_, rfl⟩, rfl⟩
    by_cases h : u = t
    · subst h; simp
    · simpa [fset_ne _ _ h] using hi u hu
  | shutdown e now =>
    cases now <;> (cases hs; exact ⟨_, rfl, ⟨rfl, hi, rfl⟩, rfl⟩)

theorem interrupt_alike {t : Tid} (h : Alike I c d) (ht : I t = true) : Alike I { c with w := { c.w with intr := fset c.w.intr t true } } d :=
  ⟨h.world, fun u hu => (h.intr u hu).trans (fset_ne _ _ (by rintro rfl; rw [ht] at hu; cases hu)).symm, h.thr⟩

/-- No thread of `I` waits for a latch. -/
def NoWait (I : Tid → Bool) (H : List Did) : Prop := ∀ t n r, I t = true → .op t (.await n) r ∉ H

theorem runs_calm {xs : List Choice} (h : Alike I c d) (ha : NoWait I (history env c xs)) (hs : runs env c xs = some c') :
    ∃ d', runs env d (xs.filter (calm I)) = some d' ∧ Alike I c' d' ∧ NoWait I (history env d (xs.filter (calm I))) := by
  induction xs generalizing c d with
  | nil => cases hs; exact ⟨d, rfl, h, fun _ _ _ _ h => by cases h⟩
  | cons x xs ih =>
    simp only [runs] at hs
    split at hs
    · cases hs
    next c1 h1 =>
      simp only [history, h1] at ha
      have ha1 : NoWait I (history env c1 xs) := fun t n r ht hm => ha t n r ht (List.mem_append_right _ hm)
      have ha0 : ∀ t n r, I t = true → did c x ≠ some (.op t (.await n) r) := fun t n r ht e => ha t n r ht (List.mem_append_left _ (by rw [e]; exact List.mem_singleton.2 rfl))
      cases hk : calm I x with
      | true =>
        obtain ⟨d1, g1, g2, g3⟩ := step_alike h ha0 h1
        obtain ⟨d', g4, g5, g6⟩ := ih g2 ha1 hs
        rw [List.filter_cons_of_pos hk]
        refine ⟨d', by simp only [runs, g1]; exact g4, g5, fun t n r ht hm => ?_⟩
        simp only [history, g1, g3] at hm
        rcases List.mem_append.1 hm with hm | hm
        · exact ha t n r ht (List.mem_append_left _ hm)
        · exact g6 t n r ht hm
      | false =>
        rw [List.filter_cons_of_neg (by simp [hk])]
        cases x with
        | interrupt t =>
          cases h1
          exact ih (interrupt_alike h (by simpa [calm] using hk)) ha1 hs
        | _ => cases hk

theorem calm_runs {xs : List Choice} (h : Alike I c d) (ha : NoWait I (history env c (xs.filter (calm I)))) (hs : runs env c (xs.filter (calm I)) = some c') :
    ∃ d', runs env d xs = some d' ∧ Alike I c' d' := by
  induction xs generalizing c d with
  | nil => cases hs; exact ⟨d, rfl, h⟩
  | cons x xs ih =>
    cases hk : calm I x with
    | true =>
      rw [List.filter_cons_of_pos hk] at hs ha
      simp only [runs] at hs
      split at hs
      · cases hs
      next c1 h1 =>
        simp only [history, h1] at ha
        obtain ⟨d1, g1, g2, _⟩ := step_alike h (fun t n r ht e => ha t n r ht (List.mem_append_left _ (by rw [e]; exact List.mem_singleton.2 rfl))) h1
        obtain ⟨d', g4, g5⟩ := ih g2 (fun t n r ht hm => ha t n r ht (List.mem_append_right _ hm)) hs
        exact ⟨d', by simp only [runs, g1]; exact g4, g5⟩
    | false =>
      rw [List.filter_cons_of_neg (by simp [hk])] at hs ha
      cases x with
      | interrupt t => exact ih (interrupt_alike h.symm (by simpa [calm] using hk)).symm ha hs
      | _ => cases hk

end Verif.Calm
