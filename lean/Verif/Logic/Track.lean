import Verif.Logic.Proto
import Verif.Spec.Live
/-
Control states along an infinite execution.
-/

namespace Verif
open Spec

section
variable {L : Type} {env : Env} (P : Proto L) (l0 : L) (task : SId → MId → L)

/-- The control states after a step. -/
def track (lst : Tid → L) (c : Conf) : Option Choice → Tid → L
  | some (.run t) => match c.thr t with
    | some (.op o _) => fset lst t (P.nxt (lst t) o c.w)
    | some (.ret _) | some (.thr _) => fset lst t l0
    | _ => lst
  | some (.dispatch e i j) => match (c.w.tasks e)[j]? with
    | some (s, m) => fset lst (.worker e i) (task s m)
    | none => lst
  | _ => lst

variable {P l0 task} {fin : Tid → Except Exc Unit → L → Prop} {Inv : (Tid → L) → World → Prop}

theorem track_step (hc : Checked env P l0 task fin) (hi : Invariant env P l0 task fin Inv)
    {c c' : Conf} {x : Choice} {lst : Tid → L} (ht : ThreadsOk P l0 fin lst c) (hI : Inv lst c.w)
    (hs : step env c x = some c') : ThreadsOk P l0 fin (track P l0 task lst c (some x)) c' ∧ Inv (track P l0 task lst c (some x)) c'.w := by
  have upd : ∀ (t : Tid) (l : L) (p : Option (Prog Unit)) (w : World),
      (match p with | none => l = l0 | some p => P.Ok t p l (fin t)) →
      ThreadsOk P l0 fin (fset lst t l) ⟨w, fset c.thr t p⟩ := by
    intro t l p w hp u
    by_cases hu : u = t
    · subst hu; simp only [fset_same]; exact hp
    · simp only [fset_ne _ _ hu]; exact ht u
  have same : ∀ t, fset lst t (lst t) = lst := by
    intro t; funext u; by_cases h : u = t <;> simp [fset, h]
  cases x with
  | begin n u =>
    simp only [step] at hs
    split at hs
    · cases hs
    next hn =>
      cases hs
      have h0 := ht (.client n)
      rw [hn] at h0
      have := upd (.client n) (lst (.client n)) (some (u.denote env)) c.w (by simp only; rw [h0]; exact hc.client n u)
      rw [same] at this
      exact ⟨this, hI⟩
  | run t =>
    simp only [step] at hs
    split at hs
    · cases hs
    next p hp =>
      have h0 := ht t
      rw [hp] at h0
      cases p with
      | ret a =>
        cases hs
        simp only [track, hp]
        exact ⟨upd _ _ _ _ rfl, hi.ret _ _ _ hI h0⟩
      | thr x =>
        cases hs
        simp only [track, hp]
        exact ⟨upd _ _ _ _ rfl, hi.thr _ _ _ _ hI h0⟩
      | op o k =>
        simp only [runThread] at hs
        split at hs
        next he =>
          cases hs
          simp only [track, hp]
          exact ⟨upd _ _ _ _ (h0.2 c.w (hi.know _ _ t hI)), hi.op _ _ _ _ hI h0.1 he⟩
        · cases hs
      | call f k =>
        cases hs
        simp only [track, hp]
        have := upd t (lst t) (some ((body env f).handle k)) c.w (by
          simp only
          rw [Proto.ok_handle]
          exact (hc.body t f (lst t) h0.1).mono (fun r l' hp => h0.2 r l' hp))
        rw [same] at this
        exact ⟨this, hI⟩
  | dispatch e i j =>
    simp only [step] at hs
    split at hs
    next hw =>
      split at hs
      next s m hn hj =>
        cases hs
        have h0 := ht (.worker e i)
        rw [hn] at h0
        simp only [track, hj]
        exact ⟨upd _ _ _ _ (hc.drain _ s m), hi.dispatch _ _ _ _ _ _ _ hI h0 hw hj⟩
      · cases hs
    · cases hs
  | interrupt t =>
    cases hs
    exact ⟨ht, hi.interrupt _ _ _ hI⟩
  | shutdown e now =>
    cases hs
    refine ⟨ht, ?_⟩
    cases now with
    | false => exact hi.shutdown _ _ _ hI
    | true => exact hi.dropTasks _ _ _ (hi.shutdown _ _ _ hI)

end

namespace Spec.Run
variable {L : Type} {env : Env} (r : Run env) (P : Proto L) (l0 : L) (task : SId → MId → L)

/-- The control states along the execution. -/
def ctl : Nat → Tid → L
  | 0 => fun _ => l0
  | i + 1 => track P l0 task (ctl i) (r.conf i) (r.pick i)

variable {P l0 task} {fin : Tid → Except Exc Unit → L → Prop} {Inv : (Tid → L) → World → Prop}

theorem ctl_ok (hc : Checked env P l0 task fin) (hi : Invariant env P l0 task fin Inv) (h0 : Inv (fun _ => l0) (r.conf 0).w) (i : Nat) :
    ThreadsOk P l0 fin (r.ctl P l0 task i) (r.conf i) ∧ Inv (r.ctl P l0 task i) (r.conf i).w := by
  induction i with
  | zero => exact ⟨fun t => by rw [r.init.idle t]; rfl, h0⟩
  | succ i ih =>
    have := r.next i
    simp only [ctl]
    cases hp : r.pick i with
    | none => rw [hp] at this; simp only at this; rw [this]; exact ih
    | some x => rw [hp] at this; exact track_step hc hi ih.1 ih.2 this

theorem reach_conf (i : Nat) : ReachFrom env (r.conf 0) (r.conf i) := by
  induction i with
  | zero => exact ⟨[], rfl⟩
  | succ i ih =>
    have := r.next i
    cases hp : r.pick i with
    | none => rw [hp] at this; simp only at this; rw [this]; exact ih
    | some x =>
      rw [hp] at this
      obtain ⟨xs, hx⟩ := ih
      refine ⟨xs ++ [x], ?_⟩
      have : ∀ (c : Conf) (xs : List Choice) (c1 c2 : Conf), runs env c xs = some c1 → step env c1 x = some c2 → runs env c (xs ++ [x]) = some c2 := by
        intro c xs c1 c2 h1 h2
        induction xs generalizing c with
        | nil => cases h1; simp [runs, h2]
        | cons y ys ih =>
          simp only [runs, List.cons_append] at h1 ⊢
          split at h1
          · cases h1
          · rename_i c' h; exact ih c' h1
      exact this _ _ _ _ hx (by assumption)

theorem reach (i : Nat) : Reach env (r.conf i) := ⟨_, r.init, r.reach_conf i⟩

end Spec.Run
end Verif
