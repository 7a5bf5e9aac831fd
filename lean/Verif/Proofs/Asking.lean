import Verif.Proofs.Cycle
import Verif.Proofs.Mem
import Verif.Spec.Asking
/-
Steps of threads that only ask can be left out.
-/

namespace Verif.Asking
open Verif.Spec.Asking

/-- Operations that only read or write into the history. -/
def look : Op → Bool
  | .getStarted _ | .getEnded _ | .getCur _ | .qSize _ | .getPayload _ | .getMem _ | .emit _ => true
  | _ => false

/-- What remains of a thread that only asks. -/
def Looks : Prog Unit → Prop
  | .ret _ => True
  | .thr _ => True
  | .op o k => look o = true ∧ ∀ r, Looks (k r)
  | .call _ _ => False

theorem looks_denote (env : Env) {u : UProg} (h : Asks u) : Looks (u.denote env) := by
  induction h with
  | done => trivial
  | thr => trivial
  | @call u k hu hk ih => cases u <;> first | (cases hu; done) | exact ⟨rfl, ih⟩

variable {env : Env} {N : Nat → Bool} {c c' d : Conf}

theorem exec_look {o : Op} (h : look o = true) (t : Tid) (w : World) : ∃ l, (∀ e ∈ l, e.1 = t) ∧ (exec t o w).2 = { w with trace := w.trace ++ l } := by
  cases o with
  | emit x => exact ⟨[(t, x)], fun e h => by rw [List.mem_singleton.1 h], rfl⟩
  | _ => first | (cases h; done) | exact ⟨[], fun _ h => (by cases h), by simp [exec]⟩

/-- The threads only ask. -/
def Inv (N : Nat → Bool) (c : Conf) : Prop := ∀ t p, mine N t = true → c.thr t = some p → Looks p

theorem filter_mine {t : Tid} (ht : mine N t = true) {l : List (Tid × Obs)} (h : ∀ e ∈ l, e.1 = t) : l.filter (fun e => !mine N e.1) = [] :=
  List.filter_eq_nil_iff.2 fun e he => by simp [h e he, ht]

theorem filter_other {l : List (Tid × Obs)} (h : ∀ e ∈ l, mine N e.1 = false) : l.filter (fun e => !mine N e.1) = l :=
  List.filter_eq_self.2 fun e he => by simp [h e he]

theorem without_mine {t : Tid} (ht : mine N t = true) {l : List (Tid × Obs)} (hl : ∀ e ∈ l, e.1 = t) (a : Option (Prog Unit)) :
    without N ⟨{ c.w with trace := c.w.trace ++ l }, fset c.thr t a⟩ = without N c := by
  simp only [without, List.filter_append, filter_mine ht hl, List.append_nil]
  congr 1
  funext u
  by_cases hu : mine N u = true
  · rw [if_pos hu, if_pos hu]
  · rw [if_neg hu, if_neg hu, fset_ne _ _ (by rintro rfl; exact hu ht)]

theorem step_mine {x : Choice} (hI : Inv N c) (ho : Only N x) (hk : keep N x = false) (h : step env c x = some d) : without N d = without N c ∧ Inv N d := by
  have other : ∀ {t : Tid} {w : World} {a : Option (Prog Unit)}, (∀ p, a = some p → Looks p) → Inv N ⟨w, fset c.thr t a⟩ := by
    intro t w a ha u p hu hp
    by_cases hut : u = t
    · subst hut; exact ha p (by simpa using hp)
    · exact hI u p hu (by simpa [fset_ne _ _ hut] using hp)
  cases x with
  | begin n u =>
    have hn : N n = true := by simpa [keep] using hk
    simp only [step] at h
    split at h
    · cases h
    · cases h
      refine ⟨?_, other fun p hp => by cases hp; exact looks_denote env (ho n u rfl hn)⟩
      have := without_mine (c := c) (t := .client n) hn (l := []) (fun _ h => by cases h) (some (u.denote env))
      simpa using this
  | run t =>
    have ht : mine N t = true := by simpa [keep] using hk
    simp only [step] at h
    split at h
    · cases h
    next p hp =>
      have hl := hI t p ht hp
      cases p with
      | ret => 
        cases h
        have := without_mine (c := c) ht (l := []) (fun _ h => by cases h) none
        exact ⟨by simpa using this, other fun p hp => by cases hp⟩
      | thr x =>
        cases h
        exact ⟨without_mine (c := c) ht (l := [(t, .uncaught x)]) (fun e h => by rw [List.mem_singleton.1 h]) none, other fun p hp => by cases hp⟩
      | op o k =>
        simp only [runThread] at h
        split at h
        · cases h
          obtain ⟨l, h1, h2⟩ := exec_look hl.1 t c.w
          exact ⟨by simp only [h2]; exact without_mine ht h1 _, other fun p hp => by cases hp; exact hl.2 _⟩
        · cases h
      | call => cases hl
  | dispatch => cases hk
  | interrupt => cases hk
  | shutdown => cases hk

theorem without_other {t : Tid} (ht : mine N t = false) {w : World} {l : List (Tid × Obs)} (hw : w.trace = c.w.trace ++ l) (hl : ∀ e ∈ l, mine N e.1 = false) (a : Option (Prog Unit)) :
    without N ⟨w, fset c.thr t a⟩ = ⟨{ w with trace := c.w.trace.filter (fun e => !mine N e.1) ++ l }, fset (without N c).thr t a⟩ := by
  simp only [without, hw, List.filter_append, filter_other hl]
  congr 1
  funext u
  by_cases hu : u = t
  · subst hu; simp [ht]
  · simp [fset_ne _ _ hu]

theorem step_keep {x : Choice} (hk : keep N x = true) (h : step env c x = some d) : step env (without N c) x = some (without N d) := by
  cases x with
  | begin n u =>
    have hn : mine N (.client n) = false := by simpa [keep, mine] using hk
    simp only [step] at h
    split at h
    · cases h
    next hp =>
      cases h
      have hp' : (without N c).thr (.client n) = none := by simp [without, hn, hp]
      have := without_other (c := c) hn (w := c.w) (l := []) (by simp) (fun _ h => by cases h) (some (u.denote env))
      rw [this]
      simp only [step, hp', List.append_nil]
      rfl
  | run t =>
    have ht : mine N t = false := by simpa [keep] using hk
    simp only [step] at h
    split at h
    · cases h
    next p hp =>
      have hp' : (without N c).thr t = some p := by simp [without, ht, hp]
      simp only [step, hp']
      cases p with
      | ret =>
        cases h
        have := without_other (c := c) ht (w := c.w) (l := []) (by simp) (fun _ h => by cases h) none
        rw [this]
        simp [runThread, without]
      | thr x =>
        cases h
        have := without_other (c := c) ht (w := c.w.log t (.uncaught x)) (l := [(t, .uncaught x)]) rfl (fun e h => by rw [List.mem_singleton.1 h]; exact ht) none
        rw [this]
        simp [runThread, without, World.log]
      | op o k =>
        simp only [runThread] at h
        split at h
        next he =>
          cases h
          obtain ⟨l, h1, h2⟩ := Cycle.exec_past t o c.w
          have hl : ∀ e ∈ l, mine N e.1 = false := by
            have := exec_trace t o c.w
            rw [h1] at this
            have := List.append_cancel_left this
            intro e he
            rw [this] at he
            cases ho : opObs o c.w with
            | none => rw [ho] at he; cases he
            | some x => rw [ho] at he; rw [List.mem_singleton.1 he]; exact ht
          obtain ⟨h3, h4⟩ := h2 (c.w.trace.filter fun e => !mine N e.1)
          have h5 : exec t o (without N c).w = _ := h3
          have h6 : enabled t o (without N c).w = true := h4.trans he
          simp only [runThread, h6, if_true, h5]
          rw [without_other ht h1 hl]
        · cases h
      | call f k =>
        cases h
        have := without_other (c := c) ht (w := c.w) (l := []) (by simp) (fun _ h => by cases h) (some ((body env f).handle k))
        rw [this]
        simp [runThread, without]
  | dispatch e i j =>
    simp only [step] at h
    split at h
    next hw =>
      split at h
      next s m h1 h2 =>
        cases h
        have h1' : (without N c).thr (.worker e i) = none := by simp [without, mine, h1]
        have h2' : ((without N c).w.tasks e)[j]? = some (s, m) := h2
        have := without_other (c := c) (t := .worker e i) (N := N) rfl (w := { c.w with tasks := fset c.w.tasks e ((c.w.tasks e).eraseIdx j) }) (l := []) (by simp) (fun _ h => by cases h)
          (some (drain env s m))
        rw [this]
        simp only [step, hw, if_true, h1', h2', List.append_nil]
        rfl
      · cases h
    · cases h
  | interrupt t => cases h; rfl
  | shutdown e now =>
    cases now
    · cases h; rfl
    · cases h
      simp only [step, if_true]
      congr 1
      simp only [without, World.dropTasks, List.filter_append]
      rw [filter_other (l := (c.w.tasks e).map _) fun x hx => by obtain ⟨_, _, rfl⟩ := List.mem_map.1 hx; rfl]

theorem inv_keep {x : Choice} (hI : Inv N c) (hk : keep N x = true) (h : step env c x = some d) : Inv N d := by
  have other : ∀ {t : Tid} {w : World} {a : Option (Prog Unit)}, mine N t = false → Inv N ⟨w, fset c.thr t a⟩ := by
    intro t w a ht u p hu hp
    refine hI u p hu ?_
    rw [← hp]
    exact (fset_ne _ _ (by rintro rfl; rw [ht] at hu; cases hu)).symm
  cases x with
  | begin n u =>
    simp only [step] at h
    split at h
    · cases h
    · cases h; exact other (by simpa [keep, mine] using hk)
  | run t =>
    have ht : mine N t = false := by simpa [keep] using hk
    simp only [step] at h
    split at h
    · cases h
    next p hp =>
      cases p with
      | op o k =>
        simp only [runThread] at h
        split at h
        · cases h; exact other ht
        · cases h
      | _ => cases h; exact other ht
  | dispatch e i j =>
    simp only [step] at h
    split at h
    · split at h
      · cases h; exact other rfl
      · cases h
    · cases h
  | interrupt t => cases h; exact hI
  | shutdown e now => cases h; exact hI

theorem runs_without {xs : List Choice} (hI : Inv N c) (ho : ∀ x ∈ xs, Only N x) (h : runs env c xs = some d) : runs env (without N c) (xs.filter (keep N)) = some (without N d) := by
  induction xs generalizing c with
  | nil => cases h; rfl
  | cons x xs ih =>
    simp only [runs] at h
    split at h
    · cases h
    next c1 h1 =>
      cases hk : keep N x with
      | true =>
        rw [List.filter_cons_of_pos hk]
        simp only [runs, step_keep hk h1]
        exact ih (inv_keep hI hk h1) (fun y hy => ho y (List.mem_cons_of_mem _ hy)) h
      | false =>
        rw [List.filter_cons_of_neg (by simp [hk])]
        obtain ⟨h2, h3⟩ := step_mine hI (ho x (List.mem_cons_self ..)) hk h1
        rw [← h2]
        exact ih h3 (fun y hy => ho y (List.mem_cons_of_mem _ hy)) h

/-- Questions are answered, in every configuration. -/
theorem answered {t : Tid} {p : Prog Unit} (ht : mine N t = true) (hp : c.thr t = some p) (hl : Looks p) :
    ∃ n d, runs env c (List.replicate n (.run t)) = some d ∧ d.thr t = none ∧ without N d = without N c := by
  induction p generalizing c with
  | ret a =>
    refine ⟨1, ⟨c.w, fset c.thr t none⟩, by simp [runs, step, hp, runThread], by simp, ?_⟩
    have := without_mine (c := c) ht (l := []) (fun _ h => by cases h) none
    simpa using this
  | thr x =>
    exact ⟨1, ⟨c.w.log t (.uncaught x), fset c.thr t none⟩, by simp [runs, step, hp, runThread], by simp,
      without_mine (c := c) ht (l := [(t, .uncaught x)]) (fun e h => by rw [List.mem_singleton.1 h]) none⟩
  | op o k ih =>
    have he : enabled t o c.w = true := by
      have := hl.1
      cases o <;> first | (cases this; done) | rfl
    obtain ⟨l, h1, h2⟩ := exec_look hl.1 t c.w
    obtain ⟨n, d, h3, h4, h5⟩ := ih (exec t o c.w).1 (c := ⟨(exec t o c.w).2, fset c.thr t (some (k (exec t o c.w).1))⟩) (by simp) (hl.2 _)
    refine ⟨n + 1, d, ?_, h4, ?_⟩
    · rw [List.replicate_succ]
      simp only [runs, step, hp, runThread, he, if_true]
      exact h3
    · rw [h5, h2]
      exact without_mine ht h1 _
  | call => cases hl

theorem inv_runs {xs : List Choice} (hI : Inv N c) (ho : ∀ x ∈ xs, Only N x) (h : runs env c xs = some d) : Inv N d := by
  induction xs generalizing c with
  | nil => cases h; exact hI
  | cons x xs ih =>
    simp only [runs] at h
    split at h
    · cases h
    next c1 h1 =>
      refine ih ?_ (fun y hy => ho y (List.mem_cons_of_mem _ hy)) h
      cases hk : keep N x with
      | true => exact inv_keep hI hk h1
      | false => exact (step_mine hI (ho x (List.mem_cons_self ..)) hk h1).2

theorem without_initial (h : Initial c) : without N c = c ∧ Inv N c := by
  refine ⟨?_, fun t p _ hp => by rw [h.idle] at hp; cases hp⟩
  obtain ⟨w, thr⟩ := c
  have ht : w.trace = [] := h.trace
  have hi : ∀ t, thr t = none := h.idle
  simp only [without, ht, List.filter_nil, hi, ite_self]
  congr 1
  · rw [← ht]
  · funext t; rw [hi]

end Verif.Asking
