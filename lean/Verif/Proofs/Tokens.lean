import Verif.Proofs.Drain
/-
Counting: waiting events, drain tasks, and threads that are responsible for waiting events.
-/

namespace Verif

section
variable (env : Env) (q : QId) (e : EId)

theorem exec_queue (t : Tid) (o : Op) (w : World) (q : QId) : (exec t o w).2.queue q = match o with
    | .offer q' p => if q = q' then w.queue q ++ [p] else w.queue q
    | .poll q' => if q = q' then (w.queue q).tail else w.queue q
    | _ => w.queue q := by
  cases o with
  | offer q' p =>
    simp only [exec]
    by_cases h : q = q'
    · subst h; split <;> simp [World.log]
    · split <;> simp [World.log, h, fset_ne _ _ h]
  | poll q' =>
    simp only [exec]
    by_cases h : q = q'
    · subst h
      split
      · rename_i h; simp [h]
      · rename_i h; simp only; split <;> simp [World.log, h]
    · split
      · simp [h]
      · simp only; split <;> simp [World.log, h, fset_ne _ _ h]
  | _ => simp only [exec] <;> (repeat' split) <;> rfl

theorem exec_tasks_eq (t : Tid) (o : Op) (w : World) (e : EId) : (exec t o w).2.tasks e = match o with
    | .submit e' s m => if e = e' ∧ w.shut e' = false then w.tasks e ++ [(s, m)] else w.tasks e
    | _ => w.tasks e := by
  cases o with
  | submit e' s m =>
    simp only [exec]
    by_cases h : e = e'
    · subst h; split <;> simp_all [World.log]
    · split <;> simp [World.log, h, fset_ne _ _ h]
  | _ => simp only [exec] <;> (repeat' split) <;> rfl

/-- The thread will deal with one of the events in queue `q`: it has enqueued it and is about to submit a drain task, or
it has begun with a drain task and has not polled yet. -/
def waits : List Frame → Bool
  | .fire m _ .owing :: _ => env.qm m = q
  | .drain s _ .fresh :: _ => env.q s = q
  | .drain s _ (.seen true) :: _ => env.q s = q
  | _ => false

/-- Number of pending drain tasks for queue `q`. -/
def ntasks (w : World) : Nat := (w.tasks e).countP fun x => env.q x.1 = q

/-- A drain task for queue `q` was refused by the executor, or thrown away. -/
def lostTask : Tid × Obs → Bool
  | (_, .rejected s _) | (_, .taskDropped s _) => env.q s = q
  | _ => false

/-- Every event in the queue has a task, or a thread which will see to it, or its task was lost. -/
def Covered (lst : Tid → List Frame) (w : World) : Prop :=
  (∀ s, env.q s = q → (env.strat s).exec = e) → ∃ T : List Tid, T.Nodup ∧ (∀ t ∈ T, waits env q (lst t) = true) ∧
    (w.queue q).length ≤ T.length + ntasks env q e w + w.trace.countP (lostTask env q)

end

section
variable {env : Env} {q : QId} {e : EId}

theorem waits_callable {l : List Frame} (h : callable l) : waits env q l = false := by
  cases l with
  | nil => rfl
  | cons f l =>
    simp only [callable] at h
    unfold waits
    split
    · rename_i h'; cases h'; cases h
    · rename_i h'; cases h'; cases h
    · rename_i h'; cases h'; cases h
    · rfl

theorem waits_leaves {f : Frame} {l : List Frame} {c : Api} {r : Option Exc} (h : f.leaves env c r) : waits env q (f :: l) = false := by
  unfold waits
  split
  · rename_i h'; cases h'; cases c <;> first | exact h.elim | cases h.2.2
  · rename_i h'; cases h'; cases c <;> exact h.elim
  · rename_i h'; cases h'; cases c <;> exact h.elim
  · rfl

/-- How the numbers change when a thread does a step. -/
theorem token_move {w : World} {l l' : List Frame} {o : Op} (t : Tid) (he : ∀ s, env.q s = q → (env.strat s).exec = e)
    (hm : LMove env w l o l') :
    ((exec t o w).2.queue q).length + (waits env q l).toNat + ntasks env q e w + w.trace.countP (lostTask env q) ≤
      (w.queue q).length + (waits env q l').toNat + ntasks env q e (exec t o w).2 + (exec t o w).2.trace.countP (lostTask env q) ∨
    (exec t o w).2.queue q = [] := by
  have htr : w.trace.countP (lostTask env q) ≤ (exec t o w).2.trace.countP (lostTask env q) := by
    rw [exec_trace, List.countP_append]; omega
  have hta : ntasks env q e w ≤ ntasks env q e (exec t o w).2 := by
    unfold ntasks
    rw [exec_tasks_eq]
    split
    · split
      · rw [List.countP_append]; omega
      · exact Nat.le_refl _
    · exact Nat.le_refl _
  have plain : (exec t o w).2.queue q = w.queue q → waits env q l = waits env q l' ∨ waits env q l = false →
      ((exec t o w).2.queue q).length + (waits env q l).toNat + ntasks env q e w + w.trace.countP (lostTask env q) ≤
        (w.queue q).length + (waits env q l').toNat + ntasks env q e (exec t o w).2 + (exec t o w).2.trace.countP (lostTask env q) ∨
      (exec t o w).2.queue q = [] := fun h1 h2 => by
    left
    rw [h1]
    rcases h2 with h2 | h2 <;> rw [h2]
    · omega
    · simp only [Bool.toNat_false]; omega
  cases hm with
  | enter hc => exact plain (exec_queue ..) (.inr (waits_callable hc))
  | leave hl => exact plain (exec_queue ..) (.inr (waits_leaves hl))
  | user hc hu =>
    refine plain ?_ (.inl rfl)
    rw [exec_queue]
    cases o <;> first | rfl | exact hu.elim
  | frame hm =>
    cases hm with
    | @fOffer m ev p e' =>
      left
      rw [exec_queue]
      simp only [waits]
      by_cases h : q = env.qm m
      · rw [if_pos h, decide_eq_true h.symm]
        simp only [List.length_append, List.length_singleton, Bool.toNat_true, Bool.toNat_false]
        omega
      · rw [if_neg h, decide_eq_false fun h' => h h'.symm]
        omega
    | @fSubmit m ev =>
      left
      have h1 : (exec t (.submit (env.strat (env.mach m).strat).exec (env.mach m).strat m) w).2.queue q = w.queue q := exec_queue ..
      rw [h1]
      simp only [waits]
      by_cases h : env.qm m = q
      · rw [decide_eq_true h]
        have hx := he _ h
        subst hx
        by_cases hs : w.shut (env.strat (env.mach m).strat).exec = true
        · have : w.trace.countP (lostTask env q) + 1 ≤
              (exec t (.submit (env.strat (env.mach m).strat).exec (env.mach m).strat m) w).2.trace.countP (lostTask env q) := by
            rw [exec_trace, List.countP_append]
            simp only [opObs, if_pos hs]
            simp [lostTask, show env.q (env.mach m).strat = q from h]
          simp only [Bool.toNat_true, Bool.toNat_false]
          omega
        · have hs : w.shut (env.strat (env.mach m).strat).exec = false := by simpa using hs
          have : ntasks env q (env.strat (env.mach m).strat).exec w + 1 ≤ ntasks env q (env.strat (env.mach m).strat).exec
              (exec t (.submit (env.strat (env.mach m).strat).exec (env.mach m).strat m) w).2 := by
            unfold ntasks
            rw [exec_tasks_eq]
            simp only [hs, and_self, if_true, List.countP_append]
            simp [show env.q (env.mach m).strat = q from h]
          simp only [Bool.toNat_true, Bool.toNat_false]
          omega
      · rw [decide_eq_false h]; simp only [Bool.toNat_false]; omega
    | @drQuit s cm d hd hq =>
      by_cases h : env.q s = q
      · right; rw [exec_queue, ← h]; exact hq
      · refine plain (exec_queue ..) (.inr ?_)
        rcases hd with rfl | rfl <;> simp [waits, h]
    | @drPoll0 s cm b hq =>
      by_cases h : env.q s = q
      · right; rw [exec_queue, ← h]; simp [hq]
      · refine plain ?_ (.inr ?_)
        · rw [exec_queue]; simp [show ¬ q = env.q s from fun h' => h h'.symm]
        · cases b <;> simp [waits, h]
    | @drPollBad s cm b p ps hq hp =>
      by_cases h : env.q s = q
      · subst h
        left
        rw [exec_queue]
        have : (waits env (env.q s) (.drain s cm (.seen b) :: ‹_›)).toNat ≤ 1 := Bool.toNat_le _
        simp only [hq, if_true, List.tail_cons, List.length_cons]
        omega
      · refine plain ?_ (.inr ?_)
        · rw [exec_queue]; simp [show ¬ q = env.q s from fun h' => h h'.symm]
        · cases b <;> simp [waits, h]
    | @drPoll s cm b p ps ev m hq hp =>
      by_cases h : env.q s = q
      · subst h
        left
        rw [exec_queue]
        have : (waits env (env.q s) (.drain s cm (.seen b) :: ‹_›)).toNat ≤ 1 := Bool.toNat_le _
        simp only [hq, if_true, List.tail_cons, List.length_cons]
        omega
      · refine plain ?_ (.inr ?_)
        · rw [exec_queue]; simp [show ¬ q = env.q s from fun h' => h h'.symm]
        · cases b <;> simp [waits, h]
    | stPh hf _ ha =>
      refine plain ?_ (.inr ?_)
      · rw [exec_queue]; cases phAllowed_op ha <;> rfl
      · rcases hf.inv with ⟨rfl, _⟩ | ⟨rfl, _⟩ <;> rfl
    | drPh ha =>
      refine plain ?_ (.inr rfl)
      rw [exec_queue]; cases phAllowed_op ha <;> rfl
    | stCas1 hf _ _ => exact plain (exec_queue ..) (.inr (by rcases hf.inv with ⟨rfl, _⟩ | ⟨rfl, _⟩ <;> rfl))
    | stCas0 hf _ _ => exact plain (exec_queue ..) (.inr (by rcases hf.inv with ⟨rfl, _⟩ | ⟨rfl, _⟩ <;> rfl))
    | stSet hf => exact plain (exec_queue ..) (.inr (by rcases hf.inv with ⟨rfl, _⟩ | ⟨rfl, _⟩ <;> rfl))
    | stClear hf _ => exact plain (exec_queue ..) (.inr (by rcases hf.inv with ⟨rfl, _⟩ | ⟨rfl, _⟩ <;> rfl))
    | drSeenF _ => exact plain (exec_queue ..) (.inl rfl)
    | fSize hf _ => exact plain (exec_queue ..) (.inr (by rcases hf with ⟨rfl, _⟩ | rfl <;> rfl))
    | fSizeFull hf _ => exact plain (exec_queue ..) (.inr (by rcases hf with ⟨rfl, _⟩ | rfl <;> rfl))
    | _ => exact plain (exec_queue ..) (.inr rfl)

theorem countP_eraseIdx {α : Type} (f : α → Bool) (l : List α) (j : Nat) : l.countP f ≤ (l.eraseIdx j).countP f + 1 := by
  induction l generalizing j with
  | nil => simp
  | cons x l ih =>
    cases j with
    | zero => simp only [List.eraseIdx_cons_zero, List.countP_cons]; split <;> omega
    | succ j => simp only [List.eraseIdx_cons_succ, List.countP_cons]; have := ih j; omega

theorem countP_eraseIdx_false {α : Type} {f : α → Bool} {l : List α} {j : Nat} {x : α} (h : l[j]? = some x) (hf : f x = false) :
    l.countP f ≤ (l.eraseIdx j).countP f := by
  induction l generalizing j with
  | nil => simp
  | cons y l ih =>
    cases j with
    | zero =>
      simp only [List.getElem?_cons_zero, Option.some.injEq] at h
      subst h
      simp [hf]
    | succ j =>
      simp only [List.getElem?_cons_succ] at h
      simp only [List.eraseIdx_cons_succ, List.countP_cons]; have := ih h; omega

/-- Adjust the set of threads. -/
theorem token_threads {lst : Tid → List Frame} {T : List Tid} {t : Tid} {l' : List Frame} (hn : T.Nodup)
    (hT : ∀ t ∈ T, waits env q (lst t) = true) :
    ∃ T' : List Tid, T'.Nodup ∧ (∀ u ∈ T', waits env q (fset lst t l' u) = true) ∧
      T.length + (waits env q l').toNat ≤ T'.length + (waits env q (lst t)).toNat := by
  by_cases hm : t ∈ T
  · rw [hT t hm]
    by_cases hw : waits env q l' = true
    · refine ⟨T, hn, fun u hu => ?_, by rw [hw]; exact Nat.le_refl _⟩
      by_cases h : u = t
      · subst h; rw [fset_same]; exact hw
      · rw [fset_ne _ _ h]; exact hT u hu
    · refine ⟨T.erase t, hn.erase t, fun u hu => ?_, ?_⟩
      · have := (List.Nodup.mem_erase_iff hn).1 hu
        rw [fset_ne _ _ this.1]; exact hT u this.2
      · have := List.length_erase_of_mem hm
        have := List.length_pos_of_mem hm
        simp only [Bool.not_eq_true] at hw
        rw [hw]
        simp only [Bool.toNat_true, Bool.toNat_false]
        omega
  · by_cases hw : waits env q l' = true
    · refine ⟨t :: T, List.nodup_cons.2 ⟨hm, hn⟩, fun u hu => ?_, ?_⟩
      · by_cases h : u = t
        · subst h; rw [fset_same]; exact hw
        · rw [fset_ne _ _ h]; exact hT u ((List.mem_cons.1 hu).resolve_left h)
      · rw [hw]; simp only [Bool.toNat_true, List.length_cons]; omega
    · refine ⟨T, hn, fun u hu => ?_, ?_⟩
      · have : u ≠ t := by rintro rfl; exact hm hu
        rw [fset_ne _ _ this]; exact hT u hu
      · simp only [Bool.not_eq_true] at hw
        rw [hw]; simp only [Bool.toNat_false]; omega

theorem waits_fin {t : Tid} {r : Except Exc Unit} {l : List Frame} (h : fin t r l) : waits env q l = false := by
  rcases h with ⟨_, rfl⟩ | ⟨s, m, h⟩
  · rfl
  · cases r <;> simp only at h <;> subst h <;> rfl

theorem covered_fset {lst : Tid → List Frame} {T : List Tid} {t : Tid} (hT : ∀ t ∈ T, waits env q (lst t) = true)
    (h : waits env q (lst t) = false) : ∀ u ∈ T, waits env q (fset lst t [] u) = true := by
  intro u hu
  have : u ≠ t := by rintro rfl; rw [hT u hu] at h; cases h
  rw [fset_ne _ _ this]; exact hT u hu

theorem covered_invariant (env : Env) (q : QId) (e : EId) : Preserved env (TaskInv env) (Covered env q e) where
  op := by
    intro lst w t o l' _ h hm _ he
    obtain ⟨T, hn, hT, hl⟩ := h he
    rcases token_move t he hm with hk | hk
    · obtain ⟨T', hn', hT', hl'⟩ := token_threads (l' := l') hn hT
      exact ⟨T', hn', hT', by omega⟩
    · exact ⟨[], List.nodup_nil, fun _ h => (nomatch h), by rw [hk]; exact Nat.zero_le _⟩
  ret := by
    intro lst w t _ h hf he
    obtain ⟨T, hn, hT, hl⟩ := h he
    exact ⟨T, hn, covered_fset hT (waits_fin hf), hl⟩
  thr := by
    intro lst w t x _ h hf he
    obtain ⟨T, hn, hT, hl⟩ := h he
    refine ⟨T, hn, covered_fset hT (waits_fin hf), ?_⟩
    simp only [World.log, List.countP_append]
    have : ntasks env q e (w.log t (.uncaught x)) = ntasks env q e w := rfl
    simp only [World.log] at this
    omega
  dispatch := by
    intro lst w e' i j s m htask h hl hi hj he
    obtain ⟨T, hn, hT, hlen⟩ := h he
    have hnot : Tid.worker e' i ∉ T := fun hm => by have := hT _ hm; rw [hl] at this; cases this
    obtain ⟨he', _⟩ := htask.tasks e' s m (List.mem_of_getElem? hj)
    have hlt : j < (w.tasks e').length := by
      rcases Nat.lt_or_ge j (w.tasks e').length with h | h
      · exact h
      · rw [List.getElem?_eq_none h] at hj; cases hj
    by_cases hq : env.q s = q
    · have := he s hq
      rw [he'] at this
      subst this
      refine ⟨.worker e' i :: T, List.nodup_cons.2 ⟨hnot, hn⟩, fun u hu => ?_, ?_⟩
      · by_cases h : u = .worker e' i
        · subst h; rw [fset_same]; simp [task, waits, hq]
        · rw [fset_ne _ _ h]; exact hT u ((List.mem_cons.1 hu).resolve_left h)
      · have : ntasks env q e' w ≤ ntasks env q e' { w with tasks := fset w.tasks e' ((w.tasks e').eraseIdx j) } + 1 := by
          unfold ntasks
          simp only [fset_same]
          exact countP_eraseIdx _ _ _
        simp only [List.length_cons]
        omega
    · refine ⟨T, hn, fun u hu => ?_, ?_⟩
      · have : u ≠ .worker e' i := by rintro rfl; exact hnot hu
        rw [fset_ne _ _ this]; exact hT u hu
      · have : ntasks env q e w ≤ ntasks env q e { w with tasks := fset w.tasks e' ((w.tasks e').eraseIdx j) } := by
          unfold ntasks
          by_cases hee : e = e'
          · subst hee
            simp only [fset_same]
            exact countP_eraseIdx_false hj (by simp [hq])
          · simp only [fset_ne _ _ hee]; exact Nat.le_refl _
        simp only
        omega
  interrupt := fun lst w t _ h he => h he
  shutdown := fun lst w e _ h he => h he
  dropTasks := by
    intro lst w e' htask h he
    obtain ⟨T, hn, hT, hlen⟩ := h he
    refine ⟨T, hn, hT, Nat.le_trans hlen ?_⟩
    simp only [World.dropTasks, List.countP_append]
    by_cases hee : e = e'
    · subst hee
      have : ∀ l : List (SId × MId), (l.countP fun x => decide (env.q x.1 = q)) =
          (l.map fun t => (Tid.env, Obs.taskDropped t.1 t.2)).countP (lostTask env q) := by
        intro l
        rw [List.countP_map]
        rfl
      have := this (w.tasks e)
      unfold ntasks at hlen ⊢
      simp only [fset_same]
      omega
    · unfold ntasks
      simp only [fset_ne _ _ hee]
      omega

end
end Verif
