import Verif.Proofs.LiveDone
/-
C59: every accepted event is processed in the end.
-/

namespace Verif
open Spec

variable {env : Env} {r : Run env} {q : QId} {e : EId}

/-- C59: every accepted event is taken in the end. The queue has its own executor (and the executor serves only this queue).
No thread is neglected, and the executor does not leave a task and a worker idle for ever. The executor refuses no task of the
queue, and throws none away. Then it is enough that the user code called in one of its workers always returns; user code
elsewhere may hang. -/
theorem C59_taken (hf : ∀ t, r.fair t) (hx : r.executes e) {k : Nat} (hk : k < env.width e) (hu : r.returns (.worker e k))
    (hqe : ∀ s, (env.strat s).exec = e ↔ (env.strat s).queue = q)
    (hl : ∀ i, ∀ x ∈ (r.conf i).w.trace, ∀ s m, (env.strat s).queue = q → x.2 ≠ .rejected s m ∧ x.2 ≠ .taskDropped s m) (i : Nat) :
    ∃ j, i ≤ j ∧ accepted q (r.conf i).w.trace <+: taken q (r.conf j).w.trace := by
  have key : ∀ n, ∃ j, i ≤ j ∧ ((accepted q (r.conf i).w.trace).length ≤ (taken q (r.conf j).w.trace).length ∨
      n ≤ (taken q (r.conf j).w.trace).length) := by
    intro n
    induction n with
    | zero => exact ⟨i, Nat.le_refl i, .inr (Nat.zero_le _)⟩
    | succ n ih =>
      obtain ⟨j, h1, h2⟩ := ih
      by_cases hlt : (taken q (r.conf j).w.trace).length < (accepted q (r.conf j).w.trace).length
      · obtain ⟨j', h3, h4⟩ := Course.takes_next hf hx hk hu hqe hl j hlt
        refine ⟨j', Nat.le_trans h1 h3, ?_⟩
        rcases h2 with h2 | h2
        · exact .inl (by omega)
        · exact .inr (by omega)
      · have := (Course.prefix_accepted (q := q) (Course.grows_le r h1)).length_le
        exact ⟨j, h1, .inl (by omega)⟩
  obtain ⟨j, h1, h2⟩ := key (accepted q (r.conf i).w.trace).length
  refine ⟨j, h1, ?_⟩
  have h3 : (accepted q (r.conf i).w.trace).length ≤ (taken q (r.conf j).w.trace).length := h2.elim id id
  have h4 : taken q (r.conf j).w.trace <+: accepted q (r.conf j).w.trace := ⟨_, (Course.pos_fifo r j q).symm⟩
  exact List.prefix_of_prefix_length_le (Course.prefix_accepted (Course.grows_le r h1)) h4 h3

/-- C59: every event that was taken is finished in the end, if the thread is not neglected and the user code that it calls
returns. -/
theorem C59_done {i : Nat} {t : Tid} {m : MId} {ev : Ev} {pre post : List (Tid × Obs)}
    (h : (r.conf i).w.trace = pre ++ (t, .taken q m ev) :: post) (hf : r.fair t) (hu : r.returns t) :
    ∃ j mid, i ≤ j ∧ (r.conf j).w.trace = pre ++ (t, .taken q m ev) :: mid ∧ (t, .done m ev) ∈ mid := by
  obtain ⟨s, k, rfl, _, _, _⟩ := (Course.pos_ok r i).2.tasks.taken t q m ev (by rw [h]; simp)
  obtain ⟨i0, h0, h1, h2, h3⟩ := Course.entry_time r i (by simp) h
  obtain ⟨_, _, p, hp⟩ := Course.taken_step r (by simp) h1 (by rw [h2]; exact h3)
  obtain ⟨j, h4, h5⟩ := Course.finishes r hf hu hp
  obtain ⟨a, ha⟩ := Course.grows_le r h4
  rw [h3] at ha
  have h6 : (r.conf (j + 1)).w.trace = pre ++ (.worker (env.strat s).exec k, .taken q m ev) :: (a ++ [(.worker (env.strat s).exec k, .done m ev)]) := by
    rw [h5, ← ha]; simp
  obtain ⟨b, hb⟩ := Course.grows_le r (Nat.le_max_right i (j + 1))
  refine ⟨max i (j + 1), a ++ [(.worker (env.strat s).exec k, .done m ev)] ++ b, Nat.le_max_left _ _, ?_, ?_⟩
  · rw [← hb, h6]; simp
  · simp

theorem taken_at {q : QId} {ev : Ev} {m : MId} : ∀ {tr : List (Tid × Obs)} {n : Nat}, (taken q tr)[n]? = some (ev, m) →
    ∃ pre t post, tr = pre ++ (t, .taken q m ev) :: post ∧ (taken q pre).length = n := by
  intro tr
  induction tr with
  | nil => intro n h; cases h
  | cons x tr ih =>
    intro n h
    obtain ⟨u, o⟩ := x
    by_cases ho : ∃ m' ev', o = .taken q m' ev'
    · obtain ⟨m', ev', rfl⟩ := ho
      have hc : taken q ((u, .taken q m' ev') :: tr) = (ev', m') :: taken q tr := by simp [taken]
      rw [hc] at h
      cases n with
      | zero => cases h; exact ⟨[], u, tr, rfl, rfl⟩
      | succ n =>
        obtain ⟨pre, t, post, h1, h2⟩ := ih (n := n) h
        exact ⟨(u, .taken q m' ev') :: pre, t, post, by rw [h1]; rfl, by simp [taken] at h2 ⊢; exact h2⟩
    · have hc : ∀ tr, taken q ((u, o) :: tr) = taken q tr := by
        intro tr
        unfold taken
        rw [List.filterMap_cons_none]
        cases o with
        | taken q' m' ev' =>
          show (if q' = q then _ else _) = none
          rw [if_neg]
          rintro rfl
          exact ho ⟨m', ev', rfl⟩
        | _ => rfl
      rw [hc] at h
      obtain ⟨pre, t, post, h1, h2⟩ := ih h
      exact ⟨(u, o) :: pre, t, post, by rw [h1]; rfl, by rw [hc]; exact h2⟩

/-- C59: every accepted event is processed in the end: the `n`-th event accepted is the `n`-th event taken, and the thread that
took it finishes it. As in `C59_taken`, but now all workers of the executor must return from user code. -/
theorem C59_processed (hf : ∀ t, r.fair t) (hx : r.executes e) (hw : 0 < env.width e) (hu : ∀ k, k < env.width e → r.returns (.worker e k))
    (hqe : ∀ s, (env.strat s).exec = e ↔ (env.strat s).queue = q)
    (hl : ∀ i, ∀ x ∈ (r.conf i).w.trace, ∀ s m, (env.strat s).queue = q → x.2 ≠ .rejected s m ∧ x.2 ≠ .taskDropped s m)
    {i : Nat} {u : Tid} {m : MId} {ev : Ev} {past post : List (Tid × Obs)} (h : (r.conf i).w.trace = past ++ (u, .accepted q m ev) :: post) :
    ∃ j k pre mid, (r.conf j).w.trace = pre ++ (.worker e k, .taken q m ev) :: mid ∧ (taken q pre).length = (accepted q past).length ∧
      (.worker e k, .done m ev) ∈ mid := by
  obtain ⟨j, _, h1⟩ := C59_taken hf hx hw (hu 0 hw) hqe hl i
  have h2 : (accepted q (r.conf i).w.trace)[(accepted q past).length]? = some (ev, m) := by
    rw [h]; simp [accepted]
  have h3 : (taken q (r.conf j).w.trace)[(accepted q past).length]? = some (ev, m) := by
    obtain ⟨a, ha⟩ := h1
    rw [← ha, List.getElem?_append_left]
    · exact h2
    · exact (List.getElem?_eq_some_iff.1 h2).1
  obtain ⟨pre, t, mid, h4, h5⟩ := taken_at h3
  obtain ⟨s, k, rfl, hk, hq, _⟩ := (Course.pos_ok r j).2.tasks.taken t q m ev (by rw [h4]; simp)
  have he : (env.strat s).exec = e := (hqe s).2 hq
  subst he
  obtain ⟨j', mid', _, h6, h7⟩ := C59_done h4 (hf _) (hu k hk)
  exact ⟨j', k, pre, mid', h6, h5, h7⟩

/-! ### Examples -/

namespace Demo

/-- The execution that follows a schedule and then does nothing any more. -/
def runOf (env : Env) (c0 : Conf) (hi : Initial c0) (xs : List Choice) : Run env where
  conf := fun i => drive env c0 (xs.take i)
  pick := fun i => match xs[i]? with
    | some x => if (step env (drive env c0 (xs.take i)) x).isSome then some x else none
    | none => none
  init := hi
  next := fun i => by
    cases hx : xs[i]? with
    | none =>
      have : xs.length ≤ i := List.getElem?_eq_none_iff.1 hx
      simp only [List.take_of_length_le this, List.take_of_length_le (Nat.le_succ_of_le this)]
    | some x =>
      have ht : xs.take (i + 1) = xs.take i ++ [x] := by rw [List.take_add_one, hx]; rfl
      have hd : drive env c0 (xs.take (i + 1)) = tryStep env (drive env c0 (xs.take i)) x := by
        rw [ht]; simp [drive]
      rw [hd]
      unfold tryStep
      cases hs : step env (drive env c0 (xs.take i)) x with
      | none => simp [hs]
      | some c => simp [hs]

variable {env : Env} {c0 : Conf} {hi : Initial c0} {xs : List Choice}

theorem runOf_end {j : Nat} (h : xs.length ≤ j) : (runOf env c0 hi xs).conf j = drive env c0 xs := by
  show drive env c0 (xs.take j) = _
  rw [List.take_of_length_le h]

theorem runOf_fair (h : ∀ t, (drive env c0 xs).thr t = none) (t : Tid) : (runOf env c0 hi xs).fair t := by
  intro i hc
  have := hc (max i xs.length) (Nat.le_max_left _ _)
  rw [runOf_end (Nat.le_max_right _ _)] at this
  simp [step, h t] at this

theorem runOf_executes {e : EId} (h : (drive env c0 xs).w.tasks e = []) : (runOf env c0 hi xs).executes e := by
  intro i hc
  obtain ⟨k, n, this⟩ := hc (max i xs.length) (Nat.le_max_left _ _)
  rw [runOf_end (Nat.le_max_right _ _)] at this
  simp only [step] at this
  split at this
  · split at this
    next hj => rw [h] at hj; cases hj
    · cases this
  · cases this

theorem runOf_returns {t : Tid} (h : inUser t (drive env c0 xs).w.trace = false) : (runOf env c0 hi xs).returns t := by
  intro i
  refine ⟨max i xs.length, Nat.le_max_left _ _, ?_⟩
  rw [runOf_end (Nat.le_max_right _ _)]
  exact h

theorem runOf_trace {i : Nat} : ∀ x ∈ ((runOf env c0 hi xs).conf i).w.trace, x ∈ (drive env c0 xs).w.trace := by
  intro x hx
  have h1 := Course.grows_le (runOf env c0 hi xs) (Nat.le_max_left i xs.length)
  rw [runOf_end (Nat.le_max_right _ _)] at h1
  exact h1.subset hx

/-- Two events; the exit action for the first one throws an `Error`, which kills the drain task. -/
def revivedXs : List Choice :=
  [.begin 0 (client 0 [go, stay])] ++ runN (.client 0) 100 ++ [.dispatch 0 0 0] ++ runN (.worker 0 0) 200 ++
    [.dispatch 0 0 0] ++ runN (.worker 0 0) 200

theorem revived_eq : drive (Demo.env errExit) (conf true) revivedXs = revived := by unfold revived revivedXs; rfl

def revivedRun : Run (Demo.env errExit) := runOf _ _ (conf_initial true) revivedXs

/-- Both events are processed, though the first one kills the drain task. -/
example {i : Nat} {u : Tid} {ev : Ev} {past post : List (Tid × Obs)} (h : (revivedRun.conf i).w.trace = past ++ (u, .accepted 0 0 ev) :: post) :
    ∃ j k pre mid, (revivedRun.conf j).w.trace = pre ++ (.worker 0 k, .taken 0 0 ev) :: mid ∧
      (taken 0 pre).length = (accepted 0 past).length ∧ (.worker 0 k, .done 0 ev) ∈ mid :=
  C59_processed (runOf_fair (by rw [revived_eq]; exact revived_idle)) (runOf_executes (by rw [revived_eq]; decide +kernel))
    (Nat.lt_succ_self 0)
    (fun k hk => by
      obtain rfl : k = 0 := Nat.lt_one_iff.1 hk
      exact runOf_returns (by rw [revived_eq]; decide +kernel))
    (fun _ => Iff.rfl)
    (fun _ x hx s m hs => nothing_lost (env := Demo.env errExit) (q := 0) (c := revived) (by decide +kernel) x
      (by have := runOf_trace x hx; rwa [revived_eq] at this) s m hs) h

/-- Two events are accepted in this execution. -/
example : accepted 0 (revivedRun.conf 500).w.trace = [(go, 0), (stay, 0)] := by decide +kernel

end Demo
end Verif
