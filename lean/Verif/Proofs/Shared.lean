import Verif.Proofs.LiveDone
import Verif.Spec.Exec
/-
Executors that serve several queues.
-/

namespace Verif.Course
open Spec.Course Spec

variable {env : Env} {r : Run env} {q : QId} {i : Nat} {e : EId}

theorem exec_tasks_app (t : Tid) (o : Op) (w : World) (e : EId) : w.tasks e <+: (exec t o w).2.tasks e := by
  cases o <;> simp only [exec] <;> (try split) <;> (try split) <;> (try simp only [World.log]) <;> first
    | exact List.prefix_rfl
    | (simp only [fset]; split
       · next h => subst h; exact List.prefix_append _ _
       · exact List.prefix_rfl)

/-- Where a task is in the backlog. -/
theorem task_stays {s : SId} {m : MId} (hq : (env.strat s).queue = q)
    (hl : ∀ i, ∀ x ∈ (r.conf i).w.trace, ∀ s m, (env.strat s).queue = q → x.2 ≠ .rejected s m ∧ x.2 ≠ .taskDropped s m)
    {n : Nat} (h : ((r.conf i).w.tasks e)[n]? = some (s, m)) (hd : ∀ k n, r.pick i ≠ some (.dispatch e k n)) :
    ((r.conf (i + 1)).w.tasks e)[n]? = some (s, m) := by
  have hn := r.next i
  have app : ∀ {l l' : List (SId × MId)}, l <+: l' → l[n]? = some (s, m) → l'[n]? = some (s, m) := by
    rintro l l' ⟨z, rfl⟩ h1
    rw [List.getElem?_append_left (List.getElem?_eq_some_iff.1 h1).1]
    exact h1
  cases hp : r.pick i with
  | none => rw [hp] at hn; simp only at hn; rw [hn]; exact h
  | some x =>
    rw [hp] at hn
    simp only at hn
    cases x with
    | begin c u =>
      simp only [step] at hn
      split at hn
      · cases hn
      · have hn := Option.some.inj hn; rw [← hn]; exact h
    | run u =>
      simp only [step] at hn
      split at hn
      · cases hn
      next p hp' =>
        cases p with
        | ret a => have hn := Option.some.inj hn; rw [← hn]; exact h
        | thr x => have hn := Option.some.inj hn; rw [← hn]; exact h
        | op o k =>
          simp only [runThread] at hn
          split at hn
          · have hn := Option.some.inj hn; rw [← hn]; exact app (exec_tasks_app _ _ _ _) h
          · cases hn
        | call f k => have hn := Option.some.inj hn; rw [← hn]; exact h
    | dispatch e' k' n' =>
      have hne : e ≠ e' := by rintro rfl; exact hd k' n' hp
      simp only [step] at hn
      split at hn
      · split at hn
        · have hn := Option.some.inj hn
          rw [← hn]
          simp only [fset_ne _ _ hne]
          exact h
        · cases hn
      · cases hn
    | interrupt u => have hn := Option.some.inj hn; rw [← hn]; exact h
    | shutdown e' now =>
      have hn := Option.some.inj hn
      cases now with
      | false => rw [← hn]; exact h
      | true =>
        by_cases he : e = e'
        · subst he
          refine absurd rfl (hl (i + 1) (.env, .taskDropped s m) ?_ s m hq).2
          rw [← hn]
          exact List.mem_append_right _ (List.mem_map.2 ⟨(s, m), List.mem_of_getElem? h, rfl⟩)
        · rw [← hn]
          simp only [World.dropTasks, fset_ne _ _ he, if_true]
          exact h

/-- While there is a task, a worker that becomes idle again and again makes the executor begin one. -/
theorem some_begun (hx : r.executes e) {k : Nat} (hk : k < env.width e) (hid : r.idles (.worker e k)) {s : SId} {m : MId}
    (hq : (env.strat s).queue = q)
    (hl : ∀ i, ∀ x ∈ (r.conf i).w.trace, ∀ s m, (env.strat s).queue = q → x.2 ≠ .rejected s m ∧ x.2 ≠ .taskDropped s m)
    {n : Nat} (h : ((r.conf i).w.tasks e)[n]? = some (s, m)) :
    ∃ j k n', i ≤ j ∧ r.pick j = some (.dispatch e k n') ∧ ((r.conf j).w.tasks e)[n]? = some (s, m) := by
  have stay : ∀ d, (∃ j k n', i ≤ j ∧ j < i + d ∧ r.pick j = some (.dispatch e k n') ∧ ((r.conf j).w.tasks e)[n]? = some (s, m)) ∨
      (((r.conf (i + d)).w.tasks e)[n]? = some (s, m) ∧ ∀ j, i ≤ j → j < i + d → ∀ k n, r.pick j ≠ some (.dispatch e k n)) := by
    intro d
    induction d with
    | zero => exact .inr ⟨h, fun j h1 h2 => by omega⟩
    | succ d ih =>
      rcases ih with ⟨j, k', n', h1, h2, h3⟩ | ⟨h1, h2⟩
      · exact .inl ⟨j, k', n', h1, by omega, h3⟩
      · by_cases hd : ∃ k n, r.pick (i + d) = some (.dispatch e k n)
        · obtain ⟨k', n', hd⟩ := hd
          exact .inl ⟨i + d, k', n', by omega, by omega, hd, h1⟩
        · have hd' : ∀ k n, r.pick (i + d) ≠ some (.dispatch e k n) := fun k n he => hd ⟨k, n, he⟩
          refine .inr ⟨task_stays hq hl h1 hd', fun j h3 h4 => ?_⟩
          by_cases hj : j = i + d
          · subst hj; exact hd'
          · exact h2 j h3 (by omega)
  refine Classical.byContradiction fun hn => ?_
  have all : ∀ d, ((r.conf (i + d)).w.tasks e)[n]? = some (s, m) ∧ ∀ k n, r.pick (i + d) ≠ some (.dispatch e k n) := by
    intro d
    rcases stay (d + 1) with ⟨j, k', n', h1, _, h3, h4⟩ | ⟨_, h2⟩
    · exact absurd ⟨j, k', n', h1, h3, h4⟩ hn
    · rcases stay d with ⟨j, k', n', h1, _, h3, h4⟩ | ⟨h3, _⟩
      · exact absurd ⟨j, k', n', h1, h3, h4⟩ hn
      · exact ⟨h3, h2 (i + d) (by omega) (by omega)⟩
  obtain ⟨l, h1, h2⟩ := hid i
  obtain ⟨d, rfl⟩ := Nat.le.dest h1
  have hidle : ∀ x, (r.conf (i + d + x)).thr (.worker e k) = none := by
    intro x
    induction x with
    | zero => exact h2
    | succ x ih => exact idle_stays r ih (fun y => by have := (all (d + x)).2 k y; rwa [← Nat.add_assoc] at this)
  obtain ⟨j, k', n', h3, h4⟩ := hx (i + d) (fun j hj => by
    obtain ⟨x, rfl⟩ := Nat.le.dest hj
    have h5 := (all (d + x)).1
    rw [← Nat.add_assoc] at h5
    have h6 : 0 < ((r.conf (i + d + x)).w.tasks e).length := by
      have := (List.getElem?_eq_some_iff.1 h5).1; omega
    refine ⟨k, n, by simp [step, hk, hidle x, h5]⟩)
  obtain ⟨x, rfl⟩ := Nat.le.dest h3
  exact (all (d + x)).2 k' n' (by rw [← Nat.add_assoc]; exact h4)

/-- Every task is begun in the end. -/
theorem begun (hx : r.executes e) (ho : r.inOrder e) {k : Nat} (hk : k < env.width e) (hid : r.idles (.worker e k)) {s : SId} {m : MId}
    (hq : (env.strat s).queue = q)
    (hl : ∀ i, ∀ x ∈ (r.conf i).w.trace, ∀ s m, (env.strat s).queue = q → x.2 ≠ .rejected s m ∧ x.2 ≠ .taskDropped s m)
    {n : Nat} (h : ((r.conf i).w.tasks e)[n]? = some (s, m)) :
    ∃ j k, i ≤ j ∧ r.pick j = some (.dispatch e k 0) ∧ ((r.conf j).w.tasks e)[0]? = some (s, m) := by
  induction n generalizing i with
  | zero =>
    obtain ⟨j, k, n', h1, h2, h3⟩ := some_begun hx hk hid hq hl h
    obtain rfl := ho j k n' h2
    exact ⟨j, k, h1, h2, h3⟩
  | succ n ih =>
    obtain ⟨j, k, n', h1, h2, h3⟩ := some_begun hx hk hid hq hl h
    obtain rfl := ho j k n' h2
    have h4 : ((r.conf (j + 1)).w.tasks e)[n]? = some (s, m) := by
      have hn := r.next j
      rw [h2] at hn
      simp only [step] at hn
      split at hn
      · split at hn
        · have hn := Option.some.inj hn
          rw [← hn]
          simp only [fset_same]
          revert h3
          cases (r.conf j).w.tasks e with
          | nil => intro h3; cases h3
          | cons x l => exact fun h3 => h3
        · cases hn
      · cases hn
    obtain ⟨j', k', h5, h6, h7⟩ := ih h4
    exact ⟨j', k', by omega, h6, h7⟩

theorem dispatched_at {e : EId} {k n : Nat} {s : SId} {m : MId} (h : r.pick i = some (.dispatch e k n))
    (ht : ((r.conf i).w.tasks e)[n]? = some (s, m)) : (r.conf (i + 1)).thr (.worker e k) = some (drain env s m) ∧
      pos r (i + 1) (.worker e k) = task2 s m := by
  have hn := r.next i
  have hpos : pos r (i + 1) (.worker e k) = track (proto2 env) idle2 task2 (pos r i) (r.conf i) (r.pick i) (.worker e k) := rfl
  rw [h] at hn hpos
  rw [hpos]
  simp only [step] at hn
  split at hn
  · split at hn
    next s' m' hc hj =>
      have hn := Option.some.inj hn
      rw [ht] at hj
      cases hj
      refine ⟨?_, ?_⟩
      · rw [← hn]; simp only [fset_same]
      · simp only [track, ht, fset_same]
    · cases hn
  · cases hn

/-- If an event is waiting, sooner or later one is taken. -/
theorem takes_next_shared (hf : ∀ t, r.fair t) (hx : r.executes e) (ho : r.inOrder e) {k : Nat} (hk : k < env.width e)
    (hid : r.idles (.worker e k)) (hqe : ∀ s, (env.strat s).queue = q → (env.strat s).exec = e)
    (hl : ∀ i, ∀ x ∈ (r.conf i).w.trace, ∀ s m, (env.strat s).queue = q → x.2 ≠ .rejected s m ∧ x.2 ≠ .taskDropped s m)
    (i : Nat) (hw : (taken q (r.conf i).w.trace).length < (accepted q (r.conf i).w.trace).length) :
    ∃ j, i ≤ j ∧ (taken q (r.conf i).w.trace).length < (taken q (r.conf j).w.trace).length := by
  refine Classical.byContradiction fun hn => ?_
  have hfr : Frozen r q i := by
    have h1 : ∀ j, i ≤ j → taken q (r.conf j).w.trace = taken q (r.conf i).w.trace := by
      intro j hj
      have hp := prefix_taken (q := q) (grows_le r hj)
      refine (hp.eq_of_length_le ?_).symm
      exact Nat.le_of_not_lt fun hlt => hn ⟨j, hj, hlt⟩
    refine ⟨h1, fun j hj he => ?_⟩
    have h2 := pos_fifo r j q
    rw [he, h1 j hj] at h2
    have h3 := (prefix_accepted (q := q) (grows_le r hj)).length_le
    rw [h2] at h3
    simp at h3
    omega
  have no_task : ∀ j, i ≤ j → ∀ s m, (s, m) ∈ (r.conf j).w.tasks e → (env.strat s).queue = q → False := by
    intro j hj s m hm hq
    obtain ⟨n, hn⟩ := List.getElem?_of_mem hm
    obtain ⟨j', k', h1, h2, h3⟩ := begun hx ho hk hid hq hl hn
    obtain ⟨h4, h5⟩ := dispatched_at h2 h3
    exact hfr.no_top (j := j' + 1) (by omega) (hf _) h4 (s := s) (cm := m) (by rw [h5]; rfl) hq
  rcases C14_waiting (r.reach i) hqe (hfr.queue i (Nat.le_refl i)) (hl i) with ⟨s, m, h1, h2⟩ | ⟨t, o, k', h1, h2⟩
  · exact no_task i (Nat.le_refl i) s m h1 h2
  · have hr : ready (.op o k') = true := by cases o <;> first | rfl | cases h2
    obtain ⟨j, h3, h4, h5, h6⟩ := goes r (hf t) h1 hr
    cases o with
    | qIsEmpty q' =>
      simp only [Op.serves, decide_eq_true_eq] at h2
      subst h2
      obtain ⟨s, cm, h7, rfl⟩ := look_top r h5
      exact hfr.no_look h3 (hf t) h5 h7 rfl
    | poll q' =>
      simp only [Op.serves, decide_eq_true_eq] at h2
      subst h2
      exact hfr.no_poll h3 h5 h4
    | submit e' s m =>
      simp only [Op.serves, decide_eq_true_eq] at h2
      have he' : e' = e := by
        have hok := (pos_ok r j).1 t
        rw [h5] at hok
        have hm := lmove_of_allowed (env := env) (w := (r.conf j).w) (l := (pos r j t).1) (o := .submit e' s m) hok.1.1
        generalize (pos r j t).1 = fr at hm
        generalize lNxt env fr _ _ = l' at hm
        cases hm with
        | user _ h => exact h.elim
        | frame hm =>
          cases hm with
          | fSubmit => exact hqe _ h2
          | drPh ha => cases phAllowed_op ha
          | stPh _ _ ha => cases phAllowed_op ha
      subst he'
      have hs := (own_step r h4 h5).1
      simp only [exec] at hs
      split at hs
      · refine absurd rfl (hl (j + 1) (t, .rejected s m) ?_ s m h2).1
        rw [hs]; simp [World.log]
      · refine no_task (j + 1) (by omega) s m ?_ h2
        rw [hs]; simp [World.log, fset_same]
    | _ => cases h2

section
variable {k : Nat}

/-- The thread works for strategy `s`, or its task has failed. -/
def For (s : SId) (l : Loc) : Prop := l.stage.home = some s ∨ ∃ x, l = .dead x

theorem for_nxt {s : SId} {l : Loc} {o : Op} {w : World} (h : For s l) : For s (l.nxt env o w) := by
  rcases h with h | ⟨x, rfl⟩
  · unfold Loc.nxt
    split <;> try exact .inl h
    all_goals (repeat' split) <;> first | exact .inl h | exact .inr ⟨_, rfl⟩
  · exact .inr ⟨x, rfl⟩

theorem dead_nxt {l : Pos} {o : Op} {w : World} (h : ∃ x, l.2 = .dead x) : ∃ x, (nxt env l o w).2 = .dead x := by
  obtain ⟨d, l⟩ := l
  unfold nxt
  split
  · exact h
  · exact h
  · cases d with
    | zero => obtain ⟨x, rfl⟩ := h; exact ⟨x, rfl⟩
    | succ d => exact h

theorem for_pos {s : SId} {l : Pos} {o : Op} {w : World} (h : For s l.2) : For s (nxt env l o w).2 := by
  obtain ⟨d, l⟩ := l
  unfold nxt
  split
  · exact h
  · exact h
  · cases d with
    | zero => exact for_nxt h
    | succ d => exact h

/-- What steps keep stays as long as the task runs. -/
theorem keeps {P : Loc → Prop} (hP : ∀ {l : Pos} {o : Op} {w : World}, P l.2 → P (nxt env l o w).2) {i : Nat}
    (hr : ∀ j, i ≤ j → (r.conf j).thr (.worker e k) ≠ none) (h : P (pos r i (.worker e k)).2.2) : ∀ n, P (pos r (i + n) (.worker e k)).2.2
  | 0 => h
  | n + 1 => by
    have ih := keeps hP hr h n
    cases hp : (r.conf (i + n)).thr (.worker e k) with
    | none => exact absurd hp (hr _ (Nat.le_add_right _ _))
    | some p =>
      show P (pos r (i + n + 1) _).2.2
      by_cases hx : r.pick (i + n) = some (.run (.worker e k))
      · have := own_step r hx hp
        cases p with
        | ret a => exact absurd this.1 (hr _ (by omega))
        | thr a => exact absurd this.1 (hr _ (by omega))
        | op o k => rw [this.2.2]; exact hP ih
        | call f k => rw [this.2.2]; exact ih
      · rw [(stays r _ hp hx).2]; exact ih

/-- A worker ends its tasks, if the queues that it serves get only finitely many events. -/
theorem ends (hf : r.fair (.worker e k)) (hu : r.returns (.worker e k))
    (hb : ∀ s, (env.strat s).exec = e → ∃ N, ∀ j, (accepted (env.strat s).queue (r.conf j).w.trace).length ≤ N) : r.idles (.worker e k) := by
  intro i
  refine Classical.byContradiction fun hn => ?_
  have hr : ∀ j, i ≤ j → (r.conf j).thr (.worker e k) ≠ none := fun j hj h => hn ⟨j, hj, h⟩
  have hpolls : ∀ j, i ≤ j → ∃ j', j ≤ j' ∧ polls r j' (.worker e k) := by
    intro j hj
    obtain ⟨j', h1, h2⟩ := comes_to_poll r hf hu j
    exact ⟨j', h1, h2.resolve_left (hr _ (by omega))⟩
  -- never dead
  have hdead : ∀ j, i ≤ j → ¬ ∃ x, (pos r j (.worker e k)).2.2 = .dead x := by
    intro j hj hd
    obtain ⟨j', h1, _, s, cm, k', h2, _⟩ := hpolls j hj
    have := keeps (r := r) (e := e) (k := k) (P := fun l => ∃ x, l = .dead x) (fun h => dead_nxt h) (fun l hl => hr l (by omega)) hd (j' - j)
    rw [show j + (j' - j) = j' by omega, h2] at this
    obtain ⟨x, hx⟩ := this
    cases hx
  obtain ⟨j0, h0, _, s, cm, k0, hpos, _⟩ := hpolls i (Nat.le_refl i)
  have hfor : ∀ j, j0 ≤ j → For s (pos r j (.worker e k)).2.2 := by
    intro j hj
    have := keeps (r := r) (e := e) (k := k) (P := For s) (fun h => for_pos h) (fun l hl => hr l (by omega)) (show For s (pos r j0 (.worker e k)).2.2 by rw [hpos]; exact .inl rfl) (j - j0)
    rwa [show j0 + (j - j0) = j by omega] at this
  have hse : (env.strat s).exec = e := by
    obtain ⟨k', hk'⟩ := (pos_sane r j0 (t := .worker e k) (by simp)).home s (by rw [hpos]; rfl)
    cases hk'; rfl
  obtain ⟨N, hN⟩ := hb s hse
  have key : ∀ n, ∃ j, j0 ≤ j ∧ n ≤ (taken (env.strat s).queue (r.conf j).w.trace).length := by
    intro n
    induction n with
    | zero => exact ⟨j0, Nat.le_refl _, Nat.zero_le _⟩
    | succ n ih =>
      obtain ⟨j, h1, h2⟩ := ih
      obtain ⟨j', h3, h4, s', cm', k', h5, h6⟩ := hpolls j (by omega)
      have hs : s' = s := by
        rcases hfor j' (by omega) with h | ⟨x, h⟩
        · rw [h5] at h; cases h; rfl
        · rw [h5] at h; cases h
      subst hs
      have h7 := own_step r h4 h6
      refine ⟨j' + 1, by omega, ?_⟩
      have h8 := (prefix_taken (q := (env.strat s').queue) (grows_le r h3)).length_le
      have h9 := hdead (j' + 1) (by omega)
      rw [h7.2.2, h5] at h9
      rw [h7.1]
      simp only [exec, Env.q] at h9 ⊢
      cases hq : (r.conf j').w.queue (env.strat s').queue with
      | nil => exact absurd ⟨.npe, by simp [nxt, Loc.nxt, hq]⟩ h9
      | cons p rest =>
        cases hpp : (r.conf j').w.pair p with
        | none => exact absurd ⟨.npe, by simp [nxt, Loc.nxt, hq, hpp]⟩ h9
        | some x =>
          simp only [World.log, hpp]
          simp [taken] at h2 h8 ⊢
          omega
  obtain ⟨j, _, h1⟩ := key (N + 1)
  have h2 := (show taken (env.strat s).queue (r.conf j).w.trace <+: _ from ⟨_, (pos_fifo r j (env.strat s).queue).symm⟩).length_le
  have h3 := hN j
  omega

end

end Verif.Course
