import Verif.Proofs.Live
import Verif.Props.Stranded
/-
Accepted events are taken.
-/

namespace Verif.Course
open Spec.Course Spec

variable {env : Env} (r : Run env)

/-! ### Histories grow -/

theorem grows (i : Nat) : ∃ ys, (r.conf (i + 1)).w.trace = (r.conf i).w.trace ++ ys := by
  have hn := r.next i
  cases hx : r.pick i with
  | none => rw [hx] at hn; simp only at hn; rw [hn]; exact ⟨[], by simp⟩
  | some x =>
    rw [hx] at hn
    simp only at hn
    cases x with
    | begin n u =>
      simp only [step] at hn
      split at hn
      · cases hn
      · have hn := Option.some.inj hn; rw [← hn]; exact ⟨[], by simp⟩
    | run u =>
      simp only [step] at hn
      split at hn
      · cases hn
      next q hq =>
        cases q with
        | ret a => have hn := Option.some.inj hn; rw [← hn]; exact ⟨[], by simp⟩
        | thr x => have hn := Option.some.inj hn; rw [← hn]; exact ⟨_, rfl⟩
        | op o k =>
          simp only [runThread] at hn
          split at hn
          · have hn := Option.some.inj hn; rw [← hn]; exact ⟨_, exec_trace u o _⟩
          · cases hn
        | call f k => have hn := Option.some.inj hn; rw [← hn]; exact ⟨[], by simp⟩
    | dispatch e' k' n =>
      simp only [step] at hn
      split at hn
      · split at hn
        · have hn := Option.some.inj hn; rw [← hn]; exact ⟨[], by simp⟩
        · cases hn
      · cases hn
    | interrupt u => have hn := Option.some.inj hn; rw [← hn]; exact ⟨[], by simp⟩
    | shutdown e now =>
      have hn := Option.some.inj hn
      rw [← hn]
      cases now with
      | false => exact ⟨[], by simp⟩
      | true => exact ⟨_, rfl⟩

theorem grows_le {i j : Nat} (h : i ≤ j) : (r.conf i).w.trace <+: (r.conf j).w.trace := by
  obtain ⟨n, rfl⟩ := Nat.le.dest h
  clear h
  induction n with
  | zero => exact List.prefix_rfl
  | succ n ih => obtain ⟨ys, h⟩ := grows r (i + n); exact ih.trans ⟨ys, h.symm⟩

theorem prefix_taken {q : QId} {a b : List (Tid × Obs)} (h : a <+: b) : taken q a <+: taken q b := h.filterMap _
theorem prefix_accepted {q : QId} {a b : List (Tid × Obs)} (h : a <+: b) : accepted q a <+: accepted q b := h.filterMap _

theorem pos_fifo (i : Nat) (q : QId) : accepted q (r.conf i).w.trace = taken q (r.conf i).w.trace ++ ((r.conf i).w.queue q).filterMap (r.conf i).w.pair := by
  obtain ⟨loc, h⟩ := (pos_ok r i).2.own
  exact h.fifo q

/-! ### Programs -/

theorem seen_prog {i : Nat} {t : Tid} {p : Prog Unit} {s : SId} {cm : MId} (hp : (r.conf i).thr t = some p)
    (hl : (pos r i t).2 = (0, .seen s cm)) : ∃ k, p = .op (.poll (env.q s)) k := by
  have hok := (pos_ok r i).1 t
  rw [hp] at hok
  generalize pos r i t = fl at *
  obtain ⟨fr, l⟩ := fl
  simp only at hl
  subst hl
  cases p with
  | ret a => rcases hok.2 with ⟨h, _⟩ | ⟨_, _, h⟩ <;> cases h
  | thr a => rcases hok.2 with ⟨h, _⟩ | h <;> cases h
  | call f k =>
    have hpre : pre f (0, .seen s cm) := hok.1.2
    cases f <;> cases hpre
  | op o k =>
    have hal : allowed env (0, .seen s cm) o := hok.1.2
    have : o = .poll (env.q s) := by
      unfold allowed at hal
      split at hal
      · cases hal
      · exact absurd hal (Nat.lt_irrefl 0)
      · rcases hal with hal | ⟨hal, _⟩ | hal
        · exact absurd hal (Nat.lt_irrefl 0)
        · cases hal
        · cases o with
          | poll q => exact congrArg _ (show q = env.q s from hal)
          | emit x => exact (show False by cases x <;> exact hal).elim
          | _ => exact (show False from hal).elim
    subst this
    exact ⟨k, rfl⟩

theorem top_prog {i : Nat} {t : Tid} {p : Prog Unit} {s : SId} {cm : MId} (hp : (r.conf i).thr t = some p)
    (hl : (pos r i t).2 = (0, .top s cm)) : (∃ k, p = .op (.qIsEmpty (env.q s)) k) ∨ ∃ k, p = .call (.drain s cm) k := by
  have hok := (pos_ok r i).1 t
  rw [hp] at hok
  generalize pos r i t = fl at *
  obtain ⟨fr, l⟩ := fl
  simp only at hl
  subst hl
  cases p with
  | ret a => rcases hok.2 with ⟨h, _⟩ | ⟨_, _, h⟩ <;> cases h
  | thr a => rcases hok.2 with ⟨h, _⟩ | h <;> cases h
  | call f k =>
    have hpre : pre f (0, .top s cm) := hok.1.2
    cases f <;> cases hpre
    exact .inr ⟨k, rfl⟩
  | op o k =>
    have hal : allowed env (0, .top s cm) o := hok.1.2
    have : o = .qIsEmpty (env.q s) := by
      unfold allowed at hal
      split at hal
      · cases hal
      · exact absurd hal (Nat.lt_irrefl 0)
      · rcases hal with hal | ⟨hal, _⟩ | hal
        · exact absurd hal (Nat.lt_irrefl 0)
        · cases hal
        · cases o with
          | qIsEmpty q => exact congrArg _ (show q = env.q s from hal)
          | emit x => exact (show False by cases x <;> exact hal).elim
          | _ => exact (show False from hal).elim
    subst this
    exact .inl ⟨k, rfl⟩

/-- Only drain tasks look at the queue. -/
theorem look_top {i : Nat} {t : Tid} {q : QId} {k : Bool → Prog Unit} (hp : (r.conf i).thr t = some (.op (.qIsEmpty q) k)) :
    ∃ s cm, (pos r i t).2 = (0, .top s cm) ∧ q = env.q s := by
  obtain ⟨hok, hinv⟩ := pos_ok r i
  have hok := hok t
  rw [hp] at hok
  have hm := lmove_of_allowed (env := env) (w := (r.conf i).w) (l := (pos r i t).1) (o := .qIsEmpty q) hok.1.1
  have hal : allowed env (pos r i t).2 (.qIsEmpty q) := hok.1.2
  have hlink := hinv.link t
  generalize pos r i t = fl at hm hal hlink
  obtain ⟨fr, d, l⟩ := fl
  obtain ⟨b, hat, _⟩ := hlink
  have hd : d = 0 := by
    simp only at hm hat
    generalize lNxt env fr _ _ = l' at hm
    cases hm with
    | user _ h => exact h.elim
    | frame hm =>
      have : ∀ {f f' w}, Move env w f (.qIsEmpty q) f' → f.isDrain = true := by
        intro f f' w hm
        cases hm with
        | drQuit _ _ => rfl
        | drSeenF _ => rfl
        | drSeenL _ => rfl
        | drPh ha => rfl
        | stPh _ _ ha => cases phAllowed_op ha
      have hdr := this hm
      cases hat with
      | drain _ => rfl
      | cons h _ => rw [hdr] at h; cases h
  subst hd
  rcases hal with hal | ⟨_, hal⟩ | hal
  · exact absurd hal (Nat.lt_irrefl 0)
  · exact hal.elim
  · cases l with
    | top s cm => exact ⟨s, cm, rfl, hal⟩
    | at_ s cm p ev m td =>
      cases td with
      | nil => exact (show False from hal).elim
      | cons a td => cases a <;> exact (show False from hal).elim
    | _ => exact (show False from hal).elim

/-! ### Somebody takes the next event -/

theorem exec_tasks {t : Tid} {o : Op} {w : World} {e : EId} {x : SId × MId} (h : x ∈ w.tasks e) : x ∈ (exec t o w).2.tasks e := by
  cases o with
  | submit e' s m =>
    simp only [exec]
    split
    · exact h
    · by_cases he : e = e'
      · subst he; simp only [World.log, fset_same]; exact List.mem_append_left _ h
      · simp only [World.log, fset_ne _ _ he]; exact h
  | _ => simp only [exec] <;> (repeat' split) <;> exact h

section
variable {r} {q : QId} {i : Nat}

/-- A poll takes an event if there is one. -/
theorem poll_takes {t : Tid} {k : Option PairId → Prog Unit} (hx : r.pick i = some (.run t))
    (hp : (r.conf i).thr t = some (.op (.poll q) k)) (hq : (r.conf i).w.queue q ≠ []) :
    (taken q (r.conf i).w.trace).length < (taken q (r.conf (i + 1)).w.trace).length := by
  have hs := (own_step r hx hp).1
  rw [hs, exec_trace]
  obtain ⟨loc, ho⟩ := (pos_ok r i).2.own
  cases hq' : (r.conf i).w.queue q with
  | nil => exact absurd hq' hq
  | cons p ps =>
    obtain ⟨ev, m, hpair, _⟩ := ho.full q p (by rw [hq']; exact List.mem_cons_self)
    simp [opObs, hq', hpair, taken]

structure Frozen (r : Run env) (q : QId) (i : Nat) : Prop where
  taken : ∀ j, i ≤ j → taken q (r.conf j).w.trace = taken q (r.conf i).w.trace
  queue : ∀ j, i ≤ j → (r.conf j).w.queue q ≠ []

theorem Frozen.no_poll (h : Frozen r q i) {j : Nat} (hj : i ≤ j) {t : Tid} {k : Option PairId → Prog Unit}
    (hp : (r.conf j).thr t = some (.op (.poll q) k)) : r.pick j ≠ some (.run t) := by
  intro hx
  have := poll_takes hx hp (h.queue j hj)
  rw [h.taken j hj, h.taken (j + 1) (by omega)] at this
  exact absurd this (Nat.lt_irrefl _)

theorem Frozen.no_seen (h : Frozen r q i) {j : Nat} (hj : i ≤ j) {t : Tid} (hf : r.fair t) {p : Prog Unit} (hp : (r.conf j).thr t = some p)
    {s : SId} {cm : MId} (hl : (pos r j t).2 = (0, .seen s cm)) (hq : env.q s = q) : False := by
  obtain ⟨k, rfl⟩ := seen_prog r hp hl
  obtain ⟨j', h1, h2, h3, _⟩ := goes r hf hp rfl
  rw [hq] at h3
  exact h.no_poll (Nat.le_trans hj h1) h3 h2

theorem Frozen.no_look (h : Frozen r q i) {j : Nat} (hj : i ≤ j) {t : Tid} (hf : r.fair t) {k : Bool → Prog Unit}
    {s : SId} {cm : MId} (hp : (r.conf j).thr t = some (.op (.qIsEmpty (env.q s)) k))
    (hl : (pos r j t).2 = (0, .top s cm)) (hq : env.q s = q) : False := by
  obtain ⟨j', h1, h2, h3, h4⟩ := goes r hf hp rfl
  obtain ⟨_, h5, h6⟩ := own_step r h2 h3
  refine h.no_seen (j := j' + 1) (by omega) hf h5 (s := s) (cm := cm) ?_ hq
  rw [h6, h4, hl]
  have hne := h.queue j' (by omega)
  show ((0, if ((r.conf j').w.queue (env.q s)).isEmpty = true then Loc.quit s cm else Loc.seen s cm) : Pos) = _
  rw [hq, if_neg (by simpa using hne)]

theorem Frozen.no_top (h : Frozen r q i) {j : Nat} (hj : i ≤ j) {t : Tid} (hf : r.fair t) {p : Prog Unit} (hp : (r.conf j).thr t = some p)
    {s : SId} {cm : MId} (hl : (pos r j t).2 = (0, .top s cm)) (hq : env.q s = q) : False := by
  rcases top_prog r hp hl with ⟨k, rfl⟩ | ⟨k, rfl⟩
  · exact h.no_look hj hf hp hl hq
  · obtain ⟨j', h1, h2, h3, h4⟩ := goes r hf hp rfl
    obtain ⟨_, h5, h6⟩ := own_step r h2 h3
    obtain ⟨k', hk'⟩ := drain_handle (env := env) s cm k
    have h5 : (r.conf (j' + 1)).thr t = some ((drain env s cm).handle k) := h5
    rw [hk'] at h5
    exact h.no_look (j := j' + 1) (by omega) hf h5 (by rw [h6, h4, hl]) hq

variable {e : EId}

/-- With a task for the queue, the event is taken. -/
theorem Frozen.no_task (h : Frozen r q i) (hf : ∀ t, r.fair t) (hx : r.executes e) {k : Nat} (hk : k < env.width e) (hu : r.returns (.worker e k))
    (hq : ∀ s, (env.strat s).exec = e → (env.strat s).queue = q)
    (hl : ∀ i, ∀ x ∈ (r.conf i).w.trace, ∀ s m, (env.strat s).queue = q → x.2 ≠ .rejected s m ∧ x.2 ≠ .taskDropped s m)
    {j : Nat} (hj : i ≤ j) {s : SId} {m : MId} (ht : (s, m) ∈ (r.conf j).w.tasks e) : False := by
  have hexec : ∀ l s m, (s, m) ∈ (r.conf l).w.tasks e → (env.strat s).queue = q := by
    intro l s m hm
    exact hq s ((pos_ok r l).2.tasks.tasks e s m hm).1
  -- nothing is dispatched
  have hnd : ∀ l, j ≤ l → ∀ k n, r.pick l ≠ some (.dispatch e k n) := by
    intro l hjl k n hd
    obtain ⟨s', m', h1, h2, h3, _⟩ := dispatched r hd
    exact h.no_top (j := l + 1) (by omega) (hf _) h2 (s := s') (cm := m') (by rw [h3]; rfl) (hexec l s' m' h1)
  -- the task remains
  have hrem : ∀ n, (s, m) ∈ (r.conf (j + n)).w.tasks e := by
    intro n
    induction n with
    | zero => exact ht
    | succ n ih =>
      have hn := r.next (j + n)
      show _ ∈ (r.conf (j + n + 1)).w.tasks e
      cases hp : r.pick (j + n) with
      | none => rw [hp] at hn; simp only at hn; rw [hn]; exact ih
      | some x =>
        rw [hp] at hn
        simp only at hn
        cases x with
        | begin c u =>
          simp only [step] at hn
          split at hn
          · cases hn
          · have hn := Option.some.inj hn; rw [← hn]; exact ih
        | run u =>
          simp only [step] at hn
          split at hn
          · cases hn
          next p hp' =>
            cases p with
            | ret a => have hn := Option.some.inj hn; rw [← hn]; exact ih
            | thr x => have hn := Option.some.inj hn; rw [← hn]; exact ih
            | op o k =>
              simp only [runThread] at hn
              split at hn
              · have hn := Option.some.inj hn; rw [← hn]; exact exec_tasks ih
              · cases hn
            | call f k => have hn := Option.some.inj hn; rw [← hn]; exact ih
        | dispatch e' k' n' =>
          have hne : e ≠ e' := by rintro rfl; exact hnd _ (Nat.le_add_right _ _) k' n' hp
          simp only [step] at hn
          split at hn
          · split at hn
            · have hn := Option.some.inj hn
              rw [← hn]
              simp only [fset_ne _ _ hne]
              exact ih
            · cases hn
          · cases hn
        | interrupt u => have hn := Option.some.inj hn; rw [← hn]; exact ih
        | shutdown e' now =>
          have hn := Option.some.inj hn
          cases now with
          | false => rw [← hn]; exact ih
          | true =>
            by_cases he : e = e'
            · subst he
              refine absurd rfl (hl (j + n + 1) (.env, .taskDropped s m) ?_ s m (hexec _ s m ih)).2
              rw [← hn]
              exact List.mem_append_right _ (List.mem_map.2 ⟨(s, m), ih, rfl⟩)
            · rw [← hn]
              simp only [World.dropTasks, fset_ne _ _ he, if_true]
              exact ih
  -- the worker becomes idle
  obtain ⟨l, hl1, hl2⟩ := comes_to_poll r (hf _) hu j
  rcases hl2 with hl2 | ⟨h1, s', cm, k', h2, h3⟩
  · have hidle : ∀ n, (r.conf (l + n)).thr (.worker e k) = none := by
      intro n
      induction n with
      | zero => exact hl2
      | succ n ih => exact idle_stays r ih (fun x => hnd (l + n) (Nat.le_trans hl1 (Nat.le_add_right _ _)) k x)
    obtain ⟨l', k'', n, h1, h2⟩ := hx l (fun l' hl' => by
      obtain ⟨n, rfl⟩ := Nat.le.dest hl'
      have hr : (s, m) ∈ (r.conf (l + n)).w.tasks e := by
        have := hrem (l + n - j)
        rwa [show j + (l + n - j) = l + n by omega] at this
      obtain ⟨x, hx⟩ := List.getElem?_of_mem hr
      exact ⟨k, x, by simp [step, hk, hidle n, hx]⟩)
    exact hnd l' (by omega) k'' n h2
  · have hhome := (pos_sane r l (t := .worker e k) (by simp)).home s' (by rw [h2]; rfl)
    obtain ⟨y, hy⟩ := hhome
    cases hy
    have := hq s' rfl
    subst this
    exact h.no_poll (Nat.le_trans hj hl1) h3 h1

/-- If an event is waiting, sooner or later one is taken. -/
theorem takes_next (hf : ∀ t, r.fair t) (hx : r.executes e) {k : Nat} (hk : k < env.width e) (hu : r.returns (.worker e k))
    (hqe : ∀ s, (env.strat s).exec = e ↔ (env.strat s).queue = q)
    (hl : ∀ i, ∀ x ∈ (r.conf i).w.trace, ∀ s m, (env.strat s).queue = q → x.2 ≠ .rejected s m ∧ x.2 ≠ .taskDropped s m)
    (i : Nat) (hw : (taken q (r.conf i).w.trace).length < (accepted q (r.conf i).w.trace).length) :
    ∃ j, i ≤ j ∧ (taken q (r.conf i).w.trace).length < (taken q (r.conf j).w.trace).length := by
  refine Classical.byContradiction fun hn => ?_
  have hfr : Frozen r q i := by
    have h1 : ∀ j, i ≤ j → taken q (r.conf j).w.trace = taken q (r.conf i).w.trace := by
      intro j hj
      have hp := prefix_taken (q := q) (grows_le r hj)
      refine (hp.eq_of_length_le ?_).symm
      exact Nat.le_of_not_lt fun hlt => hn ⟨j, hj, hlt⟩
    refine ⟨h1, fun j hj he => ?_⟩
    have h2 := pos_fifo r j q
    rw [he, h1 j hj] at h2
    have h3 := (prefix_accepted (q := q) (grows_le r hj)).length_le
    rw [h2] at h3
    simp at h3
    omega
  rcases C14_waiting (r.reach i) (fun s hs => (hqe s).2 hs) (hfr.queue i (Nat.le_refl i)) (hl i) with ⟨s, m, h1, _⟩ | ⟨t, o, k', h1, h2⟩
  · exact hfr.no_task hf hx hk hu (fun s hs => (hqe s).1 hs) hl (Nat.le_refl i) h1
  · have hr : ready (.op o k') = true := by cases o <;> first | rfl | cases h2
    obtain ⟨j, h3, h4, h5, h6⟩ := goes r (hf t) h1 hr
    cases o with
    | qIsEmpty q' =>
      simp only [Op.serves, decide_eq_true_eq] at h2
      subst h2
      obtain ⟨s, cm, h7, rfl⟩ := look_top r h5
      exact hfr.no_look h3 (hf t) h5 h7 rfl
    | poll q' =>
      simp only [Op.serves, decide_eq_true_eq] at h2
      subst h2
      exact hfr.no_poll h3 h5 h4
    | submit e' s m =>
      simp only [Op.serves, decide_eq_true_eq] at h2
      have he' : e' = e := by
        have hok := (pos_ok r j).1 t
        rw [h5] at hok
        have hm := lmove_of_allowed (env := env) (w := (r.conf j).w) (l := (pos r j t).1) (o := .submit e' s m) hok.1.1
        generalize (pos r j t).1 = fr at hm
        generalize lNxt env fr _ _ = l' at hm
        cases hm with
        | user _ h => exact h.elim
        | frame hm =>
          cases hm with
          | fSubmit => exact (hqe _).2 h2
          | drPh ha => cases phAllowed_op ha
          | stPh _ _ ha => cases phAllowed_op ha
      subst he'
      have hs := (own_step r h4 h5).1
      simp only [exec] at hs
      split at hs
      · refine absurd rfl (hl (j + 1) (t, .rejected s m) ?_ s m h2).1
        rw [hs]; simp [World.log]
      · refine hfr.no_task hf hx hk hu (fun s hs => (hqe s).1 hs) hl (j := j + 1) (by omega) (s := s) (m := m) ?_
        rw [hs]; simp [World.log, fset_same]
    | _ => cases h2

end
end Verif.Course
