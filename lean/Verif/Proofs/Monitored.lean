import Verif.Proofs.Safe
import Verif.Proofs.Honest
/-
Histories of machines with a queue of their own, as accepted by the monitors: what is known about the processing of events, without reference to executions.
-/

namespace Verif
open Spec (Item Desc bare meddles shows Behaves openStep openEv depthStep apiDepth IsEvent takenOf)
open Spec.Mon

/-- The monitors of all threads accept the history; events are taken by workers. -/
structure Monitored (env : Env) (m0 : MId) (c0 c : Conf) : Prop where
  mon : ∀ t, ∃ g, run (monCfg env m0) t (G.init (c0.w.mach m0).listener) c.w.trace = some g ∧ g.mem = memOf c.w m0
  taken : ∀ t q m ev, (t, Obs.taken q m ev) ∈ c.w.trace →
    ∃ s i, t = .worker (env.strat s).exec i ∧ i < env.width (env.strat s).exec ∧ env.q s = q ∧ env.qm m = q

namespace Monitored

section
variable {env : Env} {m0 : MId} {c0 c : Conf} {t : Tid}

theorem world_mem (hr : Monitored env m0 c0 c) :
    memOf c.w m0 = machAt c0 m0 c.w.trace := by
  obtain ⟨g, h1, h2⟩ := hr.mon .env
  rw [← h2, mon_mem h1]
  rfl

/-- Taking an event. -/
theorem at_taken (hr : Monitored env m0 c0 c) {pre post : List (Tid × Obs)} {q : QId}
    {ev : Ev} (h : c.w.trace = pre ++ (t, .taken q m0 ev) :: post) :
    q = env.qm m0 ∧ ∃ g, run (monCfg env m0) t (G.init (c0.w.mach m0).listener) pre = some g ∧ g.mode = .idle ∧ g.depth = 0 ∧
      ∃ g', run (monCfg env m0) t
        ⟨machAt c0 m0 pre, 0, .busy ev (planNow (monCfg env m0).d (machAt c0 m0 pre) ev) false⟩ post = some g' := by
  obtain ⟨g, h1, _⟩ := hr.mon t
  rw [h] at h1
  obtain ⟨g1, h2, h3⟩ := mon_split h1
  obtain ⟨g2, h4, h5⟩ := mon_cons h3
  obtain ⟨h6, h7, h8, h9⟩ := step_taken (cfg := monCfg env m0) h4
  refine ⟨h8, g1, h2, h7, h6, g, ?_⟩
  rw [h9, mon_mem h2] at h5
  exact h5

/-- The processing of an event that is not finished yet. -/
theorem event_begun (hr : Monitored env m0 c0 c) {pre mid : List (Tid × Obs)} {q : QId}
    {ev : Ev} (h : c.w.trace = pre ++ (t, .taken q m0 ev) :: mid) (hnd : ∀ m' ev', (t, Obs.done m' ev') ∉ mid)
    (hun : Undisturbed t m0 mid) :
    ∃ rest r, Behaves m0 ev (planNow (monCfg env m0).d (machAt c0 m0 pre) ev) (bare t 0 mid ++ rest) r := by
  obtain ⟨_, g, _, _, _, g', h1⟩ := hr.at_taken h
  have hplan : ∀ x, Item.thr x ∈ planNow (monCfg env m0).d (machAt c0 m0 pre) ev → _ := fun x hx => thr_planNow hx
  have := prog_run (cfg := monCfg env m0) hplan hun hnd prog_start h1
  exact behaves_of_prog (cfg := monCfg env m0) hplan this

/-- The processing of an event, from beginning to end. -/
theorem event_done (hr : Monitored env m0 c0 c) {pre mid post : List (Tid × Obs)}
    {ev : Ev} (h : IsEvent c.w.trace t m0 ev pre mid post) (hun : Undisturbed t m0 mid) :
    ∃ r, Behaves m0 ev (planNow (monCfg env m0).d (machAt c0 m0 pre) ev) (bare t 0 mid) r ∧
      (∀ x, r = some x → ∀ o, (bare t 0 post).head? = some o → o = .uncaught x) := by
  obtain ⟨⟨q, m', ev', hs⟩, hnd⟩ := h
  obtain ⟨_, g, _, _, _, g', h1⟩ := hr.at_taken hs
  have hplan : ∀ x, Item.thr x ∈ planNow (monCfg env m0).d (machAt c0 m0 pre) ev → _ := fun x hx => thr_planNow hx
  obtain ⟨g1, h2, h3⟩ := mon_split h1
  obtain ⟨g2, h4, h5⟩ := mon_cons h3
  have h6 := prog_run (cfg := monCfg env m0) hplan hun hnd prog_start h2
  obtain ⟨mem, d, md⟩ := g1
  obtain ⟨mem2, d2, md2⟩ := g2
  obtain ⟨hmm, hst⟩ := mstep_of h4
  simp only [List.nil_append] at h6
  generalize he : (t, Obs.done m' ev') = e at hst
  simp only at hst
  cases hst with
  | other hu => cases he; exact absurd rfl hu
  | drop => cases he
  | enter _ => cases he
  | leave => cases he
  | api _ _ _ h3 => cases he; cases h3
  | user h3 => cases he; cases h3
  | @own md x md' h7 h8 h9 h10 h11 =>
    cases he
    rcases prog_own hplan h6 h11 with ⟨m'', ev'', _, _, _, r, hb, hmd⟩ | ⟨hne, _⟩
    · refine ⟨r, hb, ?_⟩
      rintro x rfl o ho
      simp only at hmd
      subst hmd
      clear h1 h2 h3 h4 h6 hs hmm
      -- the thread is dying
      induction post generalizing mem2 with
      | nil => simp [bare] at ho
      | cons e post ih =>
        obtain ⟨g3, h12, h13⟩ := mon_cons h5
        obtain ⟨mem3, d3, md3⟩ := g3
        obtain ⟨_, hst⟩ := mstep_of h12
        simp only at hst
        cases hst with
        | @other _ _ u x' hu =>
          have : disturbIf (touches m0 x') (.dying x) = .dying x := by cases touches m0 x' <;> rfl
          rw [show (monCfg env m0).d.m = m0 from rfl, this] at h13
          exact ih _ (by simpa [bare, hu] using ho) h13
        | drop => exact ih _ (by simpa [bare] using ho) h13
        | enter hc =>
          rcases hc with hc | hc
          · omega
          · cases hc
        | user _ hc => cases hc
        | @own _ x' _ h14 h15 h16 h17 h18 =>
          rw [bare_skip post h14 h15 h16] at ho
          simp [h17] at ho
          subst ho
          cases x' with
          | uncaught y =>
            simp only [own] at h18
            split at h18
            · rename_i hy; rw [hy]
            · cases h18
          | _ => cases h18
    · exact absurd rfl (hne _ _)

theorem taken_worker (ha : Alone env m0) (hr : Monitored env m0 c0 c) {q : QId} {ev : Ev}
    (h : (t, Obs.taken q m0 ev) ∈ c.w.trace) : t = env.workerOf m0 := by
  obtain ⟨pre, post, hs⟩ := List.append_of_mem h
  obtain ⟨rfl, _⟩ := hr.at_taken hs
  obtain ⟨s, i, rfl, hlt, hq, _⟩ := hr.taken t _ m0 ev h
  have := ha.priv.queue s hq
  subst this
  have := ha.single
  have : i = 0 := by omega
  subst this
  rfl

/-- Only the worker and the four API methods change the machine. -/
theorem touches_worker (ha : Alone env m0) (hr : Monitored env m0 c0 c) {x : Obs}
    (h : (t, x) ∈ c.w.trace) (ht : touches m0 x = true) (hm : meddles m0 x = false) : t = env.workerOf m0 := by
  refine Classical.byContradiction fun hn => ?_
  obtain ⟨g, h1, _⟩ := hr.mon t
  have := (run_idle (cfg := monCfg env m0) rfl (fun q ev hmem => hn (taken_worker ha hr hmem)) h1).2.1 x h ht
  rw [show (monCfg env m0).d.m = m0 from rfl, hm] at this
  cases this

theorem undisturbed_of_single (ha : Alone env m0) (hr : Monitored env m0 c0 c) {pre mid post : List (Tid × Obs)}
    (h : c.w.trace = pre ++ mid ++ post) (hm : ∀ e ∈ mid, meddles m0 e.2 = false) : Undisturbed (env.workerOf m0) m0 mid := by
  intro e he ht
  exact ⟨touches_worker (t := e.1) (x := e.2) ha hr (by rw [h]; simp [he]) ht (hm e he), hm e he⟩

theorem history_open (hr : Monitored env m0 c0 c) (t : Tid) {pre post : List (Tid × Obs)}
    (h : c.w.trace = pre ++ post) :
    ∃ g, run (monCfg env m0) t (G.init (c0.w.mach m0).listener) pre = some g ∧ ModeOk m0 g.mode ∧
      Mode.ev g.mode = openEv t m0 pre ∧ g.depth = apiDepth t pre ∧ g.mem = machAt c0 m0 pre ∧
      ∃ g', run (monCfg env m0) t g post = some g' := by
  obtain ⟨g, h1, _⟩ := hr.mon t
  rw [h] at h1
  obtain ⟨g1, h2, h3⟩ := mon_split h1
  obtain ⟨h4, h5, h6⟩ := run_open (cfg := monCfg env m0) (g := G.init (c0.w.mach m0).listener) trivial h2
  exact ⟨g1, h2, h4, h5, h6, mon_mem h2, g, h3⟩

end

end Monitored

/-- Executions in which checks for duplicates go wrong are monitored too. -/
theorem Safe.monitored {env : Env} {m0 : MId} {M : Spec.HB.Cell → Prop} [DecidablePred M] {c0 c : Conf} (hp : Private env m0) (hM : ∀ f, ¬M f) (hi : Initial c0)
    (hs : Stale.CRuns env M c0 c) : Monitored env m0 c0 c := by
  have key : ∀ t, ∃ lst, ThreadsOk (proto env) [] Verif.fin lst c ∧ (Own env lst c.w ∧ TaskInv env lst c.w) ∧
      MonInv env m0 t (G.init (c0.w.mach m0).listener) lst c.w := fun t => by
    refine Safe.tame (Stale.over_self env) (checked env) (((own_invariant env).and (task_preserved env)).and (mon_preserved hp t _))
      (((Stale.own_numb.and Stale.task_numb).and Safe.mon_numb).rash fun _ _ h => h.1.1) hM hi ⟨⟨own_initial env c0 hi, task_initial env c0 hi⟩, ?_⟩ hs
    refine ⟨0, .idle, none, ?_, .nil, rfl⟩
    rw [hi.trace]
    obtain ⟨h1, h2, h3⟩ := hi.mach m0
    simp [run, G.init, memOf, h2, h3]
  refine ⟨fun t => ?_, ?_⟩
  · obtain ⟨lst, _, _, d, md, b, h, _⟩ := key t
    exact ⟨_, h, rfl⟩
  · obtain ⟨lst, _, ⟨_, ht⟩, _⟩ := key .env
    exact ht.taken

namespace Safe
open Course Spec.Course Stale Spec.HB

variable {env : Env} {v0 : MId → Mem}

/-- What the history tells about machines is true. -/
theorem memory {M : Cell → Prop} [DecidablePred M] {c0 c : Conf} (hM : ∀ f, ¬M f) (hi : Initial c0) (hs : CRuns env M c0 c) (m : MId) :
    memOf c.w m = machAt c0 m c.w.trace := by
  obtain ⟨lst, _, _, h⟩ := tame (over_self env) (Verif.checked env) ((own_invariant env).and (mach_invariant c0))
    ((own_numb.and fun _ _ _ _ _ _ _ _ _ h _ _ => h).rash fun _ _ h => h.1) hM hi ⟨own_initial env c0 hi, fun m => by
      obtain ⟨_, h2, h3⟩ := hi.mach m
      simp [memOf, machAt, Spec.Mon.Mem.after, hi.trace, Spec.Mon.Mem.init, h2, h3]⟩ hs
  exact h m

def WInv (env : Env) (v0 : MId → Mem) (lst : Tid → List Frame × Pos) (w : World) : Prop :=
  (Course.Inv env v0 lst w ∧ Stacks (fun t => (lst t).1) w) ∧ Apart (fun t => (lst t).1) w

theorem winv_invariant (env : Env) (v0 : MId → Mem) : Invariant env (proto2 env) idle2 task2 fin2 (WInv env v0) :=
  lift_fst (lift_fst (Course.invariant env v0) (stacks_invariant env fun _ _ => True) fun _ _ _ _ => trivial) (apart_preserved env) fun _ _ h _ => ⟨h.1.own, h.2⟩

theorem winv_know {lst : Tid → List Frame × Pos} {w : World} {t : Tid} {m : MId} {ev : Ev} {p : PairId} {ps : List PairId} {rest : List Frame} (x : Ev × MId)
    (h : WInv env v0 lst w) (hl : (lst t).1 = .fire m ev (.scan (p :: ps)) :: rest) : (proto2 env).know (lst t) (put w p x) := by
  have hk := (winv_invariant env v0).know lst w t h
  refine ⟨?_, fun q p' hp' => ?_, fun p' ev' m' hi => ?_⟩
  · have h1 : lKnow (lst t).1 w := hk.1
    show lKnow (lst t).1 _
    rw [hl] at h1 ⊢
    exact scan_know x h1
  · by_cases hpp : p' = p
    · subst hpp; simp
    · simp only [fset_ne _ _ hpp]; exact hk.2.1 q p' hp'
  · have hne : p' ≠ p := by
      rintro rfl
      obtain ⟨b, hat, hb⟩ := h.1.1.link t
      rw [hl] at hat
      generalize (lst t).2.1 = d at hat
      cases hat with
      | drain hd => cases hd
      | cons _ hat => exact h.2 t m ev (p' :: ps) rest hl p' List.mem_cons_self (item_owned hat (hb.trans hi))
    simp only [fset_ne _ _ hne]
    exact hk.2.2 p' ev' m' hi

theorem winv_rash : Rash env (proto2 env) Prod.fst (WInv env v0) where
  know := fun lst w t m ev p ps rest x h hl => winv_know x h hl
  read := fun lst w t m ev p ps rest x h hl ha hx => by
    have ha1 : lAllowed env (lst t).1 (.getPair p) := ha.1
    have hm := lmove_of_allowed (w := put w p x) ha1
    have key : ∀ {J : (Tid → List Frame) → World → Prop}, Numb env J → J (fun t => (lst t).1) w →
        J (fun u => (fset lst t ((proto2 env).nxt (lst t) (.getPair p) (put w p x)) u).1) w := by
      intro J hj h
      rw [fset_fst]
      obtain ⟨g, h1, h2⟩ := scan_frames (lst := fun t => (lst t).1) (env := env) (w := w) x hl hx
      have h3 := hj _ w t m ev p ps rest g h hl h2
      rw [← h1] at h3
      exact h3
    refine ⟨⟨⟨key own_numb h.1.1.own, key task_numb h.1.1.tasks, set_link h.1.1.link (link_op (h.1.1.link t) hm ha.2), ?_⟩, key stacks_numb h.1.2⟩, key apart_numb h.2⟩
    have ha2 : Course.allowed env (lst t).2 (.getPair p) := ha.2
    exact way_step (w := w) (w' := w) (x := none) h.1.1.way (by simp) (fun _ => rfl) (pos_step (t := t) (winv_know x h hl).2 ha2 (link_bare (h.1.1.link t) hm))

/-- Every thread has a way through the history. -/
theorem way {M : Cell → Prop} [DecidablePred M] {c0 c : Conf} (hM : ∀ f, ¬M f) (hi : Initial c0) (hs : CRuns env M c0 c) (t : Tid) (ht : t ≠ .env) :
    ∃ d st, Way (cfg env) t (fun m => machAt c0 m []) 0 .idle c.w.trace (fun m => machAt c0 m c.w.trace) d st := by
  obtain ⟨lst, _, h⟩ := tame (over_course env) (checked2 env) (winv_invariant env _) winv_rash hM hi
    (⟨⟨Course.initial env hi, stacks_initial _⟩, fun _ _ _ _ _ hl => (nomatch hl)⟩ : WInv env _ _ _) hs
  have := h.1.1.way t ht
  rw [show memOf c.w = fun m => machAt c0 m c.w.trace from funext fun m => memory hM hi hs m] at this
  exact ⟨_, _, this⟩

end Safe

end Verif
