import Verif.Proofs.Event
/-
Event processing in reachable histories.
-/

namespace Verif
open Spec (Item Desc bare meddles shows Behaves openStep openEv depthStep apiDepth IsEvent takenOf)
open Spec.Mon

section
variable {env : Env} {m0 : MId} {c0 c : Conf} {t : Tid}

/-- The state of a machine after a piece of the history of an execution that began in `c0`. -/
def machAt (c0 : Conf) (m : MId) (tr : List (Tid × Obs)) : Mem := (Mem.init (c0.w.mach m).listener).after m tr

theorem history_mon (hp : Private env m0) (hi : Initial c0) (hr : ReachFrom env c0 c) (t : Tid) :
    ∃ g, run (monCfg env m0) t (G.init (c0.w.mach m0).listener) c.w.trace = some g ∧ g.mem = memOf c.w m0 := by
  obtain ⟨lst, _, _, d, md, b, h, _⟩ := mon_accepted hp hi hr t
  exact ⟨_, h, rfl⟩

theorem world_mem (hp : Private env m0) (hi : Initial c0) (hr : ReachFrom env c0 c) :
    memOf c.w m0 = machAt c0 m0 c.w.trace := by
  obtain ⟨g, h1, h2⟩ := history_mon hp hi hr .env
  rw [← h2, mon_mem h1]
  rfl

/-- Taking an event. -/
theorem at_taken (hp : Private env m0) (hi : Initial c0) (hr : ReachFrom env c0 c) {pre post : List (Tid × Obs)} {q : QId}
    {ev : Ev} (h : c.w.trace = pre ++ (t, .taken q m0 ev) :: post) :
    q = env.qm m0 ∧ ∃ g, run (monCfg env m0) t (G.init (c0.w.mach m0).listener) pre = some g ∧ g.mode = .idle ∧ g.depth = 0 ∧
      ∃ g', run (monCfg env m0) t
        ⟨machAt c0 m0 pre, 0, .busy ev (planNow (monCfg env m0).d (machAt c0 m0 pre) ev) false⟩ post = some g' := by
  obtain ⟨g, h1, _⟩ := history_mon hp hi hr t
  rw [h] at h1
  obtain ⟨g1, h2, h3⟩ := mon_split h1
  obtain ⟨g2, h4, h5⟩ := mon_cons h3
  obtain ⟨h6, h7, h8, h9⟩ := step_taken (cfg := monCfg env m0) h4
  refine ⟨h8, g1, h2, h7, h6, g, ?_⟩
  rw [h9, mon_mem h2] at h5
  exact h5

theorem prog_start {m : MId} {ev : Ev} {mem : Mem} {d : Desc} :
    Prog1 m ev (planNow d mem ev) mem (.busy ev (planNow d mem ev) false) [] := by
  refine ⟨rfl, rfl, ?_, [], rfl, by simp⟩
  cases he : mem.ended with
  | false => rfl
  | true => simp [planNow, he, shows]

/-- The processing of an event that is not finished yet. -/
theorem event_begun (hp : Private env m0) (hi : Initial c0) (hr : ReachFrom env c0 c) {pre mid : List (Tid × Obs)} {q : QId}
    {ev : Ev} (h : c.w.trace = pre ++ (t, .taken q m0 ev) :: mid) (hnd : ∀ m' ev', (t, Obs.done m' ev') ∉ mid)
    (hun : Undisturbed t m0 mid) :
    ∃ rest r, Behaves m0 ev (planNow (monCfg env m0).d (machAt c0 m0 pre) ev) (bare t 0 mid ++ rest) r := by
  obtain ⟨_, g, _, _, _, g', h1⟩ := at_taken hp hi hr h
  have hplan : ∀ x, Item.thr x ∈ planNow (monCfg env m0).d (machAt c0 m0 pre) ev → _ := fun x hx => thr_planNow hx
  have := prog_run (cfg := monCfg env m0) hplan hun hnd prog_start h1
  exact behaves_of_prog (cfg := monCfg env m0) hplan this

/-- The processing of an event, from beginning to end. -/
theorem event_done (hp : Private env m0) (hi : Initial c0) (hr : ReachFrom env c0 c) {pre mid post : List (Tid × Obs)}
    {ev : Ev} (h : IsEvent c.w.trace t m0 ev pre mid post) (hun : Undisturbed t m0 mid) :
    ∃ r, Behaves m0 ev (planNow (monCfg env m0).d (machAt c0 m0 pre) ev) (bare t 0 mid) r ∧
      (∀ x, r = some x → ∀ o, (bare t 0 post).head? = some o → o = .uncaught x) := by
  obtain ⟨⟨q, m', ev', hs⟩, hnd⟩ := h
  obtain ⟨_, g, _, _, _, g', h1⟩ := at_taken hp hi hr hs
  have hplan : ∀ x, Item.thr x ∈ planNow (monCfg env m0).d (machAt c0 m0 pre) ev → _ := fun x hx => thr_planNow hx
  obtain ⟨g1, h2, h3⟩ := mon_split h1
  obtain ⟨g2, h4, h5⟩ := mon_cons h3
  have h6 := prog_run (cfg := monCfg env m0) hplan hun hnd prog_start h2
  obtain ⟨mem, d, md⟩ := g1
  obtain ⟨mem2, d2, md2⟩ := g2
  obtain ⟨hmm, hst⟩ := mstep_of h4
  simp only [List.nil_append] at h6
  generalize he : (t, Obs.done m' ev') = e at hst
  simp only at hst
  cases hst with
  | other hu => cases he; exact absurd rfl hu
  | drop => cases he
  | enter _ => cases he
  | leave => cases he
  | api _ _ _ h3 => cases he; cases h3
  | user h3 => cases he; cases h3
  | @own md x md' h7 h8 h9 h10 h11 =>
    cases he
    rcases prog_own hplan h6 h11 with ⟨m'', ev'', _, _, _, r, hb, hmd⟩ | ⟨hne, _⟩
    · refine ⟨r, hb, ?_⟩
      rintro x rfl o ho
      simp only at hmd
      subst hmd
      clear h1 h2 h3 h4 h6 hs hmm
      -- the thread is dying
      induction post generalizing mem2 with
      | nil => simp [bare] at ho
      | cons e post ih =>
        obtain ⟨g3, h12, h13⟩ := mon_cons h5
        obtain ⟨mem3, d3, md3⟩ := g3
        obtain ⟨_, hst⟩ := mstep_of h12
        simp only at hst
        cases hst with
        | @other _ _ u x' hu =>
          have : disturbIf (touches m0 x') (.dying x) = .dying x := by cases touches m0 x' <;> rfl
          rw [show (monCfg env m0).d.m = m0 from rfl, this] at h13
          exact ih _ (by simpa [bare, hu] using ho) h13
        | drop => exact ih _ (by simpa [bare] using ho) h13
        | enter hc =>
          rcases hc with hc | hc
          · omega
          · cases hc
        | user _ hc => cases hc
        | @own _ x' _ h14 h15 h16 h17 h18 =>
          rw [bare_skip post h14 h15 h16] at ho
          simp [h17] at ho
          subst ho
          cases x' with
          | uncaught y =>
            simp only [own] at h18
            split at h18
            · rename_i hy; rw [hy]
            · cases h18
          | _ => cases h18
    · exact absurd rfl (hne _ _)

/-- The machine's worker. -/
def Env.workerOf (env : Env) (m : MId) : Tid := .worker (env.strat (env.mach m).strat).exec 0

/-- The machine has its own strategy and queue, and its executor has one thread. The strategy was given the machine's
transition table (GenericStateMachine.java:59). -/
structure Alone (env : Env) (m0 : MId) : Prop where
  priv : Private env m0
  single : env.width (env.strat (env.mach m0).strat).exec ≤ 1
  wired : (env.strat (env.mach m0).strat).table = (env.mach m0).table

theorem taken_worker (ha : Alone env m0) (hi : Initial c0) (hr : ReachFrom env c0 c) {q : QId} {ev : Ev}
    (h : (t, Obs.taken q m0 ev) ∈ c.w.trace) : t = env.workerOf m0 := by
  obtain ⟨lst, _, ⟨_, ht⟩, _⟩ := mon_accepted ha.priv hi hr t
  obtain ⟨pre, post, hs⟩ := List.append_of_mem h
  obtain ⟨rfl, _⟩ := at_taken ha.priv hi hr hs
  obtain ⟨s, i, rfl, hlt, hq, _⟩ := ht.taken t _ m0 ev h
  have := ha.priv.queue s hq
  subst this
  have := ha.single
  have : i = 0 := by omega
  subst this
  rfl

/-- Only the worker and the four API methods change the machine. -/
theorem touches_worker (ha : Alone env m0) (hi : Initial c0) (hr : ReachFrom env c0 c) {x : Obs}
    (h : (t, x) ∈ c.w.trace) (ht : touches m0 x = true) (hm : meddles m0 x = false) : t = env.workerOf m0 := by
  refine Classical.byContradiction fun hn => ?_
  obtain ⟨g, h1, _⟩ := history_mon ha.priv hi hr t
  have := (run_idle (cfg := monCfg env m0) rfl (fun q ev hmem => hn (taken_worker ha hi hr hmem)) h1).2.1 x h ht
  rw [show (monCfg env m0).d.m = m0 from rfl, hm] at this
  cases this

theorem undisturbed_of_single (ha : Alone env m0) (hi : Initial c0) (hr : ReachFrom env c0 c) {pre mid post : List (Tid × Obs)}
    (h : c.w.trace = pre ++ mid ++ post) (hm : ∀ e ∈ mid, meddles m0 e.2 = false) : Undisturbed (env.workerOf m0) m0 mid := by
  intro e he ht
  exact ⟨touches_worker (t := e.1) (x := e.2) ha hi hr (by rw [h]; simp [he]) ht (hm e he), hm e he⟩

theorem mem_bare {t : Tid} {d : Nat} {tr : List (Tid × Obs)} {x : Obs} (h : x ∈ bare t d tr) : (t, x) ∈ tr := by
  induction tr generalizing d with
  | nil => cases h
  | cons e tr ih =>
    obtain ⟨u, o⟩ := e
    by_cases hu : u = t
    · subst hu
      by_cases h1 : ∃ s m, o = .taskDropped s m
      · obtain ⟨s, m, rfl⟩ := h1
        simp [bare] at h; exact List.mem_cons_of_mem _ (ih h)
      by_cases h2 : ∃ k, o = .enter k
      · obtain ⟨k, rfl⟩ := h2
        simp [bare] at h; exact List.mem_cons_of_mem _ (ih h)
      by_cases h3 : ∃ k r, o = .leave k r
      · obtain ⟨k, r, rfl⟩ := h3
        simp [bare] at h; exact List.mem_cons_of_mem _ (ih h)
      rw [bare_skip tr (fun s m h => h1 ⟨s, m, h⟩) (fun k h => h2 ⟨k, h⟩) (fun k r h => h3 ⟨k, r, h⟩)] at h
      split at h
      · exact List.mem_cons_of_mem _ (ih h)
      · rcases List.mem_cons.1 h with rfl | h
        · exact List.mem_cons_self
        · exact List.mem_cons_of_mem _ (ih h)
    · simp [bare, hu] at h; exact List.mem_cons_of_mem _ (ih h)

theorem idle_of_none {md : Mode} (h : Mode.ev md = none) : md = .idle ∨ ∃ x, md = .dying x := by
  cases md <;> first | exact Or.inl rfl | exact Or.inr ⟨_, rfl⟩ | cases h

theorem history_open (hp : Private env m0) (hi : Initial c0) (hr : ReachFrom env c0 c) (t : Tid) {pre post : List (Tid × Obs)}
    (h : c.w.trace = pre ++ post) :
    ∃ g, run (monCfg env m0) t (G.init (c0.w.mach m0).listener) pre = some g ∧ ModeOk m0 g.mode ∧
      Mode.ev g.mode = openEv t m0 pre ∧ g.depth = apiDepth t pre ∧ g.mem = machAt c0 m0 pre ∧
      ∃ g', run (monCfg env m0) t g post = some g' := by
  obtain ⟨g, h1, _⟩ := history_mon hp hi hr t
  rw [h] at h1
  obtain ⟨g1, h2, h3⟩ := mon_split h1
  obtain ⟨h4, h5, h6⟩ := run_open (cfg := monCfg env m0) (g := G.init (c0.w.mach m0).listener) trivial h2
  exact ⟨g1, h2, h4, h5, h6, mon_mem h2, g, h3⟩

end

end Verif
