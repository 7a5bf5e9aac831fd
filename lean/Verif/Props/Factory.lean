import Verif.Proofs.Factory
import Verif.Props.Workers
import Verif.Demo.Races
/-
C34: machines do not interfere, if each has a strategy made from a config of its own; machines with default strategies do.
-/

namespace Verif
open Spec (Desc bare meddles openEv apiDepth takenOf)
open Spec.Mon (touches concerns)

section
variable {cmds : List SetupCmd} {env : Env} {m : MId} {s : SId} {t : FStrat}

/-- In program `cmds`, machine `m` was built with a strategy `s` (described by `t`) made from a config which was given
neither queue nor executor; the config was used for no other strategy, and the strategy for no other machine. -/
structure OwnStrategy (cmds : List SetupCmd) (m : MId) (s : SId) (t : FStrat) : Prop where
  built : (Setup.run cmds).machines[m]? = some s
  strat : (Setup.run cmds).strats[s]? = some t
  queue : ∀ q, .withEventQueue t.cfg q ∉ cmds
  exec : ∀ e, .withExecutor t.cfg e ∉ cmds
  config : ∀ s' t', (Setup.run cmds).strats[s']? = some t' → t'.cfg = t.cfg → s' = s
  only : ∀ (m' : Nat), (Setup.run cmds).machines[m']? = some s → m' = m

theorem wire_strat {S : Setup} {s : SId} {t : FStrat} (h : S.strats[s]? = some t) :
    ((S.wire env).strat s).queue = t.queue ∧ ((S.wire env).strat s).exec = t.exec := by
  simp [Setup.wire, h]

theorem wire_none {S : Setup} {s : SId} (h : S.strats[s]? = none) :
    ((S.wire env).strat s).queue = S.queues.length + s ∧ ((S.wire env).strat s).exec = S.execs.length + s := by
  simp [Setup.wire, h]

/-- Every other strategy has another queue and another executor. -/
theorem OwnStrategy.others (h : OwnStrategy cmds m s t) (s' : SId)
    (hs : (((Setup.run cmds).wire env).strat s').queue = (((Setup.run cmds).wire env).strat s).queue ∨
      (((Setup.run cmds).wire env).strat s').exec = (((Setup.run cmds).wire env).strat s).exec) : s' = s := by
  have hm := made_run cmds
  have hq := lazyQ_run (cmds := cmds) (.inr h.queue)
  have he := lazyE_run (cmds := cmds) (.inr h.exec)
  obtain ⟨c, hc, hcq⟩ := hq.s _ _ h.strat rfl
  obtain ⟨c', hc', hce⟩ := he.s _ _ h.strat rfl
  have h1 := hq.c _ _ hc hcq
  have h2 := he.c _ _ hc' hce
  rw [(wire_strat h.strat).1, (wire_strat h.strat).2] at hs
  cases hst : (Setup.run cmds).strats[s']? with
  | none =>
    rw [(wire_none hst).1, (wire_none hst).2] at hs
    obtain ⟨l1, _⟩ := List.getElem?_eq_some_iff.1 h1
    obtain ⟨l2, _⟩ := List.getElem?_eq_some_iff.1 h2
    rcases hs with hs | hs
    · have : @Eq Nat ((Setup.run cmds).queues.length + s') t.queue := hs
      omega
    · have : @Eq Nat ((Setup.run cmds).execs.length + s') t.exec := hs
      omega
  | some t' =>
    rw [(wire_strat hst).1, (wire_strat hst).2] at hs
    refine h.config s' t' hst ?_
    rcases hs with hs | hs
    · rw [← hs] at h1
      rcases hm.sq _ _ hst with h3 | h3 <;> rw [h1] at h3 <;> simp at h3
      exact h3.symm
    · rw [← hs] at h2
      rcases hm.se _ _ hst with ⟨n, h3⟩ | h3 <;> rw [h2] at h3 <;> simp at h3
      exact h3.symm

/-- C34: such a machine has a queue of its own, a single-threaded executor of its own, and its strategy knows its
transition table: it meets the hypotheses of C15-C24, whatever else the program makes. -/
theorem C34_own_strategy (h : OwnStrategy cmds m s t) : Alone ((Setup.run cmds).wire env) m := by
  have hm := made_run cmds
  have hw : (((Setup.run cmds).wire env).mach m).strat = s := by simp [Setup.wire, h.built]
  have he := lazyE_run (cmds := cmds) (.inr h.exec)
  obtain ⟨c', hc', hce⟩ := he.s _ _ h.strat rfl
  refine ⟨⟨fun s' hs => ?_, fun m' hs => ?_⟩, ?_, ?_⟩
  · rw [hw]; exact h.others s' (.inl (by simpa [Env.q, Env.qm, hw] using hs))
  · rw [hw] at hs
    cases hb : (Setup.run cmds).machines[m']? with
    | none =>
      have h1 : (((Setup.run cmds).wire env).mach m').strat = (Setup.run cmds).strats.length + m' := by simp [Setup.wire, hb]
      obtain ⟨l1, _⟩ := List.getElem?_eq_some_iff.1 h.strat
      have : @Eq Nat ((Setup.run cmds).strats.length + m') s := h1.symm.trans hs
      omega
    | some s' =>
      have h1 : (((Setup.run cmds).wire env).mach m').strat = s' := by simp [Setup.wire, hb]
      rw [h1] at hs
      subst hs
      exact h.only m' hb
  · rw [hw, (wire_strat h.strat).2]
    simp [Setup.wire, he.c _ _ hc' hce]
  · rw [hw]
    obtain ⟨t', m', h1, h2⟩ := hm.owned m s h.built
    rw [h.strat] at h1
    cases h1
    have := h.only m' (hm.own _ _ _ h.strat h2)
    subst this
    simp [Setup.wire, h.strat, h2]

/-- C34: and the hypotheses of C22 and C35. -/
theorem C34_own_executor (h : OwnStrategy cmds m s t) :
    ∀ s', (((Setup.run cmds).wire env).strat s').exec = (((Setup.run cmds).wire env).strat s).exec → Sole ((Setup.run cmds).wire env) s' := by
  intro s' hs
  have := h.others s' (.inr hs)
  subst this
  have he := lazyE_run (cmds := cmds) (.inr h.exec)
  obtain ⟨c', hc', hce⟩ := he.s _ _ h.strat rfl
  refine ⟨?_, fun s'' hs => by rw [h.others s'' (.inl hs)]⟩
  rw [(wire_strat h.strat).2]
  simp [Setup.wire, he.c _ _ hc' hce]

/-- C34: nobody else touches the machine: every change of its state or listener is made by its own worker while it
processes an event of this machine, or by a call of `start`, `startInState`, `stop` or `setStateMachineListener` of this
machine. -/
theorem C34_isolated {env : Env} {c0 c : Conf} {t : Tid} {x : Obs} {pre post : List (Tid × Obs)} (ha : Alone env m)
    (hi : Initial c0) (hr : ReachFrom env c0 c) (h : c.w.trace = pre ++ (t, x) :: post) (ht : touches m x = true) :
    meddles m x = true ∨ (t = env.workerOf m ∧ ∃ ev, openEv t m pre = some ev) := by
  cases hm : meddles m x with
  | true => exact .inl rfl
  | false =>
    refine .inr ⟨touches_worker ha hi hr (t := t) (x := x) (by rw [h]; simp) ht hm, ?_⟩
    obtain ⟨g, h1, h2, h3, h4, _, g', h5⟩ := history_open ha.priv hi hr t h
    obtain ⟨g1, h6, _⟩ := mon_cons h5
    have hod : Spec.Mon.onlyDrain x = true := by
      cases x <;> simp_all [touches, meddles, Spec.Mon.onlyDrain]
    have hd : g.depth = 0 := by
      refine Classical.byContradiction fun hn => ?_
      have hd : 0 < g.depth := by omega
      simp only [Spec.Mon.step] at h6
      cases x <;> simp_all [touches, Spec.Mon.onlyDrain]
    have hu : Spec.Calls.userObs x = false := by
      cases x <;> simp_all [touches, meddles, Spec.Calls.userObs]
    have hc : concerns m x = true := by
      cases x <;> simp_all [touches, meddles, concerns]
    obtain ⟨ev, h7, _⟩ := idle_concerns (cfg := monCfg env m) h2 hd hu hc h6
    exact ⟨ev, by rw [← h3, h7]⟩

/-- C34: nobody else consumes its events: what is taken from its queue belongs to it and is taken by its worker, and its
events are taken from nowhere else. -/
theorem C34_own_events {env : Env} {c0 c : Conf} {t : Tid} {q : QId} {m' : MId} {ev : Ev} (ha : Alone env m)
    (hi : Initial c0) (hr : ReachFrom env c0 c) (h : (t, .taken q m' ev) ∈ c.w.trace)
    (hq : q = (env.strat (env.mach m).strat).queue ∨ m' = m) :
    q = (env.strat (env.mach m).strat).queue ∧ m' = m ∧ t = env.workerOf m := by
  obtain ⟨pre, post, hs⟩ := List.append_of_mem h
  obtain ⟨g, h1, h2, h3, h4, _, g', h5⟩ := history_open ha.priv hi hr t hs
  obtain ⟨g1, h6, _⟩ := mon_cons h5
  have : q = env.qm m ∧ m' = m := by
    simp only [Spec.Mon.step, Spec.Mon.onlyDrain, Spec.Calls.userObs] at h6
    by_cases hd : g.depth > 0
    · simp [hd] at h6
    · simp only [ne_eq, not_true_eq_false, if_false, hd, Bool.false_eq_true] at h6
      cases hmd : g.mode with
      | idle =>
        simp only [hmd, Spec.Mon.own] at h6
        by_cases hb : q = (monCfg env m).q ∧ m' = (monCfg env m).d.m
        · exact hb
        · rw [if_neg hb] at h6
          rw [if_pos (show q = (monCfg env m).q ∨ m' = (monCfg env m).d.m from hq)] at h6
          cases h6
      | _ => simp [hmd, Spec.Mon.own] at h6
  obtain ⟨rfl, rfl⟩ := this
  exact ⟨rfl, rfl, taken_worker ha hi hr h⟩

namespace Demo
/-- Machine 0 of the program `separate`. -/
theorem own0 : OwnStrategy separate 0 0 ⟨1, 0, 0, -1, false, some 0⟩ where
  built := by decide +kernel
  strat := by decide +kernel
  queue := fun q h => by simp [separate] at h
  exec := fun e h => by simp [separate] at h
  config := fun s' t' h hc => by
    rw [show (Setup.run separate).strats = [⟨1, 0, 0, -1, false, some 0⟩, ⟨2, 1, 1, -1, true, some 1⟩] by decide +kernel] at h
    match s', h with
    | 0, _ => rfl
    | 1, h => cases h; cases hc
    | n + 2, h => simp at h
  only := fun m' h => by
    rw [show (Setup.run separate).machines = [0, 1] by decide +kernel] at h
    match m', h with
    | 0, _ => rfl
    | 1, h => simp at h
    | n + 2, h => simp at h
end Demo

example (env : Env) : Alone ((Setup.run Demo.separate).wire env) 0 := C34_own_strategy Demo.own0
example (env : Env) : Sole ((Setup.run Demo.separate).wire env) 0 := C34_own_executor Demo.own0 0 rfl

/-- In the tour of machine 0 an exit action of A is followed by the change of the state to B. -/
example : meddles 0 (.cur 0 Demo.B false) = true ∨
    (Demo.w0 = (Demo.env Demo.acts).workerOf 0 ∧ ∃ ev, openEv Demo.w0 0 (Demo.tour.w.trace.take 35) = some ev) :=
  C34_isolated (c := Demo.tour) (post := Demo.tour.w.trace.drop (35 + 1)) (Demo.alone _ _ _) (Demo.conf_initial true) Demo.tour_reach (by decide +kernel) rfl

example : (0 : Nat) = 0 ∧ (0 : Nat) = 0 ∧ Demo.w0 = (Demo.env Demo.acts).workerOf 0 :=
  C34_own_events (c := Demo.tour) (t := Demo.w0) (q := 0) (m' := 0) (ev := Demo.back) (m := 0) (Demo.alone _ _ _)
    (Demo.conf_initial true) Demo.tour_reach (by decide +kernel) (.inr rfl)

/-! Default strategies. -/

/-- C34: a builder that was given no strategy makes one from `basicConfig`. -/
theorem C34_default_builder {S : Setup} {b : Nat} (hb : S.builders[b]? = some none) {c : FConfig} (hc : S.configs[0]? = some c) :
    ∃ t, (S.step (.build b)).machines = S.machines ++ [S.strats.length] ∧ (S.step (.build b)).strats[S.strats.length]? = some t ∧ t.cfg = 0 := by
  obtain ⟨_, h2, h3, h4⟩ := prims_create (ok := fun _ => True) trivial S 0 false
  obtain ⟨t, h2, h5⟩ := h2 c hc
  have h6 : (S.create 0 false).strats[S.strats.length]? = some t := by rw [h2]; exact get_last
  simp only [Setup.step, hb, Setup.machine, h6]
  exact ⟨_, by rw [h4], get_set_same h6, h5⟩

/-- C34 is false for default strategies: all strategies made from `basicConfig`, by whatever program, have the same queue and
the same executor. -/
theorem C34_default_strategies_share {s1 s2 : SId} {t1 t2 : FStrat} (h1 : (Setup.run cmds).strats[s1]? = some t1)
    (h2 : (Setup.run cmds).strats[s2]? = some t2) (hc1 : t1.cfg = 0) (hc2 : t2.cfg = 0) :
    t1.queue = t2.queue ∧ t1.exec = t2.exec := by
  have hq := lazyQ_run (cmds := cmds) (.inl rfl)
  have he := lazyE_run (cmds := cmds) (.inl rfl)
  obtain ⟨c, hc, h3⟩ := hq.s _ _ h1 hc1
  obtain ⟨c', hc', h4⟩ := hq.s _ _ h2 hc2
  obtain ⟨d, hd, h5⟩ := he.s _ _ h1 hc1
  obtain ⟨d', hd', h6⟩ := he.s _ _ h2 hc2
  rw [hc] at hc' hd hd'
  cases hc'; cases hd; cases hd'
  rw [h3] at h4; rw [h5] at h6
  exact ⟨by simpa using h4, by simpa using h6⟩

/-- The default builder, twice: the two machines have different strategies with one queue. -/
theorem C34_default_not_private (hm : (m : Nat) ≠ m') (h1 : (Setup.run cmds).machines[m]? = some s)
    (h2 : (Setup.run cmds).machines[(m' : Nat)]? = some s') (h3 : (Setup.run cmds).strats[s]? = some t) (h4 : (Setup.run cmds).strats[s']? = some t')
    (hc : t.cfg = 0) (hc' : t'.cfg = 0) : ¬ Private ((Setup.run cmds).wire env) m := by
  intro hp
  obtain ⟨h5, _⟩ := C34_default_strategies_share h3 h4 hc hc'
  have hw : (((Setup.run cmds).wire env).mach m).strat = s := by simp [Setup.wire, h1]
  have hw' : (((Setup.run cmds).wire env).mach m').strat = s' := by simp [Setup.wire, h2]
  have := hp.queue s' (by
    simp only [Env.q, Env.qm, hw]
    rw [(wire_strat h3).1, (wire_strat h4).1, h5])
  rw [hw] at this
  exact hm (hp.mach m' (by rw [hw, hw', this])).symm

example : (Setup.run Demo.defaults).machines = [0, 1] ∧
    (Setup.run Demo.defaults).strats = [⟨0, 0, 0, -1, false, some 0⟩, ⟨0, 0, 0, -1, false, some 1⟩] := by decide +kernel
example : ¬ Private Demo.sharing 0 :=
  C34_default_not_private (m := 0) (m' := 1) (s := 0) (s' := 1) (t := ⟨0, 0, 0, -1, false, some 0⟩) (t' := ⟨0, 0, 0, -1, false, some 1⟩)
    (by decide) (by decide +kernel) (by decide +kernel) (by decide +kernel) (by decide +kernel) rfl rfl

/-- C34 is false for default builders: an execution of two machines made by default builders, in which machine 1, which
in state A should go to D when it receives `go`, goes to B, a state it was never configured with, because the drain
task of machine 0 processed the event with the table of machine 0. -/
theorem C34_negation_wrong_table : ∃ env0 c0 c, let env := (Setup.run [.newBuilder, .build 0, .newBuilder, .build 1]).wire env0
    Initial c0 ∧ ReachFrom env c0 c ∧ (env.desc 1).reaction (some Demo.A) Demo.go = .goes Demo.D ∧
    (∀ ev, (env.desc 1).reaction (some Demo.B) ev = .nowhere) ∧
    takenOf 1 c.w.trace = [Demo.go] ∧ (c.w.mach 1).cur = some Demo.B :=
  ⟨Demo.twoTables, Demo.conf, Demo.both Demo.go Demo.go, Demo.conf_initial _, Demo.both_reach _ _, by decide +kernel,
    fun _ => rfl, by decide +kernel, by decide +kernel⟩

/-- C34 is false for default builders: an execution in which an event of machine 1, which was started and has not ended, is
taken from the queue and thrown away, because machine 0 has ended. -/
theorem C34_negation_lost_event : ∃ env0 c0 c, let env := (Setup.run [.newBuilder, .build 0, .newBuilder, .build 1]).wire env0
    Initial c0 ∧ ReachFrom env c0 c ∧ (env.desc 1).reaction (some Demo.A) Demo.go = .goes Demo.D ∧
    (c.w.mach 0).ended = true ∧ takenOf 1 c.w.trace = [Demo.go] ∧ c.w.queue (env.qm 1) = [] ∧
    (c.w.mach 1).started = true ∧ (c.w.mach 1).ended = false ∧ (c.w.mach 1).cur = some Demo.A :=
  ⟨Demo.twoTables, Demo.conf, Demo.both Demo.quit Demo.go, Demo.conf_initial _, Demo.both_reach _ _, by decide +kernel,
    by decide +kernel, by decide +kernel, by decide +kernel, by decide +kernel, by decide +kernel, by decide +kernel⟩

end
end Verif
