import Verif.Props.Queue
import Verif.Props.Events
/-
C64, C65: what the documentation says.
-/

namespace Verif
open Spec (accepted taken bare meddles openEv apiDepth takenOf openStep)
open Spec.Mon
open Spec.Calls (userObs)

section
variable {env : Env} {c0 c : Conf} {t : Tid} {m : MId} {ev : Ev} {pre mid post : List (Tid × Obs)}

/-! #### C64 -/

/-- The actions that are run in a piece of history, in order. -/
def actionsIn (os : List Obs) : List Cb := os.filterMap fun
  | .cb (.action m k o i ev) => some (.action m k o i ev)
  | _ => none

/-- The listener calls in a piece of history, in order. -/
def notesIn (os : List Obs) : List Cb := os.filterMap fun
  | .cb (.begin m f ev t) => some (.begin m f ev t)
  | .cb (.end_ m f ev t) => some (.end_ m f ev t)
  | _ => none

theorem actionsIn_append (a b : List Obs) : actionsIn (a ++ b) = actionsIn a ++ actionsIn b := List.filterMap_append
theorem notesIn_append (a b : List Obs) : notesIn (a ++ b) = notesIn a ++ notesIn b := List.filterMap_append

theorem actionsIn_shown (m : MId) (k : Kind) (o : Nat) (l : List Nat) :
    actionsIn (Spec.shown (l.map fun i => .action m k o i ev)) = l.map fun i => .action m k o i ev := by
  induction l with
  | nil => rfl
  | cons i l ih =>
    show _ = Cb.action m k o i ev :: _
    rw [← ih]; rfl

theorem notesIn_shown (m : MId) (k : Kind) (o : Nat) (l : List Nat) :
    notesIn (Spec.shown (l.map fun i => .action m k o i ev)) = [] := by
  induction l with
  | nil => rfl
  | cons i l ih => rw [← ih]; rfl

/-- What a completed transition runs and reports. -/
theorem transition_callbacks (d : Spec.Desc) (l : Bool) (a b : St) :
    actionsIn (Spec.shown (d.before l a ev b) ++ d.change b ++ Spec.shown (d.afterwards l a ev b) ++ d.ending b) =
      ((List.range (d.nacts .exit a.oid)).map fun i => .action d.m .exit a.oid i ev) ++
      ((List.range (d.nacts .entry b.oid)).map fun i => .action d.m .entry b.oid i ev) ∧
    notesIn (Spec.shown (d.before l a ev b) ++ d.change b ++ Spec.shown (d.afterwards l a ev b) ++ d.ending b) =
      if l then [.begin d.m a ev b, .end_ d.m a ev b] else [] := by
  have h1 : actionsIn (d.change b) = [] := rfl
  have h2 : notesIn (d.change b) = [] := rfl
  have h3 : actionsIn (d.ending b) = [] := by unfold Spec.Desc.ending; split <;> rfl
  have h4 : notesIn (d.ending b) = [] := by unfold Spec.Desc.ending; split <;> rfl
  simp only [actionsIn_append, notesIn_append, h1, h2, h3, h4, Spec.Desc.before, Spec.Desc.afterwards, shown_append, actionsIn_shown,
    notesIn_shown]
  cases l <;> simp [Spec.shown, actionsIn, notesIn]

/-- C64: an event that ends the machine (its target is `_END_`, "it ends") and is processed without exceptions: all exit actions of the
current state are run, in order, then the entry actions of `_END_`, if it has any; nothing else. The listener is told of a transition to
`_END_`. Then the machine has ended and is in `_END_`. -/
theorem C64_ending_event (h : Processing env c0 c t m ev pre mid post) {a b : St} (he : (machAt c0 m pre).ended = false)
    (hc : (machAt c0 m pre).cur = some a) (hb : (env.desc m).reaction (some a) ev = .goes b) (hn : b.name = resEnd)
    (hok : ∀ c x, Obs.cbRet c (some x) ∉ bare t 0 mid) (q : QId) :
    actionsIn (bare t 0 mid) = ((List.range (env.acts .exit a.oid).length).map fun i => .action m .exit a.oid i ev) ++
      ((List.range (env.acts .entry b.oid).length).map fun i => .action m .entry b.oid i ev) ∧
    notesIn (bare t 0 mid) = (if (machAt c0 m pre).lst.isSome then [.begin m a ev b, .end_ m a ev b] else []) ∧
    (machAt c0 m (pre ++ (t, .taken q m ev) :: mid)).st = ⟨some b, true⟩ := by
  obtain ⟨r, h1⟩ := C16_transition h he hc hb
  have h2 := C23_final_state_ends h he hc hb hok q
  rw [if_pos hn] at h2
  have h3 := transition_callbacks (ev := ev) (env.desc m) (machAt c0 m pre).lst.isSome a b
  rw [← (transition_ok h1 hok).1] at h3
  exact ⟨h3.1, h3.2, h2⟩

/-- C64: a transition into a final state: the exit actions of the old state and the entry actions of the final state are run, nothing
else, in particular no exit action of the final state. The listener is told of the transition to the final state, but not of the end.
Then the machine has ended and is in `_END_`. -/
theorem C64_final_state (h : Processing env c0 c t m ev pre mid post) {a b : St} (he : (machAt c0 m pre).ended = false)
    (hc : (machAt c0 m pre).cur = some a) (hb : (env.desc m).reaction (some a) ev = .goes b) (hn : b.name ≠ resEnd)
    (hf : (env.desc m).final b = true) (hok : ∀ c x, Obs.cbRet c (some x) ∉ bare t 0 mid) (q : QId) :
    actionsIn (bare t 0 mid) = ((List.range (env.acts .exit a.oid).length).map fun i => .action m .exit a.oid i ev) ++
      ((List.range (env.acts .entry b.oid).length).map fun i => .action m .entry b.oid i ev) ∧
    notesIn (bare t 0 mid) = (if (machAt c0 m pre).lst.isSome then [.begin m a ev b, .end_ m a ev b] else []) ∧
    (machAt c0 m (pre ++ (t, .taken q m ev) :: mid)).st = ⟨some (env.mach m).res.endSt, true⟩ := by
  obtain ⟨r, h1⟩ := C16_transition h he hc hb
  have h2 := C23_final_state_ends h he hc hb hok q
  rw [if_neg hn, if_pos hf] at h2
  have h3 := transition_callbacks (ev := ev) (env.desc m) (machAt c0 m pre).lst.isSome a b
  rw [← (transition_ok h1 hok).1] at h3
  exact ⟨h3.1, h3.2, h2⟩

namespace Demo

/-- Leaving A and leaving B run an action; so does entering C. -/
def leaving : Kind → Nat → List (Ev → MId → UProg)
  | .exit, 1 => [fun _ _ => noteP 10]
  | .exit, 2 => [fun _ _ => noteP 22, fun _ _ => noteP 23]
  | .entry, 3 => [fun _ _ => noteP 30]
  | .exit, 3 => [fun _ _ => noteP 31]
  | _, _ => []

/-- Into B, then an event that ends the machine. -/
def leaves : Conf := worked (Demo.env leaving) [go, quit]
/-- Into the final state C. -/
def arrives : Conf := worked (Demo.env leaving) [quit]

theorem leaves_reach : ReachFrom (Demo.env leaving) (conf true) leaves := drive_reach _ _ _
theorem arrives_reach : ReachFrom (Demo.env leaving) (conf true) arrives := drive_reach _ _ _

/-- Event `quit` in B ends the machine. -/
theorem p_leaves : Processing (Demo.env leaving) (conf true) leaves w0 0 quit (leaves.w.trace.take 28) ((leaves.w.trace.drop 29).take 12)
    (leaves.w.trace.drop 42) :=
  processing_of 28 12 (q := 0) (m' := 0) (ev' := quit) (alone _ _ _) (conf_initial _) leaves_reach rfl (by decide +kernel)
    (by decide +kernel) (by decide +kernel)

/-- Event `quit` in A leads to the final state C. -/
theorem p_arrives : Processing (Demo.env leaving) (conf true) arrives w0 0 quit (arrives.w.trace.take 13)
    ((arrives.w.trace.drop 14).take 14) (arrives.w.trace.drop 29) :=
  processing_of 13 14 (q := 0) (m' := 0) (ev' := quit) (alone _ _ _) (conf_initial _) arrives_reach rfl (by decide +kernel)
    (by decide +kernel) (by decide +kernel)

theorem no_throw {os : List Obs} (h : os.all (fun e => match e with | .cbRet _ (some _) => false | _ => true) = true) (c : Cb) (x : Exc) :
    Obs.cbRet c (some x) ∉ os := fun hm => absurd (List.all_eq_true.1 h _ hm) (by simp)

/-- Both exit actions of B are run. -/
example : actionsIn (bare w0 0 ((leaves.w.trace.drop 29).take 12)) = [.action 0 .exit 2 0 quit, .action 0 .exit 2 1 quit] :=
  (C64_ending_event p_leaves (a := B) (b := rs.endSt) (by decide +kernel) (by decide +kernel) (by decide +kernel) rfl
    (no_throw (by decide +kernel)) 0).1

/-- The exit action of A and the entry action of C are run, not the exit action of C. -/
example : actionsIn (bare w0 0 ((arrives.w.trace.drop 14).take 14)) = [.action 0 .exit 1 0 quit, .action 0 .entry 3 0 quit] :=
  (C64_final_state p_arrives (a := A) (b := C) (by decide +kernel) (by decide +kernel) (by decide +kernel) (by decide +kernel)
    (by decide +kernel) (no_throw (by decide +kernel)) 0).1

end Demo

/-- C64: the documentation (docs/04-configure.md:114-115) says that an event configured with "it ends" makes the machine "immediately stop
with no actions executing". That is not so. -/
theorem C64_negation_documentation : ¬ ∀ (env : Env) (c0 c : Conf) (t : Tid) (m : MId) (ev : Ev) (pre mid post : List (Tid × Obs)) (a b : St),
    Processing env c0 c t m ev pre mid post → (machAt c0 m pre).ended = false → (machAt c0 m pre).cur = some a →
    (env.desc m).reaction (some a) ev = .goes b → b.name = resEnd → actionsIn (bare t 0 mid) = [] := by
  intro h
  have := h _ _ _ _ _ _ _ _ _ Demo.B Demo.rs.endSt Demo.p_leaves (by decide +kernel) (by decide +kernel) (by decide +kernel) rfl
  revert this
  decide +kernel

/-! #### C65 -/

/-- Number of events of machine `m` whose processing has been completed. -/
def completed (m : MId) (tr : List (Tid × Obs)) : Nat :=
  tr.countP fun e => match e.2 with
    | .done m' _ => m' = m
    | _ => false

theorem done_worker (ha : Alone env m) (hi : Initial c0) (hr : ReachFrom env c0 c) (h : c.w.trace = pre ++ (t, .done m ev) :: post) :
    t = env.workerOf m ∧ openEv t m pre = some ev := by
  obtain ⟨g, h1, h2, h3, h4, _, g', h5⟩ := history_open ha.priv hi hr t h
  obtain ⟨g1, h6, _⟩ := mon_cons h5
  have hd : g.depth = 0 := by
    refine Classical.byContradiction fun hn => ?_
    simp only [Spec.Mon.step, ne_eq, not_true_eq_false, if_false, if_pos (show g.depth > 0 by omega)] at h6
    cases h6
  obtain ⟨h7, ev', h8, _, h9⟩ := C15_only_for_the_event ha hi hr h (by rw [← h4, hd]) rfl (by simp [concerns])
  exact ⟨h7, by rw [h8, h9 _ _ rfl]⟩

theorem taken_private (hp : Private env m) (hi : Initial c0) (hr : ReachFrom env c0 c) {m' : MId}
    (h : c.w.trace = pre ++ (t, .taken (env.qm m) m' ev) :: post) : m' = m := by
  obtain ⟨g, h1, h2, h3, h4, _, g', h5⟩ := history_open hp hi hr t h
  obtain ⟨g1, h6, _⟩ := mon_cons h5
  refine Classical.byContradiction fun hn => ?_
  simp only [Spec.Mon.step, ne_eq, not_true_eq_false, if_false] at h6
  split at h6
  · cases h6
  · simp only [userObs] at h6
    obtain ⟨mem, d, md⟩ := g
    cases md <;> simp [own, monCfg, hn, desc] at h6

theorem accounting (ha : Alone env m) (hi : Initial c0) (hr : ReachFrom env c0 c) : ∀ (tr post : List (Tid × Obs)), c.w.trace = tr ++ post →
    (taken (env.qm m) tr).length = completed m tr + (if (openEv (env.workerOf m) m tr).isSome then 1 else 0) := by
  intro tr
  induction h : tr.length generalizing tr with
  | zero => intro post _; rw [List.length_eq_zero_iff.1 h]; rfl
  | succ n ih =>
    intro post hs
    obtain ⟨pre, e, rfl⟩ : ∃ pre e, tr = pre ++ [e] :=
      ⟨tr.dropLast, tr.getLast (by intro h0; simp [h0] at h), (List.dropLast_concat_getLast _).symm⟩
    have hs' : c.w.trace = pre ++ e :: post := by rw [hs]; simp
    have := ih pre (by simpa using h) _ hs'
    have e1 : taken (env.qm m) (pre ++ [e]) = taken (env.qm m) pre ++ taken (env.qm m) [e] := List.filterMap_append
    have e2 : completed m (pre ++ [e]) = completed m pre + completed m [e] := List.countP_append
    have e3 : openEv (env.workerOf m) m (pre ++ [e]) = openStep (env.workerOf m) m (openEv (env.workerOf m) m pre) e := by
      simp [openEv, List.foldl_append]
    rw [e1, e2, e3, List.length_append, this]
    clear e1 e2 e3
    obtain ⟨t, o⟩ := e
    by_cases h1 : ∃ q m' ev, o = .taken q m' ev
    · obtain ⟨q, m', ev, rfl⟩ := h1
      by_cases hq : q = env.qm m
      · subst hq
        have := taken_private ha.priv hi hr hs'
        subst this
        have hw := taken_worker ha hi hr (t := t) (q := env.qm m') (ev := ev) (by rw [hs']; simp)
        obtain ⟨_, g, hg1, hg2, _⟩ := at_taken ha.priv hi hr hs'
        obtain ⟨g', hg1', _, hg3, _⟩ := history_open ha.priv hi hr t hs'
        rw [hg1] at hg1'; cases hg1'
        rw [hg2] at hg3
        have hg3 : openEv (env.workerOf m') m' pre = none := by rw [← hw, ← hg3]; rfl
        rw [hg3]
        simp [taken, completed, openStep, ← hw]
      · have hm : m' ≠ m := by
          rintro rfl
          exact hq (at_taken ha.priv hi hr hs').1
        simp [taken, completed, openStep, hq, hm]
    · by_cases h2 : ∃ ev, o = .done m ev
      · obtain ⟨ev, rfl⟩ := h2
        obtain ⟨rfl, h3⟩ := done_worker ha hi hr hs'
        rw [h3]
        simp [taken, completed, openStep]
      · by_cases h3 : ∃ m' ev, o = .done m' ev
        · obtain ⟨m', ev, rfl⟩ := h3
          have : m' ≠ m := by rintro rfl; exact h2 ⟨_, rfl⟩
          simp [taken, completed, openStep, this]
        · cases o <;> first | rfl | (exact absurd ⟨_, _, _, rfl⟩ h1) | (exact absurd ⟨_, _, rfl⟩ h3)

/-- C65: for a machine with a queue of its own and one worker, whenever any thread asks: `getEventQueueSize()`, plus one if an event of
the machine is being processed, is the number of events that have been accepted but have not completed processing. -/
theorem C65_queue_size (ha : Alone env m) (hi : Initial c0) (hr : ReachFrom env c0 c) (t : Tid) :
    ∀ r w', exec t (.qSize (env.strat (env.mach m).strat).queue) c.w = (r, w') →
      r + (if (openEv (env.workerOf m) m c.w.trace).isSome then 1 else 0) + completed m c.w.trace =
        (accepted (env.strat (env.mach m).strat).queue c.w.trace).length := by
  intro r w' he
  have h1 := (C33_queue_size env c ⟨c0, hi, hr⟩ m t r w' he).1
  have h2 := accounting ha hi hr c.w.trace [] (by simp)
  have h3 : env.qm m = (env.strat (env.mach m).strat).queue := rfl
  rw [h3] at h2
  have h4 : ∀ a b c d e : Nat, a + d = e → d = c + b → a + b + c = e := fun _ _ _ _ _ => by omega
  exact h4 r _ _ _ _ h1 h2

theorem exec_qSize (t : Tid) (q : QId) (w : World) : exec t (.qSize q) w = ((w.queue q).length, w) := rfl

theorem Demo.twoFired_from : ReachFrom (Demo.env Demo.acts) (Demo.conf true) Demo.twoFired := drive_reach _ _ _

/-- Two events have been accepted. One of them is being processed, and none has completed. -/
example : ∀ r w', exec (.client 5) (.qSize ((Demo.env Demo.acts).strat ((Demo.env Demo.acts).mach 0).strat).queue) Demo.twoFired.w = (r, w') →
    r + (if (openEv ((Demo.env Demo.acts).workerOf 0) 0 Demo.twoFired.w.trace).isSome then 1 else 0) + completed 0 Demo.twoFired.w.trace =
      (accepted ((Demo.env Demo.acts).strat ((Demo.env Demo.acts).mach 0).strat).queue Demo.twoFired.w.trace).length :=
  C65_queue_size (c := Demo.twoFired) (m := 0) (Demo.alone Demo.acts 0 false) (Demo.conf_initial true) Demo.twoFired_from (.client 5)

example : (Demo.twoFired.w.queue 0).length = 1 ∧ completed 0 Demo.twoFired.w.trace = 0 ∧ (accepted 0 Demo.twoFired.w.trace).length = 2 := by
  decide +kernel

/-- C65: the documentation of `getEventQueueSize()` (api/StateMachine.java:106-109), "the number of `StateEvent`s that haven't completed
processing", is wrong while an event is being processed. -/
theorem C65_negation_documentation : ¬ ∀ (env : Env) (c0 c : Conf) (m : MId) (t : Tid) (r : Nat) (w' : World), Alone env m → Initial c0 →
    ReachFrom env c0 c → exec t (.qSize (env.strat (env.mach m).strat).queue) c.w = (r, w') →
    r + completed m c.w.trace = (accepted (env.strat (env.mach m).strat).queue c.w.trace).length := by
  intro h
  have := h (Demo.env Demo.acts) _ Demo.twoFired 0 (.client 5) _ _
    (Demo.alone Demo.acts 0 false) (Demo.conf_initial true) (drive_reach _ _ _) (exec_qSize _ _ _)
  revert this
  decide +kernel

end
end Verif
