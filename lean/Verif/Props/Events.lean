import Verif.Demo.Events
/-
C15-C24: processing of events. The theorems are about a machine with a queue of its own and a single-threaded executor
(`Alone`), in every environment (arbitrary user code, any other machines, any number of client threads) and under every
schedule.
-/

namespace Verif
open Spec (Desc MSt bare meddles shown Report Transition Notify Reaction Handles Events begins openEv apiDepth takenOf IsEvent)
open Spec.Mon
open Spec.Calls (userObs)

/-- The machine as configured: its own table (not the one its strategy holds), its reserved end state, the numbers of
actions of state objects. -/
def Env.desc (env : Env) (m : MId) : Desc where
  m := m
  table := (env.mach m).table
  endSt := (env.mach m).res.endSt
  nacts := fun k o => (env.acts k o).length

theorem Alone.desc {env : Env} {m : MId} (h : Alone env m) : (monCfg env m).d = env.desc m := by
  simp only [monCfg, Verif.desc, Env.desc, h.wired]

/-- In the history of a reachable configuration, thread `t` processes event `ev` of machine `m`: `pre` is the history
before it takes the event, `mid` what happens (in all threads) until it has finished, `post` the rest. Meanwhile nobody
starts or stops the machine or replaces its listener. -/
structure Processing (env : Env) (c0 c : Conf) (t : Tid) (m : MId) (ev : Ev) (pre mid post : List (Tid × Obs)) : Prop where
  alone : Alone env m
  init : Initial c0
  reach : ReachFrom env c0 c
  event : IsEvent c.w.trace t m ev pre mid post
  calm : ∀ e ∈ mid, meddles m e.2 = false

section
variable {env : Env} {c0 c : Conf} {t : Tid} {m : MId} {ev : Ev} {pre mid post : List (Tid × Obs)}

theorem machAt_append (a b : List (Tid × Obs)) : machAt c0 m (a ++ b) = (machAt c0 m a).after m b := by
  simp [machAt, Mem.after, List.foldl_append]

theorem Processing.worker (h : Processing env c0 c t m ev pre mid post) : t = env.workerOf m := by
  obtain ⟨⟨q, m', ev', hs⟩, _⟩ := h.event
  exact taken_worker h.alone h.init h.reach (q := q) (ev := ev) (by rw [hs]; simp)

theorem Processing.undisturbed (h : Processing env c0 c t m ev pre mid post) : Undisturbed t m mid := by
  have ht := h.worker
  obtain ⟨⟨q, m', ev', hs⟩, _⟩ := h.event
  rw [ht]
  exact undisturbed_of_single h.alone h.init h.reach (pre := pre ++ [(t, .taken q m ev)]) (post := (t, .done m' ev') :: post)
    (by rw [hs]; simp) h.calm

/-- The state of the machine when the event is finished. -/
theorem Processing.state (h : Processing env c0 c t m ev pre mid post) (q : QId) :
    machAt c0 m (pre ++ (t, .taken q m ev) :: mid) = (bare t 0 mid).foldl (Mem.step m) (machAt c0 m pre) := by
  have hu := h.undisturbed
  obtain ⟨⟨q', m', ev', hs⟩, _⟩ := h.event
  obtain ⟨_, g, _, _, _, g', h1⟩ := at_taken h.alone.priv h.init h.reach hs
  obtain ⟨g1, h2, _⟩ := mon_split h1
  have h3 := mem_undisturbed (cfg := monCfg env m) hu h2
  rw [machAt_append]
  have h4 := mon_mem h2
  rw [h3] at h4
  exact h4.symm

theorem Processing.handles (h : Processing env c0 c t m ev pre mid post) :
    ∃ r, Handles (env.desc m) (machAt c0 m pre) ev (bare t 0 mid) r ∧
      ∀ x, r = some x → ∀ o, (bare t 0 post).head? = some o → o = .uncaught x := by
  obtain ⟨r, h1, h2⟩ := event_done h.alone.priv h.init h.reach h.event h.undisturbed
  refine ⟨r, ?_, h2⟩
  rw [← h.alone.desc]
  exact handles_of_behaves h1

/-- The event taken at position `i` of the history and finished after `n` further entries. -/
theorem processing_of (i n : Nat) {q : QId} {m' : MId} {ev' : Ev} {tr : List (Tid × Obs)} (ha : Alone env m) (hi : Initial c0)
    (hr : ReachFrom env c0 c) (htr : c.w.trace = tr)
    (h : tr = tr.take i ++ (t, .taken q m ev) :: ((tr.drop (i + 1)).take n ++ (t, .done m' ev') :: tr.drop (i + n + 2)))
    (hnd : ((tr.drop (i + 1)).take n).all (fun e => match e with | (u, .done ..) => u != t | _ => true) = true)
    (hm : ((tr.drop (i + 1)).take n).all (fun e => !meddles m e.2) = true) :
    Processing env c0 c t m ev (tr.take i) ((tr.drop (i + 1)).take n) (tr.drop (i + n + 2)) where
  alone := ha
  init := hi
  reach := hr
  event := by rw [htr]; exact isEvent_of i n h hnd
  calm := fun e he => by simpa using List.all_eq_true.1 hm e he

namespace Demo

/-- Event `go` in the demo run `tour`: from A to B. -/
theorem p_go : Processing (Demo.env acts) (conf true) tour w0 0 go (tour.w.trace.take 25) ((tour.w.trace.drop 26).take 18)
    (tour.w.trace.drop 45) :=
  processing_of 25 18 (q := 0) (m' := 0) (ev' := go) (alone _ _ _) (conf_initial _) tour_reach rfl (by decide +kernel)
    (by decide +kernel) (by decide +kernel)

/-- Event `stay`: no transition. -/
theorem p_stay : Processing (Demo.env acts) (conf true) tour w0 0 stay (tour.w.trace.take 45) ((tour.w.trace.drop 46).take 4)
    (tour.w.trace.drop 51) :=
  processing_of 45 4 (q := 0) (m' := 0) (ev' := stay) (alone _ _ _) (conf_initial _) tour_reach rfl (by decide +kernel)
    (by decide +kernel) (by decide +kernel)

/-- Event `stay` in A: unmapped. -/
theorem p_unmapped : Processing (Demo.env acts) (conf true) quits w0 0 stay (quits.w.trace.take 21) ((quits.w.trace.drop 22).take 2)
    (quits.w.trace.drop 25) :=
  processing_of 21 2 (q := 0) (m' := 0) (ev' := stay) (alone _ _ _) (conf_initial _) quits_reach rfl (by decide +kernel)
    (by decide +kernel) (by decide +kernel)

/-- Event `quit`: into the final state C. -/
theorem p_final : Processing (Demo.env acts) (conf true) quits w0 0 quit (quits.w.trace.take 25) ((quits.w.trace.drop 26).take 14)
    (quits.w.trace.drop 41) :=
  processing_of 25 14 (q := 0) (m' := 0) (ev' := quit) (alone _ _ _) (conf_initial _) quits_reach rfl (by decide +kernel)
    (by decide +kernel) (by decide +kernel)

/-- Event `go` of the ended machine. -/
theorem p_over : Processing (Demo.env acts) (conf true) quits w0 0 go (quits.w.trace.take 41) ((quits.w.trace.drop 42).take 0)
    (quits.w.trace.drop 43) :=
  processing_of 41 0 (q := 0) (m' := 0) (ev' := go) (alone _ _ _) (conf_initial _) quits_reach rfl (by decide +kernel)
    (by decide +kernel) (by decide +kernel)

/-- Event `quit` in B: ends the machine. -/
theorem p_quit : Processing (Demo.env acts) (conf true) ends w0 0 quit (ends.w.trace.take 37) ((ends.w.trace.drop 38).take 6)
    (ends.w.trace.drop 45) :=
  processing_of 37 6 (q := 0) (m' := 0) (ev' := quit) (alone _ _ _) (conf_initial _) ends_reach rfl (by decide +kernel)
    (by decide +kernel) (by decide +kernel)

/-- An exit action throws. -/
theorem p_exit : Processing (Demo.env badExit) (conf true) failsBefore w0 0 go (failsBefore.w.trace.take 17)
    ((failsBefore.w.trace.drop 18).take 9) (failsBefore.w.trace.drop 28) :=
  processing_of 17 9 (q := 0) (m' := 0) (ev' := go) (alone _ _ _) (conf_initial _) failsBefore_reach rfl (by decide +kernel)
    (by decide +kernel) (by decide +kernel)

/-- An entry action of a final state throws. -/
theorem p_entry : Processing (Demo.env badEntry) (conf true) failsAfter w0 0 quit (failsAfter.w.trace.take 13)
    ((failsAfter.w.trace.drop 14).take 8) (failsAfter.w.trace.drop 23) :=
  processing_of 13 8 (q := 0) (m' := 0) (ev' := quit) (alone _ _ _) (conf_initial _) failsAfter_reach rfl (by decide +kernel)
    (by decide +kernel) (by decide +kernel)

end Demo

/-! #### C15 -/

/-- C15: if two events of a machine are taken from its queue, the same thread takes both, and before it takes the second
it has completely finished the first: it gives the first one back, has taken nothing else before that, and after that
does nothing for the machine (no callback, no action, no state change, no report) until it takes the second. -/
theorem C15_one_at_a_time (ha : Alone env m) (hi : Initial c0) (hr : ReachFrom env c0 c) {t' : Tid} {ev' : Ev} {q q' : QId}
    (h : c.w.trace = pre ++ (t, .taken q m ev) :: (mid ++ (t', .taken q' m ev') :: post))
    (hnext : ∀ u q ev, (u, Obs.taken q m ev) ∉ mid) :
    t' = t ∧ q' = q ∧ ∃ mid1 mid2, mid = mid1 ++ (t, .done m ev) :: mid2 ∧ (∀ q m' ev, (t, Obs.taken q m' ev) ∉ mid1) ∧
      (∀ m' ev, (t, Obs.done m' ev) ∉ mid1) ∧ ∀ x ∈ bare t 0 mid2, concerns m x = false := by
  have ht := taken_worker ha hi hr (t := t) (q := q) (ev := ev) (by rw [h]; simp)
  have ht' := taken_worker ha hi hr (t := t') (q := q') (ev := ev') (by rw [h]; simp)
  have htt : t' = t := by rw [ht, ht']
  subst htt
  obtain ⟨rfl, _, _, _, _, g', h1⟩ := at_taken ha.priv hi hr h
  obtain ⟨g1, h2, h3⟩ := mon_split h1
  obtain ⟨g2, h4, h5⟩ := mon_cons h3
  obtain ⟨hd, hid, rfl, _⟩ := step_taken (cfg := monCfg env m) h4
  refine ⟨rfl, rfl, ?_⟩
  have hok : ModeOk (monCfg env m).d.m (.busy ev (planNow (monCfg env m).d (machAt c0 m pre) ev) false) :=
    fun c hc => planNow_for hc
  obtain ⟨mid1, mid2, h6, h7, h8, g3, h9, h10, h11, h12⟩ := busy_done (cfg := monCfg env m) (ev := ev)
    hok rfl h2 (by rw [hid]; rfl)
  have hnt : ∀ q ev, (t', Obs.taken q m ev) ∉ mid2 := fun q ev hmem =>
    hnext t' q ev (by rw [h6]; exact List.mem_append_right _ (List.mem_cons_of_mem _ hmem))
  refine ⟨mid1, mid2, h6, h7, h8, ?_⟩
  rcases idle_of_none h11 with h13 | ⟨x, h13⟩
  · have := (run_idle (cfg := monCfg env m) h13 hnt h9).2.2
    rw [h12] at this
    exact this
  · exact dying_concerns (cfg := monCfg env m) h13 h12 hnt h9

/-- In the demo run `tour`, events `go` (position 25) and `stay` (position 45) are processed one after the other. -/
example : Demo.w0 = Demo.w0 ∧ (0 : QId) = 0 ∧ ∃ mid1 mid2, (Demo.tour.w.trace.drop 26).take 19 =
      mid1 ++ (Demo.w0, .done 0 Demo.go) :: mid2 ∧ (∀ q m' ev, (Demo.w0, Obs.taken q m' ev) ∉ mid1) ∧
      (∀ m' ev, (Demo.w0, Obs.done m' ev) ∉ mid1) ∧ ∀ x ∈ bare Demo.w0 0 mid2, concerns 0 x = false :=
  C15_one_at_a_time (c := Demo.tour) (m := 0) (ev := Demo.go) (ev' := Demo.stay) (pre := Demo.tour.w.trace.take 25)
    (post := Demo.tour.w.trace.drop 46) (Demo.alone Demo.acts 0 false) (Demo.conf_initial true) Demo.tour_reach (by decide +kernel)
    (fun u q ev h => by
      have := (by decide +kernel : ((Demo.tour.w.trace.drop 26).take 19).all
        (fun e => match e.2 with | .taken .. => false | _ => true) = true)
      exact absurd (List.all_eq_true.1 this _ h) (by simp))

/-- C15, continued: whatever any thread does for a machine outside API calls (callbacks, actions, handlers, reports, state
changes), it is the machine's one worker that does it, and it does it for the event it has taken and not yet given back. -/
theorem C15_only_for_the_event (ha : Alone env m) (hi : Initial c0) (hr : ReachFrom env c0 c) {x : Obs}
    (h : c.w.trace = pre ++ (t, x) :: post) (hd : apiDepth t pre = 0) (hu : userObs x = false) (hc : concerns m x = true) :
    t = env.workerOf m ∧ ∃ ev, openEv t m pre = some ev ∧ (∀ c, x = .cb c → cbFor m ev c) ∧ (∀ m' ev', x = .done m' ev' → ev' = ev) := by
  obtain ⟨g, h1, h2, h3, h4, _, g', h5⟩ := history_open ha.priv hi hr t h
  obtain ⟨g1, h6, _⟩ := mon_cons h5
  obtain ⟨ev, h7, h8, h9⟩ := idle_concerns (cfg := monCfg env m) h2 (by rw [h4, hd]) hu hc h6
  refine ⟨?_, ev, by rw [← h3, h7], h8, h9⟩
  refine Classical.byContradiction fun hn => ?_
  have := (run_idle (cfg := monCfg env m) (g := G.init (c0.w.mach m).listener) rfl (fun q ev hmem =>
    hn (taken_worker ha hi hr (q := q) (ev := ev) (by rw [h]; exact List.mem_append_left _ hmem))) h1).1
  rw [this] at h7
  cases h7

/-- The end callback of `go` in `tour`. -/
example : Demo.w0 = Demo.w0 ∧ ∃ ev, openEv Demo.w0 0 (Demo.tour.w.trace.take 42) = some ev ∧
    (∀ c, Obs.cb (.end_ 0 Demo.A Demo.go Demo.B) = .cb c → cbFor 0 ev c) ∧
    (∀ m' ev', Obs.cb (.end_ 0 Demo.A Demo.go Demo.B) = .done m' ev' → ev' = ev) :=
  C15_only_for_the_event (c := Demo.tour) (t := Demo.w0) (post := Demo.tour.w.trace.drop 43) (Demo.alone Demo.acts 0 false)
    (Demo.conf_initial true) Demo.tour_reach (by decide +kernel) (by decide +kernel) rfl rfl

/-- C15, C22: the bare history of the worker, between two moments when it is not processing an event of the machine, is a
sequence of complete events, each handled as configured, whatever exceptions user code threw in any of them. -/
theorem C15_events (ha : Alone env m) (hi : Initial c0) (hr : ReachFrom env c0 c) {tr : List (Tid × Obs)}
    (h : c.w.trace = pre ++ tr ++ post) (ht : t = env.workerOf m) (h0 : openEv t m pre = none) (h1 : openEv t m (pre ++ tr) = none)
    (hm : ∀ e ∈ tr, meddles m e.2 = false) :
    Events (env.desc m) (env.strat (env.mach m).strat).queue (machAt c0 m pre) (bare t (apiDepth t pre) tr) (machAt c0 m (pre ++ tr)) := by
  subst ht
  have hun := undisturbed_of_single ha hi hr h hm
  obtain ⟨g, h2, h3, h4, h5, h6, g', h7⟩ := history_open ha.priv hi hr (env.workerOf m) (pre := pre) (post := tr ++ post) (by rw [h]; simp)
  obtain ⟨g1, h8, _⟩ := mon_split h7
  have h9 := run_open (cfg := monCfg env m) h3 h8
  have h10 := (events_run (cfg := monCfg env m) hun h3 h8 (by
    rw [h9.2.1, h4]; rw [openEv, List.foldl_append] at h1; exact h1)).1 (by rw [h4, h0])
  rw [← ha.desc, ← h5, ← h6]
  have h11 : g1.mem = machAt c0 m (pre ++ tr) := by
    rw [machAt_append, ← h6, mon_mem h8]; rfl
  rw [← h11]
  exact h10

/-- Four events of the demo run `tour`. -/
example : Events ((Demo.env Demo.acts).desc 0) 0 (machAt (Demo.conf true) 0 (Demo.tour.w.trace.take 25))
    (bare Demo.w0 (apiDepth Demo.w0 (Demo.tour.w.trace.take 25)) (Demo.tour.w.trace.drop 25))
    (machAt (Demo.conf true) 0 (Demo.tour.w.trace.take 25 ++ Demo.tour.w.trace.drop 25)) :=
  C15_events (c := Demo.tour) (post := []) (Demo.alone Demo.acts 0 false) (Demo.conf_initial true) Demo.tour_reach (by decide +kernel)
    rfl (by decide +kernel) (by decide +kernel)
    (fun e he => by
      have := (by decide +kernel : (Demo.tour.w.trace.drop 25).all (fun e => !meddles 0 e.2) = true)
      simpa using List.all_eq_true.1 this _ he)

/-! #### C16 -/

/-- C16: an event with a configured transition from the current state `a` to `b`. Everything happens in the order
begin(a, ev, b), exit actions of `a` in order, current state := `b`, entry actions of `b` in order, end(a, ev, b), end of
the machine if `b` is final; the only deviation is that user code throws, then the rest is replaced by the report to the
flow listener (`Transition`). -/
theorem C16_transition (h : Processing env c0 c t m ev pre mid post) {a b : St} (he : (machAt c0 m pre).ended = false)
    (hc : (machAt c0 m pre).cur = some a) (hb : (env.desc m).reaction (some a) ev = .goes b) :
    ∃ r, Transition (env.desc m) (machAt c0 m pre).lst.isSome a ev b (bare t 0 mid) r := by
  obtain ⟨r, h1, _⟩ := h.handles
  exact ⟨r, handles_goes h1 he hc hb⟩

/-- C16, when user code does not throw: nothing is skipped, repeated or reordered. -/
theorem C16_exactly (h : Processing env c0 c t m ev pre mid post) {a b : St} (he : (machAt c0 m pre).ended = false)
    (hc : (machAt c0 m pre).cur = some a) (hb : (env.desc m).reaction (some a) ev = .goes b)
    (hl : (machAt c0 m pre).lst.isSome = true) (hok : ∀ c x, Obs.cbRet c (some x) ∉ bare t 0 mid) :
    bare t 0 mid =
      shown ([.begin m a ev b] ++ (List.range (env.acts .exit a.oid).length).map fun i => .action m .exit a.oid i ev) ++
      [.upd m b (b.name == resEnd) false, .cur m b false] ++
      shown (((List.range (env.acts .entry b.oid).length).map fun i => .action m .entry b.oid i ev) ++ [.end_ m a ev b]) ++
      (env.desc m).ending b := by
  obtain ⟨r, h1⟩ := C16_transition h he hc hb
  rw [hl] at h1
  exact (transition_ok h1 hok).1

/-- Event `go` of the demo run: begin, two exit actions of A, the state change, two entry actions of B, end. -/
example : bare Demo.w0 0 ((Demo.tour.w.trace.drop 26).take 18) =
    shown [.begin 0 Demo.A Demo.go Demo.B, .action 0 .exit 1 0 Demo.go, .action 0 .exit 1 1 Demo.go] ++
    [.upd 0 Demo.B false false, .cur 0 Demo.B false] ++
    shown [.action 0 .entry 2 0 Demo.go, .action 0 .entry 2 1 Demo.go, .end_ 0 Demo.A Demo.go Demo.B] ++ [] :=
  C16_exactly Demo.p_go (a := Demo.A) (b := Demo.B) (by decide +kernel) (by decide +kernel) (by decide +kernel) (by decide +kernel)
    (fun c x h => by
      have := (by decide +kernel : (bare Demo.w0 0 ((Demo.tour.w.trace.drop 26).take 18)).all
        (fun e => match e with | .cbRet _ (some _) => false | _ => true) = true)
      exact absurd (List.all_eq_true.1 this _ h) (by simp))

/-- C16 for an event that is still in processing: what has happened so far is the beginning of such a transition. -/
theorem C16_so_far (ha : Alone env m) (hi : Initial c0) (hr : ReachFrom env c0 c) {q : QId}
    (h : c.w.trace = pre ++ (t, .taken q m ev) :: mid) (hnd : ∀ m' ev', (t, Obs.done m' ev') ∉ mid)
    (hm : ∀ e ∈ mid, meddles m e.2 = false) {a b : St} (he : (machAt c0 m pre).ended = false)
    (hc : (machAt c0 m pre).cur = some a) (hb : (env.desc m).reaction (some a) ev = .goes b) :
    ∃ rest r, Transition (env.desc m) (machAt c0 m pre).lst.isSome a ev b (bare t 0 mid ++ rest) r := by
  have ht := taken_worker ha hi hr (t := t) (q := q) (ev := ev) (by rw [h]; simp)
  have hun : Undisturbed t m mid := by
    rw [ht]
    exact undisturbed_of_single ha hi hr (pre := pre ++ [(t, .taken q m ev)]) (post := []) (by rw [h]; simp) hm
  obtain ⟨rest, r, h1⟩ := event_begun ha.priv hi hr h hnd hun
  refine ⟨rest, r, ?_⟩
  have h2 := handles_of_behaves (d := (monCfg env m).d) h1
  rw [ha.desc] at h2
  exact handles_goes h2 he hc hb

/-- The demo run, stopped after the first exit action of A. -/
example : ∃ rest r, Transition ((Demo.env Demo.acts).desc 0)
    (machAt (Demo.conf true) 0 ((Demo.worked (Demo.env Demo.acts) [Demo.go] 12).w.trace.take 13)).lst.isSome Demo.A Demo.go Demo.B
    (bare Demo.w0 0 ((Demo.worked (Demo.env Demo.acts) [Demo.go] 12).w.trace.drop 14) ++ rest) r :=
  C16_so_far (c := Demo.worked (Demo.env Demo.acts) [Demo.go] 12) (q := 0)
    (pre := (Demo.worked (Demo.env Demo.acts) [Demo.go] 12).w.trace.take 13) (Demo.alone Demo.acts 0 false)
    (Demo.conf_initial true) (Demo.worked_reach _ _ _ _) (by decide +kernel)
    (fun m ev h => by
      have := (by decide +kernel : ((Demo.worked (Demo.env Demo.acts) [Demo.go] 12).w.trace.drop 14).all
        (fun e => match e.2 with | .done .. => false | _ => true) = true)
      exact absurd (List.all_eq_true.1 this _ h) (by simp))
    (fun e he => by
      have := (by decide +kernel : ((Demo.worked (Demo.env Demo.acts) [Demo.go] 12).w.trace.drop 14).all (fun e => !meddles 0 e.2) = true)
      simpa using List.all_eq_true.1 this _ he)
    (by decide +kernel) (by decide +kernel) (by decide +kernel)

/-! #### C17 -/

/-- C17: in a piece of history in which nobody starts or stops the machine or replaces its listener and no user code of
the machine throws, the state of the machine is the fold of its table over the events taken, whenever no event is in
processing. `getCurrentState()` and `isEnded()` return exactly that. -/
theorem C17_fold (ha : Alone env m) (hi : Initial c0) (hr : ReachFrom env c0 c) {tr : List (Tid × Obs)}
    (h : c.w.trace = pre ++ tr) (ht : t = env.workerOf m) (h0 : openEv t m pre = none) (h1 : openEv t m (pre ++ tr) = none)
    (hm : ∀ e ∈ tr, meddles m e.2 = false)
    (hok : ∀ c x, (t, Obs.cbRet c (some x)) ∈ tr → Spec.Calls.cbMach c ≠ some m) :
    (⟨(c.w.mach m).cur, (c.w.mach m).ended⟩ : MSt) = (takenOf m tr).foldl (env.desc m).next (machAt c0 m pre).st := by
  subst ht
  have hun := undisturbed_of_single ha hi hr (pre := pre) (post := []) (by rw [h]; simp) hm
  obtain ⟨g, h2, h3, h4, h5, h6, g', h7⟩ := history_open ha.priv hi hr (env.workerOf m) h
  have h9 := run_open (cfg := monCfg env m) h3 h7
  have hal : Along (monCfg env m) (machAt c0 m pre).st [] g := .rest (by rw [h4, h0]) (by rw [h6]; rfl)
  have h10 := along_run (cfg := monCfg env m) hun (fun x hx c y hy => hok c y (hy ▸ hx))
    (fun u q ev hu => taken_worker ha hi hr (t := u) (q := q) (ev := ev) (by rw [h]; exact List.mem_append_right _ hu)) hal h7
  have h11 : Mode.ev g'.mode = none := by
    rw [h9.2.1, h4]; rw [openEv, List.foldl_append] at h1; exact h1
  rw [List.nil_append] at h10
  have h12 : g'.mem.st = (takenOf m tr).foldl (monCfg env m).d.next (machAt c0 m pre).st := by
    generalize hl : takenOf (monCfg env m).d.m tr = l at h10
    rw [show takenOf m tr = l from hl]
    cases h10 with
    | rest _ h => exact h
    | amid _ h => rw [prog_ev h] at h11; cases h11
  rw [← ha.desc]
  rw [show (⟨(c.w.mach m).cur, (c.w.mach m).ended⟩ : MSt) = (memOf c.w m).st from rfl, world_mem ha.priv hi hr, h, machAt_append, ← h6]
  rw [h6, ← h12, mon_mem h7, h6]
  rfl

/-- The four events of the demo run. -/
example : (⟨(Demo.tour.w.mach 0).cur, (Demo.tour.w.mach 0).ended⟩ : MSt) =
    (takenOf 0 (Demo.tour.w.trace.drop 25)).foldl ((Demo.env Demo.acts).desc 0).next
      (machAt (Demo.conf true) 0 (Demo.tour.w.trace.take 25)).st :=
  C17_fold (Demo.alone Demo.acts 0 false) (Demo.conf_initial true) Demo.tour_reach (by decide +kernel) (t := Demo.w0) rfl
    (by decide +kernel) (by decide +kernel)
    (fun e he => by
      have := (by decide +kernel : (Demo.tour.w.trace.drop 25).all (fun e => !meddles 0 e.2) = true)
      simpa using List.all_eq_true.1 this _ he)
    (fun c x h => by
      have := (by decide +kernel : (Demo.tour.w.trace.drop 25).all
        (fun e => match e.2 with | .cbRet _ (some _) => false | _ => true) = true)
      exact absurd (List.all_eq_true.1 this _ h) (by simp))

/-- They are `go`, `stay`, `back`, `go`, and lead from A to B. -/
example : takenOf 0 (Demo.tour.w.trace.drop 25) = [Demo.go, Demo.stay, Demo.back, Demo.go] ∧
    (machAt (Demo.conf true) 0 (Demo.tour.w.trace.take 25)).st = ⟨some Demo.A, false⟩ ∧
    (Demo.tour.w.mach 0).cur = some Demo.B := by decide +kernel

/-! #### C18, C19 -/

/-- C18: an event configured with `itDoesNotTransition` only calls the listener (begin, then end, with the _NOOP_ state),
and the state does not change. -/
theorem C18_no_transition (h : Processing env c0 c t m ev pre mid post) {a b : St} (he : (machAt c0 m pre).ended = false)
    (hc : (machAt c0 m pre).cur = some a) (hb : (env.desc m).reaction (some a) ev = .stays b) :
    (∃ r, Notify m ev (if (machAt c0 m pre).lst.isSome then [.begin m a ev b, .end_ m a ev b] else []) (bare t 0 mid) r) ∧
    b.name = resNoop ∧ ∀ q, machAt c0 m (pre ++ (t, .taken q m ev) :: mid) = machAt c0 m pre := by
  obtain ⟨r, h1, _⟩ := h.handles
  have hn : b.name = resNoop := by
    unfold Desc.reaction at hb
    split at hb
    · split at hb
      · cases hb
      · split at hb
        · cases hb; assumption
        · cases hb
    · cases hb
  have h4 := handles_stays h1 he hc hb
  exact ⟨⟨r, h4⟩, hn, fun q => by rw [h.state]; exact mem_notify _ h4⟩

example : (∃ r, Notify 0 Demo.stay (if (machAt (Demo.conf true) 0 (Demo.tour.w.trace.take 45)).lst.isSome then
      [.begin 0 Demo.B Demo.stay Demo.rs.noopSt, .end_ 0 Demo.B Demo.stay Demo.rs.noopSt] else [])
      (bare Demo.w0 0 ((Demo.tour.w.trace.drop 46).take 4)) r) ∧ Demo.rs.noopSt.name = resNoop ∧
    ∀ q, machAt (Demo.conf true) 0 (Demo.tour.w.trace.take 45 ++ (Demo.w0, .taken q 0 Demo.stay) :: (Demo.tour.w.trace.drop 46).take 4) =
      machAt (Demo.conf true) 0 (Demo.tour.w.trace.take 45) :=
  C18_no_transition Demo.p_stay (a := Demo.B) (by decide +kernel) (by decide +kernel) (by decide +kernel)

/-- C19: an event without an outcome in the current state only calls the unmapped-event handler, exactly once, and the
state does not change. -/
theorem C19_unmapped (h : Processing env c0 c t m ev pre mid post) {a : St} (he : (machAt c0 m pre).ended = false)
    (hc : (machAt c0 m pre).cur = some a) (hb : (env.desc m).reaction (some a) ev = .unmapped) :
    (∃ r, Notify m ev [.unmapped m ev] (bare t 0 mid) r) ∧
    ∀ q, machAt c0 m (pre ++ (t, .taken q m ev) :: mid) = machAt c0 m pre := by
  obtain ⟨r, h1, _⟩ := h.handles
  have h4 := handles_unmapped h1 he hc hb
  exact ⟨⟨r, h4⟩, fun q => by rw [h.state]; exact mem_notify _ h4⟩

example : (∃ r, Notify 0 Demo.stay [.unmapped 0 Demo.stay] (bare Demo.w0 0 ((Demo.quits.w.trace.drop 22).take 2)) r) ∧
    ∀ q, machAt (Demo.conf true) 0 (Demo.quits.w.trace.take 21 ++ (Demo.w0, .taken q 0 Demo.stay) :: (Demo.quits.w.trace.drop 22).take 2) =
      machAt (Demo.conf true) 0 (Demo.quits.w.trace.take 21) :=
  C19_unmapped Demo.p_unmapped (a := Demo.A) (by decide +kernel) (by decide +kernel) (by decide +kernel)

/-- C18, C19 when user code does not throw. -/
theorem C19_exactly (h : Processing env c0 c t m ev pre mid post) {a : St} (he : (machAt c0 m pre).ended = false)
    (hc : (machAt c0 m pre).cur = some a) (hok : ∀ c x, Obs.cbRet c (some x) ∉ bare t 0 mid) :
    ((env.desc m).reaction (some a) ev = .unmapped → bare t 0 mid = [.cb (.unmapped m ev), .cbRet (.unmapped m ev) none]) ∧
    (∀ b, (env.desc m).reaction (some a) ev = .stays b → (machAt c0 m pre).lst.isSome = true →
      bare t 0 mid = [.cb (.begin m a ev b), .cbRet (.begin m a ev b) none, .cb (.end_ m a ev b), .cbRet (.end_ m a ev b) none]) := by
  refine ⟨fun hb => ?_, fun b hb hl => ?_⟩
  · obtain ⟨⟨r, h1⟩, _⟩ := C19_unmapped h he hc hb
    exact (notify_ok h1 hok).1
  · obtain ⟨⟨r, h1⟩, _⟩ := C18_no_transition h he hc hb
    rw [hl] at h1
    exact (notify_ok h1 hok).1

example : bare Demo.w0 0 ((Demo.quits.w.trace.drop 22).take 2) =
    [.cb (.unmapped 0 Demo.stay), .cbRet (.unmapped 0 Demo.stay) none] :=
  (C19_exactly Demo.p_unmapped (a := Demo.A) (by decide +kernel) (by decide +kernel)
    (fun c x h => by
      have := (by decide +kernel : (bare Demo.w0 0 ((Demo.quits.w.trace.drop 22).take 2)).all
        (fun e => match e with | .cbRet _ (some _) => false | _ => true) = true)
      exact absurd (List.all_eq_true.1 this _ h) (by simp))).1 (by decide +kernel)

example : bare Demo.w0 0 ((Demo.tour.w.trace.drop 46).take 4) =
    shown [.begin 0 Demo.B Demo.stay Demo.rs.noopSt, .end_ 0 Demo.B Demo.stay Demo.rs.noopSt] :=
  (C19_exactly Demo.p_stay (a := Demo.B) (by decide +kernel) (by decide +kernel)
    (fun c x h => by
      have := (by decide +kernel : (bare Demo.w0 0 ((Demo.tour.w.trace.drop 46).take 4)).all
        (fun e => match e with | .cbRet _ (some _) => false | _ => true) = true)
      exact absurd (List.all_eq_true.1 this _ h) (by simp))).2 Demo.rs.noopSt (by decide +kernel) (by decide +kernel)

/-! #### C20, C21 -/

theorem not_flow_before {d : Desc} {l : Bool} {a b : St} {ev : Ev} {c : Cb} (h : c ∈ d.before l a ev b) :
    (∃ a b, c = .begin d.m a ev b) ∨ ∃ o i, c = .action d.m .exit o i ev := by
  simp only [Desc.before, List.mem_append, List.mem_map, List.mem_range] at h
  rcases h with h | ⟨i, _, rfl⟩
  · split at h
    · simp at h; exact .inl ⟨_, _, h⟩
    · cases h
  · exact .inr ⟨_, _, rfl⟩

theorem not_flow_after {d : Desc} {l : Bool} {a b : St} {ev : Ev} {c : Cb} (h : c ∈ d.afterwards l a ev b) :
    (∃ a b, c = .end_ d.m a ev b) ∨ ∃ o i, c = .action d.m .entry o i ev := by
  simp only [Desc.afterwards, List.mem_append, List.mem_map, List.mem_range] at h
  rcases h with ⟨i, _, rfl⟩ | h
  · exact .inr ⟨_, _, rfl⟩
  · split at h
    · simp at h; exact .inl ⟨_, _, h⟩
    · cases h

theorem not_mem_shown {cs : List Cb} {c : Cb} {x : Exc} : Obs.cbRet c (some x) ∉ shown cs := by
  simp [shown]

theorem mem_report {m : MId} {x y : Exc} {os : List Obs} {r : Option Exc} {c : Cb} (h : Report m ev x os r)
    (hm : Obs.cbRet c (some y) ∈ os) : c = .flowEx m ev x := by
  cases h with
  | told _ => simp at hm; exact hm.1
  | untold _ => cases hm

/-- C20: the begin callback or an exit action (`c`) throws an `Exception`: nothing that was planned after `c` happens,
`onExceptionDuringEventProcessing` is called exactly once, and the state stays what it was. -/
theorem C20_exception_before (h : Processing env c0 c t m ev pre mid post) {a b : St} (he : (machAt c0 m pre).ended = false)
    (hc : (machAt c0 m pre).cur = some a) (hb : (env.desc m).reaction (some a) ev = .goes b) {k : Cb} {x : Exc}
    (hk : k ∈ (env.desc m).before (machAt c0 m pre).lst.isSome a ev b) (hx : Obs.cbRet k (some x) ∈ bare t 0 mid)
    (hex : x.isException = true) :
    (∃ cs cs' r, (env.desc m).before (machAt c0 m pre).lst.isSome a ev b = cs ++ k :: cs' ∧
      bare t 0 mid = shown cs ++ [.cb k, .cbRet k (some x), .cb (.flowEx m ev x), .cbRet (.flowEx m ev x) r]) ∧
    ∀ q, machAt c0 m (pre ++ (t, .taken q m ev) :: mid) = machAt c0 m pre := by
  obtain ⟨r, h1⟩ := C16_transition h he hc hb
  have hstate := h.state
  generalize ho : bare t 0 mid = os at h1 hx hstate
  have hbef := not_flow_before hk
  have hnf : ∀ y, k ≠ .flowEx (env.desc m).m ev y := by
    rintro y rfl
    rcases hbef with ⟨_, _, h⟩ | ⟨_, _, h⟩ <;> cases h
  cases h1 with
  | completed =>
    simp only [List.mem_append] at hx
    rcases hx with ((hx | hx) | hx) | hx
    · exact absurd hx not_mem_shown
    · simp [Desc.change] at hx
    · exact absurd hx not_mem_shown
    · simp only [Desc.ending] at hx; split at hx <;> simp at hx
  | @failedBefore cs k' cs' x' os r hcs hrep =>
    have : k' = k ∧ x' = x := by
      simp only [List.mem_append] at hx
      rcases hx with (hx | hx) | hx
      · exact absurd hx not_mem_shown
      · simp at hx; exact ⟨hx.1.symm, hx.2.symm⟩
      · exact absurd (mem_report hrep hx) (hnf _)
    obtain ⟨rfl, rfl⟩ := this
    refine ⟨?_, fun q => by rw [hstate]; exact mem_failed _ hrep⟩
    cases hrep with
    | told _ => exact ⟨cs, cs', r, hcs, by simp; rfl⟩
    | untold h => rw [hex] at h; cases h
  | @failedAfter cs k' cs' x' os r hcs hrep =>
    have : k' = k := by
      simp only [List.mem_append] at hx
      rcases hx with (((hx | hx) | hx) | hx) | hx
      · exact absurd hx not_mem_shown
      · simp [Desc.change] at hx
      · exact absurd hx not_mem_shown
      · simp at hx; exact hx.1.symm
      · exact absurd (mem_report hrep hx) (hnf _)
    subst this
    exfalso
    have haft := not_flow_after (c := k') (by rw [hcs]; simp)
    rcases hbef with ⟨_, _, rfl⟩ | ⟨_, _, rfl⟩ <;> rcases haft with ⟨_, _, h⟩ | ⟨_, _, h⟩ <;> cases h

/-- The second of three exit actions of A throws `user 5`: the third does not run, the state stays A. -/
example : (∃ cs cs' r, ((Demo.env Demo.badExit).desc 0).before (machAt (Demo.conf true) 0 (Demo.failsBefore.w.trace.take 17)).lst.isSome
      Demo.A Demo.go Demo.B = cs ++ .action 0 .exit 1 1 Demo.go :: cs' ∧
      bare Demo.w0 0 ((Demo.failsBefore.w.trace.drop 18).take 9) = shown cs ++ [.cb (.action 0 .exit 1 1 Demo.go),
        .cbRet (.action 0 .exit 1 1 Demo.go) (some (.user 5)), .cb (.flowEx 0 Demo.go (.user 5)), .cbRet (.flowEx 0 Demo.go (.user 5)) r]) ∧
    ∀ q, machAt (Demo.conf true) 0 (Demo.failsBefore.w.trace.take 17 ++ (Demo.w0, .taken q 0 Demo.go) ::
      (Demo.failsBefore.w.trace.drop 18).take 9) = machAt (Demo.conf true) 0 (Demo.failsBefore.w.trace.take 17) :=
  C20_exception_before Demo.p_exit (a := Demo.A) (b := Demo.B) (k := .action 0 .exit 1 1 Demo.go) (x := .user 5) (by decide +kernel) (by decide +kernel) (by decide +kernel) (by decide +kernel) (by decide +kernel) rfl

/-- C21: an entry action or the end callback (`k`) throws an `Exception`: the state has changed to `b`, nothing that was
planned after `k` happens (in particular the machine does not end because `b` is final), and
`onExceptionDuringEventProcessing` is called exactly once. -/
theorem C21_exception_after (h : Processing env c0 c t m ev pre mid post) {a b : St} (he : (machAt c0 m pre).ended = false)
    (hc : (machAt c0 m pre).cur = some a) (hb : (env.desc m).reaction (some a) ev = .goes b) {k : Cb} {x : Exc}
    (hk : k ∈ (env.desc m).afterwards (machAt c0 m pre).lst.isSome a ev b) (hx : Obs.cbRet k (some x) ∈ bare t 0 mid)
    (hex : x.isException = true) :
    (∃ cs cs' r, (env.desc m).afterwards (machAt c0 m pre).lst.isSome a ev b = cs ++ k :: cs' ∧
      bare t 0 mid = shown ((env.desc m).before (machAt c0 m pre).lst.isSome a ev b) ++ (env.desc m).change b ++ shown cs ++
        [.cb k, .cbRet k (some x), .cb (.flowEx m ev x), .cbRet (.flowEx m ev x) r]) ∧
    ∀ q, machAt c0 m (pre ++ (t, .taken q m ev) :: mid) = ⟨some b, b.name == resEnd, (machAt c0 m pre).lst⟩ := by
  obtain ⟨r, h1⟩ := C16_transition h he hc hb
  have hstate := h.state
  generalize ho : bare t 0 mid = os at h1 hx hstate
  have haft := not_flow_after hk
  have hnf : ∀ y, k ≠ .flowEx (env.desc m).m ev y := by
    rintro y rfl
    rcases haft with ⟨_, _, h⟩ | ⟨_, _, h⟩ <;> cases h
  cases h1 with
  | completed =>
    simp only [List.mem_append] at hx
    rcases hx with ((hx | hx) | hx) | hx
    · exact absurd hx not_mem_shown
    · simp [Desc.change] at hx
    · exact absurd hx not_mem_shown
    · simp only [Desc.ending] at hx; split at hx <;> simp at hx
  | @failedBefore cs k' cs' x' os r hcs hrep =>
    have : k' = k ∧ x' = x := by
      simp only [List.mem_append] at hx
      rcases hx with (hx | hx) | hx
      · exact absurd hx not_mem_shown
      · simp at hx; exact ⟨hx.1.symm, hx.2.symm⟩
      · exact absurd (mem_report hrep hx) (hnf _)
    obtain ⟨rfl, rfl⟩ := this
    exfalso
    have hbef := not_flow_before (c := k') (by rw [hcs]; simp)
    rcases haft with ⟨_, _, rfl⟩ | ⟨_, _, rfl⟩ <;> rcases hbef with ⟨_, _, h⟩ | ⟨_, _, h⟩ <;> cases h
  | @failedAfter cs k' cs' x' os r hcs hrep =>
    have : k' = k ∧ x' = x := by
      simp only [List.mem_append] at hx
      rcases hx with (((hx | hx) | hx) | hx) | hx
      · exact absurd hx not_mem_shown
      · simp [Desc.change] at hx
      · exact absurd hx not_mem_shown
      · simp at hx; exact ⟨hx.1.symm, hx.2.symm⟩
      · exact absurd (mem_report hrep hx) (hnf _)
    obtain ⟨rfl, rfl⟩ := this
    refine ⟨?_, fun q => ?_⟩
    · cases hrep with
      | told _ => exact ⟨cs, cs', r, hcs, by simp; rfl⟩
      | untold h => rw [hex] at h; cases h
    · rw [hstate, List.append_assoc, List.append_assoc, List.append_assoc, List.foldl_append, List.foldl_append]
      have h1 := step_cbs (m := m) (machAt c0 m pre) (quiet_shown (m := m) (cs := (env.desc m).before (machAt c0 m pre).lst.isSome a ev b))
      have h2 := mem_change (d := env.desc m) (b := b) (machAt c0 m pre)
      rw [h1]
      rw [show (env.desc m).m = m from rfl] at h2
      rw [h2]
      have h3 := mem_failed (ev := ev) (m := m) (cs := cs) (c := k') (mem := { machAt c0 m pre with cur := some b, ended := b.name == resEnd }) hrep
      rw [List.append_assoc] at h3
      exact h3

/-- The first entry action of the final state C throws: the machine is in C and has not ended. -/
example : (∃ cs cs' r, ((Demo.env Demo.badEntry).desc 0).afterwards (machAt (Demo.conf true) 0 (Demo.failsAfter.w.trace.take 13)).lst.isSome
      Demo.A Demo.quit Demo.C = cs ++ .action 0 .entry 3 0 Demo.quit :: cs' ∧
      bare Demo.w0 0 ((Demo.failsAfter.w.trace.drop 14).take 8) =
        shown (((Demo.env Demo.badEntry).desc 0).before (machAt (Demo.conf true) 0 (Demo.failsAfter.w.trace.take 13)).lst.isSome Demo.A
          Demo.quit Demo.C) ++ ((Demo.env Demo.badEntry).desc 0).change Demo.C ++ shown cs ++ [.cb (.action 0 .entry 3 0 Demo.quit),
        .cbRet (.action 0 .entry 3 0 Demo.quit) (some (.user 6)), .cb (.flowEx 0 Demo.quit (.user 6)), .cbRet (.flowEx 0 Demo.quit (.user 6)) r]) ∧
    ∀ q, machAt (Demo.conf true) 0 (Demo.failsAfter.w.trace.take 13 ++ (Demo.w0, .taken q 0 Demo.quit) ::
      (Demo.failsAfter.w.trace.drop 14).take 8) =
      ⟨some Demo.C, false, (machAt (Demo.conf true) 0 (Demo.failsAfter.w.trace.take 13)).lst⟩ :=
  C21_exception_after Demo.p_entry (a := Demo.A) (b := Demo.C) (k := .action 0 .entry 3 0 Demo.quit) (x := .user 6) (by decide +kernel) (by decide +kernel) (by decide +kernel) (by decide +kernel) (by decide +kernel) rfl

/-! #### C23 -/

/-- C23: a transition that completes into a final state (never configured, or configured with `itEnds`), or into _END_
itself (an event configured with `itEnds`), ends the machine: when the event is finished, the machine has ended and its
current state is _END_. After any other completed transition it has not ended and is in the target state. -/
theorem C23_final_state_ends (h : Processing env c0 c t m ev pre mid post) {a b : St} (he : (machAt c0 m pre).ended = false)
    (hc : (machAt c0 m pre).cur = some a) (hb : (env.desc m).reaction (some a) ev = .goes b)
    (hok : ∀ c x, Obs.cbRet c (some x) ∉ bare t 0 mid) (q : QId) :
    (machAt c0 m (pre ++ (t, .taken q m ev) :: mid)).st =
      if b.name = resEnd then ⟨some b, true⟩
      else if (env.desc m).final b then ⟨some (env.mach m).res.endSt, true⟩
      else ⟨some b, false⟩ := by
  obtain ⟨r, h1⟩ := C16_transition h he hc hb
  rw [h.state, (transition_ok h1 hok).1]
  have := Transition.mem_completed (d := env.desc m) (lst := (machAt c0 m pre).lst.isSome) (a := a) (b := b) (ev := ev) (machAt c0 m pre)
  rw [show (env.desc m).m = m from rfl] at this
  rw [this]
  by_cases h1 : b.name = resEnd
  · simp [h1, Mem.st]
  · by_cases h2 : (env.desc m).final b = true
    · simp [h1, h2, Mem.st]; rfl
    · simp [h1, h2, Mem.st]

/-- Into the final state C. -/
example : (machAt (Demo.conf true) 0 (Demo.quits.w.trace.take 25 ++ (Demo.w0, .taken 0 0 Demo.quit) ::
    (Demo.quits.w.trace.drop 26).take 14)).st = ⟨some Demo.rs.endSt, true⟩ :=
  C23_final_state_ends Demo.p_final (a := Demo.A) (b := Demo.C) (by decide +kernel) (by decide +kernel) (by decide +kernel)
    (fun c x h => by
      have := (by decide +kernel : (bare Demo.w0 0 ((Demo.quits.w.trace.drop 26).take 14)).all
        (fun e => match e with | .cbRet _ (some _) => false | _ => true) = true)
      exact absurd (List.all_eq_true.1 this _ h) (by simp)) 0

/-- An event configured with `itEnds`. -/
example : (machAt (Demo.conf true) 0 (Demo.ends.w.trace.take 37 ++ (Demo.w0, .taken 0 0 Demo.quit) ::
    (Demo.ends.w.trace.drop 38).take 6)).st = ⟨some Demo.rs.endSt, true⟩ :=
  C23_final_state_ends Demo.p_quit (a := Demo.B) (b := Demo.rs.endSt) (by decide +kernel) (by decide +kernel) (by decide +kernel)
    (fun c x h => by
      have := (by decide +kernel : (bare Demo.w0 0 ((Demo.ends.w.trace.drop 38).take 6)).all
        (fun e => match e with | .cbRet _ (some _) => false | _ => true) = true)
      exact absurd (List.all_eq_true.1 this _ h) (by simp)) 0

/-! #### C24 -/

/-- C24: an event taken when the machine has ended: as long as nobody restarts the machine, the next thing the thread
does, whatever it is, is to give the event back. -/
theorem C24_ended_machine_processes_nothing (hp : Private env m) (hi : Initial c0) (hr : ReachFrom env c0 c) {q : QId}
    {tr : List (Tid × Obs)} (h : c.w.trace = pre ++ (t, .taken q m ev) :: tr) (he : (machAt c0 m pre).ended = true)
    (hcl : ∀ u, (u, Obs.cleared m) ∉ tr) : ∀ e, (tr.filter fun e => e.1 = t).head? = some e → e = (t, .done m ev) := by
  obtain ⟨g, h1⟩ := skip_reach hp ⟨c0, hi, hr⟩ t
  rw [h] at h1
  obtain ⟨g1, h2, h3⟩ := skip_split h1
  have h4 := skip_ended (mem := Mem.init (c0.w.mach m).listener) h2 rfl
  rw [show (Mem.init (c0.w.mach m).listener).after m pre = machAt c0 m pre from rfl, he] at h4
  obtain ⟨e1, sk⟩ := g1
  simp only at h4
  subst h4
  simp only [Skip.run] at h3
  split at h3
  · cases h3
  · rename_i g2 h5
    refine skip_first h3 ?_ hcl
    simp only [Skip.step] at h5
    cases sk with
    | none => simp at h5; rw [← h5]
    | some _ => simp at h5

example : ∀ e, ((Demo.quits.w.trace.drop 42).filter fun e => e.1 = Demo.w0).head? = some e → e = (Demo.w0, .done 0 Demo.go) :=
  C24_ended_machine_processes_nothing (pre := Demo.quits.w.trace.take 41) (q := 0) (Demo.alone Demo.acts 0 false).priv
    (Demo.conf_initial true) Demo.quits_reach (by decide +kernel) (by decide +kernel)
    (fun u h => by
      have := (by decide +kernel : (Demo.quits.w.trace.drop 42).all (fun e => match e.2 with | .cleared _ => false | _ => true) = true)
      exact absurd (List.all_eq_true.1 this _ h) (by simp))

/-- C24: nothing at all happens for the event. -/
theorem C24_nothing (h : Processing env c0 c t m ev pre mid post) (he : (machAt c0 m pre).ended = true) :
    bare t 0 mid = [] ∧ ∀ q, machAt c0 m (pre ++ (t, .taken q m ev) :: mid) = machAt c0 m pre := by
  obtain ⟨r, h1, _⟩ := h.handles
  have hs := h.state
  generalize bare t 0 mid = os at h1 hs
  cases h1 with
  | over h => exact ⟨rfl, fun q => by rw [hs]; rfl⟩
  | moves h => rw [he] at h; cases h
  | stays h => rw [he] at h; cases h
  | unmapped h => rw [he] at h; cases h
  | nowhere h => rw [he] at h; cases h

/-- Event `go` comes too late. -/
example : bare Demo.w0 0 ((Demo.quits.w.trace.drop 42).take 0) = [] ∧ ∀ q, machAt (Demo.conf true) 0
    (Demo.quits.w.trace.take 41 ++ (Demo.w0, .taken q 0 Demo.go) :: (Demo.quits.w.trace.drop 42).take 0) =
      machAt (Demo.conf true) 0 (Demo.quits.w.trace.take 41) :=
  C24_nothing Demo.p_over (by decide +kernel)

end
end Verif
