import Verif.Props.Reuse
import Verif.Props.Watch
import Verif.Proofs.Cycle
/-
C106: once no thread is busy, the past does not matter; what ends where it began can be repeated.
-/

namespace Verif
open Verif.Cycle Verif.Spec.Cycle

section
variable {env : Env} {c c' c'' d : Conf} {xs : List Choice}

theorem Spec.Cycle.Same.symm (h : Same c c') : Same c' c :=
  ⟨h.mach.symm, h.payload.symm, h.nextCopy.symm, h.tasks.symm, h.shut.symm, h.latch.symm, h.intr.symm, h.mem.symm, fun q => (h.waiting q).symm, fun t => (h.idle t).symm⟩

theorem Spec.Cycle.Same.trans (h : Same c c') (g : Same c' c'') : Same c c'' :=
  ⟨g.mach.trans h.mach, g.payload.trans h.payload, g.nextCopy.trans h.nextCopy, g.tasks.trans h.tasks, g.shut.trans h.shut, g.latch.trans h.latch, g.intr.trans h.intr,
    g.mem.trans h.mem, fun q => (g.waiting q).trans (h.waiting q), fun t => (g.idle t).trans (h.idle t)⟩

/-- C106. Two executions have come, in different ways, to the same point, and no thread is busy: with the same schedule, the same happens. -/
theorem C106_same (hd : ∀ m, (env.strat (env.mach m).strat).dropDup = false) (hr : Reach env c) (hr' : Reach env c') (hi : ∀ t, c.thr t = none) (h : Same c c')
    (hs : runs env c xs = some d) : ∃ d' l, runs env c' xs = some d' ∧ Same d d' ∧ d.w.trace = c.w.trace ++ l ∧ d'.w.trace = c'.w.trace ++ l :=
  same_runs hd hr hr' hi h hs

/-- C106. What can be observed from then on is the same. -/
theorem C106_futures (hd : ∀ m, (env.strat (env.mach m).strat).dropDup = false) (hr : Reach env c) (hr' : Reach env c') (hi : ∀ t, c.thr t = none) (h : Same c c')
    (l : List (Tid × Obs)) : (∃ d, ReachFrom env c d ∧ d.w.trace = c.w.trace ++ l) ↔ ∃ d, ReachFrom env c' d ∧ d.w.trace = c'.w.trace ++ l := by
  constructor
  · rintro ⟨d, ⟨xs, hx⟩, ht⟩
    obtain ⟨d', l', h1, _, h2, h3⟩ := C106_same hd hr hr' hi h hx
    rw [ht] at h2
    exact ⟨d', ⟨xs, h1⟩, by rw [h3, List.append_cancel_left h2]⟩
  · rintro ⟨d, ⟨xs, hx⟩, ht⟩
    obtain ⟨d', l', h1, _, h2, h3⟩ := C106_same hd hr' hr (fun t => (h.idle t).2 (hi t)) h.symm hx
    rw [ht] at h2
    exact ⟨d', ⟨xs, h1⟩, by rw [h3, List.append_cancel_left h2]⟩

/-- C106. What ends where it began can be repeated as often as one likes, and the same happens every time. -/
theorem C106_cycle (hd : ∀ m, (env.strat (env.mach m).strat).dropDup = false) (hr : Reach env c) (hi : ∀ t, c.thr t = none) (hs : runs env c xs = some d) (h : Same c d) :
    ∃ l, d.w.trace = c.w.trace ++ l ∧ ∀ n, ∃ e, runs env c (List.replicate n xs).flatten = some e ∧ Same c e ∧ e.w.trace = c.w.trace ++ (List.replicate n l).flatten := by
  obtain ⟨l, hl, _⟩ := runs_past hs
  refine ⟨l, hl, fun n => ?_⟩
  induction n with
  | zero => exact ⟨c, rfl, ⟨rfl, rfl, rfl, rfl, rfl, rfl, rfl, rfl, fun _ => rfl, fun _ => Iff.rfl⟩, by simp⟩
  | succ n ih =>
    obtain ⟨e, h1, h2, h3⟩ := ih
    have hre : Reach env e := by
      obtain ⟨c0, h0, hf⟩ := hr
      exact ⟨c0, h0, hf.trans ⟨_, h1⟩⟩
    obtain ⟨e', l', g1, g2, g3, g4⟩ := C106_same hd hr hre hi h2 hs
    rw [hl] at g3
    cases List.append_cancel_left g3
    refine ⟨e', ?_, h.trans g2, ?_⟩
    · rw [List.replicate_succ', List.flatten_append, runs_append, h1]
      simpa using g1
    · rw [g4, h3, List.replicate_succ', List.flatten_append, List.append_assoc]
      simp

end

namespace Demo

theorem reach_drive {env : Env} {c : Conf} (h : Reach env c) (xs : List Choice) : Reach env (drive env c xs) := by
  obtain ⟨c0, h0, hf⟩ := h
  exact ⟨c0, h0, hf.trans ⟨_, trim_runs env c xs⟩⟩

theorem reach_conf (env : Env) : Reach env conf := ⟨conf, conf_initial _, [], rfl⟩

/-- A machine has been started. -/
def beginC : Conf := drive (env acts) conf (Choice.begin 0 (client 0 []) :: runN (.client 0) 8)

/-- It goes to the other state and back. -/
def roundX : List Choice :=
  (Choice.begin 0 (fireP go) :: runN (.client 0) 12) ++ [.dispatch 0 0 0] ++ runN w0 32 ++ (Choice.begin 0 (fireP back) :: runN (.client 0) 12) ++ [.dispatch 0 0 0] ++ runN w0 32

def roundC : Conf := drive (env acts) beginC roundX

set_option maxRecDepth 100000

theorem begin_reach : Reach (env acts) beginC := reach_drive (reach_conf _) _

theorem round_runs : runs (env acts) beginC (trim (env acts) beginC roundX) = some roundC := trim_runs _ _ _

theorem begin_idle : ∀ t, beginC.thr t = none
  | .client 0 => rfl
  | .client (_ + 1) => rfl
  | .worker _ _ => rfl
  | .env => rfl

theorem round_idle : ∀ t, roundC.thr t = none
  | .client 0 => rfl
  | .client (_ + 1) => rfl
  | .worker 0 0 => rfl
  | .worker 0 (_ + 1) => rfl
  | .worker (_ + 1) _ => rfl
  | .env => rfl

theorem begin_mach : ∀ m, beginC.w.mach m = if m = 0 then ⟨true, false, some A, none⟩ else ⟨false, false, none, none⟩
  | 0 => rfl
  | _ + 1 => rfl

theorem begin_rest : (∀ o, beginC.w.payload o = none) ∧ beginC.w.nextCopy = 0 ∧ (∀ e, beginC.w.shut e = false) ∧ (∀ n, beginC.w.latch n = 0) ∧ (∀ t, beginC.w.intr t = false) ∧
    ∀ a, beginC.w.mem a = 0 := ⟨fun _ => rfl, rfl, fun _ => rfl, fun _ => rfl, fun _ => rfl, fun _ => rfl⟩

theorem begin_tasks : ∀ e, beginC.w.tasks e = []
  | 0 => rfl
  | _ + 1 => rfl

theorem begin_waiting : ∀ q, (beginC.w.queue q).map beginC.w.pair = []
  | 0 => by decide +kernel
  | _ + 1 => rfl

theorem round_mach : ∀ m, roundC.w.mach m = if m = 0 then ⟨true, false, some A, none⟩ else ⟨false, false, none, none⟩
  | 0 => rfl
  | _ + 1 => rfl

theorem round_rest : (∀ o, roundC.w.payload o = none) ∧ roundC.w.nextCopy = 0 ∧ (∀ e, roundC.w.shut e = false) ∧ (∀ n, roundC.w.latch n = 0) ∧ (∀ t, roundC.w.intr t = false) ∧
    ∀ a, roundC.w.mem a = 0 := ⟨fun _ => rfl, rfl, fun _ => rfl, fun _ => rfl, fun _ => rfl, fun _ => rfl⟩

theorem round_tasks : ∀ e, roundC.w.tasks e = []
  | 0 => rfl
  | _ + 1 => rfl

theorem round_waiting : ∀ q, (roundC.w.queue q).map roundC.w.pair = []
  | 0 => by decide +kernel
  | _ + 1 => rfl

/-- The machine is where it was. -/
theorem round_same : Same beginC roundC := by
  obtain ⟨h1, h2, h3, h4, h5, h6⟩ := begin_rest
  obtain ⟨g1, g2, g3, g4, g5, g6⟩ := round_rest
  exact ⟨funext fun m => (round_mach m).trans (begin_mach m).symm, funext fun o => (g1 o).trans (h1 o).symm, g2.trans h2.symm,
    funext fun e => (round_tasks e).trans (begin_tasks e).symm, funext fun e => (g3 e).trans (h3 e).symm, funext fun n => (g4 n).trans (h4 n).symm,
    funext fun t => (g5 t).trans (h5 t).symm, funext fun a => (g6 a).trans (h6 a).symm, fun q => (round_waiting q).trans (begin_waiting q).symm,
    fun t => by rw [round_idle t, begin_idle t]⟩

/-- It notified the actions of both changes; the pool has got a pair. -/
theorem round_facts : roundC.w.trace.length = beginC.w.trace.length + 28 ∧ roundC.w.pool 0 = [0] ∧ beginC.w.pool 0 = [] := by decide +kernel

/-- Duplicates are dropped; an event waits, no pair is in the pool. -/
def bareC : Conf := drive (env acts 0 true) conf (Choice.begin 0 (client 0 [stay]) :: runN (.client 0) 20)

/-- The same, after two other events have been processed; a pair is in the pool. -/
def spareC : Conf := drive (env acts 0 true) conf ((Choice.begin 0 (client 0 [stay, back]) :: runN (.client 0) 33) ++ [.dispatch 0 0 0] ++ runN w0 22 ++
  [.dispatch 0 0 0] ++ runN w0 2 ++ (Choice.begin 0 (fireP stay) :: runN (.client 0) 13))

theorem bare_reach : Reach (env acts 0 true) bareC := reach_drive (reach_conf _) _

theorem spare_reach : Reach (env acts 0 true) spareC := reach_drive (reach_conf _) _

theorem bare_idle : ∀ t, bareC.thr t = none
  | .client 0 => rfl
  | .client (_ + 1) => rfl
  | .worker _ _ => rfl
  | .env => rfl

theorem spare_idle : ∀ t, spareC.thr t = none
  | .client 0 => rfl
  | .client (_ + 1) => rfl
  | .worker 0 0 => rfl
  | .worker 0 (_ + 1) => rfl
  | .worker (_ + 1) _ => rfl
  | .env => rfl

theorem bare_mach : ∀ m, bareC.w.mach m = if m = 0 then ⟨true, false, some A, none⟩ else ⟨false, false, none, none⟩
  | 0 => rfl
  | _ + 1 => rfl

theorem bare_rest : (∀ o, bareC.w.payload o = none) ∧ bareC.w.nextCopy = 0 ∧ (∀ e, bareC.w.shut e = false) ∧ (∀ n, bareC.w.latch n = 0) ∧ (∀ t, bareC.w.intr t = false) ∧
    ∀ a, bareC.w.mem a = 0 := ⟨fun _ => rfl, rfl, fun _ => rfl, fun _ => rfl, fun _ => rfl, fun _ => rfl⟩

theorem bare_tasks : ∀ e, bareC.w.tasks e = if e = 0 then [(0, 0)] else []
  | 0 => rfl
  | _ + 1 => rfl

theorem bare_waiting : ∀ q, (bareC.w.queue q).map bareC.w.pair = if q = 0 then [some (stay, 0)] else []
  | 0 => by decide +kernel
  | _ + 1 => rfl

theorem spare_mach : ∀ m, spareC.w.mach m = if m = 0 then ⟨true, false, some A, none⟩ else ⟨false, false, none, none⟩
  | 0 => rfl
  | _ + 1 => rfl

theorem spare_rest : (∀ o, spareC.w.payload o = none) ∧ spareC.w.nextCopy = 0 ∧ (∀ e, spareC.w.shut e = false) ∧ (∀ n, spareC.w.latch n = 0) ∧ (∀ t, spareC.w.intr t = false) ∧
    ∀ a, spareC.w.mem a = 0 := ⟨fun _ => rfl, rfl, fun _ => rfl, fun _ => rfl, fun _ => rfl, fun _ => rfl⟩

theorem spare_tasks : ∀ e, spareC.w.tasks e = if e = 0 then [(0, 0)] else []
  | 0 => rfl
  | _ + 1 => rfl

theorem spare_waiting : ∀ q, (spareC.w.queue q).map spareC.w.pair = if q = 0 then [some (stay, 0)] else []
  | 0 => by decide +kernel
  | _ + 1 => rfl

/-- The pool and the history are not. -/
theorem spare_same : Same bareC spareC := by
  obtain ⟨h1, h2, h3, h4, h5, h6⟩ := bare_rest
  obtain ⟨g1, g2, g3, g4, g5, g6⟩ := spare_rest
  exact ⟨funext fun m => (spare_mach m).trans (bare_mach m).symm, funext fun o => (g1 o).trans (h1 o).symm, g2.trans h2.symm,
    funext fun e => (spare_tasks e).trans (bare_tasks e).symm, funext fun e => (g3 e).trans (h3 e).symm, funext fun n => (g4 n).trans (h4 n).symm,
    funext fun t => (g5 t).trans (h5 t).symm, funext fun a => (g6 a).trans (h6 a).symm, fun q => (spare_waiting q).trans (bare_waiting q).symm,
    fun t => by rw [spare_idle t, bare_idle t]⟩

/-- A client looks for duplicates; meanwhile the waiting event is processed, and another client fires. -/
def spareX : List Choice := trim (env acts 0 true) bareC ([.begin 1 (fireP go)] ++ runN (.client 1) 5 ++ [.dispatch 0 0 0] ++ runN w0 40 ++
  [.begin 2 (fireP go)] ++ runN (.client 2) 9 ++ runN (.client 1) 2)

def droppedGo (c : Conf) : Bool := decide ((Tid.client 1, Obs.dropped 0 go) ∈ c.w.trace)

theorem spare_facts : ((runs (env acts 0 true) bareC spareX).map droppedGo) = some true ∧ ((runs (env acts 0 true) spareC spareX).map droppedGo) = some false ∧
    droppedGo bareC = false := by decide +kernel

end Demo

/-- A machine that went to another state and back can do so forever, and the same is observed every time. -/
example : ∃ xs l, l.length = 28 ∧ ∀ n, ∃ e, runs (Demo.env Demo.acts) Demo.beginC (List.replicate n xs).flatten = some e ∧
    e.w.trace = Demo.beginC.w.trace ++ (List.replicate n l).flatten := by
  obtain ⟨l, h1, h2⟩ := C106_cycle (fun _ => rfl) Demo.begin_reach Demo.begin_idle Demo.round_runs Demo.round_same
  refine ⟨Demo.trim (Demo.env Demo.acts) Demo.beginC Demo.roundX, l, ?_, fun n => ?_⟩
  · have := congrArg List.length h1
    rw [List.length_append, Demo.round_facts.1] at this
    omega
  · obtain ⟨e, h3, _, h4⟩ := h2 n
    exact ⟨e, h3, h4⟩

/-- C106 fails for strategies that drop duplicates: which pairs the pool has got makes a difference. -/
theorem C106_negation_duplicates : ∃ env c c' xs d d', (∀ s, (env.strat s).dropDup = true) ∧ Reach env c ∧ Reach env c' ∧ (∀ t, c.thr t = none) ∧ Same c c' ∧
    runs env c xs = some d ∧ runs env c' xs = some d' ∧ (Tid.client 1, Obs.dropped 0 Demo.go) ∉ c.w.trace ∧
    (Tid.client 1, Obs.dropped 0 Demo.go) ∈ d.w.trace ∧ (Tid.client 1, Obs.dropped 0 Demo.go) ∉ d'.w.trace := by
  obtain ⟨h1, h2, h3⟩ := Demo.spare_facts
  obtain ⟨d, hd, g1⟩ := Option.map_eq_some_iff.1 h1
  obtain ⟨d', hd', g2⟩ := Option.map_eq_some_iff.1 h2
  exact ⟨Demo.env Demo.acts 0 true, _, _, _, d, d', fun _ => rfl, Demo.bare_reach, Demo.spare_reach, Demo.bare_idle, Demo.spare_same, hd, hd',
    of_decide_eq_false h3, of_decide_eq_true g1, of_decide_eq_false g2⟩

end Verif
