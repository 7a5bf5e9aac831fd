import Verif.Proofs.Bypass
import Verif.Proofs.Wait
import Verif.Props.Loose
/-
C97: events handed to a strategy directly, so that nobody looks whether the machine is started or has ended; or a machine whose flags are not what they should be.
-/

namespace Verif
open Verif.Bypass Verif.Spec.HB Verif.Plain Verif.Loose Verif.Spec.Course

section
variable {env : Env} {M : Cell → Prop} [DecidablePred M] {c0 c c' : Conf} {q : QId} {e : EId}

/-- C97. An execution with direct calls of strategies is an execution without, in which some reads of `isStarted` and `isEnded` return something else. -/
theorem C97_direct (h : Bypass.Runs env c0 c) : FRuns env M c0 c := bypass_flags h

/-- C97. Wherever user code calls `fire()` of a machine, it can call the strategy instead; from then on it does what `processEvent()` does. -/
theorem C97_anywhere {t : Tid} {m : MId} {ev : Ev} {k : Except Exc Unit → Prog Unit} (h : Bypass.Runs env c0 c)
    (ht : c.thr t = some (((UCall.fire m ev).prog env).bind k)) :
    ∃ K, Bypass.Runs env c0 ⟨c.w.log t (.enter (.fire m ev)), fset c.thr t (some ((processEvent env (env.mach m).strat ev m).handle K))⟩ ∧
      ∀ r, K r = .op (.emit (.leave (.fire m ev) (outcome r))) fun _ => k r := by
  change c.thr t = some ((api (.fire m ev) (fire env m ev)).bind k) at ht
  rw [Prog.bind, Wait.api_eq] at ht
  have h1 : Verif.step env c (.run t) = some ⟨c.w.log t (.enter (.fire m ev)), fset c.thr t (some ((fire env m ev).handle
      fun r => .op (.emit (.leave (.fire m ev) (outcome r))) fun _ => k r))⟩ := by
    simp only [Verif.step, ht, Prog.handle, runThread, enabled, exec, if_true, Wait.handle_handle]
  refine ⟨fun r => .op (.emit (.leave (.fire m ev) (outcome r))) fun _ => k r, ?_, fun _ => rfl⟩
  have h2 := (h.step (.sched h1)).step (Step.direct (fset_same ..))
  simp only [fset_fset] at h2
  exact h2

/-- C97. Events are taken from a queue in the order in which they were put into it, each once, and none gets lost. -/
theorem C97_order (hM : ∀ p, ¬M (.pair p)) (hi : Initial c0) (hr : FRuns env M c0 c) (q : QId) :
    Spec.taken q c.w.trace <+: Spec.accepted q c.w.trace ∧
    Spec.accepted q c.w.trace = Spec.taken q c.w.trace ++ (c.w.queue q).filterMap c.w.pair ∧ (∀ p ∈ c.w.queue q, (c.w.pair p).isSome = true) := by
  obtain ⟨lst, -, loc, h⟩ := flag (M := M) (checked env) (own_invariant env) own_blind (.of_blind (own_invariant env) own_deaf) hM hi (own_initial env c0 hi) hr
  refine ⟨⟨_, (h.fifo q).symm⟩, h.fifo q, fun p hp => ?_⟩
  obtain ⟨ev, m, h1, _⟩ := h.full q p hp
  simp [h1]

theorem flag_waiting (hM : ∀ p, ¬M (.pair p)) (hi : Initial c0) (hr : FRuns env M c0 c) :
    Spec.waiting q c.w.trace = (c.w.queue q).filterMap c.w.pair ∧ (Spec.waiting q c.w.trace).length = (c.w.queue q).length := by
  obtain ⟨_, h, h'⟩ := C97_order hM hi hr q
  have h1 : Spec.waiting q c.w.trace = (c.w.queue q).filterMap c.w.pair := by rw [Spec.waiting, h, List.drop_left]
  refine ⟨h1, ?_⟩
  rw [h1]
  generalize c.w.queue q = l at h'
  induction l with
  | nil => rfl
  | cons p l ih =>
    obtain ⟨x, hx⟩ := Option.isSome_iff_exists.1 (h' p List.mem_cons_self)
    simp [hx, ih fun p hp => h' p (List.mem_cons_of_mem _ hp)]

/-- C97. Every waiting event has somebody who will see to it. -/
theorem C97_covered (hM : ∀ p, ¬M (.pair p)) (hi : Initial c0) (hr : FRuns env M c0 c) (he : ∀ s, (env.strat s).queue = q → (env.strat s).exec = e) :
    ∃ T : List Tid, T.Nodup ∧ (∀ t ∈ T, c.serves env q t) ∧ (c.w.queue q).length ≤ T.length + c.pending env q e + c.lost env q := by
  have hI := ((own_invariant env).and (task_preserved env)).and ((covered_invariant env q e).mono fun _ _ h => h.2)
  obtain ⟨lst, ht, ⟨_, _⟩, h⟩ := flag (M := M) (checked env) hI ((own_blind.and task_blind).and covered_blind)
    (.of_blind hI fun _ _ _ hs h => ⟨⟨own_deaf _ _ _ hs h.1.1, task_deaf _ _ _ hs h.1.2⟩, covered_deaf _ _ _ hs h.2⟩) hM hi
    ⟨⟨own_initial env c0 hi, task_initial env c0 hi⟩, fun _ => ⟨[], List.nodup_nil, fun _ h => (nomatch h), by rw [hi.queue]; exact Nat.zero_le _⟩⟩ hr
  obtain ⟨T, h1, h2, h3⟩ := h he
  refine ⟨T, h1, fun t htT => serves_of_waits ht (h2 t htT), Nat.le_trans h3 (Nat.le_of_eq ?_)⟩
  unfold ntasks Conf.pending Conf.lost
  congr 1
  refine List.countP_congr fun x _ => ?_
  obtain ⟨u, o⟩ := x
  cases o <;> first | exact Iff.rfl | simp [lostTask]

/-- C97. When all threads are idle, the executor has no task for the queue and has not refused or thrown away one, then all events have been taken. -/
theorem C97_all_taken (hM : ∀ p, ¬M (.pair p)) (hi : Initial c0) (hr : FRuns env M c0 c)
    (he : ∀ s, (env.strat s).queue = q → (env.strat s).exec = e) (hidle : ∀ t, c.thr t = none) (hp : ∀ s m, (s, m) ∈ c.w.tasks e → (env.strat s).queue ≠ q)
    (hl : ∀ x ∈ c.w.trace, ∀ s m, (env.strat s).queue = q → x.2 ≠ .rejected s m ∧ x.2 ≠ .taskDropped s m) :
    c.w.queue q = [] ∧ Spec.taken q c.w.trace = Spec.accepted q c.w.trace := by
  obtain ⟨T, _, h2, h3⟩ := C97_covered hM hi hr he
  have hT : T = [] := by
    cases T with
    | nil => rfl
    | cons t T =>
      obtain ⟨o, k, h, _⟩ := h2 t List.mem_cons_self
      rw [hidle t] at h
      cases h
  have h0 : c.lost env q = 0 := by
    refine List.countP_eq_zero.2 ?_
    rintro ⟨u, o⟩ hx
    have := hl _ hx
    cases o <;> simp only [Bool.false_eq_true, not_false_eq_true, decide_eq_true_eq]
    · exact fun hq => (this _ _ hq).1 rfl
    · exact fun hq => (this _ _ hq).2 rfl
  have h1 : c.pending env q e = 0 := by
    refine List.countP_eq_zero.2 fun x hx => ?_
    simpa using hp x.1 x.2 hx
  have h4 : c.w.queue q = [] := List.length_eq_zero_iff.1 (by rw [hT, h0, h1] at h3; simpa using h3)
  refine ⟨h4, ?_⟩
  have := (C97_order hM hi hr q).2.1
  rw [h4] at this
  simpa using this.symm

/-- C97. The bound of a queue. -/
theorem C97_bound {n : Nat} (hM : ∀ p, ¬M (.pair p)) (hi : Initial c0) (hr : FRuns env M c0 c)
    (hs : ∀ s, (env.strat s).queue = q → 0 < (env.strat s).maxQ ∧ (env.strat s).maxQ ≤ n) {P : List Tid}
    (hP : ∀ t m ev, (t, .enter (.fire m ev)) ∈ c.w.trace → (env.strat (env.mach m).strat).queue = q → t ∈ P) :
    (Spec.waiting q c.w.trace).length ≤ n + P.length - 1 := by
  have hI := ((own_invariant env).and (stacks_invariant env _)).and ((bounded_invariant env q n).mono fun _ _ h => h.2)
  obtain ⟨lst, -, -, h⟩ := flag (M := M) (checked env) hI ((own_blind.and stacks_blind).and bounded_blind)
    (.of_blind hI fun _ _ _ hs h => ⟨⟨own_deaf _ _ _ hs h.1.1, stacks_deaf _ _ _ hs h.1.2⟩, bounded_deaf _ _ _ hs h.2⟩) hM hi
    ⟨⟨own_initial env c0 hi, stacks_initial _⟩, fun _ _ _ => ⟨[], List.nodup_nil, fun _ => by simp [inflight], .inr (by rw [hi.queue]; rfl)⟩⟩ hr
  obtain ⟨I, _, _, h⟩ := h hs P hP
  rw [(flag_waiting hM hi hr).2]
  omega

/-- C97. If one thread fires, with the drop-duplicates strategy, no two waiting events are equal. -/
theorem C97_no_duplicates (hM : ∀ p, ¬M (.pair p)) (hi : Initial c0) (hr : FRuns env M c0 c)
    (hs : ∀ s, (env.strat s).queue = q → (env.strat s).dropDup = true) {t : Tid}
    (hP : ∀ u m ev, (u, .enter (.fire m ev)) ∈ c.w.trace → (env.strat (env.mach m).strat).queue = q → u = t ∧ ev.cls = 0) :
    (Spec.waiting q c.w.trace).Pairwise fun x y => x.1.eqv y.1 = false := by
  have hI := ((own_invariant env).and (stacks_invariant env _)).and (distinct_invariant env q t)
  obtain ⟨lst, -, -, h⟩ := flag (M := M) (checked env) hI ((own_blind.and stacks_blind).and distinct_blind)
    (.of_blind hI fun _ _ _ hs h => ⟨⟨own_deaf _ _ _ hs h.1.1, stacks_deaf _ _ _ hs h.1.2⟩, distinct_deaf _ _ _ hs h.2⟩) hM hi
    ⟨⟨own_initial env c0 hi, stacks_initial _⟩, fun _ _ => ⟨by rw [hi.queue]; exact .nil, fun _ _ _ _ h => (nomatch h)⟩⟩ hr
  rw [(flag_waiting hM hi hr).1]
  exact (h hs hP).1

/-- C97. A machine is started once; a machine that has ended enters no state. -/
theorem C97_flags (hM : ∀ p, ¬M (.pair p)) (hi : Initial c0) (hr : FRuns env M c0 c) :
    Spec.Loose.Legal c.w.trace ∧ ∀ m, (c.w.mach m).started = Spec.Loose.started m c.w.trace ∧ (c.w.mach m).ended = Spec.Loose.ended m c.w.trace := by
  obtain ⟨lst, -, -, h⟩ := flag (M := M) (checked env) ((own_invariant env).and (flags_invariant env)) (own_blind.and flags_blind)
    ((Deaf.of_blind (own_invariant env) own_deaf).and fun _ _ _ h => h) hM hi ⟨own_initial env c0 hi, flags_initial hi⟩ hr
  exact ⟨h.legal, fun m => ⟨h.started m, h.ended m⟩⟩

variable {t : Tid} {pre mid post : List (Tid × Obs)} {m m' : MId} {ev ev' : Ev}

theorem flag_steps (hM : ∀ p, ¬M (.pair p)) (hi : Initial c0) (hr : FRuns env M c0 c) (t : Tid) (ht : t ≠ .env) :
    ∃ d st, Course.Steps (Course.cfg env) t 0 .idle c.w.trace d st := by
  obtain ⟨lst, _, h⟩ := flag (M := M) (Course.checked2 env) (Loose.invariant env) inv_blind (.of_blind (Loose.invariant env) inv_deaf) hM hi (Loose.initial hi) hr
  exact ⟨_, _, h.steps t ht⟩

/-- C97. What a thread does for an event is part of a script. -/
theorem C97_script (hM : ∀ p, ¬M (.pair p)) (hi : Initial c0) (hr : FRuns env M c0 c) (ht : t ≠ .env)
    (h : c.w.trace = pre ++ (t, .taken q m ev) :: (mid ++ post)) (hmid : ∀ m' ev', (t, .done m' ev') ∉ mid) :
    (∃ s, q = (env.strat s).queue ∧ Part ((Course.cfg env).desc s m) ev (deeds t 0 mid)) ∧ (calledOf (deeds t 0 mid)).Nodup := by
  obtain ⟨d, st, hw⟩ := flag_steps hM hi hr t ht
  obtain ⟨s, h1, h2⟩ := Course.steps_script (fun _ _ => rfl) hw h hmid
  exact ⟨⟨s, h1, h2⟩, Course.part_nodup h2⟩

/-- C97. When it is done, it has followed a script to its end, or it was interrupted by an exception, which was reported, or by an error. -/
theorem C97_finished (hM : ∀ p, ¬M (.pair p)) (hi : Initial c0) (hr : FRuns env M c0 c) (ht : t ≠ .env)
    (h : c.w.trace = pre ++ (t, .taken q m ev) :: (mid ++ (t, .done m' ev') :: post)) (hmid : ∀ m' ev', (t, .done m' ev') ∉ mid) :
    m' = m ∧ ev' = ev ∧ ∃ s, q = (env.strat s).queue ∧
      Finished ((Course.cfg env).desc s m) ev (fun x => ∃ c, (t, .cbRet c (some x)) ∈ mid) (deeds t 0 mid) := by
  obtain ⟨d, st, hw⟩ := flag_steps hM hi hr t ht
  exact Course.steps_finished (fun _ _ => rfl) hw h hmid

end

theorem Bypass.Runs.reach {env : Env} {c0 c d : Conf} (h : Bypass.Runs env c0 c) (hr : ReachFrom env c d) : Bypass.Runs env c0 d := by
  obtain ⟨xs, hr⟩ := hr
  induction xs generalizing c with
  | nil => cases hr; exact h
  | cons x xs ih =>
    simp only [runs] at hr
    split at hr
    · cases hr
    next c1 h1 => exact ih (h.step (.sched h1)) hr

namespace Demo

/-- Client 0 hands `ev` to the strategy of machine 0. -/
def directC (env : Env) (c : Conf) (ev : Ev) : Conf :=
  ⟨c.w.log (.client 0) (.enter (.fire 0 ev)), fset c.thr (.client 0) (some ((processEvent env (env.mach 0).strat ev 0).handle
    fun r => .op (.emit (.leave (.fire 0 ev) (outcome r))) fun _ => .ret ()))⟩

theorem directC_runs {env : Env} {c0 c : Conf} (h : Bypass.Runs env c0 c) (ht : c.thr (.client 0) = none) (ev : Ev) : Bypass.Runs env c0 (directC env c ev) := by
  have h1 : Verif.step env c (.begin 0 (.call (.fire 0 ev) fun _ => .done)) =
      some { c with thr := fset c.thr (.client 0) (some (((UCall.fire 0 ev).prog env).bind fun _ => .ret ())) } := by
    simp only [Verif.step, ht, UProg.denote]
  obtain ⟨K, h2, hK⟩ := C97_anywhere (h.step (.sched h1)) (fset_same ..)
  obtain rfl : K = fun r => .op (.emit (.leave (.fire 0 ev) (outcome r))) fun _ => .ret () := funext hK
  simp only [fset_fset] at h2
  exact h2

theorem directC_idle {env : Env} {c : Conf} (h0 : ∀ t, c.thr t = none) {ev : Ev} {xs : List Choice} (T : List Tid) (h1 : .client 0 ∈ T)
    (hx : xs.all (fun x => match tidOf x with | some t => T.contains t | none => true) = true)
    (ht : T.all (fun t => ((drive env (directC env c ev) xs).thr t).isNone) = true) (t : Tid) : (drive env (directC env c ev) xs).thr t = none := by
  by_cases h : t ∈ T
  · exact isNone_eq (List.all_eq_true.1 ht t h)
  · rw [drive_other env xs (fun x hm => ?_)]
    · have : t ≠ .client 0 := fun he => h (he ▸ h1)
      simp only [directC, fset_ne _ _ this, h0]
    · intro he
      have := List.all_eq_true.1 hx x hm
      rw [he] at this
      exact h (by simpa using this)

def handX : List Choice := runN (.client 0) 100 ++ [Choice.dispatch 0 0 0] ++ runN w0 100

/-- `go` is handed to the strategy before the machine is started. -/
def earlyD : Conf := drive (env payActs) (directC (env payActs) conf go) handX

theorem earlyD_runs : Bypass.Runs (env payActs) conf earlyD := (directC_runs (.refl _) rfl go).reach (drive_reach _ _ _)

theorem earlyD_idle : ∀ t, earlyD.thr t = none := by
  unfold earlyD
  exact directC_idle (env := env payActs) (c := conf) (fun _ => rfl) (ev := go) (xs := handX) [.client 0, w0] (by decide) (by decide +kernel) (by decide +kernel)

def pastX : List Choice := [Choice.begin 0 (.call (.start 0) fun _ => .call (.stop 0) fun _ => .done)] ++ runN (.client 0) 100

/-- The machine is started and stopped. -/
def pastC : Conf := drive (env payActs) conf pastX

theorem pastC_idle : ∀ t, pastC.thr t = none := by
  unfold pastC
  exact idle_of (env := env payActs) (c0 := conf) (fun _ => rfl) (xs := pastX) [.client 0] (by decide +kernel) (by decide +kernel)

/-- Then `go` is handed to the strategy. -/
def pastD : Conf := drive (env payActs) (directC (env payActs) pastC go) handX

theorem pastD_runs : Bypass.Runs (env payActs) conf pastD :=
  (directC_runs (c := pastC) (Bypass.Runs.reach (.refl conf) (drive_reach (env payActs) conf pastX)) (pastC_idle _) go).reach
    (drive_reach (env payActs) (directC (env payActs) pastC go) handX)

theorem pastD_idle : ∀ t, pastD.thr t = none := by
  unfold pastD
  exact directC_idle (env := env payActs) (c := pastC) pastC_idle (ev := go) (xs := handX) [.client 0, w0] (by decide) (by decide +kernel) (by decide +kernel)

end Demo

open Demo in
/-- C97 (negation). Nobody is told that the machine has not been started: the event is accepted and processed, which ends with a NullPointerException. -/
theorem C97_negation_before_start : ∃ env c0 c, Initial c0 ∧ Bypass.Runs env c0 c ∧ (∀ t, c.thr t = none) ∧ Spec.accepted 0 c.w.trace = [(go, 0)] ∧
    (w0, .cb (.flowEx 0 go .npe)) ∈ c.w.trace ∧ Spec.Loose.started 0 c.w.trace = false ∧ ∀ t ev, (t, .cb (.flowBefore 0 ev)) ∉ c.w.trace := by
  refine ⟨_, conf, earlyD, conf_initial _, earlyD_runs, earlyD_idle, by decide +kernel, by decide +kernel, by decide +kernel, ?_⟩
  intro t ev h
  have := List.all_eq_true.1 (by decide +kernel : earlyD.w.trace.all (fun e => match e.2 with | .cb (.flowBefore ..) => false | _ => true) = true) _ h
  simp at this

open Demo in
/-- C97 (negation). After the end of the machine: the event is accepted and thrown away, and nobody is told. -/
theorem C97_negation_after_end : ∃ env c0 c, Initial c0 ∧ Bypass.Runs env c0 c ∧ (∀ t, c.thr t = none) ∧ Spec.accepted 0 c.w.trace = [(go, 0)] ∧
    (w0, .done 0 go) ∈ c.w.trace ∧ Spec.Loose.ended 0 c.w.trace = true ∧ ∀ t k, (t, .cb k) ∉ c.w.trace := by
  refine ⟨_, conf, pastD, conf_initial _, pastD_runs, pastD_idle, by decide +kernel, by decide +kernel, by decide +kernel, ?_⟩
  intro t k h
  have := List.all_eq_true.1 (by decide +kernel : pastD.w.trace.all (fun e => match e.2 with | .cb _ => false | _ => true) = true) _ h
  simp at this

open Demo in
/-- C97: all the same, the event has been taken, once, and what was done for it follows a script. -/
example : FRuns (env payActs) (fun _ => False) conf earlyD ∧ Spec.taken 0 earlyD.w.trace = [(go, 0)] ∧ Spec.taken 0 earlyD.w.trace <+: Spec.accepted 0 earlyD.w.trace ∧
    (∃ pre mid post, earlyD.w.trace = pre ++ (w0, .taken 0 0 go) :: (mid ++ (w0, .done 0 go) :: post) ∧
      deeds w0 0 mid = [.call (.flowEx 0 go .npe)] ∧
      Finished ((Course.cfg (env payActs)).desc 0 0) go (fun x => ∃ c, (w0, .cbRet c (some x)) ∈ mid) (deeds w0 0 mid)) := by
  have hr : FRuns (env payActs) (fun _ => False) conf earlyD := C97_direct earlyD_runs
  have h : earlyD.w.trace = earlyD.w.trace.take 4 ++ (w0, .taken 0 0 go) :: ((earlyD.w.trace.drop 5).take 2 ++ (w0, .done 0 go) :: []) := by decide +kernel
  have hm : ∀ m' ev', (w0, Obs.done m' ev') ∉ (earlyD.w.trace.drop 5).take 2 := by
    intro m' ev' hmem
    have := List.all_eq_true.1 (by decide +kernel : ((earlyD.w.trace.drop 5).take 2).all (fun e => match e.2 with | .done .. => false | _ => true) = true) _ hmem
    simp at this
  refine ⟨hr, by decide +kernel, (C97_order (fun _ h => h) (conf_initial _) hr 0).1, _, _, _, h, by decide +kernel, ?_⟩
  obtain ⟨_, _, s, hs, hf⟩ := C97_finished (fun _ h => h) (conf_initial _) hr (by decide) h hm
  have : 0 = s := hs
  subst this
  exact hf

end Verif
