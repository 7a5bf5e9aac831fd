import Verif.Proofs.Stale
import Verif.Props.Loose
import Verif.Props.Checks
/-
C98: what does not depend on plain fields, for all strategies, under weak memory. As C93, but the strategies may drop duplicates. Then calls of fire() read pairs which are
not theirs, and may find contents that are out of date. In these executions reads of pairs return something the Java memory model allows; reads of other fields in `M`
anything at all.
-/

namespace Verif
open Verif.Spec.HB Verif.Spec.Plain Verif.Plain Verif.Loose Verif.Stale Verif.Spec.Course

/-- Reads of pairs are allowed by the Java memory model. -/
def PairsJustified (env : Env) (M : Cell → Prop) [DecidablePred M] (c0 : Conf) (xs : List PChoice) : Prop :=
  ∀ p, M (.pair p) → Justified false (content c0.w (.pair p)) (.pair p) (acts env M c0 xs)

section
variable {env : Env} {M : Cell → Prop} [DecidablePred M] {c0 c : Conf} {xs : List PChoice} {q : QId} {e : EId}

theorem stale_runs (hi : Initial c0) (hr : Plain.runs env M c0 xs = some c) (hj : PairsJustified env M c0 xs) : CRuns env (noPairs M) c0 c :=
  Stale.pair_runs (A := []) (lst' := fun _ => []) (Checks.k_initial hi) (fun t => by rw [hi.idle t]) ⟨own_initial env c0 hi, stacks_initial _⟩
    (fun _ _ _ _ _ h => (nomatch h)) hr (fun p hp => by
      have := hj p hp
      simp only [content, hi.pair, Option.map_none] at this
      simpa using this)

/-- C98. Events are taken from a queue in the order in which they were put into it, each once, and none gets lost. -/
theorem C98_order (hi : Initial c0) (hr : Plain.runs env M c0 xs = some c) (hj : PairsJustified env M c0 xs) (q : QId) :
    Spec.taken q c.w.trace <+: Spec.accepted q c.w.trace ∧
    Spec.accepted q c.w.trace = Spec.taken q c.w.trace ++ (c.w.queue q).filterMap c.w.pair ∧ (∀ p ∈ c.w.queue q, (c.w.pair p).isSome = true) := by
  have hr' := stale_runs hi hr hj
  obtain ⟨lst, -, loc, h⟩ := stale (M := noPairs M) (over_self env) (checked env) (own_invariant env) own_blind (own_numb.rash fun _ _ h => h) (fun _ h => h) hi (own_initial env c0 hi) hr'
  refine ⟨⟨_, (h.fifo q).symm⟩, h.fifo q, fun p hp => ?_⟩
  obtain ⟨ev, m, h1, _⟩ := h.full q p hp
  simp [h1]

theorem stale_waiting (hi : Initial c0) (hr : Plain.runs env M c0 xs = some c) (hj : PairsJustified env M c0 xs) :
    Spec.waiting q c.w.trace = (c.w.queue q).filterMap c.w.pair ∧ (Spec.waiting q c.w.trace).length = (c.w.queue q).length := by
  obtain ⟨_, h, h'⟩ := C98_order hi hr hj q
  have h1 : Spec.waiting q c.w.trace = (c.w.queue q).filterMap c.w.pair := by rw [Spec.waiting, h, List.drop_left]
  refine ⟨h1, ?_⟩
  rw [h1]
  generalize c.w.queue q = l at h'
  induction l with
  | nil => rfl
  | cons p l ih =>
    obtain ⟨x, hx⟩ := Option.isSome_iff_exists.1 (h' p List.mem_cons_self)
    simp [hx, ih fun p hp => h' p (List.mem_cons_of_mem _ hp)]

/-- C98. Every waiting event has somebody who will see to it. -/
theorem C98_covered (hi : Initial c0) (hr : Plain.runs env M c0 xs = some c) (hj : PairsJustified env M c0 xs)
    (he : ∀ s, (env.strat s).queue = q → (env.strat s).exec = e) :
    ∃ T : List Tid, T.Nodup ∧ (∀ t ∈ T, c.serves env q t) ∧ (c.w.queue q).length ≤ T.length + c.pending env q e + c.lost env q := by
  have hr' := stale_runs hi hr hj
  obtain ⟨lst, ht, ⟨_, _⟩, h⟩ := stale (M := noPairs M) (over_self env) (checked env)
    (((own_invariant env).and (task_preserved env)).and ((covered_invariant env q e).mono fun _ _ h => h.2)) ((own_blind.and task_blind).and covered_blind)
    (((own_numb.and task_numb).and covered_numb).rash fun _ _ h => h.1.1) (fun _ h => h) hi
    ⟨⟨own_initial env c0 hi, task_initial env c0 hi⟩, fun _ => ⟨[], List.nodup_nil, fun _ h => (nomatch h), by rw [hi.queue]; exact Nat.zero_le _⟩⟩ hr'
  obtain ⟨T, h1, h2, h3⟩ := h he
  refine ⟨T, h1, fun t htT => serves_of_waits ht (h2 t htT), Nat.le_trans h3 (Nat.le_of_eq ?_)⟩
  unfold ntasks Conf.pending Conf.lost
  congr 1
  refine List.countP_congr fun x _ => ?_
  obtain ⟨u, o⟩ := x
  cases o <;> first | exact Iff.rfl | simp [lostTask]

/-- C98. When all threads are idle, the executor has no task for the queue and has not refused or thrown away one, then all events have been taken. -/
theorem C98_all_taken (hi : Initial c0) (hr : Plain.runs env M c0 xs = some c) (hj : PairsJustified env M c0 xs)
    (he : ∀ s, (env.strat s).queue = q → (env.strat s).exec = e) (hidle : ∀ t, c.thr t = none) (hp : ∀ s m, (s, m) ∈ c.w.tasks e → (env.strat s).queue ≠ q)
    (hl : ∀ x ∈ c.w.trace, ∀ s m, (env.strat s).queue = q → x.2 ≠ .rejected s m ∧ x.2 ≠ .taskDropped s m) :
    c.w.queue q = [] ∧ Spec.taken q c.w.trace = Spec.accepted q c.w.trace := by
  obtain ⟨T, _, h2, h3⟩ := C98_covered hi hr hj he
  have hT : T = [] := by
    cases T with
    | nil => rfl
    | cons t T =>
      obtain ⟨o, k, h, _⟩ := h2 t List.mem_cons_self
      rw [hidle t] at h
      cases h
  have h0 : c.lost env q = 0 := by
    refine List.countP_eq_zero.2 ?_
    rintro ⟨u, o⟩ hx
    have := hl _ hx
    cases o <;> simp only [Bool.false_eq_true, not_false_eq_true, decide_eq_true_eq]
    · exact fun hq => (this _ _ hq).1 rfl
    · exact fun hq => (this _ _ hq).2 rfl
  have h1 : c.pending env q e = 0 := by
    refine List.countP_eq_zero.2 fun x hx => ?_
    simpa using hp x.1 x.2 hx
  have h4 : c.w.queue q = [] := List.length_eq_zero_iff.1 (by rw [hT, h0, h1] at h3; simpa using h3)
  refine ⟨h4, ?_⟩
  have := (C98_order hi hr hj q).2.1
  rw [h4] at this
  simpa using this.symm

/-- C98. The bound of a queue. -/
theorem C98_bound {n : Nat} (hi : Initial c0) (hr : Plain.runs env M c0 xs = some c) (hj : PairsJustified env M c0 xs)
    (hs : ∀ s, (env.strat s).queue = q → 0 < (env.strat s).maxQ ∧ (env.strat s).maxQ ≤ n) {P : List Tid}
    (hP : ∀ t m ev, (t, .enter (.fire m ev)) ∈ c.w.trace → (env.strat (env.mach m).strat).queue = q → t ∈ P) :
    (Spec.waiting q c.w.trace).length ≤ n + P.length - 1 := by
  have hr' := stale_runs hi hr hj
  obtain ⟨lst, -, -, h⟩ := stale (M := noPairs M) (over_self env) (checked env)
    (((own_invariant env).and (stacks_invariant env _)).and ((bounded_invariant env q n).mono fun _ _ h => h.2)) ((own_blind.and stacks_blind).and bounded_blind)
    (((own_numb.and stacks_numb).and bounded_numb).rash fun _ _ h => h.1.1) (fun _ h => h) hi
    ⟨⟨own_initial env c0 hi, stacks_initial _⟩, fun _ _ _ => ⟨[], List.nodup_nil, fun _ => by simp [inflight], .inr (by rw [hi.queue]; rfl)⟩⟩ hr'
  obtain ⟨I, _, _, h⟩ := h hs P hP
  rw [(stale_waiting hi hr hj).2]
  omega

/-- C98. If one thread fires, with the drop-duplicates strategy, no two waiting events are equal. -/
theorem C98_no_duplicates (hi : Initial c0) (hr : Plain.runs env M c0 xs = some c) (hj : PairsJustified env M c0 xs)
    (hs : ∀ s, (env.strat s).queue = q → (env.strat s).dropDup = true) {t : Tid}
    (hP : ∀ u m ev, (u, .enter (.fire m ev)) ∈ c.w.trace → (env.strat (env.mach m).strat).queue = q → u = t ∧ ev.cls = 0) :
    (Spec.waiting q c.w.trace).Pairwise fun x y => x.1.eqv y.1 = false := by
  have hr' := stale_runs hi hr hj
  obtain ⟨lst, -, -, h⟩ := stale (M := noPairs M) (over_self env) (checked env) (((own_invariant env).and (stacks_invariant env _)).and (distinct_invariant env q t))
    ((own_blind.and stacks_blind).and distinct_blind) (((own_numb.and stacks_numb).and distinct_numb).rash fun _ _ h => h.1.1) (fun _ h => h) hi
    ⟨⟨own_initial env c0 hi, stacks_initial _⟩, fun _ _ => ⟨by rw [hi.queue]; exact .nil, fun _ _ _ _ h => (nomatch h)⟩⟩ hr'
  rw [(stale_waiting hi hr hj).1]
  exact (h hs hP).1

/-- C98. A machine is started once; a machine that has ended enters no state; `isStarted()` and `isEnded()` tell the truth. -/
theorem C98_flags (hi : Initial c0) (hr : Plain.runs env M c0 xs = some c) (hj : PairsJustified env M c0 xs) :
    Spec.Loose.Legal c.w.trace ∧ ∀ m, (c.w.mach m).started = Spec.Loose.started m c.w.trace ∧ (c.w.mach m).ended = Spec.Loose.ended m c.w.trace := by
  have hr' := stale_runs hi hr hj
  obtain ⟨lst, -, -, h⟩ := stale (M := noPairs M) (over_self env) (checked env) ((own_invariant env).and (flags_invariant env)) (own_blind.and flags_blind)
    ((own_numb.and flags_numb).rash fun _ _ h => h.1) (fun _ h => h) hi
    ⟨own_initial env c0 hi, flags_initial hi⟩ hr'
  exact ⟨h.legal, fun m => ⟨h.started m, h.ended m⟩⟩

variable {t : Tid} {pre mid post : List (Tid × Obs)} {m m' : MId} {ev ev' : Ev}

/-- C98. What a thread does for an event is part of a script. -/
theorem C98_script (hi : Initial c0) (hr : Plain.runs env M c0 xs = some c) (hj : PairsJustified env M c0 xs) (ht : t ≠ .env)
    (h : c.w.trace = pre ++ (t, .taken q m ev) :: (mid ++ post)) (hmid : ∀ m' ev', (t, .done m' ev') ∉ mid) :
    (∃ s, q = (env.strat s).queue ∧ Part ((Course.cfg env).desc s m) ev (deeds t 0 mid)) ∧ (calledOf (deeds t 0 mid)).Nodup := by
  have hr' := stale_runs hi hr hj
  obtain ⟨d, st, hw⟩ := Stale.steps_all (M := noPairs M) (fun _ h => h) hi hr' t ht
  obtain ⟨s, h1, h2⟩ := Course.steps_script (fun _ _ => rfl) hw h hmid
  exact ⟨⟨s, h1, h2⟩, Course.part_nodup h2⟩

/-- C98. When it is done, it has followed a script to its end, or it was interrupted by an exception, which was reported, or by an error. -/
theorem C98_finished (hi : Initial c0) (hr : Plain.runs env M c0 xs = some c) (hj : PairsJustified env M c0 xs) (ht : t ≠ .env)
    (h : c.w.trace = pre ++ (t, .taken q m ev) :: (mid ++ (t, .done m' ev') :: post)) (hmid : ∀ m' ev', (t, .done m' ev') ∉ mid) :
    m' = m ∧ ev' = ev ∧ ∃ s, q = (env.strat s).queue ∧
      Finished ((Course.cfg env).desc s m) ev (fun x => ∃ c, (t, .cbRet c (some x)) ∈ mid) (deeds t 0 mid) := by
  have hr' := stale_runs hi hr hj
  obtain ⟨d, st, hw⟩ := Stale.steps_all (M := noPairs M) (fun _ h => h) hi hr' t ht
  exact Course.steps_finished (fun _ _ => rfl) hw h hmid

end

namespace Demo

/-- Client 0 fires go, go and back; its reads of pair 0 return go. -/
def onceX : List PChoice :=
  [.sched (Choice.begin 0 (client 0 [go, go, back]))] ++
    (List.replicate 100 [.read (.client 0) (.pair (some go) (some 0)), .sched (.run (.client 0))]).flatten

def onceC : Conf := pdrive reuseEnv (· = .pair 0) conf onceX

end Demo

open Demo in
/-- C98: of two equal events one is queued. -/
example : ∃ xs, Plain.runs reuseEnv (· = .pair 0) conf xs = some onceC ∧ PairsJustified reuseEnv (· = .pair 0) conf xs ∧
    Spec.waiting 0 onceC.w.trace = [(go, 0), (back, 0)] ∧ (Spec.waiting 0 onceC.w.trace).Pairwise fun x y => x.1.eqv y.1 = false := by
  obtain ⟨xs, h1, h2⟩ := phist_real reuseEnv (· = .pair 0) conf onceX
  have hj : PairsJustified reuseEnv (· = .pair 0) conf xs := by
    rintro p hp
    cases hp
    rw [h2]
    exact pjustified_of (by decide +kernel)
  refine ⟨xs, h1, hj, by decide +kernel, C98_no_duplicates (conf_initial _) h1 hj (t := .client 0) (fun s _ => rfl) fun u m ev h _ => ?_⟩
  have := List.all_eq_true.1 (by decide +kernel : onceC.w.trace.all (fun e => match e.2 with | .enter (.fire _ ev) => e.1 == .client 0 && ev.cls == 0 | _ => true) = true) _ h
  simpa using this

open Demo in
/-- C98: in the execution of C92 an event is dropped because of what has been in a pair before; events are taken in order all the same. -/
example : ∃ xs c, Plain.runs reuseEnv (· = .pair 0) conf xs = some c ∧ PairsJustified reuseEnv (· = .pair 0) conf xs ∧
    c.w.pair 0 = some (back, 0) ∧ (Tid.client 1, Obs.dropped 0 go) ∈ c.w.trace ∧ Spec.accepted 0 c.w.trace = [(go, 0), (back, 0)] ∧ Spec.taken 0 c.w.trace = [(go, 0)] ∧
    Spec.accepted 0 c.w.trace = Spec.taken 0 c.w.trace ++ (c.w.queue 0).filterMap c.w.pair := by
  obtain ⟨xs, h1, h2⟩ := phist_real reuseEnv (· = .pair 0) conf reuseX
  have hj : PairsJustified reuseEnv (· = .pair 0) conf xs := by
    rintro p hp
    cases hp
    rw [h2]
    exact pjustified_of (by decide +kernel)
  exact ⟨xs, _, h1, hj, by decide +kernel, by decide +kernel, by decide +kernel, by decide +kernel, (C98_order (conf_initial _) h1 hj 0).2.1⟩

end Verif
