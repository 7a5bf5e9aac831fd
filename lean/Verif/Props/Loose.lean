import Verif.Proofs.Loose
import Verif.Props.Plain
/-
C93: what does not depend on plain fields. In these executions a read of currentState, of a listener or of a payload may return anything, whether it has ever been
written or not.
-/

namespace Verif
open Verif.Spec.HB Verif.Spec.Plain Verif.Plain Verif.Loose Verif.Spec.Course

/-- What is assumed about pairs: reads of pairs return what they contain, or there are no drop-duplicate strategies and the reads are allowed by the Java memory model.
(For drop-duplicate strategies under weak memory see C92 and C98.) -/
def PairsOk (env : Env) (M : Cell → Prop) [DecidablePred M] (c0 : Conf) (xs : List PChoice) : Prop :=
  (∀ p, ¬M (.pair p)) ∨ ((∀ m, (env.strat (env.mach m).strat).dropDup = false) ∧
    ∀ p, M (.pair p) → Justified false (content c0.w (.pair p)) (.pair p) (acts env M c0 xs))

section
variable {env : Env} {M : Cell → Prop} [DecidablePred M] {c0 c : Conf} {xs : List PChoice} {q : QId} {e : EId}

theorem pairs_gone (hM : PairsOk env M c0 xs) (hi : Initial c0) (hr : Plain.runs env M c0 xs = some c) :
    ∃ (M' : Cell → Prop) (_ : DecidablePred M') (ys : List PChoice), (∀ p, ¬M' (.pair p)) ∧ Plain.runs env M' c0 ys = some c := by
  rcases hM with hM | ⟨hd, hj⟩
  · exact ⟨M, inferInstance, xs, hM, hr⟩
  · obtain ⟨ys, h⟩ := pair_runs (A := []) hd (Checks.k_initial hi) (fun _ _ _ h => by cases h) hr (fun p hp => by
      have := hj p hp
      simp only [content, hi.pair, Option.map_none] at this
      simpa using this)
    exact ⟨noPairs M, inferInstance, ys, fun _ h => h, h⟩

/-- C93. Events are taken from a queue in the order in which they were put into it, each once, and none gets lost. -/
theorem C93_order (hM : PairsOk env M c0 xs) (hi : Initial c0) (hr : Plain.runs env M c0 xs = some c) (q : QId) :
    Spec.taken q c.w.trace <+: Spec.accepted q c.w.trace ∧
    Spec.accepted q c.w.trace = Spec.taken q c.w.trace ++ (c.w.queue q).filterMap c.w.pair ∧ (∀ p ∈ c.w.queue q, (c.w.pair p).isSome = true) := by
  obtain ⟨M', _, ys, hM', hr'⟩ := pairs_gone hM hi hr
  obtain ⟨lst, -, loc, h⟩ := loose (M := M') (checked env) (own_invariant env) own_blind hM' hi (own_initial env c0 hi) hr'
  refine ⟨⟨_, (h.fifo q).symm⟩, h.fifo q, fun p hp => ?_⟩
  obtain ⟨ev, m, h1, _⟩ := h.full q p hp
  simp [h1]

theorem loose_waiting (hM : PairsOk env M c0 xs) (hi : Initial c0) (hr : Plain.runs env M c0 xs = some c) :
    Spec.waiting q c.w.trace = (c.w.queue q).filterMap c.w.pair ∧ (Spec.waiting q c.w.trace).length = (c.w.queue q).length := by
  obtain ⟨_, h, h'⟩ := C93_order hM hi hr q
  have h1 : Spec.waiting q c.w.trace = (c.w.queue q).filterMap c.w.pair := by rw [Spec.waiting, h, List.drop_left]
  refine ⟨h1, ?_⟩
  rw [h1]
  generalize c.w.queue q = l at h'
  induction l with
  | nil => rfl
  | cons p l ih =>
    obtain ⟨x, hx⟩ := Option.isSome_iff_exists.1 (h' p List.mem_cons_self)
    simp [hx, ih fun p hp => h' p (List.mem_cons_of_mem _ hp)]

/-- C93. Every waiting event has somebody who will see to it. -/
theorem C93_covered (hM : PairsOk env M c0 xs) (hi : Initial c0) (hr : Plain.runs env M c0 xs = some c)
    (he : ∀ s, (env.strat s).queue = q → (env.strat s).exec = e) :
    ∃ T : List Tid, T.Nodup ∧ (∀ t ∈ T, c.serves env q t) ∧ (c.w.queue q).length ≤ T.length + c.pending env q e + c.lost env q := by
  obtain ⟨M', _, ys, hM', hr'⟩ := pairs_gone hM hi hr
  obtain ⟨lst, ht, ⟨_, _⟩, h⟩ := loose (M := M') (checked env)
    (((own_invariant env).and (task_preserved env)).and ((covered_invariant env q e).mono fun _ _ h => h.2)) ((own_blind.and task_blind).and covered_blind) hM' hi
    ⟨⟨own_initial env c0 hi, task_initial env c0 hi⟩, fun _ => ⟨[], List.nodup_nil, fun _ h => (nomatch h), by rw [hi.queue]; exact Nat.zero_le _⟩⟩ hr'
  obtain ⟨T, h1, h2, h3⟩ := h he
  refine ⟨T, h1, fun t htT => serves_of_waits ht (h2 t htT), Nat.le_trans h3 (Nat.le_of_eq ?_)⟩
  unfold ntasks Conf.pending Conf.lost
  congr 1
  refine List.countP_congr fun x _ => ?_
  obtain ⟨u, o⟩ := x
  cases o <;> first | exact Iff.rfl | simp [lostTask]

/-- C93. When all threads are idle, the executor has no task for the queue and has not refused or thrown away one, then all events have been taken. -/
theorem C93_all_taken (hM : PairsOk env M c0 xs) (hi : Initial c0) (hr : Plain.runs env M c0 xs = some c)
    (he : ∀ s, (env.strat s).queue = q → (env.strat s).exec = e) (hidle : ∀ t, c.thr t = none) (hp : ∀ s m, (s, m) ∈ c.w.tasks e → (env.strat s).queue ≠ q)
    (hl : ∀ x ∈ c.w.trace, ∀ s m, (env.strat s).queue = q → x.2 ≠ .rejected s m ∧ x.2 ≠ .taskDropped s m) :
    c.w.queue q = [] ∧ Spec.taken q c.w.trace = Spec.accepted q c.w.trace := by
  obtain ⟨T, _, h2, h3⟩ := C93_covered hM hi hr he
  have hT : T = [] := by
    cases T with
    | nil => rfl
    | cons t T =>
      obtain ⟨o, k, h, _⟩ := h2 t List.mem_cons_self
      rw [hidle t] at h
      cases h
  have h0 : c.lost env q = 0 := by
    refine List.countP_eq_zero.2 ?_
    rintro ⟨u, o⟩ hx
    have := hl _ hx
    cases o <;> simp only [Bool.false_eq_true, not_false_eq_true, decide_eq_true_eq]
    · exact fun hq => (this _ _ hq).1 rfl
    · exact fun hq => (this _ _ hq).2 rfl
  have h1 : c.pending env q e = 0 := by
    refine List.countP_eq_zero.2 fun x hx => ?_
    simpa using hp x.1 x.2 hx
  have h4 : c.w.queue q = [] := List.length_eq_zero_iff.1 (by rw [hT, h0, h1] at h3; simpa using h3)
  refine ⟨h4, ?_⟩
  have := (C93_order hM hi hr q).2.1
  rw [h4] at this
  simpa using this.symm

/-- C93. The bound of a queue. -/
theorem C93_bound {n : Nat} (hM : PairsOk env M c0 xs) (hi : Initial c0) (hr : Plain.runs env M c0 xs = some c)
    (hs : ∀ s, (env.strat s).queue = q → 0 < (env.strat s).maxQ ∧ (env.strat s).maxQ ≤ n) {P : List Tid}
    (hP : ∀ t m ev, (t, .enter (.fire m ev)) ∈ c.w.trace → (env.strat (env.mach m).strat).queue = q → t ∈ P) :
    (Spec.waiting q c.w.trace).length ≤ n + P.length - 1 := by
  obtain ⟨M', _, ys, hM', hr'⟩ := pairs_gone hM hi hr
  obtain ⟨lst, -, -, h⟩ := loose (M := M') (checked env)
    (((own_invariant env).and (stacks_invariant env _)).and ((bounded_invariant env q n).mono fun _ _ h => h.2)) ((own_blind.and stacks_blind).and bounded_blind) hM' hi
    ⟨⟨own_initial env c0 hi, stacks_initial _⟩, fun _ _ _ => ⟨[], List.nodup_nil, fun _ => by simp [inflight], .inr (by rw [hi.queue]; rfl)⟩⟩ hr'
  obtain ⟨I, _, _, h⟩ := h hs P hP
  rw [(loose_waiting hM hi hr).2]
  omega

/-- C93. If one thread fires, with the drop-duplicates strategy, no two waiting events are equal. -/
theorem C93_no_duplicates (hM : PairsOk env M c0 xs) (hi : Initial c0) (hr : Plain.runs env M c0 xs = some c)
    (hs : ∀ s, (env.strat s).queue = q → (env.strat s).dropDup = true) {t : Tid}
    (hP : ∀ u m ev, (u, .enter (.fire m ev)) ∈ c.w.trace → (env.strat (env.mach m).strat).queue = q → u = t ∧ ev.cls = 0) :
    (Spec.waiting q c.w.trace).Pairwise fun x y => x.1.eqv y.1 = false := by
  obtain ⟨M', _, ys, hM', hr'⟩ := pairs_gone hM hi hr
  obtain ⟨lst, -, -, h⟩ := loose (M := M') (checked env) (((own_invariant env).and (stacks_invariant env _)).and (distinct_invariant env q t))
    ((own_blind.and stacks_blind).and distinct_blind) hM' hi
    ⟨⟨own_initial env c0 hi, stacks_initial _⟩, fun _ _ => ⟨by rw [hi.queue]; exact .nil, fun _ _ _ _ h => (nomatch h)⟩⟩ hr'
  rw [(loose_waiting hM hi hr).1]
  exact (h hs hP).1

/-- C93. A machine is started once; a machine that has ended enters no state; `isStarted()` and `isEnded()` tell the truth. -/
theorem C93_flags (hM : PairsOk env M c0 xs) (hi : Initial c0) (hr : Plain.runs env M c0 xs = some c) :
    Spec.Loose.Legal c.w.trace ∧ ∀ m, (c.w.mach m).started = Spec.Loose.started m c.w.trace ∧ (c.w.mach m).ended = Spec.Loose.ended m c.w.trace := by
  obtain ⟨M', _, ys, hM', hr'⟩ := pairs_gone hM hi hr
  obtain ⟨lst, -, -, h⟩ := loose (M := M') (checked env) ((own_invariant env).and (flags_invariant env)) (own_blind.and flags_blind) hM' hi
    ⟨own_initial env c0 hi, flags_initial hi⟩ hr'
  exact ⟨h.legal, fun m => ⟨h.started m, h.ended m⟩⟩

variable {t : Tid} {pre mid post : List (Tid × Obs)} {m m' : MId} {ev ev' : Ev}

/-- C93. What a thread does for an event is part of a script. -/
theorem C93_script (hM : PairsOk env M c0 xs) (hi : Initial c0) (hr : Plain.runs env M c0 xs = some c) (ht : t ≠ .env)
    (h : c.w.trace = pre ++ (t, .taken q m ev) :: (mid ++ post)) (hmid : ∀ m' ev', (t, .done m' ev') ∉ mid) :
    (∃ s, q = (env.strat s).queue ∧ Part ((Course.cfg env).desc s m) ev (deeds t 0 mid)) ∧ (calledOf (deeds t 0 mid)).Nodup := by
  obtain ⟨M', _, ys, hM', hr'⟩ := pairs_gone hM hi hr
  obtain ⟨d, st, hw⟩ := steps_all hM' hi hr' t ht
  obtain ⟨s, h1, h2⟩ := Course.steps_script (fun _ _ => rfl) hw h hmid
  exact ⟨⟨s, h1, h2⟩, Course.part_nodup h2⟩

/-- C93. When it is done, it has followed a script to its end, or it was interrupted by an exception, which was reported, or by an error. -/
theorem C93_finished (hM : PairsOk env M c0 xs) (hi : Initial c0) (hr : Plain.runs env M c0 xs = some c) (ht : t ≠ .env)
    (h : c.w.trace = pre ++ (t, .taken q m ev) :: (mid ++ (t, .done m' ev') :: post)) (hmid : ∀ m' ev', (t, .done m' ev') ∉ mid) :
    m' = m ∧ ev' = ev ∧ ∃ s, q = (env.strat s).queue ∧
      Finished ((Course.cfg env).desc s m) ev (fun x => ∃ c, (t, .cbRet c (some x)) ∈ mid) (deeds t 0 mid) := by
  obtain ⟨M', _, ys, hM', hr'⟩ := pairs_gone hM hi hr
  obtain ⟨d, st, hw⟩ := steps_all hM' hi hr' t ht
  exact Course.steps_finished (fun _ _ => rfl) hw h hmid

end

namespace Demo

/-- All fields but those of pairs. -/
def Any : Cell → Prop
  | .pair _ => False
  | _ => True

instance : DecidablePred Any := fun f => by cases f <;> unfold Any <;> infer_instance

/-- The machine has no listener and was never in C. The worker finds it in A, then in C, and a listener. -/
def anyX : List PChoice :=
  ([Choice.begin 0 (client 0 [go])] ++ runN (.client 0) 100 ++ [Choice.dispatch 0 0 0] ++ runN w0 5).map .sched ++
    [.read w0 (.state (some C)), .read w0 (.listener (some 5)), .read w0 (.listener (some 5))] ++ (runN w0 100).map .sched

def anyC : Conf := pdrive (env payActs) Any conf anyX

end Demo

open Demo in
/-- C93: the callback says that the machine goes from C to B. But it comes once, before the state is entered, and all the rest is as it should be. -/
example : ∃ xs, Plain.runs (env payActs) Any conf xs = some anyC ∧ PairsOk (env payActs) Any conf xs ∧
    ∃ pre mid post, anyC.w.trace = pre ++ (w0, .taken 0 0 go) :: (mid ++ (w0, .done 0 go) :: post) ∧
      deeds w0 0 mid = [.call (.begin 0 C go B), .enter 0 B, .call (.action 0 .entry 2 0 go)] ∧
      Finished ((Course.cfg (env payActs)).desc 0 0) go (fun x => ∃ c, (w0, .cbRet c (some x)) ∈ mid) (deeds w0 0 mid) ∧
      Spec.taken 0 anyC.w.trace = Spec.accepted 0 anyC.w.trace ∧ Spec.Loose.started 0 anyC.w.trace = true := by
  obtain ⟨xs, h1, _⟩ := phist_real (env payActs) Any conf anyX
  have hp : PairsOk (env payActs) Any conf xs := .inl fun _ h => h
  have h : anyC.w.trace = anyC.w.trace.take 9 ++ (w0, .taken 0 0 go) :: ((anyC.w.trace.drop 10).take 6 ++ (w0, .done 0 go) :: []) := by decide +kernel
  have hm : ∀ m' ev', (w0, Obs.done m' ev') ∉ (anyC.w.trace.drop 10).take 6 := by
    intro m' ev' hmem
    have := List.all_eq_true.1 (by decide +kernel : ((anyC.w.trace.drop 10).take 6).all (fun e => match e.2 with | .done .. => false | _ => true) = true) _ hmem
    simp at this
  refine ⟨xs, h1, hp, _, _, _, h, by decide +kernel, ?_, by decide +kernel, by decide +kernel⟩
  obtain ⟨_, _, s, hs, hf⟩ := C93_finished hp (conf_initial _) h1 (by decide) h hm
  have : 0 = s := hs
  subst this
  exact hf

end Verif
