import Verif.Proofs.Monitored
import Verif.Props.Stale
import Verif.Props.Events
import Verif.Props.Course
/-
C99: weak memory, for all strategies, if the library is used with discipline. As C89, but the strategies may drop duplicates. Then reads of pairs may return something
that is out of date, but only in the checks for duplicates; for everything else memory is sequentially consistent, and what is known about sequentially consistent
executions is true: there are no data races on other fields, events are processed one at a time, each as configured.
-/

namespace Verif
open Verif.Spec.HB Verif.Spec.Plain Verif.Spec.Safe Verif.Plain Verif.Safe
open Spec (Desc MSt bare meddles Handles Events openEv apiDepth takenOf IsEvent)
open Spec.Mon
open Spec.Calls (userObs)

/-- An execution in which the fields in `M` are weak: reads of them return something the Java memory model allows. These fields are used according to the rules. -/
structure Careful (env : Env) (M : Cell → Prop) [DecidablePred M] (c0 : Conf) (xs : List PChoice) (c : Conf) : Prop where
  init : Initial c0
  runs : Plain.runs env M c0 xs = some c
  rules : ∀ f, M f → Rules env (dids (acts env M c0 xs)) f
  justified : ∀ f, M f → Justified false (content c0.w f) f (acts env M c0 xs)

section
variable {env : Env} {M : Cell → Prop} [DecidablePred M] {c0 c : Conf} {xs : List PChoice} {t : Tid} {m : MId} {ev : Ev} {pre mid post : List (Tid × Obs)}

theorem Careful.safe (h : Careful env M c0 xs c) : (∃ ys, Plain.runs env Pairs c0 ys = some c ∧ acts env Pairs c0 ys = acts env M c0 xs) ∧
    Stale.CRuns env (fun _ => False) c0 c ∧ ∃ lst, S env (fun f => content c0.w f) (acts env M c0 xs) lst c :=
  Safe.safe (A := []) (fun p => by simp [content, h.init.pair]) (Checks.k_initial h.init) (fun _ _ _ _ _ h => (nomatch h)) (s_initial h.init) h.runs h.rules h.justified

theorem Careful.monitored (h : Careful env M c0 xs c) (ha : Alone env m) : Monitored env m c0 c :=
  Safe.monitored ha.priv (fun _ h => h) h.init h.safe.2.1

/-- C99. The same execution is possible if only the pairs are weak. -/
theorem C99_library (h : Careful env M c0 xs c) : ∃ ys, Plain.runs env Pairs c0 ys = some c ∧ acts env Pairs c0 ys = acts env M c0 xs := h.safe.1

/-- C99. Reads of other fields return what has been written last. -/
theorem C99_newest (h : Careful env M c0 xs c) {i : Nat} {d : Did} {f : Cell} {v : Content} (hi : (acts env M c0 xs)[i]? = some (d, some (f, v))) (hf : ∀ p, f ≠ .pair p) :
    (v = content c0.w f ∧ ∀ k u, k < i → ¬Puts (acts env M c0 xs) f k u) ∨
    ∃ j < i, Puts (acts env M c0 xs) f j v ∧ ∀ k u, k < i → Puts (acts env M c0 xs) f k u → k ≤ j := by
  obtain ⟨ys, h1, h2⟩ := h.safe.1
  have hlt := (List.getElem?_eq_some_iff.1 hi).1
  have := last_reads (A := []) (v0 := fun f => content c0.w f) h1 (fun f => last_nil) (i := i) (d := d) (f := f) (v := v) (by rw [h2]; exact hi)
    (by cases f <;> first | exact id | exact absurd rfl (hf _)) (Nat.zero_le _)
  rw [List.nil_append, h2] at this
  have up : ∀ {k u}, k < i → Puts (acts env M c0 xs) f k u → Puts ((acts env M c0 xs).take i) f k u := fun hk ⟨a, g1, g2⟩ =>
    ⟨a, by rw [List.getElem?_take_of_lt hk]; exact g1, g2⟩
  rcases this with ⟨h3, h4⟩ | ⟨j, h3, h4⟩
  · exact Or.inl ⟨h3, fun k u hk hp => h4 k u (up hk hp)⟩
  · have hj := puts_lt h3
    rw [List.length_take] at hj
    obtain ⟨a, g1, g2⟩ := h3
    rw [List.getElem?_take_of_lt (by omega)] at g1
    exact Or.inr ⟨j, by omega, ⟨a, g1, g2⟩, fun k u hk hp => h4 k u (up hk hp)⟩

/-- C99. There is no data race on the state of a machine, a listener or a payload that is used according to the rules. -/
theorem C99_races (h : Careful env M c0 xs c) {f : Cell} (hr : Rules env (dids (acts env M c0 xs)) f) (hf : ∀ p, f ≠ .pair p) : RaceFree false (dids (acts env M c0 xs)) f := by
  obtain ⟨lst, hs⟩ := h.safe.2.2
  cases f with
  | cur m => exact (hs.j m hr.1 .env hr.2).1.rf
  | listener m =>
    obtain ⟨g1, g2, t0, g3⟩ := hr
    exact ((hs.j m g1 t0 g2).2 g3).rf
  | pair p => exact absurd rfl (hf p)
  | payload o =>
    obtain ⟨t0, hr⟩ := hr
    exact via_rf (R := fun k p => Spec.Checks.Taken (dids (acts env M c0 xs)) k p) hs.pay hs.fresh ⟨hr.uses, hr.sets⟩

/-- C99. What the history tells about a machine is true. -/
theorem C99_memory (h : Careful env M c0 xs c) (m : MId) : memOf c.w m = machAt c0 m c.w.trace := Safe.memory (fun _ h => h) h.init h.safe.2.1 m

/-- C99. Every thread has a way through the history, as in C57: what it does for events are the reactions configured for the states that the machines are in. -/
theorem C99_course (h : Careful env M c0 xs c) (ht : t ≠ .env) :
    ∃ d st, Spec.Course.Way (Course.cfg env) t (fun m => machAt c0 m []) 0 .idle c.w.trace (fun m => machAt c0 m c.w.trace) d st :=
  Safe.way (fun _ h => h) h.init h.safe.2.1 t ht

/-- C99. There is a reason for everything that happens, as in C57. -/
theorem C99_reasons (h : Careful env M c0 xs c) (ht : t ≠ .env) {past post : List (Tid × Obs)} {x : Obs} (hx : c.w.trace = past ++ (t, x) :: post) :
    Spec.Course.Reason (Course.cfg env) t (machAt c0) past x := by
  obtain ⟨d, st, hw⟩ := C99_course h ht
  exact Course.way_reason (hv := machAt c0) (past := []) (fun _ _ => rfl) (fun m tr e => by simp [machAt, Mem.after]) hw
    (fun _ => rfl) rfl trivial hx

/-- C99. Events of a machine with a queue and a thread of its own are processed one at a time, as in C15. -/
theorem C99_one_at_a_time (hy : Careful env M c0 xs c) (ha : Alone env m) {t' : Tid} {ev' : Ev} {q q' : QId}
    (h : c.w.trace = pre ++ (t, .taken q m ev) :: (mid ++ (t', .taken q' m ev') :: post))
    (hnext : ∀ u q ev, (u, Obs.taken q m ev) ∉ mid) :
    t' = t ∧ q' = q ∧ ∃ mid1 mid2, mid = mid1 ++ (t, .done m ev) :: mid2 ∧ (∀ q m' ev, (t, Obs.taken q m' ev) ∉ mid1) ∧
      (∀ m' ev, (t, Obs.done m' ev) ∉ mid1) ∧ ∀ x ∈ bare t 0 mid2, concerns m x = false := by
  have hm' := hy.monitored ha
  have ht := Monitored.taken_worker ha hm' (t := t) (q := q) (ev := ev) (by rw [h]; simp)
  have ht' := Monitored.taken_worker ha hm' (t := t') (q := q') (ev := ev') (by rw [h]; simp)
  have htt : t' = t := by rw [ht, ht']
  subst htt
  obtain ⟨rfl, _, _, _, _, g', h1⟩ := hm'.at_taken h
  obtain ⟨g1, h2, h3⟩ := mon_split h1
  obtain ⟨g2, h4, h5⟩ := mon_cons h3
  obtain ⟨hd, hid, rfl, _⟩ := step_taken (cfg := monCfg env m) h4
  refine ⟨rfl, rfl, ?_⟩
  have hok : ModeOk (monCfg env m).d.m (.busy ev (planNow (monCfg env m).d (machAt c0 m pre) ev) false) :=
    fun c hc => planNow_for hc
  obtain ⟨mid1, mid2, h6, h7, h8, g3, h9, h10, h11, h12⟩ := busy_done (cfg := monCfg env m) (ev := ev)
    hok rfl h2 (by rw [hid]; rfl)
  have hnt : ∀ q ev, (t', Obs.taken q m ev) ∉ mid2 := fun q ev hmem =>
    hnext t' q ev (by rw [h6]; exact List.mem_append_right _ (List.mem_cons_of_mem _ hmem))
  refine ⟨mid1, mid2, h6, h7, h8, ?_⟩
  rcases idle_of_none h11 with h13 | ⟨x, h13⟩
  · have := (run_idle (cfg := monCfg env m) h13 hnt h9).2.2
    rw [h12] at this
    exact this
  · exact dying_concerns (cfg := monCfg env m) h13 h12 hnt h9

/-- C99. Whatever any thread does for such a machine outside API calls, it is its worker that does it, for the event that it has taken, as in C15. -/
theorem C99_only_for_the_event (hy : Careful env M c0 xs c) (ha : Alone env m) {x : Obs}
    (h : c.w.trace = pre ++ (t, x) :: post) (hd : apiDepth t pre = 0) (hu : userObs x = false) (hc : concerns m x = true) :
    t = env.workerOf m ∧ ∃ ev, openEv t m pre = some ev ∧ (∀ c, x = .cb c → cbFor m ev c) ∧ (∀ m' ev', x = .done m' ev' → ev' = ev) := by
  have hm' := hy.monitored ha
  obtain ⟨g, h1, h2, h3, h4, _, g', h5⟩ := hm'.history_open t h
  obtain ⟨g1, h6, _⟩ := mon_cons h5
  obtain ⟨ev, h7, h8, h9⟩ := idle_concerns (cfg := monCfg env m) h2 (by rw [h4, hd]) hu hc h6
  refine ⟨?_, ev, by rw [← h3, h7], h8, h9⟩
  refine Classical.byContradiction fun hn => ?_
  have := (run_idle (cfg := monCfg env m) (g := G.init (c0.w.mach m).listener) rfl (fun q ev hmem =>
    hn (Monitored.taken_worker ha hm' (q := q) (ev := ev) (by rw [h]; exact List.mem_append_left _ hmem))) h1).1
  rw [this] at h7
  cases h7

/-- C99. Between two moments when the worker is not processing an event of the machine, it processes complete events, each as configured, as in C15 and C22. -/
theorem C99_events (hy : Careful env M c0 xs c) (ha : Alone env m) {tr : List (Tid × Obs)}
    (h : c.w.trace = pre ++ tr ++ post) (ht : t = env.workerOf m) (h0 : openEv t m pre = none) (h1 : openEv t m (pre ++ tr) = none)
    (hm : ∀ e ∈ tr, meddles m e.2 = false) :
    Events (env.desc m) (env.strat (env.mach m).strat).queue (machAt c0 m pre) (bare t (apiDepth t pre) tr) (machAt c0 m (pre ++ tr)) := by
  have hm' := hy.monitored ha
  subst ht
  have hun := Monitored.undisturbed_of_single ha hm' h hm
  obtain ⟨g, h2, h3, h4, h5, h6, g', h7⟩ := hm'.history_open (env.workerOf m) (pre := pre) (post := tr ++ post) (by rw [h]; simp)
  obtain ⟨g1, h8, _⟩ := mon_split h7
  have h9 := run_open (cfg := monCfg env m) h3 h8
  have h10 := (events_run (cfg := monCfg env m) hun h3 h8 (by
    rw [h9.2.1, h4]; rw [openEv, List.foldl_append] at h1; exact h1)).1 (by rw [h4, h0])
  rw [← ha.desc, ← h5, ← h6]
  have h11 : g1.mem = machAt c0 m (pre ++ tr) := by
    rw [machAt_append, ← h6, mon_mem h8]; rfl
  rw [← h11]
  exact h10

/-- C99. An event is handled as configured for the state that the machine is in. This is the hypothesis from which C16 and C18 to C24 follow. -/
theorem C99_handles (hc : Careful env M c0 xs c) (ha : Alone env m) (he : IsEvent c.w.trace t m ev pre mid post) (hq : ∀ e ∈ mid, meddles m e.2 = false) :
    (∃ r, Handles (env.desc m) (machAt c0 m pre) ev (bare t 0 mid) r ∧ ∀ x, r = some x → ∀ o, (bare t 0 post).head? = some o → o = .uncaught x) ∧
    ∀ q, machAt c0 m (pre ++ (t, .taken q m ev) :: mid) = (bare t 0 mid).foldl (Mem.step m) (machAt c0 m pre) := by
  have hm := hc.monitored ha
  have he' := he
  obtain ⟨⟨q, m', ev', hs⟩, hnd⟩ := he
  have ht : t = env.workerOf m := Monitored.taken_worker ha hm (q := q) (ev := ev) (by rw [hs]; simp)
  have hu : Undisturbed t m mid := by
    rw [ht]
    exact Monitored.undisturbed_of_single ha hm (pre := pre ++ [(t, .taken q m ev)]) (post := (t, .done m' ev') :: post) (by rw [hs]; simp) hq
  refine ⟨?_, fun q' => ?_⟩
  · obtain ⟨r, h1, h2⟩ := hm.event_done he' hu
    refine ⟨r, ?_, h2⟩
    rw [← ha.desc]
    exact handles_of_behaves h1
  · obtain ⟨_, g, _, _, _, g', h1⟩ := hm.at_taken hs
    obtain ⟨g1, h2, _⟩ := mon_split h1
    have h3 := mem_undisturbed (cfg := monCfg env m) hu h2
    rw [machAt_append]
    have h4 := mon_mem h2
    rw [h3] at h4
    exact h4.symm

/-- C99. The state of the machine is the fold of its table over the events taken, as in C17. -/
theorem C99_fold (hy : Careful env M c0 xs c) (ha : Alone env m) {tr : List (Tid × Obs)}
    (h : c.w.trace = pre ++ tr) (ht : t = env.workerOf m) (h0 : openEv t m pre = none) (h1 : openEv t m (pre ++ tr) = none)
    (hm : ∀ e ∈ tr, meddles m e.2 = false)
    (hok : ∀ c x, (t, Obs.cbRet c (some x)) ∈ tr → Spec.Calls.cbMach c ≠ some m) :
    (⟨(c.w.mach m).cur, (c.w.mach m).ended⟩ : MSt) = (takenOf m tr).foldl (env.desc m).next (machAt c0 m pre).st := by
  have hm' := hy.monitored ha
  subst ht
  have hun := Monitored.undisturbed_of_single ha hm' (pre := pre) (post := []) (by rw [h]; simp) hm
  obtain ⟨g, h2, h3, h4, h5, h6, g', h7⟩ := hm'.history_open (env.workerOf m) h
  have h9 := run_open (cfg := monCfg env m) h3 h7
  have hal : Along (monCfg env m) (machAt c0 m pre).st [] g := .rest (by rw [h4, h0]) (by rw [h6]; rfl)
  have h10 := along_run (cfg := monCfg env m) hun (fun x hx c y hy => hok c y (hy ▸ hx))
    (fun u q ev hu => Monitored.taken_worker ha hm' (t := u) (q := q) (ev := ev) (by rw [h]; exact List.mem_append_right _ hu)) hal h7
  have h11 : Mode.ev g'.mode = none := by
    rw [h9.2.1, h4]; rw [openEv, List.foldl_append] at h1; exact h1
  rw [List.nil_append] at h10
  have h12 : g'.mem.st = (takenOf m tr).foldl (monCfg env m).d.next (machAt c0 m pre).st := by
    generalize hl : takenOf (monCfg env m).d.m tr = l at h10
    rw [show takenOf m tr = l from hl]
    cases h10 with
    | rest _ h => exact h
    | amid _ h => rw [prog_ev h] at h11; cases h11
  rw [← ha.desc]
  rw [show (⟨(c.w.mach m).cur, (c.w.mach m).ended⟩ : MSt) = (memOf c.w m).st from rfl, hm'.world_mem, h, machAt_append, ← h6]
  rw [h6, ← h12, mon_mem h7, h6]
  rfl

end

/-! #### An execution -/

namespace Demo

/-- The thread of action `k` has removed pair `p` from a queue immediately before. -/
def takenB (H : List Did) (k : Nat) (p : PairId) : Bool := (List.range k).any fun n => match H[n]?, H[k]? with
  | some (.op u (.poll _) (some p')), some d => p' == p && d.tid == u && (List.range k).all fun j => decide (j ≤ n) || H[j]?.all fun e => e.tid != u
  | _, _ => false

theorem taken_of {H : List Did} {k : Nat} {p : PairId} (h : takenB H k p = true) : Spec.Checks.Taken H k p := by
  obtain ⟨n, hn, h⟩ := List.any_eq_true.1 h
  split at h
  next u q p' d h1 h2 =>
    simp only [Bool.and_eq_true, beq_iff_eq] at h
    obtain ⟨⟨rfl, h3⟩, h4⟩ := h
    refine ⟨n, List.mem_range.1 hn, u, q, d, h1, h2, h3, fun j d' hj1 hj2 hd => ?_⟩
    have := List.all_eq_true.1 h4 j (List.mem_range.2 hj2)
    simp only [hd, Option.all_some, Bool.or_eq_true, decide_eq_true_eq, bne_iff_ne] at this
    exact this.resolve_left (by omega)
  · cases h

def deliveredB (t0 : Tid) (o : EvOid) (H : List Did) : Bool :=
  handedB t0 o H && (List.range H.length).all fun i => match H[i]? with
    | some d => !(readsB d (.payload o) || writesB d (.payload o)) || d.tid == t0 || (List.range i).any fun k => match H[k]? with
        | some (.op u (.getPair p) (some (ev, _))) => u == d.tid && ev.oid == o && takenB H k p
        | _ => false
    | none => true

theorem delivered_of {t0 : Tid} {o : EvOid} {H : List Did} (h : deliveredB t0 o H = true) : Delivered t0 o H where
  uses i d hi hd := by
    simp only [deliveredB, Bool.and_eq_true] at h
    have h1 := List.all_eq_true.1 h.2 i (List.mem_range.2 (get_lt hi))
    have hd' : (readsB d (.payload o) || writesB d (.payload o)) = true := by
      rcases hd with hd | hd
      · simp [readsB_of hd]
      · simp [writesB_of hd]
    simp only [hi, hd', Bool.not_true, Bool.false_or, Bool.or_eq_true, beq_iff_eq] at h1
    refine h1.imp id fun h2 => ?_
    obtain ⟨k, hk, h2⟩ := List.any_eq_true.1 h2
    split at h2
    next u p ev m hk' =>
      simp only [Bool.and_eq_true, beq_iff_eq] at h2
      obtain ⟨⟨rfl, rfl⟩, h3⟩ := h2
      exact ⟨k, List.mem_range.1 hk, p, ev, m, hk', taken_of h3, rfl⟩
    · cases h2
  sets := by
    simp only [deliveredB, Bool.and_eq_true] at h
    exact (handed_of h.1).sets

/-- The copy that is made of go. -/
def goC : Ev := ⟨0, "go", .copy 0⟩

/-- The fields of machine 0, the first pair, the payload of the event fired and of its copy. -/
def SMem (f : Cell) : Prop := match f with
  | .cur m | .listener m => m = 0
  | .pair p => p = 0
  | .payload o => o = go.oid ∨ o = .copy 0

instance : DecidablePred SMem := fun f => by cases f <;> unfold SMem <;> infer_instance

/-- Client 0 sets the listener, starts the machine and fires go, with payload 7. Client 1 fires go too, and sees the pair in the queue. The worker takes go from the
queue, puts the pair back, and processes go; it reads the payload. Client 2 fires back, in the same pair. Client 1 looks into the pair and finds go, which is out of date;
it drops its event. The worker processes back. -/
def safeX : List PChoice :=
  ([Choice.begin 0 (.call (.setListener 0 (some 0)) fun _ => .call (.setPayload go.oid (some 7)) fun _ => .call (.start 0) fun _ => .call (.fire 0 go) fun _ => .done)] ++
    runN (.client 0) 100 ++ [Choice.begin 1 (.call (.fire 0 go) fun _ => .done)] ++ runN (.client 1) 5 ++ [Choice.dispatch 0 0 0]).map .sched ++
  ((runN w0 60).flatMap fun x => [.read w0 (.payload (some 7)), .sched x]) ++
  ([Choice.begin 2 (.call (.fire 0 back) fun _ => .done)] ++ runN (.client 2) 100).map .sched ++
  [.read (.client 1) (.pair (some goC) (some 0))] ++ (runN (.client 1) 100 ++ [Choice.dispatch 0 0 0] ++ runN w0 60).map .sched

def safeC : Conf := pdrive reuseEnv SMem conf safeX

def safeH : List Act := phist reuseEnv SMem conf safeX

theorem safe_careful : ∃ xs, Careful reuseEnv SMem conf xs safeC ∧ Spec.Plain.acts reuseEnv SMem conf xs = safeH := by
  obtain ⟨xs, h1, h2⟩ := phist_real (env := reuseEnv) (M := SMem) conf safeX
  have h2 : Spec.Plain.acts reuseEnv SMem conf xs = safeH := h2
  have hd : Disciplined w0 0 (dids safeH) := disciplined_of (by decide +kernel) (by decide +kernel) (by decide +kernel)
  refine ⟨xs, ⟨conf_initial _, h1, fun f hf => ?_, fun f hf => ?_⟩, h2⟩ <;> rw [h2]
  · cases f with
    | cur m => obtain rfl : m = 0 := hf; exact ⟨ownThread _ _ _, hd⟩
    | listener m => obtain rfl : m = 0 := hf; exact ⟨ownThread _ _ _, hd, .client 0, prepared_of (by decide +kernel)⟩
    | pair p => trivial
    | payload o =>
      rcases hf with rfl | rfl
      · exact ⟨.client 0, delivered_of (by decide +kernel)⟩
      · exact ⟨.client 0, delivered_of (by decide +kernel)⟩
  · cases f with
    | cur m => obtain rfl : m = 0 := hf; exact pjustified_of (by decide +kernel)
    | listener m => obtain rfl : m = 0 := hf; exact pjustified_of (by decide +kernel)
    | pair p => obtain rfl : p = 0 := hf; exact pjustified_of (by decide +kernel)
    | payload o =>
      rcases hf with rfl | rfl
      · exact pjustified_of (by decide +kernel)
      · exact pjustified_of (by decide +kernel)

/-- The worker takes the copy of go, and back. Client 1 drops its event, because it has read that pair 0 contains go; the last write to the pair was that of back. -/
example : (.client 1, .dropped 0 go) ∈ safeC.w.trace ∧ takenOf 0 safeC.w.trace = [goC, back] ∧
    (match (safeH[66]? : Option Act) with | some (Did.op u (.getPair p) (some (ev, m)), some _) => u == .client 1 && p == 0 && ev == goC && m == 0 | _ => false) = true ∧
    (match (safeH[62]? : Option Act) with | some (Did.op u (.setPair p ev m) _, none) => u == .client 2 && p == 0 && ev == back && m == 0 | _ => false) = true := by decide +kernel

/-- The worker reads the payload of the copy. -/
example : ∃ xs, Careful reuseEnv SMem conf xs safeC ∧ RaceFree false (dids (Spec.Plain.acts reuseEnv SMem conf xs)) (.payload (.copy 0)) ∧
    (match (Spec.Plain.acts reuseEnv SMem conf xs)[46]? with | some (_, some (.payload (.copy 0), .payload (some 7))) => true | _ => false) = true := by
  obtain ⟨xs, h, h1⟩ := safe_careful
  exact ⟨xs, h, C99_races h (h.rules _ (.inr rfl)) (fun _ h => nomatch h), by rw [h1]; decide +kernel⟩

/-- Between the events nothing is done for the machine. -/
example : ∃ mid1 mid2, (safeC.w.trace.drop 18).take 16 = mid1 ++ (w0, .done 0 goC) :: mid2 ∧ ∀ x ∈ bare w0 0 mid2, concerns 0 x = false := by
  obtain ⟨xs, h, _⟩ := safe_careful
  obtain ⟨_, _, mid1, mid2, h1, _, _, h2⟩ := C99_one_at_a_time h (alone _ _ _) (m := 0) (t := w0) (t' := w0) (q := 0) (q' := 0) (ev := goC) (ev' := back)
    (pre := safeC.w.trace.take 17) (mid := (safeC.w.trace.drop 18).take 16) (post := safeC.w.trace.drop 35) (by decide +kernel) (fun u q ev hm => by
      have := (by decide +kernel : ((safeC.w.trace.drop 18).take 16).all (fun e => match e.2 with | .taken .. => false | _ => true) = true)
      exact absurd (List.all_eq_true.1 this _ hm) (by simp))
  exact ⟨mid1, mid2, h1, h2⟩

/-- The entry action of B is run for the copy of go. -/
example : ∃ x, safeC.w.trace[22]? = some (w0, x) ∧ concerns 0 x = true ∧ w0 = reuseEnv.workerOf 0 ∧ openEv w0 0 (safeC.w.trace.take 22) = some goC := by
  obtain ⟨xs, h, _⟩ := safe_careful
  have h0 : safeC.w.trace[22]? = some (w0, .cb (.action 0 .entry 2 0 goC)) := by decide +kernel
  obtain ⟨h1, ev, h2, h3, _⟩ := C99_only_for_the_event h (alone _ _ _) (m := 0) (t := w0) (x := .cb (.action 0 .entry 2 0 goC)) (pre := safeC.w.trace.take 22)
    (post := safeC.w.trace.drop 23) (by decide +kernel) (by decide +kernel) rfl (by decide +kernel)
  exact ⟨_, h0, by decide +kernel, h1, by rw [h2]; exact (h3 _ rfl).2.symm.trans rfl⟩

/-- The copy of go is handled as configured for A, the state that the machine is in. -/
example : ∃ r, Handles (reuseEnv.desc 0) (machAt conf 0 (safeC.w.trace.take 17)) goC (bare w0 0 ((safeC.w.trace.drop 18).take 9)) r := by
  obtain ⟨xs, h, _⟩ := safe_careful
  obtain ⟨⟨r, h1, _⟩, _⟩ := C99_handles h (alone _ _ _) (isEvent_of (t := w0) (ev := goC) (m := 0) (tr := safeC.w.trace) (q := 0) (m' := 0) (ev' := goC) 17 9 (by decide +kernel) (by decide +kernel)) (by decide +kernel)
  exact ⟨r, h1⟩

/-- The machine goes from A to B and back. -/
example : (⟨(safeC.w.mach 0).cur, (safeC.w.mach 0).ended⟩ : MSt) = [goC, back].foldl (reuseEnv.desc 0).next (machAt conf 0 (safeC.w.trace.take 11)).st := by
  obtain ⟨xs, h, _⟩ := safe_careful
  rw [C99_fold h (alone _ _ _) (m := 0) (t := w0) (pre := safeC.w.trace.take 11) (tr := safeC.w.trace.drop 11) (List.take_append_drop _ _).symm rfl (by decide +kernel)
    (by decide +kernel) (by decide +kernel) (fun c x hx => by
      have := (by decide +kernel : (safeC.w.trace.drop 11).all (fun e => match e.2 with | .cbRet _ (some _) => false | _ => true) = true)
      exact absurd (List.all_eq_true.1 this _ hx) (by simp))]
  rw [show takenOf 0 (safeC.w.trace.drop 11) = [goC, back] by decide +kernel]

/-- There is a reason for dropping the event of client 1. -/
example : Spec.Course.Reason (Course.cfg reuseEnv) (.client 1) (machAt conf) (safeC.w.trace.take 32) (.dropped 0 go) := by
  obtain ⟨xs, h, _⟩ := safe_careful
  exact C99_reasons h (by decide) (post := safeC.w.trace.drop 33) (by decide +kernel)

end Demo

end Verif
