import Verif.Proofs.Open
import Verif.Props.Meddle
/-
C96: the public method updateCurrentState(). Whoever calls it, and whenever: what the library does is what it does if reads of currentState return anything.
-/

namespace Verif
open Verif.Open Verif.Meddle Verif.Spec.Meddle Verif.Spec.Calls Verif.Spec.Course Verif.Plain

section
variable {env : Env} {c0 : Conf} {c : OConf} {xs : List OChoice}

/-- C96. An execution with calls of `updateCurrentState()` is an execution without them in which some reads of currentState return something else; threads, history
and memory are the same, except for currentState. -/
theorem C96_weak (hr : Open.runs env (Open.init c0) xs = some c) : ∃ ys d, Plain.runs env (onlyCur fun _ => True) c0 ys = some d ∧ d.thr = c.conf.thr ∧
    ∃ mach, d.w = { c.conf.w with mach := mach } ∧ ∀ m, (mach m).started = (c.conf.w.mach m).started ∧ (mach m).ended = (c.conf.w.mach m).ended ∧
      (mach m).listener = (c.conf.w.mach m).listener := by
  obtain ⟨ys, d, h1, h2⟩ := open_sim (c := Open.init c0) (d := c0) ⟨rfl, c0.w.mach, rfl, fun _ => ⟨rfl, rfl, rfl⟩⟩ hr
  exact ⟨ys, d, h1, h2.thr, h2.w⟩

/-- C96. Conversely, as long as the machine has not ended, any state can be made to be read, and nobody will notice afterwards. -/
theorem C96_converse {d d' : Conf} {t : Tid} {m : MId} {k : Option St → Prog Unit} {v s : St} {N : Spec.HB.Cell → Prop} [DecidablePred N]
    (hp : d.thr t = some (.op (.getCur m) k)) (he : (d.w.mach m).ended = false) (hs : (d.w.mach m).cur = some s) (hse : s.eqv (env.mach m).res.endSt = false)
    (hve : v.eqv (env.mach m).res.endSt = false) (hr : Plain.step env N d (.read t (.state (some v))) = some d') :
    Open.runs env (Open.init d) [.enter 0 m v, .write 0, .sched (.run t), .enter 0 m s, .write 0] = some (Open.init d') := by
  have hd : d' = ⟨d.w, fset d.thr t (some (k (some v)))⟩ := by
    simp only [Plain.step, hp, source] at hr
    split at hr
    · simpa [execRead] using hr.symm
    · cases hr
  subst hd
  have h1 : fset (fset d.w.mach m { d.w.mach m with cur := some v }) m { d.w.mach m with cur := some s } = d.w.mach := by
    funext m'
    by_cases hm : m' = m
    · subst hm; rw [fset_same, ← hs]
    · simp [fset_ne _ _ hm]
  have h2 : ∀ x : Option (MId × St), fset (fset (fun _ => none) 0 x) 0 none = (fun _ : Nat => (none : Option (MId × St))) := by
    intro x
    funext j
    by_cases hj : j = 0
    · subst hj; simp
    · simp [fset_ne _ _ hj]
  simp only [Open.runs, Open.step, Open.init, hve, he, hse, h2, fset_same, Bool.false_eq_true, if_false, Verif.step, hp, runThread, enabled, exec, if_true, Option.map_some]
  simp only [he] at h1
  rw [h1]

theorem Open.pairs {ys : List PChoice} : PairsOk env (onlyCur fun _ => True) c0 ys := .inl fun _ h => h

variable {q : QId} {e : EId} {t : Tid} {pre mid post : List (Tid × Obs)} {m m' : MId} {ev ev' : Ev} {os : List Obs} {r : Option Exc}

/-- C96. Events are taken in the order in which they were put into the queue, each once, and none gets lost. -/
theorem C96_order (hi : Initial c0) (hr : Open.runs env (Open.init c0) xs = some c) (q : QId) :
    Spec.taken q c.conf.w.trace <+: Spec.accepted q c.conf.w.trace ∧
    Spec.accepted q c.conf.w.trace = Spec.taken q c.conf.w.trace ++ (c.conf.w.queue q).filterMap c.conf.w.pair := by
  obtain ⟨ys, d, h, ht, mach, hw, _⟩ := C96_weak hr
  have := C93_order Open.pairs hi h q
  rw [hw] at this
  exact ⟨this.1, this.2.1⟩

/-- C96. When all threads are idle, and the executor has got all tasks and done them, all events have been taken. -/
theorem C96_all_taken (hi : Initial c0) (hr : Open.runs env (Open.init c0) xs = some c)
    (he : ∀ s, (env.strat s).queue = q → (env.strat s).exec = e) (hidle : ∀ t, c.conf.thr t = none) (hp : ∀ s m, (s, m) ∈ c.conf.w.tasks e → (env.strat s).queue ≠ q)
    (hl : ∀ x ∈ c.conf.w.trace, ∀ s m, (env.strat s).queue = q → x.2 ≠ .rejected s m ∧ x.2 ≠ .taskDropped s m) :
    c.conf.w.queue q = [] ∧ Spec.taken q c.conf.w.trace = Spec.accepted q c.conf.w.trace := by
  obtain ⟨ys, d, h, ht, mach, hw, _⟩ := C96_weak hr
  have := C93_all_taken Open.pairs hi h he (by rw [ht]; exact hidle) (by rw [hw]; exact hp) (by rw [hw]; exact hl)
  rw [hw] at this
  exact this

/-- C96. The bound of a queue. -/
theorem C96_bound {n : Nat} (hi : Initial c0) (hr : Open.runs env (Open.init c0) xs = some c)
    (hs : ∀ s, (env.strat s).queue = q → 0 < (env.strat s).maxQ ∧ (env.strat s).maxQ ≤ n) {P : List Tid}
    (hP : ∀ t m ev, (t, .enter (.fire m ev)) ∈ c.conf.w.trace → (env.strat (env.mach m).strat).queue = q → t ∈ P) :
    (Spec.waiting q c.conf.w.trace).length ≤ n + P.length - 1 := by
  obtain ⟨ys, d, h, ht, mach, hw, _⟩ := C96_weak hr
  have := C93_bound Open.pairs hi h hs (P := P) (by rw [hw]; exact hP)
  rw [hw] at this
  exact this

/-- C96. Duplicates are dropped. -/
theorem C96_no_duplicates (hi : Initial c0) (hr : Open.runs env (Open.init c0) xs = some c) (hs : ∀ s, (env.strat s).queue = q → (env.strat s).dropDup = true)
    (hP : ∀ u m ev, (u, .enter (.fire m ev)) ∈ c.conf.w.trace → (env.strat (env.mach m).strat).queue = q → u = t ∧ ev.cls = 0) :
    (Spec.waiting q c.conf.w.trace).Pairwise fun x y => x.1.eqv y.1 = false := by
  obtain ⟨ys, d, h, ht, mach, hw, _⟩ := C96_weak hr
  have := C93_no_duplicates Open.pairs hi h hs (t := t) (by rw [hw]; exact hP)
  rw [hw] at this
  exact this

/-- C96. A machine is started once; a machine that has ended enters no state; `isStarted()` and `isEnded()` tell the truth. -/
theorem C96_flags (hi : Initial c0) (hr : Open.runs env (Open.init c0) xs = some c) : Spec.Loose.Legal c.conf.w.trace ∧
    ∀ m, (c.conf.w.mach m).started = Spec.Loose.started m c.conf.w.trace ∧ (c.conf.w.mach m).ended = Spec.Loose.ended m c.conf.w.trace := by
  obtain ⟨ys, d, h, ht, mach, hw, hm⟩ := C96_weak hr
  have := C93_flags Open.pairs hi h
  rw [hw] at this
  exact ⟨this.1, fun m => ⟨(hm m).1.symm.trans (this.2 m).1, (hm m).2.1.symm.trans (this.2 m).2⟩⟩

/-- C96. What a thread does for an event is part of a script. -/
theorem C96_script (hi : Initial c0) (hr : Open.runs env (Open.init c0) xs = some c) (ht : t ≠ .env)
    (h : c.conf.w.trace = pre ++ (t, .taken q m ev) :: (mid ++ post)) (hmid : ∀ m' ev', (t, .done m' ev') ∉ mid) :
    (∃ s, q = (env.strat s).queue ∧ Part ((Course.cfg env).desc s m) ev (deeds t 0 mid)) ∧ (calledOf (deeds t 0 mid)).Nodup := by
  obtain ⟨ys, d, hd, _, mach, hw, _⟩ := C96_weak hr
  exact C93_script Open.pairs hi hd ht (by rw [hw]; exact h) hmid

/-- C96. When it is done, it has followed a script to its end, or it was interrupted by an exception, which was reported, or by an error. -/
theorem C96_finished (hi : Initial c0) (hr : Open.runs env (Open.init c0) xs = some c) (ht : t ≠ .env)
    (h : c.conf.w.trace = pre ++ (t, .taken q m ev) :: (mid ++ (t, .done m' ev') :: post)) (hmid : ∀ m' ev', (t, .done m' ev') ∉ mid) :
    m' = m ∧ ev' = ev ∧ ∃ s, q = (env.strat s).queue ∧
      Finished ((Course.cfg env).desc s m) ev (fun x => ∃ c, (t, .cbRet c (some x)) ∈ mid) (deeds t 0 mid) := by
  obtain ⟨ys, d, hd, _, mach, hw, _⟩ := C96_weak hr
  exact C93_finished Open.pairs hi hd ht (by rw [hw]; exact h) hmid

/-- C96. What `fire()` does … -/
theorem C96_fire (hi : Initial c0) (hr : Open.runs env (Open.init c0) xs = some c) (hc : IsCall c.conf.w.trace t (.fire m ev) pre mid os r) :
    LooseFate (callsCfg env) (after c0 pre) mid m ev os r := by
  obtain ⟨ys, d, hd, _, mach, hw, _⟩ := C96_weak hr
  exact C95_fire Open.pairs hi hd (by rw [hw]; exact hc)

/-- … `stop()` … -/
theorem C96_stop (hi : Initial c0) (hr : Open.runs env (Open.init c0) xs = some c) (hc : IsCall c.conf.w.trace t (.stop m) pre mid os r) :
    StopFate (callsCfg env) (after c0 pre) mid m os r := by
  obtain ⟨ys, d, hd, _, mach, hw, _⟩ := C96_weak hr
  exact C95_stop Open.pairs hi hd (by rw [hw]; exact hc)

/-- … and `start()`. -/
theorem C96_start (hi : Initial c0) (hr : Open.runs env (Open.init c0) xs = some c) (hc : IsCall c.conf.w.trace t (.start m) pre mid os r) :
    LooseStart (callsCfg env) (after c0 pre) mid m os r := by
  obtain ⟨ys, d, hd, _, mach, hw, _⟩ := C96_weak hr
  exact C95_start Open.pairs hi hd (by rw [hw]; exact hc)

/-- C96. No two calls of `start()` or `startInState()` of a machine return normally. -/
theorem C96_one_start (hi : Initial c0) (hr : Open.runs env (Open.init c0) xs = some c) {k k' : Api} (hk : k.starts m = true)
    (hk' : k'.starts m = true) {u v : Tid} {x y z : List (Tid × Obs)} :
    c.conf.w.trace ≠ x ++ (u, .leave k none) :: (y ++ (v, .leave k' none) :: z) := by
  obtain ⟨ys, d, hd, _, mach, hw, _⟩ := C96_weak hr
  have := C95_one_start Open.pairs hi hd hk hk' (u := u) (v := v) (x := x) (y := y) (z := z)
  rw [hw] at this
  exact this

/-- C96. Calls that are made after a machine has ended have no effect, as long as it is not started again. -/
theorem C96_ended {c d d' : OConf} {ys : List OChoice} {y : OChoice} (hn : ∀ i s, c.call i ≠ some (m, s))
    (hstay : ∀ zs e, zs <+: ys → Open.runs env c zs = some e → (e.conf.w.mach m).ended = true) (hr : Open.runs env c ys = some d)
    (hy : ∀ x, y ≠ .sched x) (hs : Open.step env d y = some d') : d'.conf.w.mach m = d.conf.w.mach m := by
  have hp : ∀ i s, d.call i ≠ some (m, s) := by
    induction ys generalizing c with
    | nil => cases hr; exact hn
    | cons x ys ih =>
      simp only [Open.runs] at hr
      split at hr
      · cases hr
      next c1 h1 =>
        refine ih (c := c1) ?_ ?_ hr
        · have he := hstay [] c (List.nil_prefix) rfl
          cases x with
          | sched x =>
            simp only [Open.step] at h1
            obtain ⟨e, _, rfl⟩ := Option.map_eq_some_iff.1 h1
            exact hn
          | enter i m' s' =>
            simp only [Open.step] at h1
            split at h1
            · cases h1
            · split at h1
              · cases h1
              · split at h1
                · cases h1; exact hn
                next hne =>
                  cases h1
                  intro j s hj
                  by_cases hji : j = i
                  · subst hji
                    simp only [fset_same, Option.some.injEq, Prod.mk.injEq] at hj
                    rw [hj.1] at hne
                    exact hne he
                  · exact hn j s (by simpa [fset_ne _ _ hji] using hj)
          | write i =>
            simp only [Open.step] at h1
            split at h1
            · cases h1
            · cases h1
              intro j s hj
              by_cases hji : j = i
              · subst hji; simp at hj
              · exact hn j s (by simpa [fset_ne _ _ hji] using hj)
        · intro zs e hz he
          exact hstay (x :: zs) e (List.cons_prefix_cons.2 ⟨rfl, hz⟩) (by simp only [Open.runs, h1, he])
  cases y with
  | sched x => exact absurd rfl (hy x)
  | enter i m' s' =>
    simp only [Open.step] at hs
    split at hs
    · cases hs
    · split at hs
      · cases hs
      · split at hs <;> cases hs <;> rfl
  | write i =>
    simp only [Open.step] at hs
    split at hs
    · cases hs
    next m' s' hc =>
      cases hs
      have hm : m ≠ m' := by rintro rfl; exact hp i s' hc
      simp [fset_ne _ _ hm]

end

namespace Demo

def odrive (env : Env) (c : OConf) : List OChoice → OConf
  | [] => c
  | x :: xs => match Open.step env c x with
    | none => odrive env c xs
    | some c' => odrive env c' xs

theorem odrive_real (env : Env) (c : OConf) (xs : List OChoice) : ∃ ys, Open.runs env c ys = some (odrive env c xs) := by
  induction xs generalizing c with
  | nil => exact ⟨[], rfl⟩
  | cons x xs ih =>
    simp only [odrive]
    split
    · exact ih c
    next c' h =>
      obtain ⟨ys, hy⟩ := ih c'
      exact ⟨x :: ys, by simp only [Open.runs, h]; exact hy⟩

theorem odrive_append (env : Env) (c : OConf) (xs ys : List OChoice) : odrive env c (xs ++ ys) = odrive env (odrive env c xs) ys := by
  induction xs generalizing c with
  | nil => rfl
  | cons x xs ih => simp only [List.cons_append, odrive]; split <;> exact ih _

theorem odrive_sched (env : Env) (c : OConf) (xs : List Choice) : odrive env c (xs.map .sched) = ⟨drive env c.conf xs, c.call⟩ := by
  induction xs generalizing c with
  | nil => rfl
  | cons x xs ih =>
    simp only [List.map_cons, odrive, drive, List.foldl_cons, tryStep, Open.step]
    cases h : Verif.step env c.conf x <;> simp only [Option.map_none, Option.map_some, Option.getD_none, Option.getD_some] <;> exact ih _

theorem odrive_enter (env : Env) (c : OConf) (i : Nat) (m : MId) (s : St) :
    (odrive env c [.enter i m s]).conf = c.conf ∧ ∀ j, j ≠ i → (odrive env c [.enter i m s]).call j = c.call j := by
  simp only [odrive, Open.step]
  cases c.call i <;> simp only
  · by_cases h1 : s.eqv (env.mach m).res.endSt = true
    · simp [h1]
    · by_cases h2 : (c.conf.w.mach m).ended = true
      · simp [h1, h2]
      · simp only [h1, h2, Bool.false_eq_true, if_false]
        exact ⟨trivial, fun j hj => fset_ne _ _ hj⟩
  · simp

theorem odrive_write (env : Env) (c : OConf) (i : Nat) :
    (odrive env c [.write i]).conf.thr = c.conf.thr ∧ (∀ j, j ≠ i → (odrive env c [.write i]).call j = c.call j) ∧ (odrive env c [.write i]).call i = none := by
  simp only [odrive, Open.step]
  cases h : c.call i <;> simp_all [fset_ne]

/-- Somebody moves the machine to B while back is waiting. -/
def movedX : List OChoice :=
  ([Choice.begin 0 (.call (.setListener 0 (some 0)) fun _ => .call (.start 0) fun _ => .call (.fire 0 back) fun _ => .done)] ++ runN (.client 0) 100).map .sched ++ [.enter 0 0 B, .write 0] ++ ([Choice.dispatch 0 0 0] ++ runN w0 100).map .sched

def movedC : OConf := odrive (env payActs) (Open.init conf) movedX

/-- Somebody is about to move the machine to A when it is stopped. -/
def revivedX : List OChoice :=
  ([Choice.begin 0 (.call (.start 0) fun _ => .done)] ++ runN (.client 0) 100).map .sched ++ [.enter 0 0 A] ++
    ([Choice.begin 0 (.call (.stop 0) fun _ => .done)] ++ runN (.client 0) 100).map .sched ++ [.write 0]

def revivedC : OConf := odrive (env payActs) (Open.init conf) revivedX

theorem revivedC_idle : (∀ t, revivedC.conf.thr t = none) ∧ ∀ i, revivedC.call i = none := by
  have h : ∀ (X1 X2 : List Choice), let c := odrive (env payActs) (Open.init conf) (X1.map .sched ++ [.enter 0 0 A] ++ X2.map .sched ++ [.write 0])
      c.conf.thr = (drive (env payActs) conf (X1 ++ X2)).thr ∧ ∀ i, c.call i = none := by
    intro X1 X2
    simp only [odrive_append, odrive_sched]
    refine ⟨?_, fun i => ?_⟩
    · rw [(odrive_write ..).1]
      simp only [(odrive_enter ..).1, drive, List.foldl_append]
      rfl
    · by_cases hi : i = 0
      · subst hi; exact (odrive_write ..).2.2
      · rw [(odrive_write ..).2.1 i hi]
        exact (odrive_enter ..).2 i hi
  unfold revivedC revivedX
  refine ⟨fun t => ?_, (h _ _).2⟩
  rw [(h _ _).1]
  exact idle_of (fun _ => rfl) [.client 0] (by decide +kernel) (by decide +kernel) t

end Demo

open Demo in
/-- C96 (negation). But transitions are not those of the table: the listener is told that the machine goes from B to A, where it has never entered B. -/
theorem C96_negation_table : ∃ env c0 xs c, Initial c0 ∧ Open.runs env (Open.init c0) xs = some c ∧ (w0, .cb (.begin 0 B back A)) ∈ c.conf.w.trace ∧
    (∀ e ∈ c.conf.w.trace, ∀ s a, e.2 = .cur 0 s a → s ≠ B) := by
  obtain ⟨xs, h⟩ := odrive_real (env payActs) (Open.init conf) movedX
  refine ⟨_, conf, xs, movedC, conf_initial _, h, by decide +kernel, ?_⟩
  intro e he s a hs
  have := List.all_eq_true.1 (by decide +kernel : movedC.conf.w.trace.all (fun e => match e.2 with | .cur _ s _ => s != B | _ => true) = true) e he
  rw [hs] at this
  simpa using this

open Demo in
/-- C96 (negation). A machine that has been stopped can be in another state than _END_, although nobody has started it since and nothing is going on. -/
theorem C96_negation_end : ∃ env c0 xs c, Initial c0 ∧ Open.runs env (Open.init c0) xs = some c ∧ (∀ t, c.conf.thr t = none) ∧ (∀ i, c.call i = none) ∧
    (.client 0, .leave (.stop 0) none) ∈ c.conf.w.trace ∧ (c.conf.w.mach 0).ended = true ∧ (c.conf.w.mach 0).cur = some A ∧ A.eqv (env.mach 0).res.endSt = false := by
  obtain ⟨xs, h⟩ := odrive_real (env payActs) (Open.init conf) revivedX
  exact ⟨_, conf, xs, revivedC, conf_initial _, h, revivedC_idle.1, revivedC_idle.2, by decide +kernel, by decide +kernel, by decide +kernel, by decide +kernel⟩

open Demo in
/-- C96: the worker is about to read the current state, which is A; it can be made to read C. -/
example : ∃ d d' k xs, ReachFrom (env payActs) conf d ∧ d.thr w0 = some (.op (.getCur 0) k) ∧ (d.w.mach 0).cur = some A ∧ d'.thr w0 = some (k (some C)) ∧
    Open.runs (env payActs) (Open.init d) xs = some (Open.init d') := by
  have h : (match (drive (env payActs) conf ([Choice.begin 0 (client 0 [go])] ++ runN (.client 0) 100 ++ [Choice.dispatch 0 0 0] ++ runN w0 4)).thr w0 with
    | some (.op (.getCur m) _) => m == 0
    | _ => false) = true := by decide +kernel
  split at h
  case h_2 => cases h
  rename_i m k hk
  obtain rfl : m = 0 := by simpa using h
  have hr := C96_converse (env := env payActs) (v := C) (s := A) (N := fun _ => True) hk (by decide +kernel) (by decide +kernel) (by decide +kernel) (by decide +kernel)
    (by simp only [Plain.step, hk, source, if_true, execRead, Option.map_some]; rfl)
  exact ⟨_, _, k, _, drive_reach _ _ _, hk, by decide +kernel, by simp, hr⟩

open Demo in
/-- C96: an execution with a call of `updateCurrentState()`, and one without that has the same history. -/
example : ∃ xs, Open.runs (env payActs) (Open.init conf) xs = some movedC ∧ (w0, .cb (.begin 0 B back A)) ∈ movedC.conf.w.trace ∧
    (∃ ys d, Plain.runs (env payActs) (onlyCur fun _ => True) conf ys = some d ∧ d.w.trace = movedC.conf.w.trace) ∧
    Spec.taken 0 movedC.conf.w.trace = [(back, 0)] ∧ Spec.taken 0 movedC.conf.w.trace <+: Spec.accepted 0 movedC.conf.w.trace := by
  obtain ⟨xs, h⟩ := odrive_real (env payActs) (Open.init conf) movedX
  obtain ⟨ys, d, h1, _, mach, h2, _⟩ := C96_weak h
  exact ⟨xs, h, by decide +kernel, ⟨ys, d, h1, by rw [h2]; rfl⟩, by decide +kernel, (C96_order (conf_initial _) h 0).1⟩

open Demo in
/-- C96: the machine has been stopped; somebody calls `updateCurrentState(B)`. -/
example : ∃ c, (∃ xs, Open.runs (env payActs) (Open.init conf) xs = some c) ∧ (∀ i, c.call i = none) ∧ (c.conf.w.mach 0).ended = true ∧
    Open.step (env payActs) c (.enter 0 0 B) = some c ∧ (c.conf.w.mach 0).cur = some A := by
  refine ⟨revivedC, odrive_real _ _ _, revivedC_idle.2, by decide +kernel, ?_, by decide +kernel⟩
  have h1 : B.eqv ((env payActs).mach 0).res.endSt = false := by decide +kernel
  have h2 : (revivedC.conf.w.mach 0).ended = true := by decide +kernel
  simp only [Open.step, revivedC_idle.2, h1, h2, Bool.false_eq_true, if_false, if_true]

end Verif
