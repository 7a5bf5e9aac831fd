import Verif.Proofs.AppSettle
/-
C74, C75: states are left when an event asks for it; the lifecycle of an app goes on.
-/

namespace Verif
open Spec (Run Desc MSt bare meddles openEv openStep apiDepth takenOf IsEvent accepted taken)
open Spec.Mon
open Settle

section
variable {env : Env} {r : Run env} {m : MId}

/-- C74: the machine is in state `s` after the history `P`, no event is in processing. If an event that leads from `s` to another state
is accepted after that, or was waiting then (`past`: it is not among the events taken so far), the machine leaves `s` in the end: the worker
takes an event (this one or an earlier one) that leads from `s` to some `b'`, when the machine is still in `s`, and goes to `b'`. -/
theorem C74_leaves (hv : Served r m) {P tr : List (Tid × Obs)} (hs : Smooth r m P) {i0 : Nat} (hP : (r.conf i0).w.trace = P ++ tr)
    (h0 : openEv (env.workerOf m) m P = none) {s b : St} (hst : (machAt (r.conf 0) m P).st = ⟨some s, false⟩)
    {i : Nat} {u : Tid} {ev : Ev} {past post : List (Tid × Obs)} (h : (r.conf i).w.trace = past ++ (u, .accepted (env.qm m) m ev) :: post)
    (hlate : (taken (env.qm m) P).length ≤ (accepted (env.qm m) past).length)
    (hg : (env.desc m).reaction (some s) ev = .goes b) (hb : b ≠ s) :
    ∃ j x ev' y b' z, (r.conf j).w.trace = P ++ (x ++ (env.workerOf m, .taken (env.qm m) m ev') :: (y ++ (env.workerOf m, .cur m b' false) :: z)) ∧
      (machAt (r.conf 0) m (P ++ x)).st = ⟨some s, false⟩ ∧ (env.desc m).reaction (some s) ev' = .goes b' ∧
      ∀ q m' ev'', (env.workerOf m, Obs.taken q m' ev'') ∉ y := by
  obtain ⟨x, ev', b', mid, h1⟩ := leaves_step hv hs hP h0 hst h hlate hg hb
  obtain ⟨y, z, rfl⟩ := List.append_of_mem (h1.cur_mem hv.alone hs.later)
  obtain ⟨j, rest, h2⟩ := h1.at_
  exact ⟨j, x, ev', y, b', z ++ (env.workerOf m, .done m ev') :: rest, by rw [h2]; simp, h1.state, h1.goes,
    fun q m' ev'' hm => h1.alone q m' ev'' (List.mem_append_left _ hm)⟩

end

section
variable {env : Env} {r : Run env} {a : App} {P : List (Tid × Obs)}

theorem state_ne_end (hw : a.Wired env) {b : St} (hb : b ∈ a.states) : b ≠ (env.mach a.m).res.endSt :=
  fun h => usable_ne hw hb (by rw [h]; rfl)

theorem onward (hc : Cared a r P) {s b : St} {ev : Ev} {x mid tr p1 p2 : List (Tid × Obs)} (hst : Step r a.m s ev b (P ++ x) mid)
    (htr : tr = x ++ (env.workerOf a.m, .taken (env.qm a.m) a.m ev) :: p1) (hmid : mid = p1 ++ (env.workerOf a.m, .cur a.m b false) :: p2)
    {ev' : Ev} {b' : St} {x' mid' : List (Tid × Obs)} (h : Step r a.m b ev' b' (ends env a.m ev (P ++ x) mid ++ x') mid') :
    ∃ j y z, (r.conf j).w.trace = P ++ tr ++ (env.workerOf a.m, .cur a.m b false) :: (y ++ (env.workerOf a.m, .cur a.m b' false) :: z) := by
  have hs : Smooth r a.m (ends env a.m ev (P ++ x) mid ++ x') := by
    unfold ends; rw [List.append_assoc, List.append_assoc]; exact hc.smooth.later
  obtain ⟨y, z, hyz⟩ := List.append_of_mem (h.cur_mem hc.served.alone hs)
  obtain ⟨j, rest, h1⟩ := h.at_
  subst htr hmid hyz
  exact ⟨j, p2 ++ (env.workerOf a.m, .done a.m ev) :: x' ++ (env.workerOf a.m, .taken (env.qm a.m) a.m ev') :: y,
    z ++ (env.workerOf a.m, .done a.m ev') :: rest, by rw [h1]; simp [ends]⟩

theorem clause_states {c : Clause} (hc : c ∈ a.clauses) : c.1 ∈ a.states := by
  simp only [App.clauses, lifecycle, List.mem_cons, List.not_mem_nil, or_false] at hc
  rcases hc with rfl | rfl | rfl | rfl | rfl | rfl | rfl | rfl | rfl <;> simp [App.states]

theorem clause_moves (hw : a.Wired env) {c : Clause} (hc : c ∈ a.clauses) : c.2.2.getD (env.mach a.m).res.endSt ≠ c.1 := by
  have hn := hw.nodup
  have he := fun b hb => state_ne_end hw (b := b) hb
  simp only [App.states, List.map_cons, List.map_nil, List.nodup_cons, List.mem_cons, List.not_mem_nil, or_false, not_or] at hn he
  simp only [App.clauses, lifecycle, List.mem_cons, List.not_mem_nil, or_false] at hc
  rcases hc with rfl | rfl | rfl | rfl | rfl | rfl | rfl | rfl | rfl <;> simp only [Option.getD] <;> intro h
  all_goals first
    | exact absurd h.symm (he _ (by simp))
    | (have h := congrArg St.name h; simp_all; done)

/-- C75: whatever state of the lifecycle is entered: if an event that leads from it to another one is accepted after that, the machine
goes on to a state the lifecycle allows. -/
theorem C75_goes_on (hc : Cared a r P) {i : Nat} {u u' : Tid} {c : Clause} {e : Ev} {tr x post : List (Tid × Obs)} (hcl : c ∈ a.clauses)
    (hk : e.key = c.2.1.key)
    (h : (r.conf i).w.trace = P ++ tr ++ (u, .cur a.m c.1 false) :: (x ++ (u', .accepted (env.qm a.m) a.m e) :: post)) :
    ∃ j y c' z, c' ∈ a.clauses ∧ c'.1 = c.1 ∧
      (r.conf j).w.trace = P ++ tr ++ (u, .cur a.m c.1 false) :: (y ++ (u, .cur a.m (c'.2.2.getD (env.mach a.m).res.endSt) false) :: z) := by
  obtain ⟨x0, ev, s, mid, p1, p2, h1, rfl, h2, h3⟩ := entered hc.served hc.smooth hc.rest h (state_ne_end hc.wired (clause_states hcl))
  obtain ⟨x', ev', b', mid', h4, c', h5, h6, rfl⟩ := goes_on hc h1 (clause_states hcl) (i := i) (u := u') (e := e)
    (y := p1 ++ (env.workerOf a.m, .cur a.m c.1 false) :: x) (z := post) (by rw [h, h2]; simp) hcl rfl hk (clause_moves hc.wired hcl)
  obtain ⟨j, y, z, h7⟩ := onward hc h1 h2 h3 h4
  exact ⟨j, y, c', z, h5, h6, h7⟩

theorem phase_moves (hc : Cared a r P) {i : Nat} {u : Tid} {up : Bool} {tr post : List (Tid × Obs)}
    (h : (r.conf i).w.trace = P ++ tr ++ (u, .cur a.m (if up then a.starting else a.stopping) false) :: post) :
    ∃ j y c z, c ∈ a.clauses ∧ c.1 = (if up then a.starting else a.stopping) ∧ (r.conf j).w.trace = P ++ tr ++
      (u, .cur a.m (if up then a.starting else a.stopping) false) :: (y ++ (u, .cur a.m (c.2.2.getD (env.mach a.m).res.endSt) false) :: z) := by
  have hs : (if up then a.starting else a.stopping) ∈ a.states := by cases up <;> simp [App.states]
  obtain ⟨x0, ev, s, mid, p1, p2, h1, rfl, h2, h3⟩ := entered hc.served hc.smooth hc.rest h (state_ne_end hc.wired hs)
  obtain ⟨y, e, z, h4, h5⟩ := phase_accepts hc h1
  obtain ⟨j, rest, hj⟩ := h1.at_
  obtain ⟨c, hcl, hc1, hc2⟩ : ∃ c ∈ a.clauses, c.1 = (if up then a.starting else a.stopping) ∧ e.key = c.2.1.key := by
    cases up <;> rcases h5 with h5 | h5
    · exact ⟨(a.stopping, evtComplete, some a.stopped), by simp [App.clauses, lifecycle], rfl, h5⟩
    · exact ⟨(a.stopping, evtError, some a.stopped), by simp [App.clauses, lifecycle], rfl, h5⟩
    · exact ⟨(a.starting, evtComplete, some a.started), by simp [App.clauses, lifecycle], rfl, h5⟩
    · exact ⟨(a.starting, evtError, some a.stopped), by simp [App.clauses, lifecycle], rfl, h5⟩
  obtain ⟨x', ev', b', mid', h6, c', h7, h8, rfl⟩ := goes_on hc h1 hs (i := j) (u := env.workerOf a.m) (e := e) (y := y)
    (z := z ++ (env.workerOf a.m, .done a.m ev) :: rest) (by rw [hj, h4]; simp) hcl hc1 hc2 (hc1 ▸ clause_moves hc.wired hcl)
  obtain ⟨j, y, z, h9⟩ := onward hc h1 h2 h3 h6
  exact ⟨j, y, c', z, h7, h8, h9⟩

theorem clauses_from (hw : a.Wired env) {c : Clause} (hc : c ∈ a.clauses) :
    (c.1 = a.starting → c.2.2 = some a.started ∨ c.2.2 = some a.stopped) ∧ (c.1 = a.stopping → c.2.2 = some a.stopped) ∧
      (c.1 = a.started → c.2.2 = some a.stopping ∨ c.2.2 = some a.stopped) ∧ (c.1 = a.uninit → c.2.2 = some a.starting) := by
  have hn := hw.nodup
  simp only [App.states, List.map_cons, List.map_nil, List.nodup_cons, List.mem_cons, List.not_mem_nil, or_false, not_or] at hn
  simp only [App.clauses, lifecycle, List.mem_cons, List.not_mem_nil, or_false] at hc
  rcases hc with rfl | rfl | rfl | rfl | rfl | rfl | rfl | rfl | rfl <;> refine ⟨fun h => ?_, fun h => ?_, fun h => ?_, fun h => ?_⟩ <;>
    first
    | exact rfl
    | exact Or.inl rfl
    | exact Or.inr rfl
    | (exfalso; have h := congrArg St.name h; simp_all; done)

/-- C75: STARTING never lasts: the app gets STARTED, or, if a subsystem fails, STOPPED. -/
theorem C75_starting (hc : Cared a r P) {i : Nat} {u : Tid} {tr post : List (Tid × Obs)}
    (h : (r.conf i).w.trace = P ++ tr ++ (u, .cur a.m a.starting false) :: post) :
    ∃ j y b z, b ∈ [a.started, a.stopped] ∧ (r.conf j).w.trace = P ++ tr ++ (u, .cur a.m a.starting false) :: (y ++ (u, .cur a.m b false) :: z) := by
  obtain ⟨j, y, c, z, h1, h2, h3⟩ := phase_moves hc (up := true) h
  rcases (clauses_from hc.wired h1).1 h2 with h4 | h4 <;> rw [h4] at h3
  · exact ⟨j, y, _, z, by simp, h3⟩
  · exact ⟨j, y, _, z, by simp, h3⟩

/-- C75: STOPPING never lasts: the app gets STOPPED, even if subsystems fail. -/
theorem C75_stopping (hc : Cared a r P) {i : Nat} {u : Tid} {tr post : List (Tid × Obs)}
    (h : (r.conf i).w.trace = P ++ tr ++ (u, .cur a.m a.stopping false) :: post) :
    ∃ j y z, (r.conf j).w.trace = P ++ tr ++ (u, .cur a.m a.stopping false) :: (y ++ (u, .cur a.m a.stopped false) :: z) := by
  obtain ⟨j, y, c, z, h1, h2, h3⟩ := phase_moves hc (up := false) h
  rw [(clauses_from hc.wired h1).2.1 h2] at h3
  exact ⟨j, y, z, h3⟩

/-- C75: a STARTED app whose machine accepts a `stop` or `error` event gets STOPPED. -/
theorem C75_started (hc : Cared a r P) {i : Nat} {u u' : Tid} {e : Ev} {tr x post : List (Tid × Obs)}
    (he : e.key = evtStop.key ∨ e.key = evtError.key)
    (h : (r.conf i).w.trace = P ++ tr ++ (u, .cur a.m a.started false) :: (x ++ (u', .accepted (env.qm a.m) a.m e) :: post)) :
    ∃ j y z, (r.conf j).w.trace = P ++ tr ++ (u, .cur a.m a.started false) :: (y ++ (u, .cur a.m a.stopped false) :: z) := by
  obtain ⟨c, hcl, hc1, hc2⟩ : ∃ c ∈ a.clauses, c.1 = a.started ∧ e.key = c.2.1.key := by
    rcases he with he | he
    · exact ⟨(a.started, evtStop, some a.stopping), by simp [App.clauses, lifecycle], rfl, he⟩
    · exact ⟨(a.started, evtError, some a.stopped), by simp [App.clauses, lifecycle], rfl, he⟩
  rw [← hc1] at h
  obtain ⟨j, y, c', z, h1, h2, h3⟩ := C75_goes_on hc hcl hc2 h
  rw [hc1] at h2 h3
  rcases (clauses_from hc.wired h1).2.2.1 h2 with h4 | h4 <;> rw [h4] at h3
  · obtain ⟨j, y', z', h5⟩ := C75_stopping hc (tr := tr ++ (u, .cur a.m a.started false) :: y) (u := u) (post := z) (i := j) (by rw [h3]; simp)
    exact ⟨j, y ++ (u, .cur a.m a.stopping false) :: y', z', by rw [h5]; simp⟩
  · exact ⟨j, y, z, h3⟩

/-- C75: after the history `P`, the machine is in UNINITIALISED. When a `start` event is accepted, the app gets STARTED or, if a subsystem
fails, STOPPED. -/
theorem C75_begins (hc : Cared a r P) (hst : (machAt (r.conf 0) a.m P).st = ⟨some a.uninit, false⟩) {i : Nat} {u : Tid} {e : Ev}
    (he : e.key = evtStart.key) {x post : List (Tid × Obs)} (h : (r.conf i).w.trace = P ++ x ++ (u, .accepted (env.qm a.m) a.m e) :: post) :
    ∃ j x y b z, b ∈ [a.started, a.stopped] ∧ (r.conf j).w.trace = P ++ x ++ (env.workerOf a.m, .cur a.m a.starting false) ::
      (y ++ (env.workerOf a.m, .cur a.m b false) :: z) := by
  have hcl : (a.uninit, evtStart, some a.starting) ∈ a.clauses := by simp [App.clauses, lifecycle]
  obtain ⟨j, x', ev', y, b', z, h1, h2, h3, _⟩ := C74_leaves hc.served hc.smooth (i0 := i) (by rw [h, List.append_assoc]) hc.rest hst h
    (by
      have := taken_le (r := r) hc.served.alone (P := P) (i := i) (by rw [h, List.append_assoc])
      simp only [accepted, List.filterMap_append, List.length_append] at this ⊢
      omega)
    (hc.wired.goes hcl he) (clause_moves hc.wired hcl)
  obtain ⟨c, h4, h5, _, rfl⟩ := clause_of hc.wired (by simp [App.states]) h3
  rw [(clauses_from hc.wired h4).2.2.2 h5] at h1
  obtain ⟨j, y', b, z', h6, h7⟩ := C75_starting hc (tr := x' ++ (env.workerOf a.m, .taken (env.qm a.m) a.m ev') :: y) (u := env.workerOf a.m)
    (post := z) (i := j) (by rw [h1]; simp)
  exact ⟨j, _, y', b, z', h6, h7⟩

/-- C75: in exit-on-stop mode, the main thread is released when STOPPED has been entered. -/
theorem C75_released (hc : Cared a r P) (hx : a.exitOnStop = true) {i : Nat} {u : Tid} {tr post : List (Tid × Obs)}
    (h : (r.conf i).w.trace = P ++ tr ++ (u, .cur a.m a.stopped false) :: post) :
    ∃ j y z, (r.conf j).w.trace = P ++ tr ++ (u, .cur a.m a.stopped false) :: (y ++ (u, .latch a.latch) :: z) := by
  have hs : a.stopped ∈ a.states := by simp [App.states]
  obtain ⟨x0, ev, s, mid, p1, p2, h1, rfl, h2, h3⟩ := entered hc.served hc.smooth hc.rest h (state_ne_end hc.wired hs)
  subst h3
  have hact : a.action a.stopped.oid = some a.stoppedAction := by
    have hd := hc.wired.oids
    simp only [List.nodup_cons, List.mem_cons, List.not_mem_nil, or_false, not_or] at hd
    simp [App.action, Ne.symm hd.2.1.2.2, Ne.symm hd.2.2.2.1]
  obtain ⟨j, os, l1, l2, h4, h5, h6⟩ := action_run hc h1 hs (by rw [hc.wired.entry _ _ hact]; simp)
  have h7 := C44_stopped_action hc.wired r.init hc.latch (execution hc.within j) h4 h5
  have h8 : Obs.latch a.latch ∈ Spec.App.visible a false l1 := by
    generalize Spec.App.visible a false l1 = es at h7
    generalize hr : (none : Option Exc) = q at h7
    cases h7 with
    | exits _ => simp
    | dead _ => cases hr
    | stays h => rw [hx] at h; cases h
  obtain ⟨y, z, rfl⟩ := List.append_of_mem (h6 _ (visible_mem h8))
  obtain ⟨j, rest, hj⟩ := h1.at_
  exact ⟨j, y, z ++ (env.workerOf a.m, .done a.m ev) :: rest, by rw [hj, h2]; simp⟩

end

namespace Demo

/-- An exit-on-stop app is started and stopped; everything comes to rest. -/
def servedXs : List Choice :=
  thenCall (app true calmSub) 0 .start ++ thenCall (app true calmSub) 1 .stop ++ runN (.client 0) 25 ++ [.dispatch 0 0 0] ++ runN (.worker 0 0) 15

def servedEnd : Conf := drive (appEnv (app true calmSub)) appConf servedXs

theorem servedEnd_eq : drive (appEnv (app true calmSub)) appConf servedXs = servedEnd := by unfold servedEnd; rfl

def servedRun : Run (appEnv (app true calmSub)) := runOf _ _ appConf_initial servedXs

/-- The machine has been started. -/
def servedBase : List (Tid × Obs) := servedEnd.w.trace.take 6

theorem servedXs_within : ∀ x ∈ servedXs, x.within (app true calmSub).Outside := by
  intro x hx
  simp only [servedXs, List.mem_append, List.mem_singleton] at hx
  rcases hx with (((hx | hx) | hx) | rfl) | hx
  all_goals first | exact thenCall_within _ _ _ hx | exact runN_within _ _ _ hx | trivial

theorem runOf_rest {env : Env} {c0 : Conf} {hi : Initial c0} {xs : List Choice} {j n : Nat} {tr : List (Tid × Obs)}
    (h : ((runOf env c0 hi xs).conf j).w.trace = (drive env c0 xs).w.trace.take n ++ tr) : ∀ x ∈ tr, x ∈ (drive env c0 xs).w.trace.drop n := by
  have h1 := Course.grows_le (runOf env c0 hi xs) (Nat.le_max_left j xs.length)
  rw [runOf_end (Nat.le_max_right _ _), h] at h1
  obtain ⟨z, hz⟩ := h1
  intro x hx
  rw [List.append_assoc] at hz
  have := (List.take_append_drop n (drive env c0 xs).w.trace).symm
  rw [List.append_cancel_left (hz.trans this).symm]
  exact List.mem_append_left _ hx

theorem runOf_within {env : Env} {c0 : Conf} {hi : Initial c0} {xs : List Choice} {p : Choice → Prop} (h : ∀ x ∈ xs, p x) (i : Nat) (x : Choice)
    (hp : (runOf env c0 hi xs).pick i = some x) : p x := by
  simp only [runOf] at hp
  split at hp
  next y hy =>
    split at hp
    · cases hp; exact h _ (List.mem_of_getElem? hy)
    · cases hp
  · cases hp

theorem runOf_smooth {env : Env} {c0 : Conf} {hi : Initial c0} {xs : List Choice} {m : MId} {n : Nat}
    (h : ((drive env c0 xs).w.trace.drop n).all (fun e => !meddles m e.2 && match e.2 with
      | .cbRet c (some _) => Spec.Calls.cbMach c != some m
      | _ => true) = true) : Smooth (runOf env c0 hi xs) m ((drive env c0 xs).w.trace.take n) where
  calm j tr hj e he := by
    have := List.all_eq_true.1 h e (runOf_rest hj e he)
    simp only [Bool.and_eq_true, Bool.not_eq_true'] at this
    exact this.1
  quiet j tr hj u c x he := by
    have := List.all_eq_true.1 h _ (runOf_rest hj _ he)
    simp only [Bool.and_eq_true] at this
    simpa using this.2

theorem servedEnd_idle : ∀ t, servedEnd.thr t = none := by
  unfold servedEnd
  exact idle_of (fun _ => rfl) [.client 0, .client 1, .worker 0 0] (by decide +kernel) (by decide +kernel)

theorem served_served : Served servedRun 0 where
  alone := app_alone _
  thread := Nat.lt_succ_self 0
  own _ := Iff.rfl
  fair := runOf_fair (by rw [servedEnd_eq]; exact servedEnd_idle)
  executes := runOf_executes (by rw [servedEnd_eq]; decide +kernel)
  returns := runOf_returns (by rw [servedEnd_eq]; decide +kernel)
  kept _ x hx s m hs := nothing_lost (env := appEnv (app true calmSub)) (q := 0) (c := servedEnd) (by decide +kernel) x
    (by have := runOf_trace x hx; rwa [servedEnd_eq] at this) s m hs

theorem served_smooth : Smooth servedRun 0 servedBase := by
  have := runOf_smooth (env := appEnv (app true calmSub)) (c0 := appConf) (hi := appConf_initial) (xs := servedXs) (m := 0) (n := 6)
    (by rw [servedEnd_eq]; decide +kernel)
  rwa [servedEnd_eq] at this

theorem served_cared : Cared (app true calmSub) servedRun servedBase where
  wired := calm_wired true
  within := runOf_within servedXs_within
  latch := latchesOne
  served := served_served
  unbounded := Int.le_refl 0
  all := rfl
  started := ⟨.client 0, by decide +kernel⟩
  rest := by decide +kernel
  smooth := served_smooth

theorem served_end : (servedRun.conf servedXs.length).w.trace = servedEnd.w.trace := by
  unfold servedRun
  rw [runOf_end (Nat.le_refl _), servedEnd_eq]

theorem at1 {α : Type} {l : List α} {x : α} (i j : Nat) (h : l[i + j]? = some x) :
    l = l.take i ++ (l.drop i).take j ++ x :: l.drop (i + j + 1) := by
  have h1 : l.drop (i + j) = x :: l.drop (i + j + 1) := by
    obtain ⟨h2, rfl⟩ := List.getElem?_eq_some_iff.1 h
    exact List.drop_eq_getElem_cons h2
  rw [← h1, List.append_assoc, ← List.drop_drop, List.take_append_drop, List.take_append_drop]

theorem at2 {α : Type} {l : List α} {x y : α} (i j k : Nat) (h1 : l[i + j]? = some x) (h2 : l[i + j + 1 + k]? = some y) :
    l = l.take i ++ (l.drop i).take j ++ x :: ((l.drop (i + j + 1)).take k ++ y :: l.drop (i + j + 1 + k + 1)) := by
  have h3 : l.drop (i + j + 1) = (l.drop (i + j + 1)).take k ++ y :: l.drop (i + j + 1 + k + 1) := by
    have := at1 (l := l.drop (i + j + 1)) (x := y) 0 k (by simpa using h2)
    simpa [Nat.add_assoc] using this
  rw [← h3]; exact at1 i j h1

/-- `start` is accepted in UNINITIALISED. -/
example : ∃ j x ev' y b' z, (servedRun.conf j).w.trace =
      servedBase ++ (x ++ (w0, .taken 0 0 ev') :: (y ++ (w0, .cur 0 b' false) :: z)) ∧
      (machAt appConf 0 (servedBase ++ x)).st = ⟨some (app true calmSub).uninit, false⟩ ∧
      ((appEnv (app true calmSub)).desc 0).reaction (some (app true calmSub).uninit) ev' = .goes b' ∧
      ∀ q m' ev'', (w0, Obs.taken q m' ev'') ∉ y :=
  C74_leaves (m := 0) (b := (app true calmSub).starting) (i0 := servedXs.length) (i := servedXs.length) (u := .client 0) (ev := evtStart)
    (tr := servedEnd.w.trace.drop 6)
    (past := servedEnd.w.trace.take 6 ++ (servedEnd.w.trace.drop 6).take 1) (post := servedEnd.w.trace.drop 8) served_served served_smooth
    (by rw [served_end]; exact (List.take_append_drop 6 _).symm)
    (by decide +kernel) (by decide +kernel) (by rw [served_end]; exact at1 6 1 (by decide +kernel)) (by decide +kernel) (by decide +kernel) (by decide +kernel)

/-- The app is started. -/
example : ∃ j x y b z, b ∈ [(app true calmSub).started, (app true calmSub).stopped] ∧ (servedRun.conf j).w.trace =
    servedBase ++ x ++ (w0, .cur 0 (app true calmSub).starting false) :: (y ++ (w0, .cur 0 b false) :: z) :=
  C75_begins served_cared (by decide +kernel) (i := servedXs.length) (u := .client 0) (e := evtStart) rfl
    (by rw [served_end]; exact at1 6 1 (by decide +kernel))

/-- STARTING is entered. -/
example : ∃ j y b z, b ∈ [(app true calmSub).started, (app true calmSub).stopped] ∧ (servedRun.conf j).w.trace =
    servedBase ++ (servedEnd.w.trace.drop 6).take 6 ++ (w0, .cur 0 (app true calmSub).starting false) :: (y ++ (w0, .cur 0 b false) :: z) :=
  C75_starting served_cared (i := servedXs.length) (u := w0) (by rw [served_end]; exact at1 6 6 (by decide +kernel))

/-- `stop` is accepted in STARTED. -/
example : ∃ j y z, (servedRun.conf j).w.trace = servedBase ++ (servedEnd.w.trace.drop 6).take 22 ++
    (w0, .cur 0 (app true calmSub).started false) :: (y ++ (w0, .cur 0 (app true calmSub).stopped false) :: z) :=
  C75_started served_cared (i := servedXs.length) (u := w0) (u' := .client 1) (e := evtStop) (.inl rfl)
    (by rw [served_end]; exact at2 6 22 5 (by decide +kernel) (by decide +kernel))

example : ∃ j y c' z, c' ∈ (app true calmSub).clauses ∧ c'.1 = (app true calmSub).started ∧ (servedRun.conf j).w.trace =
    servedBase ++ (servedEnd.w.trace.drop 6).take 22 ++ (w0, .cur 0 (app true calmSub).started false) ::
      (y ++ (w0, .cur 0 (c'.2.2.getD rs.endSt) false) :: z) :=
  C75_goes_on served_cared (i := servedXs.length) (u := w0) (u' := .client 1) (c := ((app true calmSub).started, evtStop, some (app true calmSub).stopping))
    (e := evtStop) (by decide +kernel) rfl (by rw [served_end]; exact at2 6 22 5 (by decide +kernel) (by decide +kernel))

/-- STOPPING is entered. -/
example : ∃ j y z, (servedRun.conf j).w.trace = servedBase ++ (servedEnd.w.trace.drop 6).take 34 ++
    (w0, .cur 0 (app true calmSub).stopping false) :: (y ++ (w0, .cur 0 (app true calmSub).stopped false) :: z) :=
  C75_stopping served_cared (i := servedXs.length) (u := w0) (by rw [served_end]; exact at1 6 34 (by decide +kernel))

/-- STOPPED is entered. -/
example : ∃ j y z, (servedRun.conf j).w.trace = servedBase ++ (servedEnd.w.trace.drop 6).take 50 ++
    (w0, .cur 0 (app true calmSub).stopped false) :: (y ++ (w0, .latch 0) :: z) :=
  C75_released served_cared rfl (i := servedXs.length) (u := w0) (by rw [served_end]; exact at1 6 50 (by decide +kernel))

/-- Subsystem 1 throws an `Error` when it is started. -/
def errSub : Nat → Bool → UProg := fun k up => if k = 1 ∧ up = true then .thr (.err 7) else noteP (if up then k else 10 + k)

theorem err_wired : (app true errSub).Wired (appEnv (app true errSub)) := app_wired true errSub fun k up => by
  unfold errSub
  split
  · exact .thr _
  · exact .call _ _ rfl fun _ => .done

/-- The app is started; everything comes to rest. -/
def brokenXs : List Choice := thenCall (app true errSub) 0 .start ++ [.dispatch 0 0 0] ++ runN (.worker 0 0) 15

def brokenEnd : Conf := drive (appEnv (app true errSub)) appConf brokenXs

def brokenRun : Run (appEnv (app true errSub)) := runOf _ _ appConf_initial brokenXs

theorem brokenEnd_eq : drive (appEnv (app true errSub)) appConf brokenXs = brokenEnd := by unfold brokenEnd; rfl

theorem still_of {env : Env} {c0 : Conf} (h0 : ∀ t, c0.thr t = none) {xs : List Choice} (T : List Tid)
    (hx : xs.all (fun x => match tidOf x with | some t => T.contains t | none => true) = true)
    (ht : T.all (fun t => (step env (drive env c0 xs) (.run t)).isNone) = true) (t : Tid) : (step env (drive env c0 xs) (.run t)).isNone = true := by
  by_cases h : t ∈ T
  · exact List.all_eq_true.1 ht t h
  · have : (drive env c0 xs).thr t = none := by
      rw [drive_other env xs (fun x hm => ?_), h0]
      intro he
      have := List.all_eq_true.1 hx x hm
      rw [he] at this
      exact h (by simpa using this)
    simp [step, this]

theorem runOf_still {env : Env} {c0 : Conf} {hi : Initial c0} {xs : List Choice} (h : ∀ t, (step env (drive env c0 xs) (.run t)).isNone = true)
    (t : Tid) : (runOf env c0 hi xs).fair t := by
  intro i hc
  have h1 := hc (max i xs.length) (Nat.le_max_left _ _)
  rw [runOf_end (Nat.le_max_right _ _)] at h1
  have h2 := h t
  rw [Option.isNone_iff_eq_none] at h2
  rw [h2] at h1
  cases h1

theorem broken_served : Served brokenRun 0 where
  alone := app_alone _
  thread := Nat.lt_succ_self 0
  own _ := Iff.rfl
  fair := runOf_still (still_of (fun _ => rfl) [.client 0, .worker 0 0] (by decide +kernel) (by decide +kernel))
  executes := runOf_executes (by rw [brokenEnd_eq]; decide +kernel)
  returns := runOf_returns (by rw [brokenEnd_eq]; decide +kernel)
  kept _ x hx s m hs := nothing_lost (env := appEnv (app true errSub)) (q := 0) (c := brokenEnd) (by decide +kernel) x
    (by have := runOf_trace x hx; rwa [brokenEnd_eq] at this) s m hs

end Demo

/-- C75: an `Error` thrown by a subsystem, on the other hand, is not turned into an `error` event (HandleExceptionAction.java:33): the
app stays in STARTING for ever, and the main thread waits in `start()` for ever. In this execution everything else is as in `Cared`. -/
theorem C75_negation_errors : ∃ (env : Env) (r : Run env) (a : App) (P tr post : List (Tid × Obs)) (i : Nat) (x : Nat),
    a.Wired env ∧ (∀ i x, r.pick i = some x → x.within a.Outside) ∧ (r.conf 0).w.latch a.latch ≠ 0 ∧ Served r a.m ∧
    (env.strat (env.mach a.m).strat).maxQ ≤ 0 ∧ (env.strat (env.mach a.m).strat).dropDup = false ∧ (∃ u, (u, Obs.started a.m) ∈ P) ∧
    openEv (env.workerOf a.m) a.m P = none ∧ (∀ j tr, (r.conf j).w.trace = P ++ tr → ∀ e ∈ tr, meddles a.m e.2 = false) ∧
    (r.conf i).w.trace = P ++ tr ++ (env.workerOf a.m, .cur a.m a.starting false) :: post ∧
    (env.workerOf a.m, Obs.user (.subRet a.id 1 true (some (.err x)))) ∈ post ∧
    ∀ j, ∀ e ∈ (r.conf j).w.trace, (∀ b ∈ [a.started, a.stopped], e.2 ≠ .cur a.m b false) ∧ e.2 ≠ .latch a.latch ∧
      ∀ o, e.2 ≠ .user (.appRet a.id .start o) := by
  have hend : (Demo.brokenRun.conf Demo.brokenXs.length).w.trace = Demo.brokenEnd.w.trace := by
    unfold Demo.brokenRun
    rw [Demo.runOf_end (Nat.le_refl _), Demo.brokenEnd_eq]
  refine ⟨_, Demo.brokenRun, Demo.app true Demo.errSub, Demo.brokenEnd.w.trace.take 6, (Demo.brokenEnd.w.trace.drop 6).take 6,
    Demo.brokenEnd.w.trace.drop 13, Demo.brokenXs.length, 7, Demo.err_wired, Demo.runOf_within fun x hx => ?_, Demo.latchesOne,
    Demo.broken_served, Int.le_refl 0, rfl, ⟨.client 0, by decide +kernel⟩, by decide +kernel, fun j tr hj e he => ?_, ?_, by decide +kernel,
    fun j e he => ?_⟩
  · simp only [Demo.brokenXs, List.mem_append, List.mem_singleton] at hx
    rcases hx with (hx | rfl) | hx
    all_goals first | exact Demo.thenCall_within _ _ _ hx | exact Demo.runN_within _ _ _ hx | trivial
  · have h1 : (Demo.brokenEnd.w.trace.drop 6).all (fun e => !meddles 0 e.2) = true := by decide +kernel
    have h2 := Demo.runOf_rest (env := Demo.appEnv (Demo.app true Demo.errSub)) (c0 := Demo.appConf) (hi := Demo.appConf_initial)
      (xs := Demo.brokenXs) (j := j) (n := 6) (tr := tr) (by rw [Demo.brokenEnd_eq]; exact hj) e he
    rw [Demo.brokenEnd_eq] at h2
    have h3 := List.all_eq_true.1 h1 e h2
    simp only [Bool.not_eq_true'] at h3
    exact h3
  · rw [hend]; exact Demo.at1 6 6 (by decide +kernel)
  · have h1 : Demo.brokenEnd.w.trace.all (fun e => match e.2 with
        | .cur 0 b false => b != (Demo.app true Demo.errSub).started && b != (Demo.app true Demo.errSub).stopped
        | .latch _ => false
        | .user (.appRet ..) => false
        | _ => true) = true := by decide +kernel
    have h2 := Demo.runOf_trace e he
    rw [Demo.brokenEnd_eq] at h2
    have h3 := List.all_eq_true.1 h1 e h2
    refine ⟨fun b hb h4 => ?_, fun h4 => ?_, fun o h4 => ?_⟩ <;> rw [h4] at h3
    · simp only [List.mem_cons, List.not_mem_nil, or_false] at hb
      rcases hb with rfl | rfl <;> revert h3 <;> decide
    · cases h3
    · cases h3

end Verif
