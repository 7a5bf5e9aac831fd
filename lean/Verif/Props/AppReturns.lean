import Verif.Proofs.AppStops
/-
C76, C77: the calls of the methods of an app return; an app that is told to stop gets STOPPED.
-/

namespace Verif
open Spec (Run)
open Spec.App
open Settle

section
variable {env : Env} {r : Run env} {a : App}

/-- C76: every call of `stop()` or `error(e)` returns, no matter what the other threads do. Nothing is assumed of them, of the executor or
of the subsystems; the thread itself has to be scheduled. -/
theorem C76_stop_error_return (ha : a.Wired env) (hw : ∀ i x, r.pick i = some x → x.within a.Outside) {i : Nat} {t : Tid} {c : AppCall}
    {pre post : List (Tid × Obs)} (h : (r.conf i).w.trace = pre ++ (t, .user (.app a.id c)) :: post) (hc : c ≠ .start) (hf : r.fair t) :
    ∃ j o, Returns a t pre.length c o (r.conf j).w.trace :=
  AppWait.others_return r ha hw h hc hf

/-- C76: a call of `start()` returns, unless it hangs in user code called by the `start()` of the machine, or the latch is never released and
the thread is never interrupted. -/
theorem C76_start_returns (ha : a.Wired env) (hw : ∀ i x, r.pick i = some x → x.within a.Outside) (hl : (r.conf 0).w.latch a.latch ≠ 0)
    {i : Nat} {t : Tid} {pre post : List (Tid × Obs)} (h : (r.conf i).w.trace = pre ++ (t, .user (.app a.id .start)) :: post) (hf : r.fair t) :
    (∃ j o, Returns a t pre.length .start o (r.conf j).w.trace) ∨ Hangs a r t pre.length ∨ Waits a r t pre.length :=
  (AppWait.start_returns r ha hw hl h hf).imp_right And.right

/-- C76: once the machine has been started, `start()` always returns. It waits for nothing. -/
theorem C76_start_again (ha : a.Wired env) (hw : ∀ i x, r.pick i = some x → x.within a.Outside) (hl : (r.conf 0).w.latch a.latch ≠ 0)
    {i : Nat} {t u : Tid} {pre post : List (Tid × Obs)} (h : (r.conf i).w.trace = pre ++ (t, .user (.app a.id .start)) :: post) (hf : r.fair t)
    (hs : (u, Obs.started a.m) ∈ pre) : ∃ j o, Returns a t pre.length .start o (r.conf j).w.trace := by
  rcases AppWait.start_returns r ha hw hl h hf with h1 | ⟨h1, _⟩
  · exact h1
  · have : startedOf a.m pre = true := by
      unfold startedOf
      exact List.any_eq_true.2 ⟨_, hs, by simp⟩
    rw [h1] at this; cases this

end

section
variable {env : Env} {r : Run env} {a : App} {P : List (Tid × Obs)}

/-- A STARTED app that is left gets STOPPED. -/
theorem left_stops (hc : Cared a r P) {j : Nat} {u : Tid} {tr x : List (Tid × Obs)}
    (h : (r.conf j).w.trace = P ++ tr ++ (u, .cur a.m a.started false) :: x)
    (hne : ((r.conf j).w.mach a.m).cur ≠ some a.started ∨ ((r.conf j).w.mach a.m).ended = true) :
    ∃ j y z, (r.conf j).w.trace = P ++ tr ++ (u, .cur a.m a.started false) :: (y ++ (u, .cur a.m a.stopped false) :: z) := by
  obtain ⟨j, y, c, z, h1, h2, h3⟩ := left_app hc (by simp [App.states]) h hne
  rcases (clauses_from hc.wired h1).2.2.1 h2 with h4 | h4 <;> rw [h4] at h3
  · obtain ⟨j, y', z', h5⟩ := C75_stopping hc (i := j) (u := u) (tr := tr ++ (u, .cur a.m a.started false) :: y) (post := z) (by rw [h3]; simp)
    exact ⟨j, y ++ (u, .cur a.m a.stopping false) :: y', z', by rw [h5]; simp⟩
  · exact ⟨j, y, z, h3⟩

/-- C77: if `stop()` or `error(e)` is called after the app has got STARTED, the app gets STOPPED, whatever the outcome of the call: it may
find that the app is on its way down already, and throw. -/
theorem C77_told (hc : Cared a r P) {i : Nat} {u t : Tid} {c : AppCall} {tr x post : List (Tid × Obs)} (hcs : c ≠ .start)
    (h : (r.conf i).w.trace = P ++ tr ++ (u, .cur a.m a.started false) :: (x ++ (t, .user (.app a.id c)) :: post)) :
    ∃ j y z, (r.conf j).w.trace = P ++ tr ++ (u, .cur a.m a.started false) :: (y ++ (u, .cur a.m a.stopped false) :: z) := by
  have ht : t ≠ .env := AppWait.env_user r (i := i) (n := .app a.id c) (by rw [h]; simp)
  have hf := hc.served.fair t
  obtain ⟨i0, L, f, _, h2, _, h4⟩ := AppWait.called r (pre := P ++ tr ++ (u, .cur a.m a.started false) :: x) (post := post) (t := t) (c := c)
    hc.wired hc.within (i := i) (by rw [h]; simp)
  have later : ∀ j, i0 ≤ j → ∃ z, (r.conf j).w.trace = P ++ tr ++ (u, .cur a.m a.started false) :: z := fun j hj => by
    obtain ⟨z, hz⟩ := Course.grows_le r hj
    exact ⟨x ++ (t, .user (.app a.id c)) :: z, by rw [← hz, h4]; simp⟩
  have fired : ∀ (j : Nat) (e : Ev) (K : Except Exc Unit → Prog Unit), i0 ≤ j → e.cls = 0 → (e.key = evtStop.key ∨ e.key = evtError.key) →
      (r.conf j).thr t = some (((a.fire e).denote env).handle K) →
      ∃ j y z, (r.conf j).w.trace = P ++ tr ++ (u, .cur a.m a.started false) :: (y ++ (u, .cur a.m a.stopped false) :: z) := by
    intro j e K hj hcls he hk
    obtain ⟨z, hz⟩ := later j hj
    obtain ⟨j', hj', h5⟩ := AppWait.fire_told r hc ht hcls hk (by rw [hz, List.append_assoc]; exact List.prefix_append _ _)
    rcases h5 with ⟨x', e', y', h6, h7⟩ | h6
    · exact C75_started hc (i := j') (u' := t) (e := e') (x := z ++ x') (post := y') (by rw [h7]; exact he) (by rw [h6, hz]; simp)
    · obtain ⟨z', hz'⟩ := later j' (by omega)
      exact left_stops hc hz' (.inr h6)
  cases c with
  | start => exact absurd rfl hcs
  | error => exact fired i0 evtError _ (Nat.le_refl _) rfl (.inr rfl) h2
  | stop =>
    obtain ⟨j, hj, _, a1, a2, _, _⟩ := AppWait.do_op (a := a) r ht hf h2 (by simp)
    have hcur : (exec t (.getCur a.m) (r.conf j).w).1 = ((r.conf j).w.mach a.m).cur := rfl
    rw [hcur] at a1
    by_cases hn : ((r.conf j).w.mach a.m).cur = some a.started
    · refine fired (j + 1) evtStop (fun x => .op (.emit (.user (.appRet a.id .stop (outcome x)))) (f x)) (by omega) rfl (.inl rfl) ?_
      rw [a1, hn]
      change some (Prog.handle (UProg.denote env (if (App.named (some a.started) STATE_STARTED || _) = true then _ else _)) _) = _
      rw [if_pos]
      simp [App.named, hc.wired.names]
    · obtain ⟨z, hz⟩ := later j hj
      exact left_stops hc hz (.inl hn)

/-- C77: once an exit-on-stop app has got STOPPED, no call of `start()` waits: earlier and later ones return, unless they hang in user code
called by the `start()` of the machine. -/
theorem C77_released (hc : Cared a r P) (hx : a.exitOnStop = true) (hl : (r.conf 0).w.latch a.latch = 1) {i i' : Nat} {u t : Tid}
    {tr post pre post' : List (Tid × Obs)} (h : (r.conf i).w.trace = P ++ tr ++ (u, .cur a.m a.stopped false) :: post)
    (hs : (r.conf i').w.trace = pre ++ (t, .user (.app a.id .start)) :: post') :
    (∃ j o, Returns a t pre.length .start o (r.conf j).w.trace) ∨ Hangs a r t pre.length := by
  rcases C76_start_returns hc.wired hc.within hc.latch hs (hc.served.fair t) with h1 | h1 | ⟨k, h1⟩
  · exact .inl h1
  · exact .inr h1
  · obtain ⟨j, y, z, h2⟩ := C75_released hc hx h
    obtain ⟨w, hw⟩ := Course.grows_le r (Nat.le_max_left j k)
    exact absurd ((AppWait.latch_open r hl).2 u (by rw [← hw, h2]; simp)) (h1 _ (Nat.le_max_right j k)).2.1

/-- C77: `start()` of an exit-on-stop app that has got STARTED returns after `stop()` or `error(e)` has been called. -/
theorem C77_start_returns (hc : Cared a r P) (hx : a.exitOnStop = true) (hl : (r.conf 0).w.latch a.latch = 1) {i i' : Nat} {u t t' : Tid}
    {c : AppCall} {tr x post pre post' : List (Tid × Obs)} (hcs : c ≠ .start)
    (h : (r.conf i).w.trace = P ++ tr ++ (u, .cur a.m a.started false) :: (x ++ (t, .user (.app a.id c)) :: post))
    (hs : (r.conf i').w.trace = pre ++ (t', .user (.app a.id .start)) :: post') :
    (∃ j o, Returns a t' pre.length .start o (r.conf j).w.trace) ∨ Hangs a r t' pre.length := by
  obtain ⟨j, y, z, h1⟩ := C77_told hc hcs h
  exact C77_released hc hx hl (i := j) (u := u) (tr := tr ++ (u, .cur a.m a.started false) :: y) (post := z) (by rw [h1]; simp) hs

end

namespace Demo

theorem at0 {α : Type} {l : List α} {x : α} (i : Nat) (h : l[i]? = some x) : l = l.take i ++ x :: l.drop (i + 1) := by
  simpa using at1 0 i (by simpa using h)

/-- `stop()` is called on the app that has got STARTED; it returns. -/
example : ∃ j o, Returns (app true calmSub) (.client 1) (servedEnd.w.trace.take 32).length .stop o (servedRun.conf j).w.trace :=
  C76_stop_error_return (r := servedRun) (a := app true calmSub) (calm_wired true) (runOf_within servedXs_within) (i := servedXs.length) (t := .client 1) (c := .stop)
    (pre := servedEnd.w.trace.take 32) (post := servedEnd.w.trace.drop 33) (by rw [served_end]; exact at0 32 (by decide +kernel)) (by decide)
    (served_served.fair _)

/-- `start()` is called. -/
example : (∃ j o, Returns (app true calmSub) (.client 0) 0 .start o (servedRun.conf j).w.trace) ∨
    Hangs (app true calmSub) servedRun (.client 0) 0 ∨ Waits (app true calmSub) servedRun (.client 0) 0 :=
  C76_start_returns (r := servedRun) (a := app true calmSub) (calm_wired true) (runOf_within servedXs_within) latchesOne (i := servedXs.length) (t := .client 0)
    (pre := []) (post := servedEnd.w.trace.drop 1) (by rw [served_end]; exact at1 0 0 (by decide +kernel)) (served_served.fair _)

/-- `stop()` is called on the app that has got STARTED; the app gets STOPPED. -/
example : ∃ j y z, (servedRun.conf j).w.trace = servedBase ++ (servedEnd.w.trace.drop 6).take 22 ++
    (w0, .cur 0 (app true calmSub).started false) :: (y ++ (w0, .cur 0 (app true calmSub).stopped false) :: z) :=
  C77_told served_cared (i := servedXs.length) (u := w0) (t := .client 1) (c := .stop) (by decide)
    (by rw [served_end]; exact at2 6 22 3 (by decide +kernel) (by decide +kernel))

/-- STOPPED is entered; `start()` returns. -/
example : (∃ j o, Returns (app true calmSub) (.client 0) 0 .start o (servedRun.conf j).w.trace) ∨
    Hangs (app true calmSub) servedRun (.client 0) 0 :=
  C77_released served_cared rfl rfl (i := servedXs.length) (u := w0) (i' := servedXs.length) (t := .client 0) (pre := [])
    (post' := servedEnd.w.trace.drop 1)
    (by rw [served_end]; exact at1 6 50 (by decide +kernel)) (by rw [served_end]; exact at1 0 0 (by decide +kernel))

example : (∃ j o, Returns (app true calmSub) (.client 0) 0 .start o (servedRun.conf j).w.trace) ∨
    Hangs (app true calmSub) servedRun (.client 0) 0 :=
  C77_start_returns served_cared rfl rfl (i := servedXs.length) (u := w0) (t := .client 1) (c := .stop) (i' := servedXs.length) (t' := .client 0)
    (pre := []) (post' := servedEnd.w.trace.drop 1) (by decide)
    (by rw [served_end]; exact at2 6 22 3 (by decide +kernel) (by decide +kernel)) (by rw [served_end]; exact at1 0 0 (by decide +kernel))

/-- It does return, without an exception. -/
example : Returns (app true calmSub) (.client 0) 0 .start none (servedRun.conf servedXs.length).w.trace :=
  ⟨servedEnd.w.trace.take 69, by rw [served_end]; decide +kernel, by decide +kernel⟩

/-- The app is started twice, by two threads. -/
def twiceXs : List Choice := thenCall (app true calmSub) 0 .start ++ thenCall (app true calmSub) 1 .start

def twiceEnd : Conf := drive (appEnv (app true calmSub)) appConf twiceXs

theorem twiceEnd_eq : drive (appEnv (app true calmSub)) appConf twiceXs = twiceEnd := by unfold twiceEnd; rfl

def twiceRun : Run (appEnv (app true calmSub)) := runOf _ _ appConf_initial twiceXs

theorem twice_within : ∀ x ∈ twiceXs, x.within (app true calmSub).Outside := by
  intro x hx
  simp only [twiceXs, List.mem_append] at hx
  rcases hx with hx | hx <;> exact thenCall_within _ _ _ hx

theorem twice_end {j : Nat} (h : twiceXs.length ≤ j) : twiceRun.conf j = twiceEnd := by
  unfold twiceRun
  rw [runOf_end h, twiceEnd_eq]

/-- The second call of `start()` returns. -/
example : ∃ j o, Returns (app true calmSub) (.client 1) (twiceEnd.w.trace.take 32).length .start o (twiceRun.conf j).w.trace :=
  C76_start_again (r := twiceRun) (a := app true calmSub) (calm_wired true) (runOf_within twice_within) latchesOne (i := twiceXs.length) (t := .client 1)
    (u := .client 0) (pre := twiceEnd.w.trace.take 32) (post := twiceEnd.w.trace.drop 33)
    (by rw [twice_end (Nat.le_refl _)]; exact at0 32 (by decide +kernel))
    (runOf_still (still_of (fun _ => rfl) [.client 0, .client 1, .worker 0 0] (by decide +kernel) (by decide +kernel)) _) (by decide +kernel)

/-- The listener of the machine waits for something that never happens. -/
def stuckEnv : Env := { appEnv (app true calmSub) with listener := fun _ _ _ _ _ => .call (.await 9) fun _ => .done }

theorem stuck_wired : (app true calmSub).Wired stuckEnv := { calm_wired true with listener := fun _ _ _ _ _ => .call _ _ rfl fun _ => .done }

def stuckConf : Conf := { appConf with w := { appConf.w with mach := fun m => { appConf.w.mach m with listener := some 0 } } }

theorem stuckConf_initial : Initial stuckConf :=
  ⟨fun _ => rfl, fun _ => ⟨rfl, rfl, rfl⟩, fun _ => rfl, rfl, rfl, fun _ => rfl, fun _ => rfl, fun _ => rfl, rfl⟩

def stuckXs : List Choice := thenCall (app true calmSub) 0 .start

def stuckEnd : Conf := drive stuckEnv stuckConf stuckXs

theorem stuckEnd_eq : drive stuckEnv stuckConf stuckXs = stuckEnd := by unfold stuckEnd; rfl

def stuckRun : Run stuckEnv := runOf _ _ stuckConf_initial stuckXs

theorem stuck_end {j : Nat} (h : stuckXs.length ≤ j) : stuckRun.conf j = stuckEnd := by
  unfold stuckRun
  rw [runOf_end h, stuckEnd_eq]

end Demo

/-- C76: `start()` may wait for ever: the app has got STARTED, nobody stops it. -/
theorem C76_waits_witness : ∃ (env : Env) (r : Run env) (a : App) (t u : Tid) (j : Nat) (post : List (Tid × Obs)), a.Wired env ∧
    (∀ i x, r.pick i = some x → x.within a.Outside) ∧ (r.conf 0).w.latch a.latch ≠ 0 ∧ (∀ t, r.fair t) ∧
    (r.conf j).w.trace = [] ++ (t, .user (.app a.id .start)) :: post ∧ (u, Obs.cur a.m a.started false) ∈ post ∧ Waits a r t 0 :=
  ⟨_, Demo.twiceRun, Demo.app true Demo.calmSub, .client 0, Demo.w0, Demo.twiceXs.length, Demo.twiceEnd.w.trace.drop 1, Demo.calm_wired true,
    Demo.runOf_within Demo.twice_within, Demo.latchesOne,
    fun _ => Demo.runOf_still (Demo.still_of (fun _ => rfl) [.client 0, .client 1, .worker 0 0] (by decide +kernel) (by decide +kernel)) _,
    by rw [Demo.twice_end (Nat.le_refl _)]; exact Demo.at1 0 0 (by decide +kernel), by decide +kernel,
    Demo.twiceXs.length, fun j hj => by
      rw [Demo.twice_end hj]
      exact ⟨Option.isNone_iff_eq_none.1 (by decide +kernel), by decide +kernel, by decide +kernel, by decide +kernel⟩⟩

/-- C76: `start()` may hang: the listener of the machine waits for something. -/
theorem C76_hangs_witness : ∃ (env : Env) (r : Run env) (a : App) (t : Tid) (j : Nat) (post : List (Tid × Obs)), a.Wired env ∧
    (∀ i x, r.pick i = some x → x.within a.Outside) ∧ (r.conf 0).w.latch a.latch ≠ 0 ∧ (∀ t, r.fair t) ∧
    (r.conf j).w.trace = [] ++ (t, .user (.app a.id .start)) :: post ∧ Hangs a r t 0 :=
  ⟨_, Demo.stuckRun, Demo.app true Demo.calmSub, .client 0, Demo.stuckXs.length, Demo.stuckEnd.w.trace.drop 1, Demo.stuck_wired,
    Demo.runOf_within fun _ hx => Demo.thenCall_within _ _ _ hx, Demo.latchesOne,
    fun _ => Demo.runOf_still (Demo.still_of (fun _ => rfl) [.client 0, .worker 0 0] (by decide +kernel) (by decide +kernel)) _,
    by rw [Demo.stuck_end (Nat.le_refl _)]; exact Demo.at1 0 0 (by decide +kernel),
    Demo.stuckXs.length, Demo.stuckEnd.w.trace.take 1, Demo.stuckEnd.w.trace.drop 2,
    by rw [Demo.stuck_end (Nat.le_refl _)]; exact Demo.at0 1 (by decide +kernel), by decide +kernel,
    Demo.stuckXs.length, fun j hj => by rw [Demo.stuck_end hj]; decide +kernel⟩

end Verif
