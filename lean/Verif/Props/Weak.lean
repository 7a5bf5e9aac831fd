import Verif.Demo.Weak
import Verif.Proofs.WeakStart
import Verif.Demo.App
/-
C88: what `getCurrentState()` returns under weak memory. `currentState` is a plain field, so a read by another thread than the writer may return an old value
(C62). Here reads return whatever happens-before consistency allows, the program runs on with that value, and the question is how old it can be.
-/

namespace Verif
open Verif.Weak Verif.Spec.HB Verif.Spec.Weak

section
variable {env : Env} {M : MId → Prop} [DecidablePred M] {wide past : Bool} {m : MId} {W : Tid} {c0 c : Conf} {xs : List WChoice} {a b : Nat}

/-- C88, what is known cannot be forgotten: if a write happens before a read then the read returns the value of that write or of one made later. -/
theorem C88_known (hi : Initial c0) (hr : Weak.runs env M c0 xs = some c) (ht : Tidy W m (Spec.Weak.history env M c0 xs) a b)
    (hj : Justified wide past m (Spec.Weak.history env M c0 xs)) {i k : Nat} {t : Tid} {v : Option St} {s : St}
    (hv : (Spec.Weak.history env M c0 xs)[i]? = some (.op t (.getCur m) v)) (hk : Writes (Spec.Weak.history env M c0 xs) m k s)
    (hki : HB wide (Spec.Weak.history env M c0 xs) k i) :
    ∃ j s, k ≤ j ∧ Writes (Spec.Weak.history env M c0 xs) m j s ∧ v = some s :=
  known (shape hi hr) ht hj hv hk hki

/-- C88, `isEnded()` helps: a thread that calls `isEnded()` and then `getCurrentState()` gets a value that is at most one write behind what was there when
`isEnded()` was called. -/
theorem C88_lag (hi : Initial c0) (hr : Weak.runs env M c0 xs = some c) (ht : Tidy W m (Spec.Weak.history env M c0 xs) a b)
    (hj : Justified wide past m (Spec.Weak.history env M c0 xs)) {e i k1 k2 : Nat} {t : Tid} {r : Bool} {v : Option St} {s1 s2 : St}
    (he : (Spec.Weak.history env M c0 xs)[e]? = some (.op t (.getEnded m) r))
    (hv : (Spec.Weak.history env M c0 xs)[i]? = some (.op t (.getCur m) v)) (hei : e < i)
    (h1 : Writes (Spec.Weak.history env M c0 xs) m k1 s1) (h2 : Writes (Spec.Weak.history env M c0 xs) m k2 s2) (h12 : k1 < k2) (h2e : k2 < e) :
    ∃ j s, k1 ≤ j ∧ Writes (Spec.Weak.history env M c0 xs) m j s ∧ v = some s :=
  known (shape hi hr) ht hj hv h1 (.trans (asked (shape hi hr) ht he h1 h2 h12 h2e) (.po hei he hv rfl))

/-- C88, `start()` and `startInState()` begin what C88_known and C88_lag are about: when one of them has returned, and the state is changed otherwise only
by `W` and after `isEnded` has been reset, the machine is tidy. -/
theorem C88_start (hi : Initial c0) (hr : Weak.runs env M c0 xs = some c) {p : Nat} {t : Tid} {k : Api} (hk : k = .start m ∨ ∃ s, k = .startInState m s)
    (hp : (Spec.Weak.history env M c0 xs)[p]? = some (.op t (.emit (.leave k none)) ()))
    (hc : ∀ (k : Nat) u s e api, (Spec.Weak.history env M c0 xs)[k]? = some (.op u (.casEnded m s e api) true) →
      u = W ∧ ∀ (b : Nat) u', (Spec.Weak.history env M c0 xs)[b]? = some (.op u' (.clearEnded m) ()) → b < k) :
    ∃ a b, b < p ∧ Tidy W m (Spec.Weak.history env M c0 xs) a b := by
  obtain ⟨a, b, s, h1, h2, h3⟩ := over (m := m) hi hr hp (by rcases hk with rfl | ⟨s, rfl⟩ <;> rfl)
  have hb : b < p := by have := get_lt h3; rw [List.length_take] at this; omega
  rw [List.getElem?_take_of_lt hb] at h3
  rw [List.getElem?_take_of_lt (by omega)] at h2
  exact ⟨a, b, hb, h1, ⟨t, s, h2, h3⟩, fun k u s e api hk => ⟨(hc k u s e api hk).1, (hc k u s e api hk).2 b t h3⟩⟩

/-- C88, a machine that has been started has a state for everybody who has asked whether it has ended: `getCurrentState()` after `isEnded()`, called when
`start()` or `startInState()` had returned, does not return null. -/
theorem C88_started (hi : Initial c0) (hr : Weak.runs env M c0 xs = some c) {p : Nat} {u : Tid} {k : Api} (hk : k = .start m ∨ ∃ s, k = .startInState m s)
    (hp : (Spec.Weak.history env M c0 xs)[p]? = some (.op u (.emit (.leave k none)) ()))
    (hc : ∀ (k : Nat) u s e api, (Spec.Weak.history env M c0 xs)[k]? = some (.op u (.casEnded m s e api) true) →
      u = W ∧ ∀ (b : Nat) u', (Spec.Weak.history env M c0 xs)[b]? = some (.op u' (.clearEnded m) ()) → b < k)
    (hj : Justified wide past m (Spec.Weak.history env M c0 xs)) {e i : Nat} {t : Tid} {r : Bool} {v : Option St}
    (he : (Spec.Weak.history env M c0 xs)[e]? = some (.op t (.getEnded m) r))
    (hv : (Spec.Weak.history env M c0 xs)[i]? = some (.op t (.getCur m) v)) (hpe : p < e) (hei : e < i) : v ≠ none := by
  obtain ⟨a, b, hbp, ht⟩ := C88_start hi hr hk hp hc
  obtain ⟨u, s, h1, h2⟩ := ht.start
  obtain ⟨_, _, _, _, rfl⟩ := known (shape hi hr) ht hj hv ⟨u, true, h1⟩
    (.trans (first ht) (.trans (ended_sync (by omega) (Or.inl h2) (Or.inl ⟨_, he⟩)) (.po hei he hv rfl)))
  exact Option.some_ne_none _

/-- C88, the thread that changes the state knows it: after its own write, a read returns the value of that write or of one made later. -/
theorem C88_worker (hi : Initial c0) (hr : Weak.runs env M c0 xs = some c) (ht : Tidy W m (Spec.Weak.history env M c0 xs) a b)
    (hj : Justified wide true m (Spec.Weak.history env M c0 xs)) {i k : Nat} {v : Option St} {s : St}
    (hv : (Spec.Weak.history env M c0 xs)[i]? = some (.op W (.getCur m) v)) (hk : Writes (Spec.Weak.history env M c0 xs) m k s) (hka : k ≠ a) (hki : k < i)
    (hlast : ∀ k' s', Writes (Spec.Weak.history env M c0 xs) m k' s' → k' < i → k' ≤ k) : v = some s := by
  have hs := shape hi hr
  obtain ⟨_, _, _, _, ⟨api, h4⟩, _⟩ := later hs ht hk hka
  have hb : HB wide (Spec.Weak.history env M c0 xs) k i := .po hki h4 hv rfl
  rcases hj i W v hv with ⟨_, h⟩ | ⟨j, s', rfl, h1, h2, h3⟩
  · exact absurd hb (h k s hk)
  · have := hlast j s' h1 (h3 rfl)
    rcases Nat.lt_or_ge j k with h | h
    · exact absurd hb (h2.2 k s hk (ordered hs ht h1 hk h))
    · obtain rfl : j = k := by omega
      obtain ⟨_, _, h1⟩ := h1
      rw [h4] at h1
      cases h1
      rfl

/-- C88, weak memory makes no difference for machines with a thread of their own, used with discipline: such an execution is an execution of the sequentially
consistent model, with the same actions, results and final configuration. -/
theorem C88_sequential (hi : Initial c0) (hr : Weak.runs env M c0 xs = some c)
    (hM : ∀ m, M m → OwnThread env m ∧ Disciplined (env.workerOf m) m (Spec.Weak.history env M c0 xs) ∧
      Justified false true m (Spec.Weak.history env M c0 xs)) :
    ∃ ys, Verif.runs env c0 ys = some c ∧ Spec.HB.history env c0 ys = Spec.Weak.history env M c0 xs :=
  sequential hi (zs := []) rfl (fun m => last_initial (hi.mach m).2.2) hr (by simpa [Spec.HB.history] using hM)

end

/-- C88, sequentially consistent executions are among the executions with weak memory. -/
theorem C88_allowed {env : Env} {M : MId → Prop} [DecidablePred M] {c0 c : Conf} {ys : List Choice} (hi : Initial c0) (hr : Verif.runs env c0 ys = some c) :
    Weak.runs env M c0 (ys.map .sched) = some c ∧ Spec.Weak.history env M c0 (ys.map .sched) = Spec.HB.history env c0 ys ∧
      ∀ wide m, Justified wide true m (Spec.HB.history env c0 ys) := by
  refine ⟨?_, ?_, fun wide m => ?_⟩
  · clear hi
    induction ys generalizing c0 with
    | nil => exact hr
    | cons y ys ih =>
      simp only [Verif.runs] at hr
      split at hr
      · cases hr
      next c1 h => simpa [Weak.runs, Weak.step, h] using ih hr
  · clear hi
    induction ys generalizing c0 with
    | nil => rfl
    | cons y ys ih =>
      simp only [Verif.runs] at hr
      split at hr
      · cases hr
      next c1 h => simp [Spec.Weak.history, Spec.HB.history, Weak.step, Spec.Weak.did, h, ih hr]
  · have := fresh_runs (m := m) (A := []) (fun i t v h => by simp at h) (last_initial (hi.mach m).2.2) hr
    simpa using this.justified

namespace Demo

/-- Client 0 starts the machine and fires an event, the worker processes it. -/
def wentX : List WChoice := List.map .sched ([Choice.begin 0 (client 0 [go])] ++ runN (.client 0) 60 ++ [.dispatch 0 0 0] ++ runN w0 70)
/-- Then client 1 asks for the state and gets null. -/
def staleX : List WChoice := wentX ++ [.sched (.begin 1 (.call (.getCurrentState 0) fun _ => .done))] ++ readsN (.client 1) 3 none
/-- Or client 1 asks twice and gets first B, then A. -/
def backX : List WChoice := wentX ++ [.sched (.begin 1 (.call (.getCurrentState 0) fun _ => .call (.getCurrentState 0) fun _ => .done))] ++
  [.read (.client 1) (some B)] ++ readsN (.client 1) 3 (some A)
/-- Or client 1 calls `isEnded()` before, and gets A. -/
def lagX : List WChoice := wentX ++ [.sched (.begin 1 (.call (.isEnded 0) fun _ => .call (.getCurrentState 0) fun _ => .done))] ++
  readsN (.client 1) 3 (some A)
/-- The entry action of B counts a latch down. -/
def latchActs : Kind → Nat → List (Ev → MId → UProg)
  | .entry, 2 => [fun _ _ => .call (.countDown 0) fun _ => .done]
  | _, _ => []
/-- Client 1 waits for the latch and then asks for the state; meanwhile the machine is on its way back to A. -/
def latchX : List WChoice := List.map .sched ([Choice.begin 0 (client 0 [go, back])] ++ runN (.client 0) 60 ++ [.dispatch 0 0 0] ++ runN w0 70 ++
    [.begin 1 (.call (.await 0) fun _ => .call (.getCurrentState 0) fun _ => .done)]) ++ readsN (.client 1) 4 (some B)
/-- The worker reads the state in an entry action; nobody else does. -/
def askActs : Kind → Nat → List (Ev → MId → UProg)
  | .entry, 2 => [fun _ _ => .call (.getCurrentState 0) fun _ => .done]
  | _, _ => []
def askX : List WChoice := List.map .sched ([Choice.begin 0 (client 0 [go])] ++ runN (.client 0) 60 ++ [.dispatch 0 0 0]) ++
  readsN w0 8 (some A) ++ readsN w0 40 (some B)
/-- An app is started; its worker has entered STARTED. Then another thread calls `stop()`, and reads that the state is STARTING. -/
def stopX : List WChoice := (thenCall (app true calmSub) 0 .start).map .sched ++ [.sched (.begin 1 (callApp (app true calmSub) .stop))] ++
  readsN (.client 1) 25 (some ⟨STATE_STARTING, 12⟩)

end Demo

open Demo in
/-- C88_known: B has been written (action 39), then the worker counts the latch down (42), client 1 waits for that (60) and gets B (61), although A has been
written meanwhile (55). It cannot get the first A or null. -/
example : ∃ xs c, Weak.runs (env latchActs) (· = 0) appConf xs = some c ∧ (let H := Spec.Weak.history (env latchActs) (· = 0) appConf xs
    Tidy w0 0 H 2 5 ∧ Justified true true 0 H ∧ H[61]? = some (.op (.client 1) (.getCur 0) (some B)) ∧ Writes H 0 39 B ∧ Writes H 0 55 A ∧ HB true H 39 61) := by
  obtain ⟨xs, h1, h2, _⟩ := whist_real (env latchActs) appConf latchX
  refine ⟨xs, _, h1, ?_⟩
  rw [h2]
  refine ⟨tidy_of (t := .client 0) (s := A) (by decide) (by rfl) (by rfl) (by decide +kernel), justified_of (by decide +kernel), by rfl,
    ⟨w0, false, by rfl⟩, ⟨w0, false, by rfl⟩, ?_⟩
  exact .trans (.po (j := 42) (a := .op w0 (.setCur 0 B false) ()) (b := .op w0 (.countDown 0) ()) (by decide) (by rfl) (by rfl) rfl)
    (.trans (.sync (.latch (n := 0) (t := w0) (u := .client 1) (j := 60) (by decide) (by rfl) (by rfl)))
      (.po (a := .op (.client 1) (.await 0) false) (b := .op (.client 1) (.getCur 0) (some B)) (by decide) (by rfl) (by rfl) rfl))

open Demo in
/-- C88_lag, C88_start, C88_started: `start()` has returned (6), A (2) and B (34) have been written when client 1 calls `isEnded()` (45); it gets A (46), one write behind, but not null. -/
theorem C88_lag_attained : ∃ env c0 xs c, Initial c0 ∧ OwnThread env 0 ∧ Weak.runs env (· = 0) c0 xs = some c ∧ (let H := Spec.Weak.history env (· = 0) c0 xs
    Tidy (env.workerOf 0) 0 H 2 5 ∧ Justified true true 0 H ∧ Writes H 0 2 A ∧ Writes H 0 34 B ∧ A ≠ B ∧
    H[6]? = some (.op (.client 0) (.emit (.leave (.start 0) none)) ()) ∧
    (∀ (b : Nat) u, H[b]? = some (.op u (.clearEnded 0) ()) → b = 5) ∧ H[45]? = some (.op (.client 1) (.getEnded 0) false) ∧ H[46]? = some (.op (.client 1) (.getCur 0) (some A))) := by
  obtain ⟨xs, h1, h2, _⟩ := whist_real (Demo.env acts) conf lagX
  refine ⟨_, _, xs, _, conf_initial _, ownThread _ _ _, h1, ?_⟩
  rw [h2]
  exact ⟨tidy_of (t := .client 0) (s := A) (by decide) (by rfl) (by rfl) (by decide +kernel), justified_of (by decide +kernel), ⟨.client 0, true, by rfl⟩,
    ⟨w0, false, by rfl⟩, by decide, by rfl, fun b u hb => clears_of (by decide +kernel) hb, by rfl, by rfl⟩

open Demo in
/-- C88_worker, C88_sequential: all reads are by the worker; the one in the entry action of B (29) returns B. -/
example : ∃ xs c, Weak.runs (env askActs) (· = 0) conf xs = some c ∧ (let H := Spec.Weak.history (env askActs) (· = 0) conf xs
    Tidy w0 0 H 2 5 ∧ Disciplined w0 0 H ∧ Justified false true 0 H ∧ Writes H 0 28 B ∧ H[29]? = some (.op w0 (.getCur 0) (some B))) ∧
    ∃ ys, Verif.runs (env askActs) conf ys = some c := by
  obtain ⟨xs, h1, h2, _⟩ := whist_real (env askActs) conf askX
  have hd : Disciplined w0 0 (Spec.Weak.history (env askActs) (· = 0) conf xs) := by
    rw [h2]; exact disciplined_of (by decide +kernel) (by decide +kernel) (by decide +kernel)
  have hj : Justified false true 0 (Spec.Weak.history (env askActs) (· = 0) conf xs) := by
    rw [h2]; exact justified_of (by decide +kernel)
  obtain ⟨ys, g1, _⟩ := C88_sequential (conf_initial _) h1 (fun m hm => by subst hm; exact ⟨ownThread _ _ _, hd, hj⟩)
  refine ⟨xs, _, h1, ⟨?_, hd, hj, ?_⟩, ys, g1⟩ <;> rw [h2]
  · exact tidy_of (t := .client 0) (s := A) (by decide) (by rfl) (by rfl) (by decide +kernel)
  · exact ⟨⟨w0, false, by rfl⟩, by rfl⟩

/-- Without `isEnded()` or anything like it, a thread may get null from `getCurrentState()` long after `start()` has returned and events have been processed. -/
theorem C88_negation_null : ∃ env c0 xs c, Initial c0 ∧ OwnThread env 0 ∧ Weak.runs env (· = 0) c0 xs = some c ∧ (let H := Spec.Weak.history env (· = 0) c0 xs
    Tidy (env.workerOf 0) 0 H 2 5 ∧ Justified true true 0 H ∧ Writes H 0 34 Demo.B ∧ H[45]? = some (.op (.client 1) (.getCur 0) none)) := by
  obtain ⟨xs, h1, h2, _⟩ := Demo.whist_real (Demo.env Demo.acts) Demo.conf Demo.staleX
  refine ⟨_, _, xs, _, Demo.conf_initial _, Demo.ownThread _ _ _, h1, ?_⟩
  rw [h2]
  exact ⟨Demo.tidy_of (t := .client 0) (s := Demo.A) (by decide) (by rfl) (by rfl) (by decide +kernel), Demo.justified_of (by decide +kernel),
    ⟨Demo.w0, false, by rfl⟩, by rfl⟩

/-- What a thread gets from one `getCurrentState()` call after another may go backwards: B, then A, although A has been written once, before B. -/
theorem C88_negation_backwards : ∃ env c0 xs c, Initial c0 ∧ OwnThread env 0 ∧ Weak.runs env (· = 0) c0 xs = some c ∧ (let H := Spec.Weak.history env (· = 0) c0 xs
    Tidy (env.workerOf 0) 0 H 2 5 ∧ Justified true true 0 H ∧ Writes H 0 34 Demo.B ∧ (∀ k, Writes H 0 k Demo.A → k = 2) ∧
    H[45]? = some (.op (.client 1) (.getCur 0) (some Demo.B)) ∧ H[46]? = some (.op (.client 1) (.getCur 0) (some Demo.A))) := by
  obtain ⟨xs, h1, h2, _⟩ := Demo.whist_real (Demo.env Demo.acts) Demo.conf Demo.backX
  refine ⟨_, _, xs, _, Demo.conf_initial _, Demo.ownThread _ _ _, h1, ?_⟩
  rw [h2]
  refine ⟨Demo.tidy_of (t := .client 0) (s := Demo.A) (by decide) (by rfl) (by rfl) (by decide +kernel), Demo.justified_of (by decide +kernel),
    ⟨Demo.w0, false, by rfl⟩, fun k hk => ?_, by rfl, by rfl⟩
  obtain ⟨d, g1, g2⟩ := Demo.put_of.1 hk
  have h3 : (List.range (Demo.whist (Demo.env Demo.acts) Demo.conf Demo.backX).length).all (fun k => k == 2 ||
      ((Demo.whist (Demo.env Demo.acts) Demo.conf Demo.backX)[k]?.bind (Demo.putB 0)) != some Demo.A) = true := by decide +kernel
  have := List.all_eq_true.1 h3 k (List.mem_range.2 (get_lt g1))
  simpa [g1, g2] using this

/-- The service layer: an app has been started and its worker has entered STARTED and processed everything. Another thread calls `stop()` and gets an
`IllegalStateException`, because it reads an old state; the app is not stopped. -/
theorem C88_negation_service : ∃ (a : App) (env : Env) (c0 : Conf) (xs : List WChoice) (c : Conf), a.Wired env ∧ Initial c0 ∧ OwnThread env a.m ∧ a.m = 0 ∧
    Weak.runs env (· = 0) c0 xs = some c ∧ (∀ x, .sched x ∈ xs → x.within a.Outside) ∧ Justified true true a.m (Spec.Weak.history env (· = 0) c0 xs) ∧
    (c.w.mach a.m).cur = some a.started ∧ (∃ ev, c.w.trace[31]? = some (env.workerOf a.m, .done a.m ev)) ∧
    c.w.trace[32]? = some (.client 1, .user (.app a.id .stop)) ∧
    c.w.trace[33]? = some (.client 1, .user (.appRet a.id .stop (some (.ise .appState)))) := by
  obtain ⟨xs, h1, h2, h3⟩ := Demo.whist_real (Demo.appEnv (Demo.app true Demo.calmSub)) Demo.appConf Demo.stopX
  refine ⟨Demo.app true Demo.calmSub, _, _, xs, _, Demo.app_wired _ _ (Demo.calm_outside _), Demo.appConf_initial, ⟨Demo.app_alone _, fun _ h => h⟩, rfl, h1,
    ?_, ?_, by decide +kernel, ⟨Ev.mk 0 "complete" (.client 9002), by decide +kernel⟩, by decide +kernel, by decide +kernel⟩
  · intro x hx
    have := h3 _ hx
    simp only [Demo.stopX, List.mem_append, List.mem_map, List.mem_singleton, Demo.readsN, List.mem_flatten, List.mem_replicate] at this
    rcases this with (⟨y, hy, h⟩ | h) | ⟨l, ⟨_, rfl⟩, hl⟩
    · cases h; exact Demo.thenCall_within _ _ _ hy
    · cases h; exact Demo.callApp_outside _ _
    · simp only [List.mem_cons, List.not_mem_nil, or_false] at hl
      rcases hl with h | h <;> cases h
      trivial
  · rw [h2]; exact Demo.justified_of (by decide +kernel)

end Verif
