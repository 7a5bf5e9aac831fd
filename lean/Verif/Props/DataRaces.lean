import Verif.Proofs.HBPairs
import Verif.Proofs.HBCur
import Verif.Demo.HB
import Verif.Demo.App
/-
C61, C62: data races. The model executes operations one after another (sequential consistency). The Java memory model promises
that for programs without data races. Here: which accesses to plain fields are ordered by happens-before, and which are not.
-/

namespace Verif
open Verif.Spec.HB

/-- C61. Without drop-duplicate strategies, accesses to the pooled pairs are never in a data race: in any environment, for any
clients, any number of strategies, queues and workers. -/
theorem C61_pairs {env : Env} {c0 c : Conf} {xs : List Choice} (hd : ∀ m, (env.strat (env.mach m).strat).dropDup = false)
    (hi : Initial c0) (hr : runs env c0 xs = some c) (p : PairId) : RaceFree false (history env c0 xs) (.pair p) := by
  obtain ⟨lst, _, h⟩ := hist_sound (own_invariant env) (pair_hinv env hd) (own_initial env) pair_initial hi hr
  exact h.rf p

/-- C62. The plain field `currentState` of a machine that has its strategy, queue and single-threaded executor for itself is
never in a data race, in executions that keep to the discipline. -/
theorem C62_current_state {env : Env} {m : MId} {c0 c : Conf} {xs : List Choice} (hx : OwnThread env m) (hi : Initial c0)
    (hr : runs env c0 xs = some c) (hd : Disciplined (env.workerOf m) m (history env c0 xs)) :
    RaceFree false (history env c0 xs) (.cur m) := by
  obtain ⟨lst, _, h⟩ := hist_sound (((own_invariant env).and (task_preserved env)).and (stacks_invariant env _)) (cur_hinv env m hx)
    (fun c h => ⟨⟨own_initial env c h, task_initial env c h⟩, stacks_initial c.w⟩) (fun c h _ => cur_initial env m c h) hi hr
  exact (h hd).rf

namespace Demo

theorem ownThread (a : Kind → Nat → List (Ev → MId → UProg)) (maxQ : Int) (dd : Bool) : OwnThread (env a maxQ dd) 0 where
  alone := alone a maxQ dd
  exec := fun _ h => h

/-- Start, four events; then the worker processes them. Two more events from another client use the pairs again. -/
def tourX : List Choice :=
  [.begin 0 (client 0 [go, stay])] ++ runN (.client 0) 60 ++ [.dispatch 0 0 0] ++ runN w0 70 ++
  [.begin 1 (client.fires 0 [back])] ++ runN (.client 1) 20 ++ [.dispatch 0 0 0] ++ runN w0 50
def tourH : List Did := hist (env acts) (conf true) tourX

/-- Are there accesses by different threads, one of them a write? -/
def conflicts (H : List Did) (c : Cell) : Bool :=
  H.any fun a => writesB a c && H.any fun b => (readsB b c || writesB b c) && a.tid != b.tid

/-- A client asks for the state. -/
def asksX : List Choice :=
  [.begin 0 (client 0 [go]), .begin 1 (.call (.getCurrentState 0) fun _ => .done)] ++ runN (.client 0) 100 ++
  [.dispatch 0 0 0] ++ runN w0 100 ++ runN (.client 1) 10
def asksH : List Did := hist (env acts) conf asksX

/-- A client stops the machine while it processes an event. -/
def haltsX : List Choice :=
  [.begin 0 (client 0 [go])] ++ runN (.client 0) 100 ++ [.begin 1 (.call (.stop 0) fun _ => .done), .dispatch 0 0 0] ++
  runN w0 8 ++ runN (.client 1) 10 ++ runN w0 30
def haltsH : List Did := hist (env acts) conf haltsX

/-- A client fires while another is in the middle of `start()`. -/
def rashX : List Choice :=
  [.begin 0 (client 0 [])] ++ runN (.client 0) 5 ++ [.begin 1 (client.fires 0 [go])] ++ runN (.client 1) 30 ++ [.dispatch 0 0 0] ++
  runN w0 100 ++ runN (.client 0) 30
def rashH : List Did := hist (env acts) conf rashX

/-- While client 1 looks for duplicates, the pair it is about to look at is taken from the queue, processed, and reused by
client 2. -/
def scansX : List Choice :=
  [.begin 0 (client 0 [stay])] ++ runN (.client 0) 100 ++ [.begin 1 (client.fires 0 [go])] ++ runN (.client 1) 5 ++
  [.dispatch 0 0 0] ++ runN w0 100 ++ [.begin 2 (client.fires 0 [go])] ++ runN (.client 2) 9 ++ runN (.client 1) 2
def scansH : List Did := hist (env acts 0 true) conf scansX

/-- An app is started by one thread and stopped by another. -/
def appX : List Choice := thenCall (app true calmSub) 0 .start ++ thenCall (app true calmSub) 1 .stop
def appH : List Did := hist (appEnv (app true calmSub)) appConf appX

end Demo

open Demo in
/-- C61: pairs 0 and 1 are written by clients 0 and 1 and read by the worker. -/
example : ∃ xs c, runs (env acts) (conf true) xs = some c ∧ conflicts (history (env acts) (conf true) xs) (.pair 0) = true ∧
    conflicts (history (env acts) (conf true) xs) (.pair 1) = true ∧
    ∀ p, RaceFree false (history (env acts) (conf true) xs) (.pair p) := by
  obtain ⟨xs, h1, h2, _⟩ := hist_real (env acts) (conf true) tourX
  refine ⟨xs, _, h1, ?_, ?_, C61_pairs (fun _ => rfl) (conf_initial _) h1⟩ <;> rw [h2] <;> decide +kernel

open Demo in
/-- C62: here the state is written by client 0 (in `start()`) and by the worker. -/
example : ∃ xs c, runs (env acts) (conf true) xs = some c ∧ Disciplined w0 0 (history (env acts) (conf true) xs) ∧
    conflicts (history (env acts) (conf true) xs) (.cur 0) = true ∧
    RaceFree false (history (env acts) (conf true) xs) (.cur 0) := by
  obtain ⟨xs, h1, h2, _⟩ := hist_real (env acts) (conf true) tourX
  have hd : Disciplined w0 0 (history (env acts) (conf true) xs) := by
    rw [h2]; exact disciplined_of (by decide +kernel) (by decide +kernel) (by decide +kernel)
  exact ⟨xs, _, h1, hd, by rw [h2]; decide +kernel, C62_current_state (ownThread _ _ _) (conf_initial _) h1 hd⟩

/-- With a drop-duplicate strategy there are data races on pairs, even with one queue, one worker and without user code: the scan
for duplicates reads pairs that may be back in the pool or in the hands of another thread. -/
theorem C61_negation_drop_duplicate : ∃ env c0 xs c, Initial c0 ∧ runs env c0 xs = some c ∧ OwnThread env 0 ∧
    ¬RaceFree true (history env c0 xs) (.pair 0) := by
  obtain ⟨xs, h1, h2, _⟩ := Demo.hist_real (Demo.env Demo.acts 0 true) Demo.conf Demo.scansX
  refine ⟨_, _, xs, _, Demo.conf_initial _, h1, Demo.ownThread _ _ _, ?_⟩
  rw [h2]
  exact Demo.race_of 42 43 (by decide +kernel)

/-- Every clause of the discipline is needed. A `getCurrentState()` call by a client is a data race with the worker, so it may
return a value of long ago. -/
theorem C62_negation_getter : ∃ env c0 xs c, Initial c0 ∧ runs env c0 xs = some c ∧ OwnThread env 0 ∧
    (∀ (i : Nat) t, (history env c0 xs)[i]? = some (.op t (.emit (.enter (.stop 0))) ()) → t = env.workerOf 0) ∧
    (∀ (i : Nat) t ev, (history env c0 xs)[i]? = some (.op t (.emit (.enter (.fire 0 ev))) ()) →
      t = env.workerOf 0 ∨ ∃ k < i, ∃ u, (history env c0 xs)[k]? = some (.op u (.clearEnded 0) ())) ∧
    ¬RaceFree true (history env c0 xs) (.cur 0) := by
  obtain ⟨xs, h1, h2, _⟩ := Demo.hist_real (Demo.env Demo.acts) Demo.conf Demo.asksX
  refine ⟨_, _, xs, _, Demo.conf_initial _, h1, Demo.ownThread _ _ _, ?_, ?_, ?_⟩ <;> rw [h2]
  · exact Demo.stops_ok (by decide +kernel)
  · intro i t ev hi
    exact (Demo.fires_ok (W := Demo.w0) (m := 0) (b := false) (by decide +kernel) i t ev hi).imp id
      fun h => h.resolve_left Bool.false_ne_true
  · exact Demo.race_of 34 45 (by decide +kernel)

/-- A `stop()` call by a client is a data race with the worker. -/
theorem C62_negation_stop : ∃ env c0 xs c, Initial c0 ∧ runs env c0 xs = some c ∧ OwnThread env 0 ∧
    (∀ (i : Nat) t r, (history env c0 xs)[i]? = some (.op t (.getCur 0) r) → t = env.workerOf 0) ∧
    (∀ (i : Nat) t ev, (history env c0 xs)[i]? = some (.op t (.emit (.enter (.fire 0 ev))) ()) →
      t = env.workerOf 0 ∨ ∃ k < i, ∃ u, (history env c0 xs)[k]? = some (.op u (.clearEnded 0) ())) ∧
    ¬RaceFree true (history env c0 xs) (.cur 0) := by
  obtain ⟨xs, h1, h2, _⟩ := Demo.hist_real (Demo.env Demo.acts) Demo.conf Demo.haltsX
  refine ⟨_, _, xs, _, Demo.conf_initial _, h1, Demo.ownThread _ _ _, ?_, ?_, ?_⟩ <;> rw [h2]
  · exact Demo.reads_ok (by decide +kernel)
  · intro i t ev hi
    exact (Demo.fires_ok (W := Demo.w0) (m := 0) (b := false) (by decide +kernel) i t ev hi).imp id
      fun h => h.resolve_left Bool.false_ne_true
  · exact Demo.race_of 29 38 (by decide +kernel)

/-- A `fire()` call by one thread while another is in the middle of `start()` leads to a data race: the worker may find
`currentState` null although `start()` has written it before the event was fired. -/
theorem C62_negation_early_fire : ∃ env c0 xs c, Initial c0 ∧ runs env c0 xs = some c ∧ OwnThread env 0 ∧
    (∀ (i : Nat) t r, (history env c0 xs)[i]? = some (.op t (.getCur 0) r) → t = env.workerOf 0) ∧
    (∀ (i : Nat) t, (history env c0 xs)[i]? = some (.op t (.emit (.enter (.stop 0))) ()) → t = env.workerOf 0) ∧
    ¬RaceFree true (history env c0 xs) (.cur 0) := by
  obtain ⟨xs, h1, h2, _⟩ := Demo.hist_real (Demo.env Demo.acts) Demo.conf Demo.rashX
  refine ⟨_, _, xs, _, Demo.conf_initial _, h1, Demo.ownThread _ _ _, ?_, ?_, ?_⟩ <;> rw [h2]
  · exact Demo.reads_ok (by decide +kernel)
  · exact Demo.stops_ok (by decide +kernel)
  · exact Demo.race_of 2 21 (by decide +kernel)

/-- The library's own service layer breaks the discipline: `stop()` of an app, called by another thread than `start()`, as is
usual, reads the state in a data race with the worker that has entered STARTED. -/
theorem C62_negation_service : ∃ (a : App) (env : Env) (c0 : Conf) (xs : List Choice) (c : Conf), a.Wired env ∧ Initial c0 ∧
    runs env c0 xs = some c ∧ (∀ x ∈ xs, x.within a.Outside) ∧ OwnThread env a.m ∧ ¬RaceFree true (history env c0 xs) (.cur a.m) := by
  obtain ⟨xs, h1, h2, h3⟩ := Demo.hist_real (Demo.appEnv (Demo.app true Demo.calmSub)) Demo.appConf Demo.appX
  refine ⟨Demo.app true Demo.calmSub, _, _, xs, _, Demo.app_wired _ _ (Demo.calm_outside _), Demo.appConf_initial, h1, ?_,
    ⟨Demo.app_alone _, fun _ h => h⟩, ?_⟩
  · intro x hx
    rcases List.mem_append.1 (h3 x hx) with hx | hx <;> exact Demo.thenCall_within _ _ _ hx
  · rw [h2]
    exact Demo.race_of 63 73 (by decide +kernel)

end Verif
