import Verif.Proofs.Shared
import Verif.Props.Settle
import Verif.Demo.Busy
/-
C78: executors that serve several queues.
-/

namespace Verif
open Spec

variable {env : Env} {r : Run env} {q : QId} {e : EId}

/-- C78: every accepted event is taken in the end, also if the executor of the queue serves other queues, too: no thread is neglected,
the executor begins tasks in the order in which they were submitted (and begins one if there are a task and an idle worker),
it refuses no task of the queue and throws none away, and one of its workers has nothing to do again and again. -/
theorem C78_taken (hf : ∀ t, r.fair t) (hx : r.executes e) (ho : r.inOrder e) {k : Nat} (hk : k < env.width e) (hid : r.idles (.worker e k))
    (hqe : ∀ s, (env.strat s).queue = q → (env.strat s).exec = e)
    (hl : ∀ i, ∀ x ∈ (r.conf i).w.trace, ∀ s m, (env.strat s).queue = q → x.2 ≠ .rejected s m ∧ x.2 ≠ .taskDropped s m) (i : Nat) :
    ∃ j, i ≤ j ∧ accepted q (r.conf i).w.trace <+: taken q (r.conf j).w.trace := by
  have key : ∀ n, ∃ j, i ≤ j ∧ ((accepted q (r.conf i).w.trace).length ≤ (taken q (r.conf j).w.trace).length ∨
      n ≤ (taken q (r.conf j).w.trace).length) := by
    intro n
    induction n with
    | zero => exact ⟨i, Nat.le_refl i, .inr (Nat.zero_le _)⟩
    | succ n ih =>
      obtain ⟨j, h1, h2⟩ := ih
      by_cases hlt : (taken q (r.conf j).w.trace).length < (accepted q (r.conf j).w.trace).length
      · obtain ⟨j', h3, h4⟩ := Course.takes_next_shared hf hx ho hk hid hqe hl j hlt
        refine ⟨j', Nat.le_trans h1 h3, ?_⟩
        rcases h2 with h2 | h2
        · exact .inl (by omega)
        · exact .inr (by omega)
      · have := (Course.prefix_accepted (q := q) (Course.grows_le r h1)).length_le
        exact ⟨j, h1, .inl (by omega)⟩
  obtain ⟨j, h1, h2⟩ := key (accepted q (r.conf i).w.trace).length
  refine ⟨j, h1, ?_⟩
  have h3 : (accepted q (r.conf i).w.trace).length ≤ (taken q (r.conf j).w.trace).length := h2.elim id id
  have h4 : taken q (r.conf j).w.trace <+: accepted q (r.conf j).w.trace := ⟨_, (Course.pos_fifo r j q).symm⟩
  exact List.prefix_of_prefix_length_le (Course.prefix_accepted (Course.grows_le r h1)) h4 h3

/-- C78: a worker has nothing to do again and again, if it is not neglected, user code called in it returns, and every queue that its
executor serves gets only finitely many events. -/
theorem C78_idles {k : Nat} (hf : r.fair (.worker e k)) (hu : r.returns (.worker e k))
    (hb : ∀ s, (env.strat s).exec = e → ∃ N, ∀ j, (accepted (env.strat s).queue (r.conf j).w.trace).length ≤ N) : r.idles (.worker e k) :=
  Course.ends hf hu hb

/-- C78: every accepted event is processed in the end, if the queues that share the executor get finitely many events each: the `n`-th
event accepted is the `n`-th event taken, and the thread that took it finishes it. -/
theorem C78_processed (hf : ∀ t, r.fair t) (hx : r.executes e) (ho : r.inOrder e) (hw : 0 < env.width e)
    (hu : ∀ k, k < env.width e → r.returns (.worker e k))
    (hb : ∀ s, (env.strat s).exec = e → ∃ N, ∀ j, (accepted (env.strat s).queue (r.conf j).w.trace).length ≤ N)
    (hqe : ∀ s, (env.strat s).queue = q → (env.strat s).exec = e)
    (hl : ∀ i, ∀ x ∈ (r.conf i).w.trace, ∀ s m, (env.strat s).queue = q → x.2 ≠ .rejected s m ∧ x.2 ≠ .taskDropped s m)
    {i : Nat} {u : Tid} {m : MId} {ev : Ev} {past post : List (Tid × Obs)} (h : (r.conf i).w.trace = past ++ (u, .accepted q m ev) :: post) :
    ∃ j k pre mid, (r.conf j).w.trace = pre ++ (.worker e k, .taken q m ev) :: mid ∧ (taken q pre).length = (accepted q past).length ∧
      (.worker e k, .done m ev) ∈ mid := by
  obtain ⟨j, _, h1⟩ := C78_taken hf hx ho hw (C78_idles (hf _) (hu 0 hw) hb) hqe hl i
  have h2 : (accepted q (r.conf i).w.trace)[(accepted q past).length]? = some (ev, m) := by
    rw [h]; simp [accepted]
  have h3 : (taken q (r.conf j).w.trace)[(accepted q past).length]? = some (ev, m) := by
    obtain ⟨a, ha⟩ := h1
    rw [← ha, List.getElem?_append_left]
    · exact h2
    · exact (List.getElem?_eq_some_iff.1 h2).1
  obtain ⟨pre, t, mid, h4, h5⟩ := taken_at h3
  obtain ⟨s, k, rfl, hk, hq, _⟩ := (Course.pos_ok r j).2.tasks.taken t q m ev (by rw [h4]; simp)
  have he : (env.strat s).exec = e := hqe s hq
  subst he
  obtain ⟨j', mid', _, h6, h7⟩ := C59_done h4 (hf _) (hu k hk)
  exact ⟨j', k, pre, mid', h6, h5, h7⟩

/-- C78: without the idle moments this fails. One machine keeps itself busy: its entry action fires the next event. Another machine has
its own strategy and its own queue, but the same single-threaded executor. No thread is neglected, tasks are begun in order, none is
refused or thrown away, all user code returns: and yet the event of the other machine is never taken. -/
theorem C78_negation_starvation : ∃ (env : Env) (r : Run env), (∀ s t, (env.strat s).queue = (env.strat t).queue → s = t) ∧
    (∀ s, (env.strat s).exec = 0) ∧ 0 < env.width 0 ∧ (∀ t, r.fair t) ∧ r.executes 0 ∧ r.inOrder 0 ∧ (∀ t, r.returns t) ∧
    (∀ i, ∀ x ∈ (r.conf i).w.trace, ∀ s m, x.2 ≠ .rejected s m ∧ x.2 ≠ .taskDropped s m) ∧
    (∃ i u ev, (u, Obs.accepted 1 1 ev) ∈ (r.conf i).w.trace) ∧ ∀ i, taken 1 (r.conf i).w.trace = [] := by
  refine ⟨Demo.busyEnv, Demo.busyRun, fun s t h => ?_, fun s => ?_, Nat.zero_lt_one, Demo.busyRun_fair, Demo.busyRun_executes,
    Demo.busyRun_inOrder, Demo.busyRun_returns, fun _ _ hx s m => Demo.busyRun_kept hx s m, ⟨_, _, _, Demo.busyRun_starved.1⟩,
    Demo.busyRun_starved.2⟩
  · have hq : ∀ s, (Demo.busyEnv.strat s).queue = s := fun s => by simp only [Demo.busyEnv]; split <;> simp_all
    rw [hq, hq] at h; exact h
  · simp only [Demo.busyEnv]; split <;> rfl

/-- C78: in the same execution the backlog of the executor grows without bound (each event that is accepted submits one more drain
task), though the strategy has a `maxQueueSize` of 1, and never more than one event waits in its queue. -/
theorem C78_negation_backlog : ∃ (env : Env) (r : Run env), (∀ s, (env.strat s).maxQ = 1) ∧ (∀ t, r.fair t) ∧ r.executes 0 ∧ (∀ t, r.returns t) ∧
    (∀ i, (waiting 0 (r.conf i).w.trace).length ≤ 1) ∧ ∀ n, ∃ i, n ≤ ((r.conf i).w.tasks 0).length :=
  ⟨Demo.busyEnv, Demo.busyRun, fun s => by simp only [Demo.busyEnv]; split <;> rfl, Demo.busyRun_fair, Demo.busyRun_executes,
    Demo.busyRun_returns, Demo.busyRun_waiting, fun n => ⟨_, by rw [(Demo.laps n).tasks]; exact Nat.le_succ n⟩⟩

/-! ### Examples -/

namespace Demo

/-- Two machines with separate queues and one single-threaded executor; an event for each of them. -/
def pairXs : List Choice :=
  [.begin 0 (client 1 [go])] ++ runN (.client 0) 60 ++ [.begin 0 (client 2 [go])] ++ runN (.client 0) 60 ++
    [.dispatch 0 0 0] ++ runN (.worker 0 0) 60 ++ [.dispatch 0 0 0] ++ runN (.worker 0 0) 60

def pairEnd : Conf := drive busyEnv (conf false) pairXs

def pairRun : Run busyEnv := runOf _ _ (conf_initial false) pairXs

theorem pairEnd_eq : drive busyEnv (conf false) pairXs = pairEnd := by unfold pairEnd; rfl

theorem pairEnd_idle : ∀ t, pairEnd.thr t = none := by
  unfold pairEnd
  exact idle_of (fun _ => rfl) [.client 0, .worker 0 0] (by decide +kernel) (by decide +kernel)

theorem pairXs_order : pairXs.all (fun x => match x with
    | .dispatch _ _ n => decide (n = 0)
    | _ => true) = true := by decide +kernel

/-- Both events are processed. -/
example {i : Nat} {u : Tid} {ev : Ev} {past post : List (Tid × Obs)} (h : (pairRun.conf i).w.trace = past ++ (u, .accepted 2 2 ev) :: post) :
    ∃ j k pre mid, (pairRun.conf j).w.trace = pre ++ (.worker 0 k, .taken 2 2 ev) :: mid ∧
      (taken 2 pre).length = (accepted 2 past).length ∧ (.worker 0 k, .done 2 ev) ∈ mid :=
  C78_processed (r := pairRun) (runOf_fair (by rw [pairEnd_eq]; exact pairEnd_idle)) (runOf_executes (by rw [pairEnd_eq]; decide +kernel))
    (fun i k n hp => runOf_within (p := fun x => ∀ k n, x = .dispatch 0 k n → n = 0) (fun x hx k n he => by
      have := List.all_eq_true.1 pairXs_order x hx
      rw [he] at this; exact of_decide_eq_true this) i _ hp k n rfl)
    Nat.zero_lt_one
    (fun k hk => by
      obtain rfl : k = 0 := Nat.lt_one_iff.1 hk
      exact runOf_returns (by rw [pairEnd_eq]; decide +kernel))
    (fun s _ => ⟨pairEnd.w.trace.length, fun j => by
      have h1 := Course.grows_le pairRun (Nat.le_max_left j pairXs.length)
      unfold pairRun at h1
      rw [runOf_end (Nat.le_max_right _ _), pairEnd_eq] at h1
      exact Nat.le_trans (List.length_filterMap_le _ _) h1.length_le⟩)
    (fun s _ => by simp only [busyEnv]; split <;> rfl)
    (fun _ x hx s m _ => by
      have h1 := runOf_trace x hx
      rw [pairEnd_eq] at h1
      have : ∀ x ∈ pairEnd.w.trace, (match x.2 with
        | .rejected .. | .taskDropped .. => false
        | _ => true) = true := by decide +kernel
      have := this x h1
      constructor <;> (intro h; rw [h] at this; cases this)) h

/-- The event is accepted in this execution. -/
example : accepted 2 (pairRun.conf 122).w.trace = [(go, 2)] := by decide +kernel

end Demo
end Verif
