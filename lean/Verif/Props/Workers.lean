import Verif.Props.Calls
import Verif.Props.Events
import Verif.Demo.Races
/-
C22, C26, C34, C35: what worker threads do, and what they do not.
-/

namespace Verif
open Spec (Desc MSt bare meddles shown Report Transition Notify Reaction Handles Events begins openEv apiDepth takenOf IsEvent)
open Spec.Mon (Mem concerns touches)
open Spec.Calls (userObs IsCall own)

section
variable {env : Env} {c0 c : Conf} {t : Tid} {m : MId} {pre mid post : List (Tid × Obs)}

/-! #### C22 -/

/-- C22: what kills a worker thread's task. The executor's threads are the only ones that poll the queues of its
strategies (`Sole`). An exception escapes only if user code threw it as the last thing while an event was processed, and
either it is not an `Exception` or it was the flow listener itself that threw it. -/
theorem C22_fatal (hr : Reach env c) {e : EId} {i : Nat} (hs : ∀ s, (env.strat s).exec = e → Sole env s) {x : Exc}
    (h : c.w.trace = pre ++ (.worker e i, .uncaught x) :: post) :
    ∃ os k m ev, bare (.worker e i) 0 pre = os ++ [.cbRet k (some x), .done m ev] ∧
      (x.isException = false ∨ ∃ y, k = .flowEx m ev y) := by
  obtain ⟨lst, _, _, hd⟩ := drain_reach hr
  rcases hd.past _ _ _ _ h with ⟨n, hn⟩ | hf | ⟨_, s, j, hw, _, hns⟩
  · cases hn
  · exact hf
  · cases hw; exact absurd (hs s rfl) hns

/-- C22: if user code called by the worker throws only `Exception`s and the flow listener never throws, then nothing ever
escapes the worker's tasks. (That the events after a failing one are processed as usual is `C15_events`.) -/
theorem C22_survives (hr : Reach env c) {e : EId} {i : Nat} (hs : ∀ s, (env.strat s).exec = e → Sole env s)
    (hok : ∀ k x, Obs.cbRet k (some x) ∈ bare (.worker e i) 0 c.w.trace → x.isException = true ∧ ∀ m ev y, k ≠ .flowEx m ev y)
    (x : Exc) : (.worker e i, .uncaught x) ∉ c.w.trace := by
  intro hm
  obtain ⟨pre, post, h⟩ := List.append_of_mem hm
  obtain ⟨os, k, m, ev, h1, h2⟩ := C22_fatal hr hs h
  obtain ⟨h3, h4⟩ := hok k x (by
    rw [h, bare_append, h1]
    exact List.mem_append_left _ (List.mem_append_right _ (by simp)))
  rcases h2 with h2 | ⟨y, h2⟩
  · rw [h3] at h2; cases h2
  · exact h4 m ev y h2

namespace Demo
theorem sole (a : Kind → Nat → List (Ev → MId → UProg)) (q : Int) (dd : Bool) (s : SId) : Sole (Demo.env a q dd) s :=
  ⟨Nat.le_refl 1, fun _ h => h⟩
end Demo

/-- The second exit action of A throws, the worker goes on. -/
example (x : Exc) : (Demo.w0, .uncaught x) ∉ Demo.failsBefore.w.trace :=
  C22_survives ⟨_, Demo.conf_initial true, Demo.failsBefore_reach⟩ (fun s _ => Demo.sole _ _ _ s)
    (fun k x h => by
      have := (by decide +kernel : (bare Demo.w0 0 Demo.failsBefore.w.trace).all (fun o => match o with
        | .cbRet (.flowEx ..) (some _) => false
        | .cbRet _ (some x) => x.isException
        | _ => true) = true)
      have := List.all_eq_true.1 this _ h
      refine ⟨?_, ?_⟩
      · cases k <;> simp at this <;> exact this
      · rintro m ev y rfl; simp at this) x

example : Obs.cbRet (.action 0 .exit 1 1 Demo.go) (some (.user 5)) ∈ bare Demo.w0 0 Demo.failsBefore.w.trace := by decide +kernel

/-- An `Error` in an exit action kills the drain. -/
example : ∃ os k m ev, bare Demo.w0 0 (Demo.dies.w.trace.take 23) = os ++ [.cbRet k (some (.err 9)), .done m ev] ∧
    ((Exc.err 9).isException = false ∨ ∃ y, k = .flowEx m ev y) :=
  C22_fatal (c := Demo.dies) (post := []) ⟨_, Demo.conf_initial true, Demo.dies_reach⟩ (fun s _ => Demo.sole _ _ _ s) (by decide +kernel)

/-! #### C35 -/

/-- C35: a thread about to poll the queue of a strategy, after it has found it non-empty, finds it non-empty, if the
executor has one thread and no other executor serves the queue. -/
theorem C35_never_empty (hr : Reach env c) {s : SId} (hs : Sole env s) {k : (Op.poll (env.q s)).Res → Prog Unit}
    (h : c.thr t = some (.op (.poll (env.q s)) k)) : c.w.queue (env.q s) ≠ [] := by
  obtain ⟨lst, ht, ⟨_, hn⟩, _⟩ := drain_reach hr
  have h0 := ht t
  rw [h] at h0
  obtain ⟨s', cm, b, d, rest, h1, _, h2, _⟩ := lmove_poll (lmove_of_allowed (w := c.w) h0.1)
  have hs' : Sole env s' := by
    have := hs.exec s' h2
    exact ⟨by rw [this]; exact hs.single, fun s'' h3 => by rw [this]; exact hs.exec s'' (h3.trans h2)⟩
  rw [← h2]
  exact hn t s' cm b (by rw [h1]; exact List.mem_cons_self) hs'

/-- C35: so a `NullPointerException` that escapes such a worker was thrown by the flow listener. -/
theorem C35_no_npe (hr : Reach env c) {e : EId} {i : Nat} (hs : ∀ s, (env.strat s).exec = e → Sole env s)
    (h : c.w.trace = pre ++ (.worker e i, .uncaught .npe) :: post) :
    ∃ os m ev y, bare (.worker e i) 0 pre = os ++ [.cbRet (.flowEx m ev y) (some .npe), .done m ev] := by
  obtain ⟨os, k, m, ev, h1, h2⟩ := C22_fatal hr hs h
  rcases h2 with h2 | ⟨y, rfl⟩
  · cases h2
  · exact ⟨os, m, ev, y, h1⟩

namespace Demo
/-- The worker has just found the queue non-empty. -/
def aboutToPoll : Conf := worked (Demo.env Demo.acts) [go, stay] 1
end Demo

/-- Is the thread about to poll queue 0? -/
def Demo.polls : Option (Prog Unit) → Bool
  | some (.op (.poll 0) _) => true
  | _ => false

theorem Demo.polls_op {p : Option (Prog Unit)} (h : Demo.polls p = true) : ∃ k, p = some (.op (.poll 0) k) := by
  match p, h with
  | some (.op (.poll 0) k), _ => exact ⟨k, rfl⟩

example : Demo.aboutToPoll.w.queue 0 ≠ [] := by
  obtain ⟨k, h⟩ := Demo.polls_op (p := Demo.aboutToPoll.thr Demo.w0) (by decide +kernel)
  have hr : Reach (Demo.env Demo.acts) Demo.aboutToPoll := ⟨_, Demo.conf_initial true, Demo.worked_reach _ _ _ _⟩
  generalize Demo.aboutToPoll = c at hr h
  exact C35_never_empty (s := 0) (t := Demo.w0) (k := k) hr (Demo.sole Demo.acts 0 false 0) h

/-- C35: with two worker threads it does happen: both find the queue non-empty, one of them gets the last event, and a
`NullPointerException` escapes the other, although no user code throws. -/
theorem C35_two_workers : ∃ env c, Reach env c ∧ (env.strat 0).exec = 0 ∧ env.width 0 = 2 ∧
    (.worker 0 0, .uncaught .npe) ∈ c.w.trace ∧ ∀ t k x, (t, .cbRet k (some x)) ∉ c.w.trace :=
  ⟨Demo.pool2, Demo.starved 15, ⟨_, Demo.conf_initial _, Demo.starved_reach _⟩, rfl, rfl, by decide +kernel, fun t k x h => by
    have := (by decide +kernel : (Demo.starved 15).w.trace.all (fun e => match e with | (_, .cbRet _ (some _)) => false | _ => true) = true)
    have := List.all_eq_true.1 this _ h
    simp at this⟩

end
end Verif
