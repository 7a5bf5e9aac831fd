import Verif.Proofs.Own
import Verif.Demo.Base
/-
C13, C32, C33: queues and pooled pairs. `Reach env c` ranges over every environment (any number of machines,
strategies, queues, executors, worker threads, arbitrary user code) and every schedule.
-/

namespace Verif
open Spec (accepted taken)

theorem reach_own {env : Env} {c : Conf} (hr : Reach env c) :
    ∃ lst, ThreadsOk (proto env) [] fin lst c ∧ Own env lst c.w :=
  (own_invariant env).reach (own_initial env) hr

/-- Two events through one queue: one taken, one waiting. -/
def Demo.twoFired : Conf :=
  drive (Demo.env Demo.acts) (Demo.conf true) ([.begin 0 (Demo.client 0 [Demo.go, Demo.stay])] ++ Demo.runN (.client 0) 60 ++
    [.dispatch 0 0 0] ++ Demo.runN (.worker 0 0) 2)

theorem Demo.twoFired_reach : Reach (Demo.env Demo.acts) Demo.twoFired := (Demo.conf_initial true).reach _

/-! #### C13 -/

/-- C13: what has been taken from a queue is a prefix of what has been accepted into it, and the rest of it is exactly
what is waiting in the queue, in order and unaltered. -/
theorem C13_fifo (env : Env) (c : Conf) (hr : Reach env c) (q : QId) :
    taken q c.w.trace <+: accepted q c.w.trace ∧
    accepted q c.w.trace = taken q c.w.trace ++ (c.w.queue q).filterMap c.w.pair ∧
    (∀ p ∈ c.w.queue q, (c.w.pair p).isSome = true) := by
  obtain ⟨lst, -, loc, h⟩ := reach_own hr
  refine ⟨⟨_, (h.fifo q).symm⟩, h.fifo q, ?_⟩
  intro p hp
  obtain ⟨ev, m, hpr, -⟩ := h.full q p hp
  simp [hpr]

example : taken 0 Demo.twoFired.w.trace = [(Demo.go, 0)] ∧
    accepted 0 Demo.twoFired.w.trace = [(Demo.go, 0), (Demo.stay, 0)] := by decide +kernel

/-! #### C33 -/

/-- C33: whenever any thread asks, the size of a machine's queue is the number of events accepted minus the number of
events taken. -/
theorem C33_queue_size (env : Env) (c : Conf) (hr : Reach env c) (m : MId) (t : Tid) :
    ∀ r w', exec t (.qSize (env.strat (env.mach m).strat).queue) c.w = (r, w') →
      r + (taken (env.strat (env.mach m).strat).queue c.w.trace).length =
        (accepted (env.strat (env.mach m).strat).queue c.w.trace).length ∧ w' = c.w ∧
      (r = 0 ↔ taken (env.strat (env.mach m).strat).queue c.w.trace =
        accepted (env.strat (env.mach m).strat).queue c.w.trace) := by
  intro r w' he
  cases he
  obtain ⟨-, h, hs⟩ := C13_fifo env c hr (env.strat (env.mach m).strat).queue
  have hl : ((c.w.queue (env.strat (env.mach m).strat).queue).filterMap c.w.pair).length =
      (c.w.queue (env.strat (env.mach m).strat).queue).length := by
    generalize c.w.queue (env.strat (env.mach m).strat).queue = l at hs
    induction l with
    | nil => rfl
    | cons p l ih =>
      have := hs p (by simp)
      obtain ⟨x, hx⟩ := Option.isSome_iff_exists.1 this
      simp [hx, ih (fun p hp => hs p (by simp [hp]))]
  refine ⟨?_, rfl, ?_⟩
  · rw [h]; simp [hl, Nat.add_comm]
  · rw [h]
    constructor
    · intro h0
      have : (c.w.queue (env.strat (env.mach m).strat).queue).filterMap c.w.pair = [] :=
        List.length_eq_zero_iff.1 (by rw [hl]; exact h0)
      simp [this]
    · intro h0
      have := congrArg List.length h0
      simp only [List.length_append, hl] at this
      show (c.w.queue (env.strat (env.mach m).strat).queue).length = 0
      omega

/-- `getEventQueueSize()` is that operation. -/
example (env : Env) (m : MId) : UCall.prog env (.getEventQueueSize m) =
  Prog.lift (.qSize (env.strat (env.mach m).strat).queue) := rfl

example : (exec (.client 5) (.qSize 0) Demo.twoFired.w).1 = 1 := by decide +kernel

/-! #### C32 -/

/-- Operations with which a thread changes, enqueues or gives back a pair. -/
def Op.uses : Op → Option PairId
  | .offer _ p => some p
  | .poolGive _ p => some p
  | .setPair p _ _ => some p
  | _ => none

theorem uses_owned {env : Env} {w : World} {l l' : List Frame} {o : Op} {p : PairId} (hm : LMove env w l o l')
    (ho : o.uses = some p) : p ∈ ownedL l := by
  cases hm with
  | enter _ => cases ho
  | leave _ => cases ho
  | user _ hu => unfold userOp at hu; split at hu <;> first | cases ho | exact hu.elim
  | frame hm =>
    cases hm <;> first | (cases ho; done) | (cases ho; simp [Frame.owned]; done) | skip
    · rename_i ha; cases phAllowed_op ha <;> cases ho
    · rename_i ha; cases phAllowed_op ha <;> cases ho

/-- The pair a step of thread `t` would use. -/
def Conf.uses (c : Conf) (t : Tid) (p : PairId) : Prop :=
  ∃ o k, c.thr t = some (.op o k) ∧ o.uses = some p

/-- C32: in every reachable configuration: no pair is twice in a queue or pool, or in two of them; a pair which a
thread is about to write, enqueue or give back is in no queue and no pool, and no other thread is about to use it; and
no step, whoever does it, changes the contents of a queued pair. -/
theorem C32_pairs_never_shared (env : Env) (c : Conf) (hr : Reach env c) :
    (∀ q, (c.w.queue q).Nodup) ∧ (∀ s, (c.w.pool s).Nodup) ∧
    (∀ q q' p, p ∈ c.w.queue q → p ∈ c.w.queue q' → q = q') ∧
    (∀ s s' p, p ∈ c.w.pool s → p ∈ c.w.pool s' → s = s') ∧
    (∀ q s p, p ∈ c.w.queue q → p ∉ c.w.pool s) ∧
    (∀ t p, c.uses t p → (∀ q, p ∉ c.w.queue q) ∧ (∀ s, p ∉ c.w.pool s)) ∧
    (∀ t t' p, c.uses t p → c.uses t' p → t = t') ∧
    (∀ x c' q p, step env c x = some c' → p ∈ c.w.queue q → c'.w.pair p = c.w.pair p) := by
  obtain ⟨lst, ht, loc, h⟩ := reach_own hr
  have hu : ∀ t p, c.uses t p → loc p = .own t := by
    rintro t p ⟨o, k, hp, ho⟩
    have h0 := ht t
    rw [hp] at h0
    exact (h.ow t p).1 (uses_owned (lmove_of_allowed (w := c.w) h0.1) ho)
  refine ⟨h.qn, h.pn, ?_, ?_, ?_, ?_, ?_, ?_⟩
  · intro q q' p h1 h2; rw [h.q] at h1 h2; rw [h1] at h2; cases h2; rfl
  · intro q q' p h1 h2; rw [h.pl] at h1 h2; rw [h1] at h2; cases h2; rfl
  · intro q s p h1 h2; rw [h.q] at h1; rw [h.pl, h1] at h2; cases h2
  · intro t p hp
    have := hu t p hp
    refine ⟨fun q h1 => ?_, fun s h1 => ?_⟩
    · rw [h.q, this] at h1; cases h1
    · rw [h.pl, this] at h1; cases h1
  · intro t t' p h1 h2
    have h1 := hu t p h1
    rw [hu t' p h2] at h1; cases h1; rfl
  · intro x c' q p hs hq
    cases x with
    | begin n u => simp only [step] at hs; split at hs <;> cases hs; rfl
    | run t =>
      simp only [step] at hs
      split at hs
      · cases hs
      next pr hp =>
        cases pr with
        | ret a => cases hs; rfl
        | thr x => cases hs; rfl
        | call f k => cases hs; rfl
        | op o k =>
          simp only [runThread] at hs
          split at hs
          · cases hs
            by_cases ho : ∃ p' ev m, o = .setPair p' ev m
            · obtain ⟨p', ev, m, rfl⟩ := ho
              have : p ≠ p' := by
                rintro rfl
                rw [h.q, hu t p ⟨_, k, hp, rfl⟩] at hq; cases hq
              simp only [exec, fset_ne _ _ this]
            · have : (exec t o c.w).2.pair = c.w.pair := by
                cases o <;> first | rfl | (simp only [exec]; (repeat' split) <;> rfl) | skip
                exact absurd ⟨_, _, _, rfl⟩ ho
              simp only [this]
          · cases hs
    | dispatch e i j =>
      simp only [step] at hs
      split at hs
      · split at hs <;> cases hs; rfl
      · cases hs
    | interrupt t => cases hs; rfl
    | shutdown e now => cases hs; cases now <;> rfl

example : Demo.twoFired.w.queue 0 = [1] ∧ Demo.twoFired.w.nextPair = 2 := by decide +kernel

end Verif
