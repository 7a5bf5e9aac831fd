import Verif.Proofs.Hist
import Verif.Demo.Calls
/-
C09-C12, C25, C27-C31, C49: the API calls `fire`, `stop`, `start`, `startInState`.

`Initial c0`, `ReachFrom env c0 c`: any environment (any number of machines, strategies, queues, executors, worker
threads, arbitrary user code) and any schedule. `IsCall c.w.trace t k pre mid os r`: in the history, thread `t` calls `k`
after `pre`; the call does `os` and returns `r`; meanwhile the whole program does `mid`. `after c0 pre` is the memory
after the history `pre`.
-/

namespace Verif
open Spec.Calls

/-- The memory after a history that began in configuration `c0`. -/
def after (c0 : Conf) (tr : List (Tid × Obs)) : Mem := memAt (initMem c0) tr

section
variable {env : Env} {c0 c : Conf} {t : Tid} {pre mid : List (Tid × Obs)} {os : List Obs} {r : Option Exc}

theorem run_of_reach (hi : Initial c0) (hr : ReachFrom env c0 c) :
    ∃ g, Spec.Calls.run (callsCfg env) (G.init c0.w.payload fun m => (c0.w.mach m).listener.isSome) c.w.trace = some g ∧
      MemRel c.w g.mem ∧ g.mem = after c0 c.w.trace := by
  obtain ⟨lst, _, _, g, hg, hc⟩ := history_accepted hi hr
  exact ⟨g, hg, hc.mem, run_mem hg⟩

/-- What the history tells about the memory is true: `isStarted()`, `isEnded()`, the listener, payloads and queues. -/
theorem memory_of_history (hi : Initial c0) (hr : ReachFrom env c0 c) :
    (∀ m, (after c0 c.w.trace).started m = (c.w.mach m).started) ∧
    (∀ m, (after c0 c.w.trace).ended m = (c.w.mach m).ended) ∧
    (∀ m, (after c0 c.w.trace).lst m = (c.w.mach m).listener.isSome) ∧
    (after c0 c.w.trace).pay = c.w.payload ∧
    (∀ q, (after c0 c.w.trace).waiting q = ((c.w.queue q).filterMap c.w.pair).map Prod.fst) := by
  obtain ⟨g, hg, hm, he⟩ := run_of_reach hi hr
  rw [← he]
  exact ⟨hm.started, hm.ended, hm.lst, hm.pay, hm.waiting⟩

/-- Every return in the history is the return of a call in the history: the theorems about `IsCall` speak about all
calls that have returned. -/
theorem returns_are_calls (hi : Initial c0) (hr : ReachFrom env c0 c) {k : Api} {a b : List (Tid × Obs)}
    (h : c.w.trace = a ++ (t, .leave k r) :: b) :
    ∃ pre mid os, a = pre ++ (t, .enter k) :: mid ∧ IsCall c.w.trace t k pre mid os r := by
  obtain ⟨g, hg, -⟩ := run_of_reach hi hr
  rw [h] at hg
  obtain ⟨pre, mid, os, ha, ho⟩ := leave_isCall (fun _ => rfl) hg
  exact ⟨pre, mid, os, ha, ⟨⟨b, by rw [h, ha]; simp⟩, ho⟩⟩

/-! #### C12 -/

/-- C12: every `fire(ev)` that has returned did exactly one of the things listed in `FireFate`, and nothing else. -/
theorem C12_one_fate {m : MId} {ev : Ev} (hi : Initial c0) (hr : ReachFrom env c0 c)
    (hc : IsCall c.w.trace t (.fire m ev) pre mid os r) : FireFate (callsCfg env) (after c0 pre) mid m ev os r :=
  fire_fate hi hr hc

/-- Client 0 starts the machine and fires two events into a queue with room for one: the second event is reported. -/
example : FireFate (callsCfg (Demo.env Demo.acts 1)) (after Demo.conf (Demo.full.w.trace.take 9))
    ((Demo.full.w.trace.drop 10).take 2) 0 Demo.stay
    [.cb (.flowFull 0 Demo.stay), .cbRet (.flowFull 0 Demo.stay) none] none :=
  C12_one_fate (t := .client 0) (Demo.conf_initial false) Demo.full_reach (isCall_of (by decide +kernel))

/-- C12: the outcomes are mutually exclusive: callback before start, callback after end, queue full, dropped, enqueued
exactly once. -/
theorem C12_exactly_one {m : MId} {ev : Ev} (hi : Initial c0) (hr : ReachFrom env c0 c)
    (hc : IsCall c.w.trace t (.fire m ev) pre mid os r) :
    os.countP (fun o => match o with
      | .cb (.flowBefore m' _) | .cb (.flowAfter m' _) | .cb (.flowFull m' _) | .dropped m' _ | .accepted _ m' _ => m' = m
      | _ => false) = 1 ∧
    ((∃ q m' e, .accepted q m' e ∈ os) →
      os.countP (fun o => match o with | .submitted .. | .rejected .. => true | _ => false) = 1) := by
  cases C12_one_fate hi hr hc <;> simp

/-- The first event is accepted, and a task is submitted. -/
example : IsCall Demo.full.w.trace (.client 0) (.fire 0 Demo.go) (Demo.full.w.trace.take 5) ((Demo.full.w.trace.drop 6).take 2)
    [.accepted 0 0 Demo.go, .submitted 0 0] none := isCall_of (by decide +kernel)

/-! #### C10, C11 -/

theorem started_end {m : MId} {mem : Mem} (h : During mem mid fun mem => mem.started m = true) :
    (memAt mem mid).started m = true := by
  obtain ⟨a, ⟨b, rfl⟩, h⟩ := h
  rw [memAt_append]
  exact memAt_started _ _ _ h

theorem started_begin {m : MId} {mem : Mem} (h : During mem mid fun mem => mem.started m = false) :
    mem.started m = false := by
  obtain ⟨a, ⟨b, rfl⟩, h⟩ := h
  cases hs : mem.started m with
  | false => rfl
  | true => rw [memAt_started _ _ _ hs] at h; exact h

/-- C10: `fire` on a machine that is not started (until the call returns): exactly one call of
`onEventBeforeMachineStart`, whose outcome is that of `fire`, and nothing else. -/
theorem C10_before_start {m : MId} {ev : Ev} (hi : Initial c0) (hr : ReachFrom env c0 c)
    (hc : IsCall c.w.trace t (.fire m ev) pre mid os r) (hs : (memAt (after c0 pre) mid).started m = false) :
    os = [.cb (.flowBefore m ev), .cbRet (.flowBefore m ev) r] := by
  have hn : ¬ During (after c0 pre) mid fun mem => mem.started m = true := by
    intro h; rw [started_end h] at hs; cases hs
  cases C12_one_fate hi hr hc with
  | before _ => rfl
  | after h _ => exact absurd h hn
  | full h _ _ _ => exact absurd h hn
  | dropped _ h _ => exact absurd h hn
  | queued h _ | refused h _ | queuedCopy h _ _ | refusedCopy h _ _ => exact absurd h.started hn

example : ∃ os, IsCall Demo.early.w.trace (.client 0) (.fire 0 Demo.go) (Demo.early.w.trace.take 0)
      ((Demo.early.w.trace.drop 1).take 2) os none ∧
    (memAt (after Demo.conf (Demo.early.w.trace.take 0)) ((Demo.early.w.trace.drop 1).take 2)).started 0 = false ∧
    os = [.cb (.flowBefore 0 Demo.go), .cbRet (.flowBefore 0 Demo.go) none] :=
  ⟨[.cb (.flowBefore 0 Demo.go), .cbRet (.flowBefore 0 Demo.go) none], isCall_of (by decide +kernel), by decide +kernel,
    C10_before_start (mid := (Demo.early.w.trace.drop 1).take 2) (pre := Demo.early.w.trace.take 0) (t := .client 0) (Demo.conf_initial false) Demo.early_reach (isCall_of (by decide +kernel)) (by decide +kernel)⟩

/-- Nothing ends, and nothing un-ends, during a call, unless the history says so. -/
theorem ended_throughout {m : MId} (hi : Initial c0) (hr : ReachFrom env c0 c) {k : Api}
    (hc : IsCall c.w.trace t k pre mid os r) (he : (after c0 pre).ended m = true) (hn : ∀ u, (u, .cleared m) ∉ mid) :
    ¬ During (after c0 pre) mid fun mem => mem.ended m = false := by
  rintro ⟨a, ⟨b, rfl⟩, h⟩
  obtain ⟨⟨post, htr⟩, -⟩ := hc
  obtain ⟨g, hg, -⟩ := run_of_reach hi hr
  rw [htr] at hg
  obtain ⟨g1, h1, h2⟩ := run_split hg
  obtain ⟨cs, hl, hs, h3⟩ := run_cons h2
  obtain ⟨g2, h4, -⟩ := run_split h3
  obtain ⟨g3, h5, -⟩ := run_split h4
  have h6 := run_mem h1
  have h7 := run_mem h5
  have := run_ended (m := m) h5 (by show (g1.mem.step _).ended m = true; rw [h6]; exact he) (fun u hu => hn u (by simp [hu]))
  rw [h7] at this
  simp only [Mem.step] at this
  rw [h6] at this
  have h' : (memAt (memAt (initMem c0) pre) a).ended m = false := h
  exact absurd (this.symm.trans h') (by simp)

/-- C11: `fire` on a started machine that has ended (and no `start` of it is just resetting `isEnded`): exactly one call of
`onEventAfterMachineEnd`, and nothing else. -/
theorem C11_after_end {m : MId} {ev : Ev} (hi : Initial c0) (hr : ReachFrom env c0 c)
    (hc : IsCall c.w.trace t (.fire m ev) pre mid os r) (hs : (after c0 pre).started m = true)
    (he : (after c0 pre).ended m = true) (hn : ∀ u, (u, .cleared m) ∉ mid) :
    os = [.cb (.flowAfter m ev), .cbRet (.flowAfter m ev) r] := by
  have hn := ended_throughout hi hr hc he hn
  cases C12_one_fate hi hr hc with
  | before h => rw [started_begin h] at hs; cases hs
  | after _ _ => rfl
  | full _ h _ _ => exact absurd h hn
  | dropped _ _ h => exact absurd h hn
  | queued h _ | refused h _ | queuedCopy h _ _ | refusedCopy h _ _ => exact absurd h.alive hn

/-- Started, stopped, fired. -/
example : IsCall Demo.late.w.trace (.client 0) (.fire 0 Demo.go) (Demo.late.w.trace.take 11)
      ((Demo.late.w.trace.drop 12).take 2) [.cb (.flowAfter 0 Demo.go), .cbRet (.flowAfter 0 Demo.go) none] none ∧
    (after Demo.conf (Demo.late.w.trace.take 11)).started 0 = true ∧
    (after Demo.conf (Demo.late.w.trace.take 11)).ended 0 = true ∧
    ∀ e ∈ (Demo.late.w.trace.drop 12).take 2, e.2 ≠ .cleared 0 :=
  ⟨isCall_of (by decide +kernel), by decide +kernel⟩

/-! #### C30 -/

/-- C30a: an event fired while the queue is full (until the call returns) is not enqueued, and if the machine is
running and the event is not a duplicate, it is reported to the flow listener. -/
theorem C30_full_rejects {m : MId} {ev : Ev} (hi : Initial c0) (hr : ReachFrom env c0 c)
    (hc : IsCall c.w.trace t (.fire m ev) pre mid os r)
    (hf : ∀ a, a <+: mid → isFull (callsCfg env) (memAt (after c0 pre) a) m = true) :
    (∀ q m' e, .accepted q m' e ∉ os) ∧
    ((after c0 pre).started m = true → (∀ a, a <+: mid → (memAt (after c0 pre) a).ended m = false) →
      (env.strat (env.mach m).strat).dropDup = false →
      os = [.cb (.flowFull m ev), .cbRet (.flowFull m ev) r]) := by
  have hn : ¬ During (after c0 pre) mid fun mem => isFull (callsCfg env) mem m = false := by
    rintro ⟨a, ha, h⟩; rw [hf a ha] at h; cases h
  cases C12_one_fate hi hr hc with
  | before h => exact ⟨by simp, fun hs _ _ => by rw [started_begin h] at hs; cases hs⟩
  | after _ h =>
    refine ⟨by simp, fun _ he _ => ?_⟩
    obtain ⟨a, ha, h⟩ := h
    rw [he a ha] at h; cases h
  | full _ _ _ _ => exact ⟨by simp, fun _ _ _ => rfl⟩
  | dropped hd _ _ => exact ⟨by simp, fun _ _ hx => absurd (hx.symm.trans hd) (by simp)⟩
  | queued h _ | refused h _ | queuedCopy h _ _ | refusedCopy h _ _ => exact absurd h.room hn

example : ∀ n, n ≤ ((Demo.full.w.trace.drop 10).take 2).length →
    isFull (callsCfg (Demo.env Demo.acts 1)) (memAt (after Demo.conf (Demo.full.w.trace.take 9))
      (((Demo.full.w.trace.drop 10).take 2).take n)) 0 = true := by decide +kernel

example : (∀ q m e, Obs.accepted q m e ∉ [.cb (.flowFull 0 Demo.stay), .cbRet (.flowFull 0 Demo.stay) none]) :=
  (C30_full_rejects (t := .client 0) (m := 0) (ev := Demo.stay) (r := none) (mid := (Demo.full.w.trace.drop 10).take 2) (pre := Demo.full.w.trace.take 9) (Demo.conf_initial false) Demo.full_reach
    (isCall_of (by decide +kernel)) (forall_prefix (by decide +kernel))).1

/-- C30a, converse: as long as there is room in the queue (in particular without a bound), no event is reported as not
fitting. -/
theorem C30_room_accepts {m : MId} {ev : Ev} (hi : Initial c0) (hr : ReachFrom env c0 c)
    (hc : IsCall c.w.trace t (.fire m ev) pre mid os r)
    (hf : ∀ a, a <+: mid → isFull (callsCfg env) (memAt (after c0 pre) a) m = false) (hs : (after c0 pre).started m = true)
    (he : ∀ a, a <+: mid → (memAt (after c0 pre) a).ended m = false)
    (hd : (env.strat (env.mach m).strat).dropDup = false) :
    ∃ e, .accepted (env.strat (env.mach m).strat).queue m e ∈ os ∧ e.name = ev.name := by
  cases C12_one_fate hi hr hc with
  | before h => rw [started_begin h] at hs; cases hs
  | after _ h => obtain ⟨a, ha, h⟩ := h; rw [he a ha] at h; cases h
  | full _ _ h _ => obtain ⟨a, ha, h⟩ := h; rw [hf a ha] at h; cases h
  | dropped h _ _ => exact absurd (hd.symm.trans h) (by simp)
  | queued h _ | refused h _ => exact ⟨ev, by simp [callsCfg, Env.qm, Env.q], rfl⟩
  | @queuedCopy n _ h _ _ | @refusedCopy n _ h _ _ => exact ⟨copyOf ev n, by simp [callsCfg, Env.qm, Env.q], rfl⟩

example : ∃ e, .accepted 0 0 e ∈ [Obs.accepted 0 0 Demo.go, .submitted 0 0] ∧ e.name = Demo.go.name :=
  C30_room_accepts (t := .client 0) (r := none) (mid := (Demo.roomy.w.trace.drop 6).take 2) (pre := Demo.roomy.w.trace.take 5) (Demo.conf_initial false) Demo.roomy_reach
    (isCall_of (by decide +kernel)) (forall_prefix (by decide +kernel)) (by decide +kernel)
    (forall_prefix (by decide +kernel)) rfl

/-! #### C31 -/

/-- C31a: with the drop-duplicates strategy, if an event equal to `ev` was waiting when `fire(ev)` was called and is
still waiting when it returns (the machine running all the time), then `ev` is dropped and nothing else happens. -/
theorem C31_duplicate_dropped {m : MId} {ev e : Ev} (hi : Initial c0) (hr : ReachFrom env c0 c)
    (hc : IsCall c.w.trace t (.fire m ev) pre mid os r) (hd : (env.strat (env.mach m).strat).dropDup = true)
    (hs : (after c0 pre).started m = true) (he : ∀ a, a <+: mid → (memAt (after c0 pre) a).ended m = false)
    (hq : e ∈ ((after c0 pre).acc (env.strat (env.mach m).strat).queue).drop
      ((memAt (after c0 pre) mid).tk (env.strat (env.mach m).strat).queue)) (hev : e.eqv ev = true) :
    os = [.dropped m ev] ∧ r = none := by
  have hn : ¬ During (after c0 pre) mid (NoDup (callsCfg env) (after c0 pre) m ev) := by
    rintro ⟨a, ⟨b, rfl⟩, h⟩
    have := h hd e (by
      rw [memAt_append] at hq
      have hle := memAt_tk (memAt (after c0 pre) a) b (env.strat (env.mach m).strat).queue
      show e ∈ ((after c0 pre).acc (env.strat (env.mach m).strat).queue).drop ((memAt (after c0 pre) a).tk (env.strat (env.mach m).strat).queue)
      obtain ⟨k, hk⟩ := Nat.exists_eq_add_of_le hle
      rw [hk, ← List.drop_drop] at hq
      exact List.mem_of_mem_drop hq)
    rw [hev] at this; cases this
  cases C12_one_fate hi hr hc with
  | before h => rw [started_begin h] at hs; cases hs
  | after _ h => obtain ⟨a, ha, h⟩ := h; rw [he a ha] at h; cases h
  | full _ _ _ h => exact absurd h hn
  | dropped => exact ⟨rfl, rfl⟩
  | queued h _ | refused h _ | queuedCopy h _ _ | refusedCopy h _ _ => exact absurd h.fresh hn

example : [Obs.dropped 0 Demo.go] = [.dropped 0 Demo.go] ∧ (none : Option Exc) = none :=
  C31_duplicate_dropped (c := Demo.dup) (mid := (Demo.dup.w.trace.drop 10).take 1) (pre := Demo.dup.w.trace.take 9) (t := .client 0) (e := Demo.go) (Demo.conf_initial false) Demo.dup_reach
    (isCall_of (by decide +kernel)) rfl (by decide +kernel)
    (forall_prefix (by decide +kernel)) (by decide +kernel) (by decide +kernel)

/-! #### C29 -/

/-- C29: an event fired with a payload which nobody changes during the call is enqueued as a copy which carries that
payload; the copy's payload changes afterwards only if somebody sets it on the copy itself, whatever is set on the
original. -/
theorem C29_payload_captured {m : MId} {ev : Ev} {v : Val} (hi : Initial c0) (hr : ReachFrom env c0 c)
    (hc : IsCall c.w.trace t (.fire m ev) pre mid os r)
    (hk : ∀ a, a <+: mid → (memAt (after c0 pre) a).pay ev.oid = some v)
    {q : QId} {m' : MId} {e : Ev} (ha : .accepted q m' e ∈ os) :
    ∃ n, e = copyOf ev n ∧
      ((∀ u v', (u, .payload (.copy n) v') ∉ c.w.trace) → c.w.payload e.oid = some v) := by
  have key : ∀ n v', .copied n ev v' ∈ os → v' = some v →
      ((∀ u v', (u, .payload (.copy n) v') ∉ c.w.trace) → c.w.payload (.copy n) = some v) := by
    rintro n v' hm rfl hn
    have hmem := own_mem hc.own _ hm
    obtain ⟨⟨post, htr⟩, -⟩ := hc
    obtain ⟨g, hg, hrel, -⟩ := run_of_reach hi hr
    rw [htr] at hg
    obtain ⟨a, b, rfl⟩ := List.append_of_mem hmem
    rw [show pre ++ (t, .enter (.fire m ev)) :: ((a ++ (t, .copied n ev (some v)) :: b) ++ (t, .leave (.fire m ev) r) :: post) =
      (pre ++ (t, .enter (.fire m ev)) :: a) ++ (t, .copied n ev (some v)) :: (b ++ (t, .leave (.fire m ev) r) :: post) by simp] at hg
    obtain ⟨g1, h1, h2⟩ := run_split hg
    have h3 := run_copied h2
    obtain ⟨cs, hl, hs, h4⟩ := run_cons h2
    have h5 := run_copy_pay (n := n) h4 (by show n < g1.mem.copies + 1; rw [h3.1]; omega) (by
      intro u v' hu
      refine hn u v' ?_
      rw [htr]; simp only [List.mem_append, List.mem_cons] at hu ⊢; rcases hu with hu | hu | hu <;> simp [hu])
    rw [← hrel.pay, h5]
    simp [Mem.step]
  cases C12_one_fate hi hr hc with
  | before _ | after _ _ | full _ _ _ _ | dropped _ _ _ => simp at ha
  | queued _ h | refused _ h => obtain ⟨a, ha', h⟩ := h; rw [hk a ha'] at h; cases h
  | @queuedCopy n v' _ _ h | @refusedCopy n v' _ _ h =>
    simp at ha
    obtain ⟨rfl, rfl, rfl⟩ := ha
    obtain ⟨a, ha', h, -⟩ := h
    rw [hk a ha'] at h
    exact ⟨n, rfl, key n v' (by simp) h.symm⟩

/-- Fired with payload 7; afterwards the client sets payload 8 on the original, but the queued copy still has 7. -/
example : Demo.paid.w.payload Demo.go.oid = some 8 ∧ ∃ n, (⟨0, "go", .copy 0⟩ : Ev) = copyOf Demo.go n ∧
    ((∀ u v', (u, .payload (.copy n) v') ∉ Demo.paid.w.trace) → Demo.paid.w.payload (⟨0, "go", .copy 0⟩ : Ev).oid = some 7) :=
  ⟨by decide +kernel, C29_payload_captured (c := Demo.paid) (t := .client 0) (m := 0) (os :=
      [.copied 0 Demo.go (some 7), .accepted 0 0 ⟨0, "go", .copy 0⟩, .submitted 0 0]) (r := none) (q := 0) (m' := 0) (mid := (Demo.paid.w.trace.drop 7).take 3)
    (pre := Demo.paid.w.trace.take 6) (Demo.conf_initial false) Demo.paid_reach
    (isCall_of (by decide +kernel)) (forall_prefix (by decide +kernel)) (by decide +kernel)⟩

/-- C29 fails for events fired without payload: the event itself is queued, so a payload set afterwards is seen when the
event is processed. -/
theorem C29_null_payload_not_captured :
    ∃ (env : Env) (c : Conf), Reach env c ∧ ∃ pre mid ev v,
      IsCall c.w.trace (.client 0) (.fire 0 ev) pre mid [.accepted 0 0 ev, .submitted 0 0] none ∧
      (∀ a, a <+: mid → (memAt (after Demo.conf pre) a).pay ev.oid = none) ∧
      ev ∈ (after Demo.conf c.w.trace).waiting 0 ∧ c.w.payload ev.oid = some v := by
  refine ⟨Demo.env Demo.acts, Demo.unpaid, ⟨_, Demo.conf_initial false, Demo.unpaid_reach⟩,
    Demo.unpaid.w.trace.take 5, (Demo.unpaid.w.trace.drop 6).take 2, Demo.go, 8,
    isCall_of (by decide +kernel), forall_prefix (by decide +kernel), ?_⟩
  decide +kernel

/-! #### C28, C49 -/

/-- C28: `startInState(s)` throws for a state that is not configured, or if the machine has been started already, and then
does nothing; otherwise it marks the machine as started, makes `s` the current state, and calls no user code. -/
theorem C28_startInState {m : MId} {s : Option St} (hi : Initial c0) (hr : ReachFrom env c0 c)
    (hc : IsCall c.w.trace t (.startInState m s) pre mid os r) :
    ((env.mach m).table.row? s = none ∧ os = [] ∧ r = some (.ise .notConfigured)) ∨
    ((env.mach m).table.row? s ≠ none ∧ os = [] ∧ r = some (.ise .alreadyStarted) ∧
      (memAt (after c0 pre) mid).started m = true) ∨
    (∃ s', s = some s' ∧ (env.mach m).table.row? s ≠ none ∧ (after c0 pre).started m = false ∧
      os = [.started m, .cur m s' true, .cleared m] ∧ r = none) := by
  have hf : ∀ x, env.startInFail m s = some x → (env.mach m).table.row? s = none ∧ x = .ise .notConfigured := by
    intro x hx
    cases hrow : (env.mach m).table.row? s with
    | none => simp [Env.startInFail, hrow] at hx; exact ⟨rfl, hx.symm⟩
    | some row =>
      cases s with
      | none => cases hrow
      | some s => simp [Env.startInFail, hrow] at hx
  have hf' : env.startInFail m s = none → (env.mach m).table.row? s ≠ none := by
    intro h hrow
    unfold Env.startInFail at h
    rw [hrow] at h
    cases s <;> cases h
  cases startIn_fate hi hr hc with
  | failed h => obtain ⟨h1, rfl⟩ := hf _ h; exact Or.inl ⟨h1, rfl, rfl⟩
  | already h h' => exact Or.inr (Or.inl ⟨hf' h, rfl, rfl, started_end h'⟩)
  | @ok s' h hs =>
    refine Or.inr (Or.inr ⟨s', hs, hf' h, ?_, rfl, rfl⟩)
    have hmem := own_mem hc.own (.started m) (by simp)
    obtain ⟨⟨post, htr⟩, -⟩ := hc
    obtain ⟨g, hg, -⟩ := run_of_reach hi hr
    rw [htr] at hg
    obtain ⟨a, b, rfl⟩ := List.append_of_mem hmem
    rw [show pre ++ (t, .enter (.startInState m s)) :: ((a ++ (t, .started m) :: b) ++ (t, .leave (.startInState m s) none) :: post) =
      (pre ++ (t, .enter (.startInState m s)) :: a) ++ (t, .started m) :: (b ++ (t, .leave (.startInState m s) none) :: post) by simp] at hg
    obtain ⟨g1, h1, h2⟩ := run_split hg
    obtain ⟨cs, hl, -, -⟩ := run_cons h2
    rw [run_mem h1, memAt_append] at hl
    cases hx : (after c0 pre).started m with
    | false => rfl
    | true =>
      simp only [Mem.legal] at hl
      rw [show (memAt (memAt (G.init c0.w.payload fun m => (c0.w.mach m).listener.isSome).mem pre)
        ((t, .enter (.startInState m s)) :: a)).started m = true from memAt_started _ _ _ hx] at hl
      cases hl

example : IsCall Demo.inState.w.trace (.client 0) (.startInState 0 (some Demo.C)) (Demo.inState.w.trace.take 0)
      ((Demo.inState.w.trace.drop 1).take 0) [] (some (.ise .notConfigured)) ∧
    IsCall Demo.inState.w.trace (.client 0) (.startInState 0 (some Demo.B)) (Demo.inState.w.trace.take 2)
      ((Demo.inState.w.trace.drop 3).take 3) [.started 0, .cur 0 Demo.B true, .cleared 0] none ∧
    IsCall Demo.inState.w.trace (.client 0) (.startInState 0 (some Demo.B)) (Demo.inState.w.trace.take 7)
      ((Demo.inState.w.trace.drop 8).take 0) [] (some (.ise .alreadyStarted)) :=
  ⟨isCall_of (by decide +kernel), isCall_of (by decide +kernel), isCall_of (by decide +kernel)⟩

/-- C49: what `start()` does. -/
theorem C49_start_protocol {m : MId} (hi : Initial c0) (hr : ReachFrom env c0 c)
    (hc : IsCall c.w.trace t (.start m) pre mid os r) : StartFate (callsCfg env) (after c0 pre) mid m os r :=
  start_fate hi hr hc

open Demo in
/-- With a listener: begin and end of the transition into the initial state are announced. -/
example : StartFate (callsCfg (Demo.env Demo.acts)) (after (Demo.conf true) (Demo.twice.w.trace.take 0))
    ((Demo.twice.w.trace.drop 1).take 7) 0
    [.started 0, .cur 0 Demo.A true,
      .cb (.begin 0 rs.noSt immEv Demo.A), .cbRet (.begin 0 rs.noSt immEv Demo.A) none,
      .cb (.end_ 0 rs.noSt immEv Demo.A), .cbRet (.end_ 0 rs.noSt immEv Demo.A) none,
      .cleared 0] none :=
  C49_start_protocol (t := .client 0) (Demo.conf_initial true) Demo.twice_reach
    (isCall_of (by decide +kernel))

/-! #### C27 -/

/-- C27: after `stop()` has returned `isEnded()` is true, unless a `start`/`startInState` of the same machine reset it in
the meantime; a `stop()` on an ended machine does nothing; `stop()` never throws. -/
theorem C27_stop {m : MId} (hi : Initial c0) (hr : ReachFrom env c0 c) (hc : IsCall c.w.trace t (.stop m) pre mid os r) :
    r = none ∧
    (os = [] ∨ os = [.upd m (env.mach m).res.endSt true true, .cur m (env.mach m).res.endSt true]) ∧
    ((∀ u, (u, .cleared m) ∉ mid) → (memAt (after c0 pre) mid).ended m = true) ∧
    ((∀ u, (u, .cleared m) ∉ mid) → (after c0 pre).ended m = true → os = []) := by
  have hfate := stop_fate hi hr hc
  have hmem := own_mem hc.own
  have hc' := hc
  obtain ⟨⟨post, htr⟩, -⟩ := hc'
  obtain ⟨g, hg, -⟩ := run_of_reach hi hr
  rw [htr] at hg
  obtain ⟨g1, h1, h2⟩ := run_split hg
  obtain ⟨cs, hl, hs, h3⟩ := run_cons h2
  obtain ⟨g2, h4, -⟩ := run_split h3
  have h6 := run_mem h1
  have h7 := run_mem h4
  have h8 : (memAt (after c0 pre) mid) = g2.mem := by rw [h7]; simp only [Mem.step]; rw [h6]; rfl
  cases hfate with
  | already h =>
    refine ⟨rfl, Or.inl rfl, fun hn => ?_, fun _ _ => rfl⟩
    obtain ⟨a, ⟨b, rfl⟩, h⟩ := h
    obtain ⟨g3, h9, h10⟩ := run_split h4
    rw [h8]
    refine run_ended h10 ?_ (fun u hu => hn u (by simp [hu]))
    rw [run_mem h9]
    simp only [Mem.step]
    rw [h6]
    exact h
  | ended =>
    refine ⟨rfl, Or.inr rfl, fun hn => ?_, fun hn he => ?_⟩
    · rw [h8]
      exact run_ended_upd h4 (hmem (.upd m (env.mach m).res.endSt true true) (by simp [callsCfg])) hn
    · exfalso
      obtain ⟨a, b, rfl⟩ := List.append_of_mem (hmem (.upd m (env.mach m).res.endSt true true) (by simp [callsCfg]))
      obtain ⟨g3, h9, h10⟩ := run_split h4
      obtain ⟨cs', hl', -, -⟩ := run_cons h10
      have := run_ended (m := m) h9 (by show (g1.mem.step _).ended m = true; rw [h6]; exact he) (fun u hu => hn u (by simp [hu]))
      simp only [Mem.legal, this] at hl'
      cases hl'

example : IsCall Demo.late.w.trace (.client 0) (.stop 0) (Demo.late.w.trace.take 5) ((Demo.late.w.trace.drop 6).take 2)
      [.upd 0 Demo.rs.endSt true true, .cur 0 Demo.rs.endSt true] none ∧
    IsCall Demo.late.w.trace (.client 0) (.stop 0) (Demo.late.w.trace.take 9) ((Demo.late.w.trace.drop 10).take 0) [] none ∧
    (after Demo.conf (Demo.late.w.trace.take 9)).ended 0 = true :=
  ⟨isCall_of (by decide +kernel), isCall_of (by decide +kernel), by decide +kernel⟩

/-! #### C09 -/

/-- What only the call that started the machine does, and at most once, is done at most once. -/
theorem once_of_weight {cfg : Cfg} {g0 g : G} {δ : Obs → Bool} {m : MId} {φ : Api → Stage → Nat}
    (hwt : Weight cfg δ (Obs.isStarted m) φ) (h0 : ∀ t, g0.calls t = []) {u v : Tid} {o1 o2 : Obs} {x y z : List (Tid × Obs)}
    (hg : Spec.Calls.run cfg g0 (x ++ (u, o1) :: (y ++ (v, o2) :: z)) = some g) (hk : δ o1 = true) (hk' : δ o2 = true) : False := by
  have hw := fun t => weight_run hwt hg t
  have h0 : ∀ t, weight φ (g0.calls t) = 0 := fun t => by rw [h0]; rfl
  by_cases huv : u = v
  · subst huv
    have := hw u
    have h2 : 2 ≤ cnt δ u (x ++ (u, o1) :: (y ++ (u, o2) :: z)) := by
      rw [cnt_append, cnt_cons, cnt_append, cnt_cons]
      simp only [if_true, hk, hk', Bool.toNat_true]; omega
    have h0 := h0 u
    obtain ⟨a, o, b, o', d, he, h1, h2⟩ := cnt_two (P := Obs.isStarted m) (t := u) (tr := x ++ (u, o1) :: (y ++ (u, o2) :: z)) (by omega)
    rw [he] at hg
    cases o <;> simp [Obs.isStarted] at h1
    cases o' <;> simp [Obs.isStarted] at h2
    subst h1; subst h2
    exact run_started_once hg
  · have hu := hw u
    have hv := hw v
    rw [h0] at hu hv
    have h1 := cnt_pos (P := δ) (t := u) (o := o1) (tr := x ++ (u, o1) :: (y ++ (v, o2) :: z)) (by simp) hk
    have h2 := cnt_pos (P := δ) (t := v) (o := o2) (tr := x ++ (u, o1) :: (y ++ (v, o2) :: z)) (by simp) hk'
    generalize x ++ (u, o1) :: (y ++ (v, o2) :: z) = tr at *
    obtain ⟨o, h3, h4⟩ := cnt_mem (P := Obs.isStarted m) (t := u) (tr := tr) (by omega)
    obtain ⟨o', h5, h6⟩ := cnt_mem (P := Obs.isStarted m) (t := v) (tr := tr) (by omega)
    cases o <;> simp [Obs.isStarted] at h4
    cases o' <;> simp [Obs.isStarted] at h6
    subst h4; subst h6
    obtain ⟨a, b, rfl⟩ := List.append_of_mem h3
    simp only [List.mem_append, List.mem_cons] at h5
    rcases h5 with h5 | h5 | h5
    · obtain ⟨a1, a2, rfl⟩ := List.append_of_mem h5
      rw [List.append_assoc, List.cons_append] at hg
      exact run_started_once hg
    · cases h5; exact huv rfl
    · obtain ⟨a1, a2, rfl⟩ := List.append_of_mem h5
      exact run_started_once hg

/-- C09: no two `start`/`startInState` calls of a machine return normally. -/
theorem C09_one_start (hi : Initial c0) (hr : ReachFrom env c0 c) {m : MId} {k k' : Api} (hk : k.starts m = true)
    (hk' : k'.starts m = true) {u v : Tid} {x y z : List (Tid × Obs)} :
    c.w.trace ≠ x ++ (u, .leave k none) :: (y ++ (v, .leave k' none) :: z) := by
  intro htr
  obtain ⟨g, hg, -⟩ := run_of_reach hi hr
  rw [htr] at hg
  exact once_of_weight (weight_ok m) (fun _ => rfl) hg hk hk'

/-- Two calls of `start()` which return, the second one not normally. -/
example : Demo.twice.w.trace[8]? = some (.client 0, .leave (.start 0) none) ∧
    Demo.twice.w.trace[10]? = some (.client 0, .leave (.start 0) (some (.ise .alreadyStarted))) := by decide +kernel

/-- C09: a machine is started at most once, by whatever call. -/
theorem C09_started_once (hi : Initial c0) (hr : ReachFrom env c0 c) {m : MId} {u v : Tid} {x y z : List (Tid × Obs)} :
    c.w.trace ≠ x ++ (u, .started m) :: (y ++ (v, .started m) :: z) := by
  intro htr
  obtain ⟨g, hg, -⟩ := run_of_reach hi hr
  rw [htr] at hg
  exact run_started_once hg

/-- C09: a `start`/`startInState` which returns on a machine that was already started has thrown, and has done nothing. -/
theorem C09_second_start_throws (hi : Initial c0) (hr : ReachFrom env c0 c) {m : MId} {k : Api} (hk : k.starts m = true)
    (hc : IsCall c.w.trace t k pre mid os r) (hs : (after c0 pre).started m = true) :
    os = [] ∧ (r = some (.ise .alreadyStarted) ∨ ∃ x, (callsCfg env).fail k = some x ∧ r = some x) := by
  have hns : .started m ∉ os := by
    intro hm
    have hmem := own_mem hc.own _ hm
    obtain ⟨⟨post, htr⟩, -⟩ := hc
    obtain ⟨g, hg, -⟩ := run_of_reach hi hr
    obtain ⟨a, b, rfl⟩ := List.append_of_mem hmem
    obtain ⟨w, hw⟩ := mem_of_started (mem := initMem c0) rfl hs
    obtain ⟨x, y, rfl⟩ := List.append_of_mem hw
    rw [htr] at hg
    rw [show x ++ (w, Obs.started m) :: y ++ (t, .enter k) :: (a ++ (t, .started m) :: b ++ (t, .leave k r) :: post) =
      x ++ (w, .started m) :: ((y ++ (t, .enter k) :: a) ++ (t, .started m) :: (b ++ (t, .leave k r) :: post)) by simp] at hg
    exact run_started_once hg
  cases k with
  | fire _ _ => cases hk
  | stop _ => cases hk
  | start m' =>
    obtain rfl : m' = m := by simpa [Api.starts] using hk
    cases start_fate hi hr hc with
    | failed h => exact ⟨rfl, Or.inr ⟨_, h, rfl⟩⟩
    | already h h' => exact ⟨rfl, Or.inl rfl⟩
    | ok | threw | swapped => simp at hns
  | startInState m' s =>
    obtain rfl : m' = m := by simpa [Api.starts] using hk
    cases startIn_fate hi hr hc with
    | failed h => exact ⟨rfl, Or.inr ⟨_, h, rfl⟩⟩
    | already h h' => exact ⟨rfl, Or.inl rfl⟩
    | ok => simp at hns

example : IsCall Demo.twice.w.trace (.client 0) (.start 0) (Demo.twice.w.trace.take 9) ((Demo.twice.w.trace.drop 10).take 0) []
      (some (.ise .alreadyStarted)) ∧
    (after (Demo.conf true) (Demo.twice.w.trace.take 9)).started 0 = true :=
  ⟨isCall_of (by decide +kernel), by decide +kernel⟩

theorem step_trace {c c' : Conf} {x : Choice} (h : step env c x = some c') : c.w.trace <+: c'.w.trace := by
  cases x with
  | begin n u => simp only [step] at h; split at h <;> cases h; exact List.prefix_refl _
  | run t =>
    simp only [step] at h
    split at h
    · cases h
    · rename_i p hp
      cases p with
      | ret a => cases h; exact List.prefix_refl _
      | thr x => cases h; exact List.prefix_append _ _
      | op o k =>
        simp only [runThread] at h
        split at h <;> cases h
        rw [exec_trace]; exact List.prefix_append _ _
      | call f k => cases h; exact List.prefix_refl _
  | dispatch e i j =>
    simp only [step] at h
    split at h
    · split at h <;> cases h; exact List.prefix_refl _
    · cases h
  | interrupt t => cases h; exact List.prefix_refl _
  | shutdown e now => cases h; cases now <;> simp [World.dropTasks]

/-- The history only grows. -/
theorem reach_trace {c c' : Conf} (h : ReachFrom env c c') : c.w.trace <+: c'.w.trace := by
  obtain ⟨xs, h⟩ := h
  induction xs generalizing c with
  | nil => cases h; exact List.prefix_refl _
  | cons x xs ih =>
    simp only [runs] at h
    split at h
    · cases h
    · exact (step_trace ‹_›).trans (ih h)

/-- C09: `isStarted()` never goes back to false. -/
theorem C09_started_forever (hi : Initial c0) (hr : ReachFrom env c0 c) {c' : Conf} (hr' : ReachFrom env c c') {m : MId}
    (hs : (c.w.mach m).started = true) : (c'.w.mach m).started = true := by
  have h1 := (memory_of_history hi hr).1 m
  have h2 := (memory_of_history hi (hr.trans hr')).1 m
  obtain ⟨b, hb⟩ := reach_trace hr'
  rw [← h2, ← hb, after, memAt_append]
  exact memAt_started _ _ _ (h1.trans hs)

example : (Demo.midStart.w.mach 0).started = true ∧ (Demo.zombie.w.mach 0).started = true ∧
    ReachFrom (Demo.env Demo.stopAct) Demo.midStart Demo.zombie := ⟨by decide +kernel, by decide +kernel, Demo.zombie_reach⟩

/-! #### C25 -/

theorem cnt_other {P : Obs → Bool} {t : Tid} : ∀ (tr : List (Tid × Obs)), (∀ e ∈ tr, e.1 ≠ t) → cnt P t tr = 0
  | [], _ => rfl
  | (u, o) :: tr, h => by
    rw [cnt_cons, if_neg (h (u, o) (by simp)), cnt_other tr fun e he => h e (by simp [he])]

theorem clr_le_open (m : MId) (cs : List Spec.Calls.Call) : weight (clrφ m) cs ≤ weight (fun k _ => (k.starts m).toNat) cs := by
  induction cs with
  | nil => exact Nat.le_refl _
  | cons x cs ih =>
    simp only [weight, List.map_cons, List.sum_cons] at ih ⊢
    have : clrφ m x.api x.st ≤ (x.api.starts m).toNat := by
      unfold clrφ; split <;> simp
    omega

/-- C25: once a started machine has ended and no `start`/`startInState` call of it is open, it stays ended. -/
theorem C25_end_permanent (hi : Initial c0) (hr : ReachFrom env c0 c) {m : MId} {a b : List (Tid × Obs)}
    (htr : c.w.trace = a ++ b) (hs : (after c0 a).started m = true) (he : (after c0 a).ended m = true)
    (hopen : ∀ t, cnt (Obs.entersStart m) t a = cnt (Obs.leavesStart m) t a) : (c.w.mach m).ended = true := by
  obtain ⟨g, hg, hrel, -⟩ := run_of_reach hi hr
  rw [← hrel.ended]
  rw [htr] at hg
  obtain ⟨g1, h1, h2⟩ := run_split hg
  have hg1 := run_mem h1
  refine run_ended h2 (by rw [hg1]; exact he) ?_
  intro u hu
  have hw := weight_run (weight_clr m) h2 u
  have ho := weight_run (weight_open m) h1 u
  rw [hopen u] at ho
  have h0 : weight (fun k _ => (k.starts m).toNat) ((G.init c0.w.payload fun m => (c0.w.mach m).listener.isSome).calls u) = 0 := rfl
  have hz := clr_le_open m (g1.calls u)
  have h3 := cnt_pos (P := Obs.isCleared m) hu (by simp [Obs.isCleared])
  obtain ⟨o, h4, h5⟩ := cnt_mem (P := Obs.isStarted m) (t := u) (tr := b) (by omega)
  cases o <;> simp [Obs.isStarted] at h5
  subst h5
  obtain ⟨w, hw⟩ := mem_of_started (mem := initMem c0) rfl hs
  obtain ⟨x, y, rfl⟩ := List.append_of_mem hw
  obtain ⟨x', y', rfl⟩ := List.append_of_mem h4
  rw [show ∀ m, (x ++ (w, Obs.started m) :: y) ++ (x' ++ (u, .started m) :: y') =
    x ++ (w, .started m) :: ((y ++ x') ++ (u, .started m) :: y') by simp] at hg
  exact run_started_once hg

/-- Started and stopped, no `start` open; the history goes on. -/
example : (Demo.late.w.mach 0).ended = true :=
  C25_end_permanent (c := Demo.late) (a := Demo.late.w.trace.take 8) (b := Demo.late.w.trace.drop 8) (Demo.conf_initial false) Demo.late_reach (by decide +kernel)
    (by decide +kernel) (by decide +kernel) (fun t => by
      by_cases h : t = .client 0
      · subst h; decide +kernel
      · have : ∀ e ∈ Demo.late.w.trace.take 8, e.1 = .client 0 := by decide +kernel
        rw [cnt_other _ fun e he => by rw [this e he]; exact fun h' => h h'.symm,
          cnt_other _ fun e he => by rw [this e he]; exact fun h' => h h'.symm])

/-- C25 without its restriction is false: a `start()` after `stop()` brings the machine back. -/
theorem C25_stop_then_start : ∃ (env : Env) (c c' : Conf), Reach env c ∧ ReachFrom env c c' ∧ (∀ t, c.thr t = none) ∧
    (c.w.mach 0).ended = true ∧ (c'.w.mach 0).ended = false :=
  ⟨Demo.env Demo.acts, Demo.stopped, Demo.restarted, ⟨_, Demo.conf_initial false, Demo.stopped_reach⟩,
    Demo.restarted_reach, fun t => by
      by_cases h : t = .client 0
      · subst h; exact Demo.isNone_eq (by decide +kernel)
      · exact Demo.stopped_thr h,
    by decide +kernel, by decide +kernel⟩

/-- C25 without its restriction is false: if the entry action of the initial state calls `stop()`, the machine is started
and has ended, yet the `start()` in progress declares it alive again, with the end state as current state. -/
theorem C25_stop_during_start : ∃ (env : Env) (c c' : Conf), Reach env c ∧ ReachFrom env c c' ∧
    ((c.w.mach 0).started = true ∧ (c.w.mach 0).ended = true) ∧
    ((c'.w.mach 0).ended = false ∧ (c'.w.mach 0).cur = some (env.mach 0).res.endSt) :=
  ⟨Demo.env Demo.stopAct, Demo.midStart, Demo.zombie, ⟨_, Demo.conf_initial false, Demo.midStart_reach⟩,
    Demo.zombie_reach, by decide +kernel, by decide +kernel⟩

/-- C25: `isEnded()` goes back to false only by the call of `start`/`startInState` which started the machine, and only
once in the life of a machine. -/
theorem C25_cleared_once (hi : Initial c0) (hr : ReachFrom env c0 c) {m : MId} {u v : Tid} {x y z : List (Tid × Obs)} :
    c.w.trace ≠ x ++ (u, .cleared m) :: (y ++ (v, .cleared m) :: z) := by
  intro htr
  obtain ⟨g, hg, -⟩ := run_of_reach hi hr
  rw [htr] at hg
  exact once_of_weight (weight_clr m) (fun _ => rfl) hg (by simp [Obs.isCleared]) (by simp [Obs.isCleared])

theorem C25_cleared_by_start (hi : Initial c0) (hr : ReachFrom env c0 c) {m : MId} {u : Tid} {x z : List (Tid × Obs)}
    (htr : c.w.trace = x ++ (u, .cleared m) :: z) :
    (u, .started m) ∈ x ∧ cnt (Obs.leavesStart m) u x < cnt (Obs.entersStart m) u x := by
  obtain ⟨g, hg, -⟩ := run_of_reach hi hr
  rw [htr] at hg
  obtain ⟨g1, h1, h2⟩ := run_split hg
  obtain ⟨cs, hl, hs, -⟩ := run_cons h2
  have hw := weight_stack (weight_clr m) hs
  have hw1 := weight_run (weight_clr m) h1 u
  have ho := weight_run (weight_open m) h1 u
  have hz := clr_le_open m (g1.calls u)
  have h0 : ∀ φ, weight φ ((G.init c0.w.payload fun m => (c0.w.mach m).listener.isSome).calls u) = 0 := fun _ => rfl
  rw [h0] at ho hw1
  have hd : (Obs.isCleared m (.cleared m)).toNat = 1 := by simp [Obs.isCleared]
  have hsg : (Obs.isStarted m (.cleared m)).toNat = 0 := rfl
  simp only [hd, hsg] at hw
  refine ⟨?_, by omega⟩
  obtain ⟨o, h4, h5⟩ := cnt_mem (P := Obs.isStarted m) (t := u) (tr := x) (by omega)
  cases o <;> simp [Obs.isStarted] at h5
  subst h5
  exact h4

example : Demo.late.w.trace[3]? = some (.client 0, .cleared 0) := by decide +kernel

end
end Verif
