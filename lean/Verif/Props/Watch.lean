import Verif.Proofs.Watch
import Verif.Model.Util
import Verif.Demo.Base
/-
C101: listeners that only watch make no difference. A machine does the same things with such a listener, with another one, and with none.
-/

namespace Verif
open Verif.Spec.Watch Verif.Watching

section
variable {V : Watch} {env : Env} {c0 d0 c d : Conf} {xs : List Choice}

/-- C101. Whatever happens with listeners that only watch can happen without them, with some turns of threads left out. Only the calls of these listeners, what they write
down and what they remember is missing; the same threads are idle. -/
theorem C101_detach (he : V.Env env) (hc : ∀ t, c0.thr t = none) (hd : ∀ t, d0.thr t = none) (hon : V.On c0.w) (hoff : V.Off d0.w) (hw : V.Like c0.w d0.w)
    (hx : ∀ x ∈ xs, V.Choice x) (hr : runs env c0 xs = some c) :
    ∃ ys d, ys.Sublist xs ∧ runs env d0 ys = some d ∧ V.Like c.w d.w ∧ V.Off d.w ∧ ∀ t, (c.thr t).isSome = (d.thr t).isSome := by
  obtain ⟨ys, d, h1, h2, h3⟩ := runs_left he hx (d := d0) ⟨hw, hon, hoff, fun t => by rw [hc, hd]; exact .none⟩ hr
  exact ⟨ys, d, h1, h2, h3.w, h3.off, fun t => by have := h3.thr t; generalize c.thr t = a at this; generalize d.thr t = b at this; cases this <;> rfl⟩

/-- C101. Whatever happens without listeners can happen with listeners that only watch, with more turns for threads: such a listener does not keep anything from happening. -/
theorem C101_attach (he : V.Env env) (hc : ∀ t, c0.thr t = none) (hd : ∀ t, d0.thr t = none) (hon : V.On c0.w) (hoff : V.Off d0.w) (hw : V.Like c0.w d0.w)
    (hx : ∀ x ∈ xs, V.Choice x) (hr : runs env d0 xs = some d) :
    ∃ ys c, xs.Sublist ys ∧ runs env c0 ys = some c ∧ V.Like c.w d.w ∧ V.On c.w ∧ ∀ t, (c.thr t).isSome = (d.thr t).isSome := by
  obtain ⟨ys, c, h1, _, h2, h3⟩ := runs_right he hx (c := c0) ⟨hw, hon, hoff, fun t => by rw [hc, hd]; exact .none⟩ hr
  exact ⟨ys, c, h1, h2, h3.w, h3.on, fun t => by have := h3.thr t; generalize c.thr t = a at this; generalize d.thr t = b at this; cases this <;> rfl⟩

theorem like_trans {w w' w'' : World} (h : V.Like w w') (h' : V.Like w' w'') : V.Like w w'' where
  mach m := ⟨(h.mach m).1.trans (h'.mach m).1, (h.mach m).2.1.trans (h'.mach m).2.1, (h.mach m).2.2.trans (h'.mach m).2.2⟩
  listener m hm := (h.listener m hm).trans (h'.listener m hm)
  payload := h.payload.trans h'.payload
  pair := h.pair.trans h'.pair
  nextPair := h.nextPair.trans h'.nextPair
  nextCopy := h.nextCopy.trans h'.nextCopy
  queue := h.queue.trans h'.queue
  pool := h.pool.trans h'.pool
  tasks := h.tasks.trans h'.tasks
  shut := h.shut.trans h'.shut
  latch := h.latch.trans h'.latch
  intr := h.intr.trans h'.intr
  mem a ha := (h.mem a ha).trans (h'.mem a ha)
  trace := h.trace.trans h'.trace

theorem like_symm {w w' : World} (h : V.Like w w') : V.Like w' w where
  mach m := ⟨(h.mach m).1.symm, (h.mach m).2.1.symm, (h.mach m).2.2.symm⟩
  listener m hm := (h.listener m hm).symm
  payload := h.payload.symm
  pair := h.pair.symm
  nextPair := h.nextPair.symm
  nextCopy := h.nextCopy.symm
  queue := h.queue.symm
  pool := h.pool.symm
  tasks := h.tasks.symm
  shut := h.shut.symm
  latch := h.latch.symm
  intr := h.intr.symm
  mem a ha := (h.mem a ha).symm
  trace := h.trace.symm

/-- The world with its watched machines' listeners taken away. -/
def unwatch (V : Watch) (w : World) : World := { w with mach := fun m => if V.mach m then { w.mach m with listener := none } else w.mach m }

theorem like_unwatch (w : World) : V.Like w (unwatch V w) where
  mach m := by unfold unwatch; dsimp only; split <;> exact ⟨rfl, rfl, rfl⟩
  listener m hm := by simp [unwatch, hm]
  payload := rfl
  pair := rfl
  nextPair := rfl
  nextCopy := rfl
  queue := rfl
  pool := rfl
  tasks := rfl
  shut := rfl
  latch := rfl
  intr := rfl
  mem _ _ := rfl
  trace := rfl

theorem off_unwatch {w : World} (h : V.Others w) : V.Off (unwatch V w) :=
  ⟨fun m hm => by simp [unwatch, hm], fun m hm l hl => h m hm l (by simpa [unwatch, hm] using hl)⟩

/-- C101. Other listeners that only watch see the same things happen: whatever happens with one listener can happen with any other. -/
theorem C101_exchange (he : V.Env env) (hc : ∀ t, c0.thr t = none) (hd : ∀ t, d0.thr t = none) (hon : V.On c0.w) (hon' : V.On d0.w) (hw : V.Like c0.w d0.w)
    (hx : ∀ x ∈ xs, V.Choice x) (hr : runs env c0 xs = some c) :
    ∃ ys d, runs env d0 ys = some d ∧ V.Like c.w d.w ∧ V.On d.w ∧ ∀ t, (c.thr t).isSome = (d.thr t).isSome := by
  obtain ⟨ys, e, h1, h2, h3, h4, h5⟩ := C101_detach (d0 := ⟨unwatch V c0.w, c0.thr⟩) he hc hc hon (off_unwatch hon.2) (like_unwatch _) hx hr
  obtain ⟨zs, d, _, g2, g3, g4, g5⟩ := C101_attach (c0 := d0) (d0 := ⟨unwatch V c0.w, c0.thr⟩) he hd hc hon' (off_unwatch hon.2) (like_trans (like_symm hw) (like_unwatch _))
    (fun x hx' => hx x (h1.subset hx')) h2
  exact ⟨zs, d, g2, like_trans h3 (like_symm g3), g4, fun t => by rw [h5, g5]⟩

/-- C101. A `LoggingStateMachineListener` only watches, whatever its name. -/
theorem C101_logging (hV : ∀ s, V.log (.log s) = true) (name : Option String) (complete : Bool) (f : St) (ev : Ev) (t : St) : V.Quiet (Logging.logChange name complete f ev t) := by
  have note : ∀ s, V.Quiet (.note (.log s) .done) := fun s => .call _ (hV s) fun _ => .done
  unfold Logging.logChange
  repeat' split
  all_goals exact note _

end

/-! #### Executions -/

namespace Demo

/-- All machines are watched. Listener 0 and listener 1 only watch, memory 9 is theirs, and so is the log. -/
def eyes : Watch := ⟨fun _ => true, fun l => l == 0 || l == 1, fun a => a == 9, fun n => match n with | .log _ => true | _ => false⟩

/-- Listener 0 counts how often it is called and whether the machine has been started; other listeners write lines to the log. -/
def eyesEnv : Env :=
  { env acts with
    listener := fun l b f ev t =>
      if l = 0 then .call (.getMem 9) fun n => .call (.isStarted 0) fun s => .call (.setMem 9 (if s then n + 1 else n)) fun _ => .done
      else if l = 1 then Logging.logChange (some "m") b f ev t
      else .done }

theorem eyes_env : eyes.Env eyesEnv where
  watcher l b f ev t hl := by
    simp only [eyesEnv]
    by_cases h : l = 0
    · rw [if_pos h]; exact .call _ rfl fun _ => .call _ rfl fun _ => .call _ rfl fun _ => .done
    · have h1 : l = 1 := by simpa [eyes, h] using hl
      rw [if_neg h, if_pos h1]
      exact C101_logging (V := eyes) (fun _ => rfl) _ _ _ _ _
  listener l b f ev t hl := by
    have h0 : l ≠ 0 := by rintro rfl; cases hl
    have h1 : l ≠ 1 := by rintro rfl; cases hl
    simp only [eyesEnv, if_neg h0, if_neg h1]
    exact .done
  acts k o a ha ev m := by
    change a ∈ acts k o at ha
    unfold acts at ha
    split at ha
    · simp only [List.mem_cons, List.not_mem_nil, or_false] at ha
      rcases ha with rfl | rfl <;> exact .call _ rfl fun _ => .done
    · simp only [List.mem_cons, List.not_mem_nil, or_false] at ha
      rcases ha with rfl | rfl <;> exact .call _ rfl fun _ => .done
    · cases ha
  unmapped _ _ _ := .done
  flowEx _ _ _ _ := .done
  flowAfter _ _ _ := .done
  flowBefore _ _ _ := .done
  proc _ := .done

theorem eyes_on : eyes.On (conf true).w := ⟨fun _ _ => ⟨0, rfl, rfl⟩, fun _ h => by cases h⟩

theorem eyes_off : eyes.Off (conf false).w := ⟨fun _ _ => rfl, fun _ h => by cases h⟩

theorem eyes_like : eyes.Like (conf true).w (conf false).w where
  mach _ := ⟨rfl, rfl, rfl⟩
  listener _ h := by cases h
  payload := rfl
  pair := rfl
  nextPair := rfl
  nextCopy := rfl
  queue := rfl
  pool := rfl
  tasks := rfl
  shut := rfl
  latch := rfl
  intr := rfl
  mem _ _ := rfl
  trace := rfl

/-- A client starts the machine and fires go; the machine goes to B. -/
def eyesX : List Choice := [Choice.begin 0 (client 0 [go])] ++ runN (.client 0) 60 ++ [Choice.dispatch 0 0 0] ++ runN (.worker 0 0) 80

theorem eyes_choice : ∀ x ∈ eyesX, eyes.Choice x := by
  intro x hx
  simp only [eyesX, List.mem_append, List.mem_cons, List.not_mem_nil, or_false, runN] at hx
  rcases hx with ((rfl | h) | rfl) | h
  · exact .call _ rfl fun _ => .call _ rfl fun _ => .done
  · rw [List.eq_of_mem_replicate h]; trivial
  · trivial
  · rw [List.eq_of_mem_replicate h]; trivial

/-- The choices of a schedule that are possible. -/
theorem eyes_runs (env : Env) (c : Conf) (xs : List Choice) : ∃ ys, (∀ y ∈ ys, y ∈ xs) ∧ runs env c ys = some (drive env c xs) := by
  induction xs generalizing c with
  | nil => exact ⟨[], fun _ h => h, rfl⟩
  | cons x xs ih =>
    simp only [drive, List.foldl_cons, tryStep]
    cases h : step env c x with
    | none =>
      obtain ⟨ys, h1, h2⟩ := ih c
      exact ⟨ys, fun y hy => List.mem_cons_of_mem _ (h1 y hy), h2⟩
    | some c' =>
      obtain ⟨ys, h1, h2⟩ := ih c'
      refine ⟨x :: ys, fun y hy => ?_, by simp only [runs, h, Option.getD_some]; exact h2⟩
      rcases List.mem_cons.1 hy with rfl | hy
      · exact List.mem_cons_self
      · exact List.mem_cons_of_mem _ (h1 y hy)

/-- The listener is called four times and counts; without a listener the machine can get to B as well, and nothing is counted. -/
example : (drive eyesEnv (conf true) eyesX).w.mem 9 = 4 ∧ ∃ d : Conf, ReachFrom eyesEnv (conf false) d ∧ (d.w.mach 0).cur = some B ∧ d.w.queue 0 = [] ∧
    (Tid.worker 0 0, Obs.user 20) ∈ d.w.trace.filter (fun e => eyes.seen e.2) := by
  obtain ⟨ys, h1, h2⟩ := eyes_runs eyesEnv (conf true) eyesX
  obtain ⟨zs, d, _, h3, h4, _⟩ := C101_detach eyes_env (c0 := conf true) (d0 := conf false) (fun _ => rfl) (fun _ => rfl) eyes_on eyes_off eyes_like
    (fun x hx => eyes_choice x (h1 x hx)) h2
  refine ⟨by decide +kernel, d, ⟨zs, h3⟩, ?_, ?_, ?_⟩
  · rw [← (h4.mach 0).2.2]; decide +kernel
  · rw [← h4.queue]; decide +kernel
  · rw [← h4.trace]; decide +kernel

/-- The other way round: the run without a listener gives one with the listener. -/
example : ∃ c : Conf, ReachFrom eyesEnv (conf true) c ∧ (c.w.mach 0).cur = some B ∧ c.thr (.worker 0 0) = none := by
  obtain ⟨ys, h1, h2⟩ := eyes_runs eyesEnv (conf false) eyesX
  obtain ⟨zs, c, _, h3, h4, _, h5⟩ := C101_attach eyes_env (c0 := conf true) (d0 := conf false) (fun _ => rfl) (fun _ => rfl) eyes_on eyes_off eyes_like
    (fun x hx => eyes_choice x (h1 x hx)) h2
  refine ⟨c, ⟨zs, h3⟩, ?_, ?_⟩
  · rw [(h4.mach 0).2.2]; decide +kernel
  · have := h5 (.worker 0 0)
    have h6 : ((drive eyesEnv (conf false) eyesX).thr (.worker 0 0)).isSome = false := by decide +kernel
    rw [h6] at this
    simpa using this

/-- All machines have the listener that writes lines to the log. -/
def logConf : Conf := { conf true with w := { (conf true).w with mach := fun _ => ⟨false, false, none, some 1⟩ } }

/-- With the listener that writes lines to the log, the machine can get to B as with the listener that counts. -/
example : ∃ c : Conf, ReachFrom eyesEnv logConf c ∧ (c.w.mach 0).cur = some B := by
  obtain ⟨ys, h1, h2⟩ := eyes_runs eyesEnv (conf true) eyesX
  obtain ⟨zs, c, h3, h4, _⟩ := C101_exchange eyes_env (c0 := conf true) (d0 := logConf) (fun _ => rfl) (fun _ => rfl) eyes_on ⟨fun _ _ => ⟨1, rfl, rfl⟩, fun _ h => by cases h⟩
    { eyes_like with mach := fun _ => ⟨rfl, rfl, rfl⟩, listener := fun _ h => by cases h } (fun x hx => eyes_choice x (h1 x hx)) h2
  refine ⟨c, ⟨zs, h3⟩, ?_⟩
  rw [← (h4.mach 0).2.2]; decide +kernel

/-- It does write lines. -/
example : (Tid.worker 0 0, Obs.user (.log "m transitioned to B")) ∈ (drive eyesEnv logConf eyesX).w.trace := by decide +kernel

example : eyes.Quiet (Logging.logChange (some "m") true A go B) := C101_logging (fun _ => rfl) _ _ _ _ _

end Demo

end Verif
