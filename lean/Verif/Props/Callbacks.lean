import Verif.Proofs.Honest
import Verif.Props.Calls
import Verif.Spec.Callbacks
import Verif.Demo.Events
/-
C53, C54: what the history says about callbacks and what getters say about the history.
-/

namespace Verif
open Spec (Code machOf answer)

section
variable {env : Env} {c0 c c' : Conf} {t : Tid}

/-! #### C53 -/

/-- C53: whenever a thread is about to run user code (an action, a listener, a handler, a flow listener), the last thing
it has recorded is the callback; the code is the code configured for this callback (with the machine's listener at that moment), and
whatever its outcome `r` will be, `r` is what will be recorded next as the outcome of this callback. -/
theorem C53_callbacks_run_their_code (hi : Initial c0) (hr : ReachFrom env c0 c) {f : Call} {k : Except Exc Unit → Prog Unit}
    (h : c.thr t = some (.call f k)) (hf : f.isUser = true) :
    ∃ pre cb post u, c.w.trace = pre ++ (t, .cb cb) :: post ∧ (∀ e ∈ post, e.1 ≠ t) ∧
      Code env (machAt c0 (machOf cb) pre).lst cb u ∧ body env f = u.denote env ∧
      ∀ r, ∃ k', k r = .op (.emit (.cbRet cb (outcome r))) k' := by
  obtain ⟨l, a, h1, h2⟩ := (honest_reach hi hr).2 t _ h
  cases a with
  | none => rw [h1.1] at hf; cases hf
  | some a =>
    obtain ⟨cb, lx⟩ := a
    obtain ⟨pre, post, h3, h4, h5⟩ := h2 _ rfl
    obtain ⟨lst, ht, hown, -⟩ := control hi hr
    have hpre : lPre env f (lst t) := by have := ht t; rw [h] at this; exact this.1
    -- the strategy that calls a handler has the queue of the machine
    have hq : ∀ s m, (∃ fr, (lst t).head? = some fr ∧ fr.serves env s m) →
        (env.strat s).queue = (env.strat (env.mach m).strat).queue := by
      rintro s m ⟨fr, hh, hs⟩
      obtain ⟨loc, ho⟩ := hown
      have hfact := ho.fact t fr (List.mem_of_mem_head? hh)
      unfold Frame.serves at hs
      split at hs
      · obtain ⟨rfl, rfl⟩ := hs; rfl
      · obtain ⟨rfl, rfl⟩ := hs; exact hfact.2.symm
      · obtain ⟨rfl, rfl⟩ := hs; exact hfact.2.symm
      · exact hs.elim
    have key : ∃ u, Code env (machAt c0 (machOf cb) pre).lst cb u ∧ body env f = u.denote env := by
      have hc := h1.1
      cases cb with
      | begin m a ev b => obtain ⟨x, rfl, rfl⟩ := hc; exact ⟨_, .begin (h5 x rfl), rfl⟩
      | end_ m a ev b => obtain ⟨x, rfl, rfl⟩ := hc; exact ⟨_, .end_ (h5 x rfl), rfl⟩
      | action m kk oid i ev =>
        obtain ⟨rfl, hlt⟩ := hc
        refine ⟨_, .action (List.getElem?_eq_getElem hlt), ?_⟩
        simp only [body, List.getElem?_eq_getElem hlt]
      | unmapped m ev => obtain ⟨s, rfl⟩ := hc; exact ⟨_, .unmapped (hq _ _ hpre.2), rfl⟩
      | flowEx m ev x => obtain ⟨s, rfl⟩ := hc; exact ⟨_, .flowEx (hq _ _ hpre.2), rfl⟩
      | flowFull m ev => cases hc; exact ⟨_, .flowFull, rfl⟩
      | flowAfter m ev => cases hc; exact ⟨_, .flowAfter, rfl⟩
      | flowBefore m ev => cases hc; exact ⟨_, .flowBefore, rfl⟩
    obtain ⟨u, h6, h7⟩ := key
    exact ⟨pre, cb, post, u, h3, h4, h6, h7, fun r => (h1.2 r).1⟩

/-- C53: conversely, after a step that records a callback the thread is about to run user code. -/
theorem C53_recorded_callbacks_run (hi : Initial c0) (hr : ReachFrom env c0 c) {x : Choice} (hs : step env c x = some c') {cb : Cb}
    (ht : c'.w.trace = c.w.trace ++ [(t, .cb cb)]) : ∃ f k, c'.thr t = some (.call f k) ∧ f.isUser = true := by
  have hne : ∀ w : World, w.trace = c.w.trace → w.trace ≠ c.w.trace ++ [(t, .cb cb)] := fun w h h' => by
    rw [h] at h'; simpa using congrArg List.length h'
  cases x with
  | begin n u =>
    simp only [step] at hs
    split at hs
    · cases hs
    · cases hs; exact absurd ht (hne _ rfl)
  | dispatch e i j =>
    simp only [step] at hs
    split at hs
    · split at hs
      · cases hs; exact absurd ht (hne _ rfl)
      · cases hs
    · cases hs
  | interrupt u => cases hs; exact absurd ht (hne _ rfl)
  | shutdown e now =>
    cases hs
    cases now with
    | false => exact absurd ht (hne _ rfl)
    | true =>
      simp only [if_true, World.dropTasks, List.append_cancel_left_eq] at ht
      have : (t, Obs.cb cb) ∈ (c.w.tasks e).map fun x => (Tid.env, Obs.taskDropped x.1 x.2) := by rw [ht]; simp
      obtain ⟨y, _, hy⟩ := List.mem_map.1 this
      cases hy
  | run u =>
    simp only [step] at hs
    split at hs
    · cases hs
    next p hp =>
      obtain ⟨l, a, h1, h2⟩ := (honest_reach hi hr).2 u p hp
      cases p with
      | ret r => cases hs; exact absurd ht (hne _ rfl)
      | thr r => cases hs; simp [World.log] at ht
      | call f k => cases hs; exact absurd ht (hne _ rfl)
      | op o k =>
        simp only [runThread] at hs
        split at hs
        · cases hs
          cases a with
          | some a => exact h1.elim
          | none =>
            simp only [exec_trace, List.append_cancel_left_eq] at ht
            have ho : u = t ∧ opObs o c.w = some (.cb cb) := by
              cases hob : opObs o c.w with
              | none => rw [hob] at ht; cases ht
              | some y => rw [hob] at ht; simp at ht; exact ⟨ht.1, by rw [ht.2]⟩
            obtain ⟨rfl, ho⟩ := ho
            obtain ⟨l', a, h3, h4⟩ := h1 (exec u o c.w).1
            have ha : ∃ x, a = some x := by
              cases o with
              | emit y =>
                simp only [opObs, Option.some.injEq] at ho
                subst ho
                simp only [hNext, Option.some.injEq, Prod.mk.injEq] at h3
                exact ⟨_, h3.2.symm⟩
              | notify m cb' =>
                simp only [opObs] at ho
                split at ho
                next hl =>
                  obtain ⟨y, hy⟩ := Option.isSome_iff_exists.1 hl
                  have he : (exec u (.notify m cb') c.w).1 = some y := by simp only [exec, hy]
                  rw [he] at h3
                  simp only [hNext] at h3
                  by_cases hm : cb'.mach = m
                  · rw [if_pos hm] at h3; cases h3; exact ⟨_, rfl⟩
                  · rw [if_neg hm] at h3; cases h3
                · cases ho
              | offer q p => simp only [opObs, Option.map_eq_some_iff] at ho; obtain ⟨_, _, h⟩ := ho; cases h
              | poll q =>
                simp only [opObs] at ho
                split at ho
                · cases ho
                · simp only [Option.map_eq_some_iff] at ho; obtain ⟨_, _, h⟩ := ho; cases h
              | poolGive s p => simp only [opObs, Option.map_eq_some_iff] at ho; obtain ⟨_, _, h⟩ := ho; cases h
              | casStarted m => simp only [opObs] at ho; split at ho <;> cases ho
              | casEnded m s b api => simp only [opObs] at ho; split at ho <;> cases ho
              | submit e s m => simp only [opObs] at ho; split at ho <;> cases ho
              | _ => cases ho
            obtain ⟨x, rfl⟩ := ha
            simp only [fset_same]
            cases hk : k (exec u o c.w).1 with
            | call f k' =>
              rw [hk] at h4
              refine ⟨f, k', rfl, ?_⟩
              have := h4.1
              obtain ⟨cb', lx⟩ := x
              cases cb' with
              | begin => obtain ⟨_, _, rfl⟩ := this; rfl
              | end_ => obtain ⟨_, _, rfl⟩ := this; rfl
              | action => obtain ⟨rfl, _⟩ := this; rfl
              | unmapped => obtain ⟨_, rfl⟩ := this; rfl
              | flowEx => obtain ⟨_, rfl⟩ := this; rfl
              | _ => cases this; rfl
            | _ => rw [hk] at h4; exact h4.elim
        · cases hs

/-! #### C54 -/

/-- What the history says about a machine is true, whoever uses it. -/
theorem machine_of_history (hi : Initial c0) (hr : ReachFrom env c0 c) (m : MId) :
    (c.w.mach m).cur = (machAt c0 m c.w.trace).cur ∧ (c.w.mach m).ended = (machAt c0 m c.w.trace).ended ∧
    (c.w.mach m).listener = (machAt c0 m c.w.trace).lst := by
  obtain ⟨_, _, _, h⟩ := control hi hr
  rw [← h m]
  exact ⟨rfl, rfl, rfl⟩

/-- C54: a getter takes one atomic step, changes nothing, and returns what the history says: whether the machine was
started, has ended, its current state, the number of events accepted into its queue and not yet taken, the payload. -/
theorem C54_getters (hi : Initial c0) (hr : ReachFrom env c0 c) {u : UCall} {k : u.Res → Prog Unit} {v : u.Res}
    (h : c.thr t = some ((u.prog env).bind k)) (hv : answer env (after c0 c.w.trace) (fun m => machAt c0 m c.w.trace) u = some v) :
    step env c (.run t) = some { c with thr := fset c.thr t (some (k v)) } := by
  obtain ⟨h1, h2, h3, h4, h5⟩ := memory_of_history hi hr
  have h6 := fun m => (machine_of_history hi hr m).1
  have hlen : ∀ q, ((after c0 c.w.trace).waiting q).length = (c.w.queue q).length := by
    intro q
    rw [h5]
    obtain ⟨_, _, ⟨loc, ho⟩, _⟩ := control hi hr
    rw [List.length_map]
    have : ∀ ps : List PairId, (∀ p ∈ ps, (c.w.pair p).isSome = true) → (ps.filterMap c.w.pair).length = ps.length := by
      intro ps
      induction ps with
      | nil => intro _; rfl
      | cons p ps ih =>
        intro hp
        obtain ⟨y, hy⟩ := Option.isSome_iff_exists.1 (hp p (by simp))
        rw [List.filterMap_cons_some hy, List.length_cons, List.length_cons, ih fun p' h' => hp p' (by simp [h'])]
    exact this _ fun p hp => by obtain ⟨ev, m, hpr, _⟩ := ho.full q p hp; simp [hpr]
  have key : ∀ (o : Op) (k' : o.Res → Prog Unit), c.thr t = some (.op o k') → enabled t o c.w = true → (exec t o c.w).2 = c.w →
      step env c (.run t) = some { c with thr := fset c.thr t (some (k' (exec t o c.w).1)) } := by
    intro o k' h he hw
    simp only [step, h, runThread, he, if_true, hw]
  cases u with
  | isStarted m =>
    cases hv
    rw [key (.getStarted m) _ h rfl rfl, h1]; rfl
  | isEnded m =>
    cases hv
    rw [key (.getEnded m) _ h rfl rfl, h2]; rfl
  | getCurrentState m =>
    cases hv
    rw [key (.getCur m) _ h rfl rfl, ← h6]; rfl
  | getEventQueueSize m =>
    cases hv
    rw [key (.qSize _) _ h rfl rfl, hlen]; rfl
  | getPayload o =>
    cases hv
    rw [key (.getPayload o) _ h rfl rfl, h4]; rfl
  | _ => cases hv

end

/-! #### Examples -/

namespace Demo

/-- The user code a thread is about to run. -/
def userAt (c : Conf) (t : Tid) : Option Call := match c.thr t with
  | some (.call f _) => if f.isUser then some f else none
  | _ => none

theorem userAt_some {c : Conf} {t : Tid} {f : Call} (h : userAt c t = some f) : f.isUser = true ∧ ∃ k, c.thr t = some (.call f k) := by
  unfold userAt at h
  split at h
  · split at h
    · cases h; exact ⟨by assumption, _, by assumption⟩
    · cases h
  · cases h

/-- Event `stay` is unmapped, then `go` leads to B: the worker is about to run the second exit action of A. -/
def exiting : Conf := worked (env acts) [stay, go] 26
/-- The same after the state change, before the first entry action of B. -/
def entering : Conf := worked (env acts) [stay, go] 33
theorem exiting_reach : ReachFrom (env acts) (conf true) exiting := drive_reach _ _ _
theorem entering_reach : ReachFrom (env acts) (conf true) entering := drive_reach _ _ _

theorem ask {c : Conf} (h : ReachFrom (env acts) (conf true) c) (hn : (c.thr (.client 1)).isNone = true) (u : UCall) :
    ∃ c', ReachFrom (env acts) (conf true) c' ∧ c'.w = c.w ∧
      c'.thr (.client 1) = some ((u.prog (env acts)).bind fun _ => UProg.done.denote (env acts)) := by
  have hs : step (env acts) c (.begin 1 (.call u fun _ => .done)) =
      some { c with thr := fset c.thr (.client 1) (some ((u.prog (env acts)).bind fun _ => UProg.done.denote (env acts))) } := by
    simp only [step, Option.isNone_iff_eq_none.1 hn]; rfl
  exact ⟨_, reach_snoc h hs, rfl, by simp only [fset_same]⟩

end Demo

open Demo in
/-- C53: the second exit action of A is about to run. -/
example : ∃ k, exiting.thr w0 = some (.call (.action .exit 1 1 go 0) k) ∧
    exiting.w.trace.getLast? = some (w0, .cb (.action 0 .exit 1 1 go)) ∧
    ∀ r, ∃ k', k r = .op (.emit (.cbRet (.action 0 .exit 1 1 go) (outcome r))) k' := by
  have hlast : exiting.w.trace.getLast? = some (w0, .cb (.action 0 .exit 1 1 go)) := by decide +kernel
  obtain ⟨hu, k, hk⟩ := userAt_some (c := exiting) (t := w0) (f := .action .exit 1 1 go 0) (by decide +kernel)
  obtain ⟨pre, cb, post, u, h1, h2, -, -, h5⟩ := C53_callbacks_run_their_code (conf_initial _) exiting_reach hk hu
  refine ⟨k, hk, hlast, ?_⟩
  have hp : post = [] := by
    rcases List.eq_nil_or_concat post with h | ⟨l, x, h⟩
    · exact h
    · rw [h1, h] at hlast
      have : x = (w0, .cb (.action 0 .exit 1 1 go)) := by simpa [List.getLast?_append, List.getLast?_cons] using hlast
      exact absurd (by rw [this]) (h2 x (by simp [h]))
  rw [h1, hp] at hlast
  simp at hlast
  rw [← hlast]; exact h5

open Demo in
/-- C53: a step that records a callback. -/
example : ∃ c' cb, step (env acts) (worked (env acts) [stay, go] 25) (.run w0) = some c' ∧
    c'.w.trace = (worked (env acts) [stay, go] 25).w.trace ++ [(w0, .cb cb)] := by
  have h : ((step (env acts) (worked (env acts) [stay, go] 25) (.run w0)).map fun c' => c'.w.trace) =
      some ((worked (env acts) [stay, go] 25).w.trace ++ [(w0, .cb (.action 0 .exit 1 1 go))]) := by decide +kernel
  obtain ⟨c', h1, h2⟩ := Option.map_eq_some_iff.1 h
  exact ⟨c', _, h1, h2⟩

open Demo in
/-- C54: a client that asks for the current state while the exit actions of A run is told A, and B while the entry
actions of B run. -/
example : ∃ c', ReachFrom (env acts) (conf true) c' ∧
    step (env acts) c' (.run (.client 1)) = some { c' with thr := fset c'.thr (.client 1) (some (.ret ())) } ∧
    answer (env acts) (after (conf true) c'.w.trace) (fun m => machAt (conf true) m c'.w.trace) (.getCurrentState 0) = some (some A) := by
  obtain ⟨c', h1, h2, h3⟩ := ask exiting_reach (by decide +kernel) (.getCurrentState 0)
  have h4 : answer (env acts) (after (conf true) c'.w.trace) (fun m => machAt (conf true) m c'.w.trace) (.getCurrentState 0) =
      some (some A) := by rw [h2]; decide +kernel
  exact ⟨c', h1, C54_getters (conf_initial _) h1 h3 h4, h4⟩

open Demo in
example : answer (env acts) (after (conf true) entering.w.trace) (fun m => machAt (conf true) m entering.w.trace) (.getCurrentState 0) =
    some (some B) := by decide +kernel

end Verif
