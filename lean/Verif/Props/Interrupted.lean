import Verif.Props.Service
/-
C69: what a call of `start()` of an app has seen to when it returns.
-/

namespace Verif
open Prog Spec.App Svc
variable {a : App} {env : Env} {c0 c : Conf} {t : Tid}

theorem snocInd {α : Type} {P : List α → Prop} (nil : P []) (snoc : ∀ l x, P l → P (l ++ [x])) : ∀ l, P l := by
  intro l
  have : ∀ l : List α, P l.reverse := by
    intro l
    induction l with
    | nil => exact nil
    | cons x l ih => rw [List.reverse_cons]; exact snoc _ _ ih
  rw [← List.reverse_reverse l]; exact this _

/-- The last own entry, in the history. -/
theorem own_last {tr : List (Tid × Obs)} {l : List Obs} {x : Obs} (h : ownEntries a t tr = l ++ [x]) :
    ∃ tr1 tr2, tr = tr1 ++ (t, x) :: tr2 ∧ ownEntries a t tr1 = l ∧ ownEntries a t tr2 = [] := by
  induction tr using snocInd generalizing l x with
  | nil => simp [ownEntries, ofThread] at h
  | snoc tr e ih =>
    obtain ⟨u, y⟩ := e
    rw [own_append, own_one] at h
    split at h
    next hu =>
      obtain ⟨rfl, hy⟩ := hu
      have := List.append_inj' h rfl
      obtain ⟨rfl, h2⟩ := this
      cases h2
      exact ⟨tr, [], rfl, rfl, rfl⟩
    next hu =>
      rw [List.append_nil] at h
      obtain ⟨tr1, tr2, rfl, h1, h2⟩ := ih h
      refine ⟨tr1, tr2 ++ [(u, y)], by simp, h1, ?_⟩
      rw [own_append, h2, own_one, if_neg hu]; rfl

/-- Calls that are open stay open as long as the thread does nothing of its own. -/
theorem openCalls_still {tr e : List (Tid × Obs)} (h : ownEntries a t e = []) : openCalls a t (tr ++ e) = openCalls a t tr := by
  induction e using snocInd with
  | nil => simp
  | snoc e x ih =>
    obtain ⟨u, y⟩ := x
    rw [own_append, List.append_eq_nil_iff] at h
    rw [← List.append_assoc, openCalls_snoc, ih h.1]
    split
    next hu =>
      subst hu
      have h2 := h.2
      rw [own_one] at h2
      unfold callsStep
      split
      next i c => simp [ownType] at h2; rw [if_neg h2]
      next i c r => simp [ownType] at h2; rw [if_neg h2]
      · rfl
    · rfl

/-- C69: a call of `start()` that returns normally has either restarted a stopped (restartable) app, or the machine had ended at some
moment of the call, or the call has itself fired `stop` when the app was STARTED (STOPPED, if it is restartable), or it has found an
exit-on-stop app STOPPED. -/
theorem C69_returns (ha : a.Wired env) (h0 : Initial c0) (hl : c0.w.latch a.latch ≠ 0) (hr : Execution a env c0 c)
    {pre post : List (Tid × Obs)} (h : c.w.trace = pre ++ (t, .user (.appRet a.id .start none)) :: post) :
    ∃ pos rest, openCalls a t pre = (pos, .start) :: rest ∧
      ((a.exitOnStop = false ∧ ownEntries a t (pre.drop (pos + 1)) = fires a evtStart none) ∨
       ∃ n, pos < n ∧ n ≤ pre.length ∧
         (endedOf a.m (pre.take n) = true ∨
          match onStop a.exitOnStop ((curOf a.m (pre.take n)).map (·.name)) with
          | .fire => fires a evtStop none <:+ (ownEntries a t (pre.drop (pos + 1))).dropLast
          | .ignore => True
          | .refuse => False)) := by
  obtain ⟨pos, rest, h1, h2, n, n2, hn, hn2, hn3, h3⟩ := C46_calls ha h0 hl hr h
  refine ⟨pos, rest, h1, ?_⟩
  split at h3
  · split at h3
    next hs =>
      refine Or.inl ⟨?_, h3⟩
      unfold onStart at hs; split at hs
      next hs' => exact hs'.2
      · cases hs
    · cases h3.2
  · right
    obtain ⟨nested, ⟨x, hx, -⟩ | ⟨x, hx, -⟩ | ⟨b, before, stopped, j, h4, hb, h5, hj, ho, h6⟩⟩ := h3
    · cases hx
    · cases hx
    · split at h6
      next he =>
        refine ⟨j, ?_, hj, Or.inl he⟩
        rcases Nat.lt_or_ge pos j with hlt | hle
        · exact hlt
        · rw [List.drop_eq_nil_of_le (by rw [List.length_take]; omega)] at ho
          rw [hb] at ho; simp [ownEntries, ofThread] at ho
      next he =>
        obtain ⟨k, rfl⟩ := h6
        rw [← List.append_assoc] at h4
        have h4' := h4
        obtain ⟨tr1, tr2, h7, h8, h9⟩ := own_last h4
        have hpos : pos < pre.length := by
          rcases Nat.lt_or_ge pos pre.length with hlt | hle
          · exact hlt
          · rw [List.getElem?_eq_none hle] at h2; cases h2
        have hpre : pre = (pre.take (pos + 1) ++ tr1) ++ (t, .user (.appRet a.id .stop none)) :: tr2 := by
          rw [List.append_assoc, ← h7, List.take_append_drop]
        generalize hp1 : pre.take (pos + 1) ++ tr1 = pre1 at hpre
        obtain ⟨pos1, rest1, g1, g2, m, gm, gm2, g3⟩ := C46_calls (t := t) (k := .stop) (r := none) (pre := pre1) ha h0 hl hr (by
          rw [h, hpre, List.append_assoc, List.cons_append])
        have hlen : (pre.take (pos + 1)).length = pos + 1 := by rw [List.length_take]; omega
        have hat : pre1[pos]? = some (t, .user (.app a.id .start)) := by
          rw [← hp1, List.getElem?_append_left (by omega), List.getElem?_take_of_lt (by omega)]; exact h2
        have hlt : pos < pos1 := by
          rcases Nat.lt_trichotomy pos pos1 with hlt | rfl | hgt
          · exact hlt
          · rw [hat] at g2; cases g2
          · exfalso
            have : (t, Obs.user (.app a.id .start)) ∈ pre1.drop (pos1 + 1) := by
              refine List.mem_of_getElem? (i := pos - (pos1 + 1)) ?_
              rw [List.getElem?_drop, show pos1 + 1 + (pos - (pos1 + 1)) = pos by omega]; exact hat
            have hm : Obs.user (.app a.id .start) ∈ ownEntries a t (pre1.drop (pos1 + 1)) := by
              unfold ownEntries
              refine List.mem_filter.2 ⟨mem_ofThread.2 this, by simp⟩
            split at g3
            · rw [g3] at hm; simp at hm
            · rw [g3.1] at hm; simp at hm
            · rw [g3.1] at hm; simp at hm
        have hm2 : m ≤ pre.length := by rw [hpre, List.length_append]; omega
        refine ⟨m, by omega, hm2, Or.inr ?_⟩
        rw [show pre.take m = pre1.take m by rw [hpre, List.take_append_of_le_length gm2]]
        split at g3
        next hs =>
          rw [h4', List.dropLast_concat, ← h8]
          rw [← hp1, List.drop_append, List.drop_eq_nil_of_le (by omega), List.nil_append] at g3
          rw [← List.take_append_drop (pos1 + 1 - (pre.take (pos + 1)).length) tr1, own_append, g3]
          simp only [hs]
          exact List.suffix_append _ _
        next hs => simp only [hs]
        · cases g3.2

namespace Demo

/-- An exit-on-stop app is started, then the main thread is interrupted. -/
def called : Conf := drive (appEnv (app true calmSub)) appConf
  (thenCall (app true calmSub) 0 .start ++ [.interrupt (.client 0)] ++ runN (.client 0) 40)

theorem called_exec : Execution (app true calmSub) (appEnv (app true calmSub)) appConf called :=
  drive_execution fun x hx => by
    simp only [List.mem_append, List.mem_singleton] at hx
    rcases hx with (hx | rfl) | hx
    all_goals first | exact thenCall_within _ _ _ hx | exact runN_within _ _ _ hx | trivial

/-- The same, but it is interrupted while the worker is still starting the subsystems; then the worker goes on until nothing is left
to do. -/
def orphan : Conf := drive (appEnv (app true calmSub)) appConf
  ([.begin 0 (callApp (app true calmSub) .start)] ++ runN (.client 0) 60 ++ [.dispatch 0 0 0] ++ runN (.worker 0 0) 15 ++
    [.interrupt (.client 0)] ++ runN (.client 0) 40 ++ runN (.worker 0 0) 80 ++ [.dispatch 0 0 0] ++ runN (.worker 0 0) 40)

theorem orphan_exec : Execution (app true calmSub) (appEnv (app true calmSub)) appConf orphan :=
  drive_execution fun x hx => by
    simp only [List.mem_append, List.mem_singleton] at hx
    rcases hx with (((((((rfl | hx) | rfl) | hx) | rfl) | hx) | hx) | rfl) | hx
    all_goals first | exact callApp_outside _ _ | exact runN_within _ _ _ hx | trivial

end Demo

open Demo in
/-- The interrupted call has fired `stop`. -/
example := C69_returns (calm_wired true) appConf_initial latchesOne called_exec (t := .client 0) (pre := called.w.trace.take 39)
  (post := []) (by decide +kernel)

open Demo in
example : fires (app true calmSub) evtStop none <:+ (ownEntries (app true calmSub) (.client 0) (called.w.trace.take 39)).dropLast := by
  decide +kernel

open Demo in
/-- C69: it does not wait until the app has been stopped, though: no subsystem has been stopped when it returns. -/
theorem C69_negation_waits : ∃ (a : App) (env : Env) (c0 c : Conf) (pre : List (Tid × Obs)), a.Wired env ∧ a.exitOnStop = true ∧ Initial c0 ∧
    c0.w.latch a.latch ≠ 0 ∧ Execution a env c0 c ∧ 0 < a.nsubs ∧
    c.w.trace = pre ++ [(.client 0, .user (.appRet a.id .start none))] ∧ (curOf a.m c.w.trace).map (·.name) = some "STARTED" ∧
    (∀ e ∈ c.w.trace, ∀ k, e.2 ≠ .user (.sub a.id k false)) :=
  ⟨app true calmSub, appEnv (app true calmSub), appConf, called, called.w.trace.take 39, calm_wired true, rfl, appConf_initial, latchesOne,
    called_exec, by decide +kernel, by decide +kernel, by decide +kernel, (fun e he k hk => by
      have h : called.w.trace.all (fun e => match e.2 with | .user (.sub _ _ up) => up | _ => true) = true := by decide +kernel
      have := List.all_eq_true.1 h e he
      rw [hk] at this; cases this)⟩

open Demo in
/-- C69: and if the interrupt comes while the app is STARTING, `start()` throws IllegalStateException, and the app is never stopped: it
is STARTED and stays so, with nothing left to do. -/
theorem C69_negation_left_running : ∃ (a : App) (env : Env) (c0 c : Conf) (pre post : List (Tid × Obs)), a.Wired env ∧ a.exitOnStop = true ∧
    Initial c0 ∧ c0.w.latch a.latch ≠ 0 ∧ Execution a env c0 c ∧
    c.w.trace = pre ++ (.client 0, .user (.appRet a.id .start (some (.ise .appState)))) :: post ∧
    (Tid.client 0, Obs.user (.intr a.id)) ∈ pre ∧ (curOf a.m c.w.trace).map (·.name) = some "STARTED" ∧
    c.w.tasks 0 = [] ∧ c.thr (.worker 0 0) = none ∧ c.thr (.client 0) = none :=
  ⟨app true calmSub, appEnv (app true calmSub), appConf, orphan, orphan.w.trace.take 19, orphan.w.trace.drop 20, calm_wired true, rfl,
    appConf_initial, latchesOne, orphan_exec, by decide +kernel, by decide +kernel, by decide +kernel, by decide +kernel,
    Option.isNone_iff_eq_none.1 (by decide +kernel), Option.isNone_iff_eq_none.1 (by decide +kernel)⟩

end Verif
