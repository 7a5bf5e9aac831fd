import Verif.Props.Interrupted
import Verif.Proofs.AppIntr
/-
C70: the interrupt status of the thread when an interrupted `start()` of an app returns.
-/

namespace Verif
open Prog Spec.App
open Svc (Execution)
variable {a : App} {env : Env} {c0 c c' : Conf} {t : Tid}

namespace Flag

/-- Thread `t` has been interrupted in a call of `start()` that has not returned. -/
def sinceStep (a : App) (t : Tid) (b : Bool) (e : Tid × Obs) : Bool :=
  if e.1 = t then (if intrObs a e.2 then true else if retObs a e.2 then false else b) else b

def since (a : App) (t : Tid) (tr : List (Tid × Obs)) : Bool := tr.foldl (sinceStep a t) false

theorem since_snoc {tr : List (Tid × Obs)} {e : Tid × Obs} : since a t (tr ++ [e]) = sinceStep a t (since a t tr) e := by
  simp [since, List.foldl_append]

theorem since_of {pre mid : List (Tid × Obs)} (h : ∀ r, (t, Obs.user (.appRet a.id .start r)) ∉ mid) :
    since a t (pre ++ (t, .user (.intr a.id)) :: mid) = true := by
  induction mid using snocInd with
  | nil => rw [since_snoc]; simp [sinceStep, intrObs]
  | snoc mid e ih =>
    rw [← List.cons_append, ← List.append_assoc, since_snoc, ih (fun r hm => h r (List.mem_append_left _ hm))]
    unfold sinceStep
    split
    · split
      · rfl
      · split
        next hr =>
          obtain ⟨u, x⟩ := e
          simp only at *
          unfold retObs at hr
          split at hr
          · rename_i i r' hi
            simp only [beq_iff_eq] at hr
            subst hr
            rename_i hu _
            subst hu
            exact absurd (List.mem_append_right _ (List.mem_singleton.2 rfl)) (h _)
          · cases hr
        · rfl
    · rfl

def Inv (a : App) (lst : Tid → Fl) (w : World) : Prop :=
  ∀ t, (since a t w.trace = true → lst t ≠ .idle) ∧ (lst t = .set → w.intr t = true)

theorem Inv.of_eq {lst : Tid → Fl} {w w' : World} (h : Inv a lst w) (htr : ∀ t, since a t w'.trace = since a t w.trace)
    (hi : ∀ t, w.intr t = true → w'.intr t = true) : Inv a lst w' :=
  fun t => ⟨fun hs => (h t).1 ((htr t) ▸ hs), fun hs => hi t ((h t).2 hs)⟩

/-- Operations that do not write marks. -/
theorem obs_quiet {o : Op} {w : World} {x : Obs} (h : opObs o w = some x) (he : ∀ y, o ≠ .emit y) :
    intrObs a x = false ∧ retObs a x = false := by
  have : ∀ m, x ≠ .user m := by
    rintro m rfl
    cases o <;> simp only [opObs] at h <;> first
      | (cases h; exact he _ rfl)
      | (cases h; done)
      | (split at h <;> first | cases h | (split at h <;> cases h) | (simp at h))
      | (simp at h; done)
      | exact he _ rfl
  exact ⟨by cases x <;> first | rfl | exact absurd rfl (this _), by cases x <;> first | rfl | exact absurd rfl (this _)⟩

/-- The interrupt status of other threads, and of the own one except for waiting. -/
theorem exec_intr {o : Op} {w : World} {u : Tid} (h : u ≠ t ∨ ∀ n, o ≠ .await n) (hu : w.intr u = true) :
    (exec t o w).2.intr u = true := by
  cases o <;> simp only [exec] <;> (repeat' split) <;> simp_all [World.log, fset]

theorem since_exec {o : Op} {w : World} {u : Tid} : since a u (exec t o w).2.trace =
    match opObs o w with | none => since a u w.trace | some x => sinceStep a u (since a u w.trace) (t, x) := by
  rw [exec_trace]
  cases opObs o w with
  | none => simp
  | some x => simp [since_snoc]

theorem invariant : OInvariant (proto a env) (Inv a) where
  op lst w t o h ha he := by
    intro u
    by_cases hu : u = t
    · subst hu
      obtain ⟨h1, h2⟩ := h u
      have ha : allowed (lst u) o := ha
      rw [since_exec]
      simp only [fset_same]
      show _ ∧ (nxt a u (lst u) o w = .set → _)
      refine And.symm ⟨fun hs => ?_, fun hs => show nxt a u (lst u) o w ≠ .idle from ?_⟩
      · by_cases hset : o = .setIntr
        · subst hset; simp [exec]
        · have hl : lst u = .set := by
            unfold nxt at hs
            split at hs
            next x l => split at hs; cases hs; split at hs; cases hs; exact hs
            · exact absurd rfl hset
            · exact hs
          rw [hl] at ha
          exact exec_intr (Or.inr ha) (h2 hl)
      · by_cases hem : ∃ y, o = .emit y
        · obtain ⟨y, rfl⟩ := hem
          simp only [opObs, sinceStep, if_true] at hs
          simp only [nxt]
          split
          · intro h; cases h
          next hn =>
            rw [if_neg hn] at hs
            split
            next hr => rw [if_pos hr] at hs; cases hs
            next hr => rw [if_neg hr] at hs; exact h1 hs
        · have hs' : since a u w.trace = true := by
            cases hx : opObs o w with
            | none => rw [hx] at hs; exact hs
            | some x =>
              rw [hx] at hs
              have := obs_quiet (a := a) hx (fun y hy => hem ⟨y, hy⟩)
              simpa [sinceStep, this.1, this.2] using hs
          have hl := h1 hs'
          unfold nxt
          split
          · exact absurd ⟨_, rfl⟩ hem
          · intro h; cases h
          · exact hl
    · obtain ⟨h1, h2⟩ := h u
      rw [fset_ne _ _ hu]
      refine ⟨fun hs => h1 ?_, fun hs => exec_intr (Or.inl hu) (h2 hs)⟩
      rw [since_exec] at hs
      cases hx : opObs o w with
      | none => rw [hx] at hs; exact hs
      | some x => rw [hx] at hs; simpa [sinceStep, Ne.symm hu] using hs
  thr lst w t x h := h.of_eq (fun u => by simp [World.log, since_snoc, sinceStep, intrObs, retObs]) fun _ h => h
  dispatch lst w e q h := h
  interrupt lst w t h := h.of_eq (fun _ => rfl) fun u hu => by
    by_cases hut : u = t
    · simp [fset, hut]
    · simp [fset, hut, hu]
  shutdown lst w e h := h
  dropTasks lst w e h := h.of_eq (fun u => by
    simp only [World.dropTasks]
    generalize w.tasks e = q
    unfold since
    rw [List.foldl_append]
    generalize List.foldl (sinceStep a u) false w.trace = b
    induction q generalizing b with
    | nil => rfl
    | cons x q ih =>
      simp only [List.map_cons, List.foldl_cons]
      rw [show sinceStep a u b (_, _) = b by simp [sinceStep, intrObs, retObs]]
      exact ih b) fun _ h => h

end Flag

/-- C70: when `start()` returns, normally or with an exception, after its waiting was interrupted, the interrupt status of the calling
thread is set. -/
theorem C70_restored (ha : a.Wired env) (h0 : Initial c0) (hr : Execution a env c0 c) {x : Choice} (hs : step env c x = some c')
    {pre mid : List (Tid × Obs)} {r : Option Exc} (hc : c.w.trace = pre ++ (t, .user (.intr a.id)) :: mid)
    (hm : ∀ r, (t, Obs.user (.appRet a.id .start r)) ∉ mid)
    (hc' : c'.w.trace = c.w.trace ++ [(t, .user (.appRet a.id .start r))]) : c'.w.intr t = true := by
  obtain ⟨xs, hx, hr⟩ := hr
  obtain ⟨lst, hth, hI⟩ := osound (Flag.checked ha) Flag.invariant hx (lst := fun _ => .idle) (fun t => by rw [h0.idle t])
    (show Flag.Inv a _ c0.w from fun t => ⟨fun h => (by rw [h0.trace] at h; cases h), fun h => (by cases h)⟩) hr
  have hset := (hI t).1 (by rw [hc]; exact Flag.since_of hm)
  have same : ∀ {w : World}, w.trace = c.w.trace → w.trace ≠ c.w.trace ++ [(t, .user (.appRet a.id .start r))] := by
    intro w h h'; rw [h] at h'; simp at h'
  cases x with
  | begin n u =>
    simp only [step] at hs; split at hs <;> cases hs
    exact absurd hc' (same rfl)
  | run u =>
    simp only [step] at hs
    split at hs
    · cases hs
    next p hp =>
      have hok := hth u
      rw [hp] at hok
      cases p with
      | ret a => cases hs; exact absurd hc' (same rfl)
      | thr x => cases hs; simp [World.log] at hc'
      | op o k =>
        simp only [runThread] at hs
        split at hs <;> cases hs
        simp only at hc' ⊢
        rw [exec_trace] at hc'
        cases hob : opObs o c.w with
        | none => rw [hob] at hc'; simp at hc'
        | some y =>
          rw [hob] at hc'
          simp at hc'
          obtain ⟨rfl, rfl⟩ := hc'
          have hem : ∃ y, o = .emit y := Classical.byContradiction fun h => by
            have := (Flag.obs_quiet (a := a) hob fun y hy => h ⟨y, hy⟩).2
            simp [Flag.retObs] at this
          obtain ⟨y, rfl⟩ := hem
          have hal : Flag.allowed (lst u) (.emit y) := hok.1
          have hl : lst u = .set := by
            cases hlu : lst u with
            | idle => exact absurd hlu hset
            | noted => rw [hlu] at hal; cases hal
            | set => rfl
          exact Flag.exec_intr (Or.inr fun n h => by cases h) ((hI u).2 hl)
      | call f k => cases hs; exact absurd hc' (same rfl)
  | dispatch e i j =>
    simp only [step] at hs
    split at hs
    · split at hs <;> cases hs
      exact absurd hc' (same rfl)
    · cases hs
  | interrupt u => cases hs; exact absurd hc' (same rfl)
  | shutdown e now =>
    cases hs
    cases now with
    | false => exact absurd hc' (same rfl)
    | true =>
      exfalso
      simp only [if_true, World.dropTasks] at hc'
      have := List.append_cancel_left hc'
      cases hq : c.w.tasks e with
      | nil => rw [hq] at this; cases this
      | cons y q => rw [hq] at this; simp at this

namespace Demo

/-- `start()` has been interrupted and is about to return. -/
def returning : Conf := drive (appEnv (app true calmSub)) appConf
  (thenCall (app true calmSub) 0 .start ++ [.interrupt (.client 0)] ++ runN (.client 0) 18)

theorem returning_exec : Execution (app true calmSub) (appEnv (app true calmSub)) appConf returning :=
  drive_execution fun x hx => by
    simp only [List.mem_append, List.mem_singleton] at hx
    rcases hx with (hx | rfl) | hx
    all_goals first | exact thenCall_within _ _ _ hx | exact runN_within _ _ _ hx | trivial

def returned : Conf := (step (appEnv (app true calmSub)) returning (.run (.client 0))).getD returning

theorem returning_step : step (appEnv (app true calmSub)) returning (.run (.client 0)) = some returned := by
  have h : (step (appEnv (app true calmSub)) returning (.run (.client 0))).isSome = true := by decide +kernel
  unfold returned
  cases hs : step (appEnv (app true calmSub)) returning (.run (.client 0)) with
  | none => rw [hs] at h; cases h
  | some c => rfl

end Demo

open Demo in
example : returned.w.intr (.client 0) = true :=
  C70_restored (calm_wired true) appConf_initial returning_exec returning_step (t := .client 0) (pre := returning.w.trace.take 32)
    (mid := returning.w.trace.drop 33) (r := none) (by decide +kernel)
    (fun r hm => by
      have h : (returning.w.trace.drop 33).all (fun e => match e.2 with | .user (.appRet _ .start _) => false | _ => true) = true := by
        decide +kernel
      have := List.all_eq_true.1 h _ hm
      cases this) (by decide +kernel)

end Verif
