import Verif.Model.Open
import Verif.Proofs.Meddle
/-
Calls of updateCurrentState() from outside are weak reads of currentState.
-/

namespace Verif.Open
open Verif.Meddle Verif.Plain Spec.Meddle Spec.HB

theorem cur_exec {t : Tid} {o : Op} {w w' : World} (h : CurSim w w') (ho : ∀ m, o ≠ .getCur m) :
    (exec t o w').1 = (exec t o w).1 ∧ CurSim (exec t o w).2 (exec t o w').2 := by
  obtain ⟨mach, rfl, hm⟩ := h
  have hf : ∀ m (f : Mach → Mach) (g : Mach → Mach), (∀ x y : Mach, x.started = y.started → x.ended = y.ended → x.listener = y.listener →
      (f x).started = (g y).started ∧ (f x).ended = (g y).ended ∧ (f x).listener = (g y).listener) → ∀ m', (fset mach m (f (mach m)) m').started =
      (fset w.mach m (g (w.mach m)) m').started ∧ (fset mach m (f (mach m)) m').ended = (fset w.mach m (g (w.mach m)) m').ended ∧
      (fset mach m (f (mach m)) m').listener = (fset w.mach m (g (w.mach m)) m').listener := by
    intro m f g hfg m'
    by_cases h : m' = m
    · subst h; simpa using hfg _ _ (hm m').1 (hm m').2.1 (hm m').2.2
    · simpa [fset_ne _ _ h] using hm m'
  cases o
  case getCur m => exact absurd rfl (ho m)
  case casStarted m =>
    simp only [exec, (hm m).1]
    split
    · exact ⟨rfl, mach, rfl, hm⟩
    · exact ⟨rfl, _, rfl, hf m (fun x => { x with started := true }) (fun x => { x with started := true }) fun _ _ _ h2 h3 => ⟨rfl, h2, h3⟩⟩
  case casEnded m s b a =>
    simp only [exec, (hm m).2.1]
    split
    · exact ⟨rfl, mach, rfl, hm⟩
    · exact ⟨rfl, _, rfl, hf m (fun x => { x with ended := b }) (fun x => { x with ended := b }) fun _ _ h1 _ h3 => ⟨h1, rfl, h3⟩⟩
  case clearEnded m =>
    exact ⟨rfl, _, rfl, hf m (fun x => { x with ended := false }) (fun x => { x with ended := false }) fun _ _ h1 _ h3 => ⟨h1, rfl, h3⟩⟩
  case setCur m s a =>
    exact ⟨rfl, _, rfl, hf m (fun x => { x with cur := some s }) (fun x => { x with cur := some s }) fun _ _ h1 h2 h3 => ⟨h1, h2, h3⟩⟩
  case setListener m l =>
    exact ⟨rfl, _, rfl, hf m (fun x => { x with listener := l }) (fun x => { x with listener := l }) fun _ _ h1 h2 _ => ⟨h1, h2, rfl⟩⟩
  case getStarted m => exact ⟨(hm m).1, mach, rfl, hm⟩
  case getEnded m => exact ⟨(hm m).2.1, mach, rfl, hm⟩
  case getListener m => exact ⟨(hm m).2.2, mach, rfl, hm⟩
  case notify m c =>
    simp only [exec, (hm m).2.2]
    split <;> exact ⟨rfl, mach, rfl, hm⟩
  all_goals
    simp only [exec]
    (repeat' split) <;> first | exact ⟨rfl, mach, rfl, hm⟩ | exact ⟨mach, rfl, hm⟩ | exact ⟨trivial, ⟨mach, rfl, hm⟩⟩

/-- The same threads, and the same memory except for currentState. -/
structure Same (c d : Conf) : Prop where
  thr : d.thr = c.thr
  w : CurSim c.w d.w

theorem sched_same {env : Env} {c c' d : Conf} {x : Choice} (h : Same c d) (hs : Verif.step env c x = some c') :
    ∃ y d', Plain.step env (onlyCur fun _ => True) d y = some d' ∧ Same c' d' := by
  obtain ⟨dw, dt⟩ := d
  obtain ⟨ht, hw⟩ := h
  simp only at ht hw
  subst ht
  have hw' := hw
  obtain ⟨mach, rfl, hm⟩ := hw'
  cases x with
  | begin n u =>
    simp only [Verif.step] at hs
    split at hs
    · cases hs
    next hn => cases hs; exact ⟨.sched (.begin n u), ⟨{ c.w with mach := mach }, fset c.thr (.client n) (some (u.denote env))⟩, by simp only [Plain.step, Verif.step, hn], rfl, hw⟩
  | run t =>
    simp only [Verif.step] at hs
    split at hs
    · cases hs
    next p hp =>
      cases p with
      | ret a => cases hs; exact ⟨.sched (.run t), ⟨{ c.w with mach := mach }, fset c.thr t none⟩, by simp only [Plain.step, Verif.step, hp]; rfl, rfl, hw⟩
      | thr x => cases hs; exact ⟨.sched (.run t), ⟨({ c.w with mach := mach } : World).log t (.uncaught x), fset c.thr t none⟩, by simp only [Plain.step, Verif.step, hp]; rfl, rfl, mach, rfl, hm⟩
      | call f k => cases hs; exact ⟨.sched (.run t), ⟨{ c.w with mach := mach }, fset c.thr t (some ((body env f).handle k))⟩, by simp only [Plain.step, Verif.step, hp]; rfl, rfl, hw⟩
      | op o k =>
        simp only [runThread] at hs
        split at hs
        next he =>
          cases hs
          by_cases ho : ∃ m, o = .getCur m
          · obtain ⟨m, rfl⟩ := ho
            exact ⟨.read t (.state (c.w.mach m).cur), ⟨{ c.w with mach := mach }, fset c.thr t (some (k (c.w.mach m).cur))⟩, by simp only [Plain.step, hp, source, onlyCur, execRead, Option.map_some]; exact if_pos trivial, rfl, hw⟩
          · obtain ⟨h1, h2⟩ := cur_exec (t := t) hw fun m hm => ho ⟨m, hm⟩
            have he' : enabled t o { c.w with mach := mach } = true := by cases o <;> first | rfl | exact he
            exact ⟨.sched (.run t), ⟨(exec t o { c.w with mach := mach }).2, fset c.thr t (some (k (exec t o { c.w with mach := mach }).1))⟩, by simp only [Plain.step, Verif.step, hp, runThread, he', if_true], by simp only [h1], h2⟩
        · cases hs
  | dispatch e i j =>
    simp only [Verif.step] at hs
    split at hs
    next hl =>
      split at hs
      next s m h1 h2 =>
        cases hs
        exact ⟨.sched (.dispatch e i j), ⟨{ c.w with mach := mach, tasks := fset c.w.tasks e ((c.w.tasks e).eraseIdx j) }, fset c.thr (.worker e i) (some (drain env s m))⟩,
          by simp only [Plain.step, Verif.step, hl, if_true, h1, h2], rfl, mach, rfl, hm⟩
      · cases hs
    · cases hs
  | interrupt t => cases hs; exact ⟨.sched (.interrupt t), _, rfl, rfl, mach, rfl, hm⟩
  | shutdown e now =>
    cases hs
    refine ⟨.sched (.shutdown e now), _, rfl, rfl, ?_⟩
    cases now <;> exact ⟨mach, rfl, hm⟩

theorem open_sim {env : Env} {c c' : OConf} {xs : List OChoice} {d : Conf} (h : Same c.conf d) (hr : runs env c xs = some c') :
    ∃ ys d', Plain.runs env (onlyCur fun _ => True) d ys = some d' ∧ Same c'.conf d' := by
  induction xs generalizing c d with
  | nil => cases hr; exact ⟨[], d, rfl, h⟩
  | cons x xs ih =>
    simp only [runs] at hr
    split at hr
    · cases hr
    next c1 h1 =>
      cases x with
      | sched x =>
        simp only [step] at h1
        obtain ⟨e, he, rfl⟩ := Option.map_eq_some_iff.1 h1
        obtain ⟨y, d1, h2, h3⟩ := sched_same h he
        obtain ⟨ys, d', h4, h5⟩ := ih h3 hr
        exact ⟨y :: ys, d', by simp only [Plain.runs, h2, h4], h5⟩
      | enter i m s =>
        refine ih ?_ hr
        simp only [step] at h1
        split at h1
        · cases h1
        · split at h1
          · cases h1
          · split at h1 <;> cases h1 <;> exact h
      | write i =>
        refine ih ?_ hr
        simp only [step] at h1
        split at h1
        · cases h1
        next m s hc =>
          cases h1
          obtain ⟨mach, hw, hm⟩ := h.w
          refine ⟨h.thr, mach, hw, fun m' => ?_⟩
          by_cases hmm : m' = m
          · subst hmm; simpa using hm m'
          · simpa [fset_ne _ _ hmm] using hm m'

end Verif.Open
