import Verif.Proofs.LiveDone
/-
API calls do not wait for other threads: `C63`.
-/

namespace Verif.Wait
open Spec Prog

/-- How an operation of thread `t` with result `r` changes the number of open callbacks and API calls. -/
def bump : (o : Op) → o.Res → Nat × Nat → Nat × Nat
  | .emit (.cb _), _, s => (s.1 + 1, s.2)
  | .emit (.cbRet ..), _, s => (s.1 - 1, s.2)
  | .emit (.enter _), _, s => (s.1, s.2 + 1)
  | .emit (.leave ..), _, s => (s.1, s.2 - 1)
  | .notify .., r, s => if r.isSome then (s.1 + 1, s.2) else s
  | _, _, s => s

theorem level_append (t : Tid) (a : List (Tid × Obs)) (e : Tid × Obs) : level t (a ++ [e]) = levelStep t (level t a) e := by
  simp [level]

theorem level_exec (t : Tid) (o : Op) (w : World) : level t (exec t o w).2.trace = bump o (exec t o w).1 (level t w.trace) := by
  cases o
  case emit x => cases x <;> simp [exec, bump, World.log, level_append, levelStep]
  case notify m c =>
    cases h : (w.mach m).listener <;> simp [exec, bump, h, World.log, level_append, levelStep]
  all_goals simp only [exec, bump]
  all_goals (try split) <;> (try split) <;> simp_all [World.log, level_append, levelStep]

theorem level_other (t u : Tid) (h : u ≠ t) (o : Op) (w : World) : level t (exec u o w).2.trace = level t w.trace := by
  rw [exec_trace]
  cases opObs o w with
  | none => simp
  | some x => simp [level_append, levelStep, h]

variable {α β : Type}

/-- From level `s`, the program comes back to level `e`, and never falls below it. -/
def Bal (e : Nat × Nat) : Nat × Nat → Prog α → Prop
  | s, .ret _ => s = e
  | s, .thr _ => s = e
  | s, .op o k => ∀ r, e.1 ≤ (bump o r s).1 ∧ e.2 ≤ (bump o r s).2 ∧ Bal e (bump o r s) (k r)
  | s, .call _ k => ∀ r, Bal e s (k r)

/-- Operations of the library within an API call: no waiting, no calls or returns of other API methods, nothing that user code does. -/
def plain : Op → Bool
  | .await _ | .emit (.enter _) | .emit (.leave ..) | .emit (.user _) => false
  | _ => true

/-- Moreover, the program never waits, and calls only user code, as a callback. -/
def Calm (e : Nat × Nat) : Nat × Nat → Prog α → Prop
  | s, .ret _ => s = e
  | s, .thr _ => s = e
  | s, .op o k => plain o = true ∧ ∀ r, e.1 ≤ (bump o r s).1 ∧ e.2 ≤ (bump o r s).2 ∧ Calm e (bump o r s) (k r)
  | s, .call _ k => e.1 < s.1 ∧ ∀ r, Calm e s (k r)

theorem Calm.bal {e s : Nat × Nat} {p : Prog α} (h : Calm e s p) : Bal e s p := by
  induction p generalizing s with
  | ret a => exact h
  | thr x => exact h
  | op o k ih => exact fun r => ⟨(h.2 r).1, (h.2 r).2.1, ih r (h.2 r).2.2⟩
  | call c k ih => exact fun r => ih r (h.2 r)

theorem Bal.handle' {e e' s : Nat × Nat} {p : Prog α} {f : Except Exc α → Prog β} (h1 : e'.1 ≤ e.1) (h2 : e'.2 ≤ e.2)
    (h : Bal e s p) (hf : ∀ r, Bal e' e (f r)) : Bal e' s (p.handle f) := by
  induction p generalizing s with
  | ret a => cases h; exact hf _
  | thr x => cases h; exact hf _
  | op o k ih => exact fun r => ⟨Nat.le_trans h1 (h r).1, Nat.le_trans h2 (h r).2.1, ih r (h r).2.2⟩
  | call c k ih => exact fun r => ih r (h r)

theorem Bal.handle {e s : Nat × Nat} {p : Prog α} {f : Except Exc α → Prog β} (h : Bal e s p) (hf : ∀ r, Bal e e (f r)) :
    Bal e s (p.handle f) := h.handle' (Nat.le_refl _) (Nat.le_refl _) hf

theorem Calm.handle {e s : Nat × Nat} {p : Prog α} {f : Except Exc α → Prog β} (h : Calm e s p) (hf : ∀ r, Calm e e (f r)) :
    Calm e s (p.handle f) := by
  induction p generalizing s with
  | ret a => cases h; exact hf _
  | thr x => cases h; exact hf _
  | op o k ih => exact ⟨h.1, fun r => ⟨(h.2 r).1, (h.2 r).2.1, ih r (h.2 r).2.2⟩⟩
  | call c k ih => exact ⟨h.1, fun r => ih r (h.2 r)⟩

theorem Bal.bind {e s : Nat × Nat} {p : Prog α} {f : α → Prog β} (h : Bal e s p) (hf : ∀ a, Bal e e (f a)) : Bal e s (p >>= f) :=
  h.handle fun r => by cases r with | ok a => exact hf a | error x => rfl

theorem Calm.bind {e s : Nat × Nat} {p : Prog α} {f : α → Prog β} (h : Calm e s p) (hf : ∀ a, Calm e e (f a)) :
    Calm e s (p >>= f) :=
  h.handle fun r => by cases r with | ok a => exact hf a | error x => rfl

theorem Calm.attempt {e s : Nat × Nat} {p : Prog α} (h : Calm e s p) : Calm e s p.attempt := h.handle fun _ => rfl

/-- An operation that does not concern callbacks, calls, latches. -/
theorem calm_lift {e : Nat × Nat} {o : Op} (h : plain o = true) (hb : ∀ r s, bump o r s = s) : Calm e e (lift o) :=
  ⟨h, fun r => by rw [hb]; exact ⟨Nat.le_refl _, Nat.le_refl _, rfl⟩⟩

theorem calm_ofExcept {e : Nat × Nat} (r : Except Exc α) : Calm e e (ofExcept r) := by cases r <;> rfl

theorem calm_deref {e : Nat × Nat} (a : Option α) : Calm e e (deref a) := by cases a <;> rfl

theorem calm_userCall {e : Nat × Nat} (c : Cb) (f : Call) : Calm e (e.1 + 1, e.2) (userCall c f) := by
  refine ⟨Nat.lt_succ_self _, fun r => ?_⟩
  cases r <;> exact ⟨rfl, fun r => ⟨by simp [bump], by simp [bump], rfl⟩⟩

theorem calm_callback {e : Nat × Nat} (c : Cb) (f : Call) : Calm e e (callback c f) :=
  ⟨rfl, fun _ => ⟨by simp [bump], by simp [bump], calm_userCall c f⟩⟩

variable (env : Env)

theorem calm_notifyListener {e : Nat × Nat} (m : MId) (b : Bool) (f : Option St) (ev : Ev) (t : Option St) :
    Calm e e (notifyListener env m b f ev t) := by
  unfold notifyListener
  refine .bind (calm_lift rfl (fun _ _ => rfl)) fun l => ?_
  split
  · refine ⟨rfl, fun r => ?_⟩
    cases r with
    | none => exact ⟨by simp [bump], by simp [bump], rfl⟩
    | some l => exact ⟨by simp [bump], by simp [bump], calm_userCall _ _⟩
  · rfl

theorem calm_runActs {e : Nat × Nat} (m : MId) (k : Kind) (oid : Nat) (ev : Ev) (i n : Nat) : Calm e e (runActs m k oid ev i n) := by
  induction n generalizing i with
  | zero => rfl
  | succ n ih => exact .bind (calm_callback _ _) fun _ => ih _

theorem calm_update {e : Nat × Nat} (m : MId) (s : St) (b : Bool) : Calm e e (updateCurrentState env m s b) := by
  unfold updateCurrentState
  refine .bind (calm_lift rfl (fun _ _ => rfl)) fun x => ?_
  split
  · exact calm_lift rfl (fun _ _ => rfl)
  · rfl

theorem calm_execute {e : Nat × Nat} (s : SId) (ev : Ev) (m : MId) : Calm e e (execute env s ev m) := by
  unfold execute
  refine .bind (calm_lift rfl (fun _ _ => rfl)) fun c => .bind (calm_deref _) fun row => ?_
  split
  · exact calm_callback _ _
  · split
    · refine .bind (calm_lift rfl (fun _ _ => rfl)) fun c => .bind (calm_notifyListener env ..) fun _ => ?_
      exact .bind (calm_lift rfl (fun _ _ => rfl)) fun c => calm_notifyListener env ..
    · refine .bind (calm_lift rfl (fun _ _ => rfl)) fun c => .bind (calm_notifyListener env ..) fun _ => ?_
      refine .bind (calm_lift rfl (fun _ _ => rfl)) fun c => .bind (calm_deref _) fun _ => .bind (calm_runActs ..) fun _ => ?_
      refine .bind (calm_update env ..) fun _ => ?_
      refine .bind (calm_lift rfl (fun _ _ => rfl)) fun c => .bind (calm_deref _) fun _ => .bind (calm_runActs ..) fun _ => ?_
      refine .bind (calm_notifyListener env ..) fun _ => ?_
      split
      · exact calm_update env ..
      · rfl

theorem calm_processOne {e : Nat × Nat} (s : SId) (cm : MId) (p : PairId) (ev : Ev) (m : MId) : Calm e e (processOne env s cm p ev m) := by
  unfold processOne
  refine .bind (Calm.attempt (.bind (calm_lift rfl (fun _ _ => rfl)) fun b => ?_)) fun r => ?_
  · split
    · exact calm_execute env ..
    · rfl
  · have hk : ∀ r : Except Exc Unit, Calm e e (lift (.poolGive s p) >>= fun _ => ofExcept r) :=
      fun r => .bind (calm_lift rfl (fun _ _ => rfl)) fun _ => calm_ofExcept _
    simp only
    split
    · exact hk _
    · split
      · exact .bind (Calm.attempt (calm_callback ..)) fun r => hk r
      · exact hk _

theorem calm_anyEqual {e : Nat × Nat} (ev : Ev) (ps : List PairId) : Calm e e (anyEqual ev ps) := by
  induction ps with
  | nil => rfl
  | cons p ps ih =>
    refine .bind (calm_lift rfl (fun _ _ => rfl)) fun x => .bind (calm_deref _) fun y => ?_
    obtain ⟨a, b⟩ := y
    simp only
    split
    · rfl
    · exact ih

theorem calm_processEventDefault {e : Nat × Nat} (s : SId) (ev : Ev) (m : MId) : Calm e e (processEventDefault env s ev m) := by
  unfold processEventDefault
  refine .bind (calm_lift rfl (fun _ _ => rfl)) fun n => ?_
  split
  · exact calm_callback ..
  · refine .bind (calm_lift rfl (fun _ _ => rfl)) fun p => .bind (calm_lift rfl (fun _ _ => rfl)) fun v => ?_
    have hk : Calm e e (lift (.offer (env.strat s).queue p) >>= fun _ => lift (.submit (env.strat s).exec s m) >>= fun b =>
        if (!b) = true then thr (α := Unit) .rejected else pure ()) :=
      .bind (calm_lift rfl (fun _ _ => rfl)) fun _ => .bind (calm_lift rfl (fun _ _ => rfl)) fun b => by split <;> rfl
    simp only
    split
    · exact .bind (calm_lift rfl (fun _ _ => rfl)) fun _ => .bind (calm_lift rfl (fun _ _ => rfl)) fun _ => hk
    · exact .bind (calm_lift rfl (fun _ _ => rfl)) fun _ => hk

theorem calm_processEvent {e : Nat × Nat} (s : SId) (ev : Ev) (m : MId) : Calm e e (processEvent env s ev m) := by
  unfold processEvent
  split
  · refine .bind (calm_lift rfl (fun _ _ => rfl)) fun ps => .bind (calm_anyEqual ..) fun b => ?_
    split
    · exact calm_lift rfl (fun _ _ => rfl)
    · exact calm_processEventDefault env ..
  · exact calm_processEventDefault env ..

theorem calm_fire {e : Nat × Nat} (m : MId) (ev : Ev) : Calm e e (fire env m ev) := by
  unfold fire
  refine .bind (calm_lift rfl (fun _ _ => rfl)) fun b => ?_
  split
  · exact calm_callback ..
  · refine .bind (calm_lift rfl (fun _ _ => rfl)) fun b => ?_
    have hk : ∀ x : Bool, Calm e e (if x = true then callback (.flowAfter m ev) (.flowAfter (env.mach m).strat ev m)
        else processEvent env (env.mach m).strat ev m) := by
      intro x
      split
      · exact calm_callback ..
      · exact calm_processEvent env ..
    simp only
    split
    · exact .bind (calm_lift rfl (fun _ _ => rfl)) fun x => hk x
    · exact hk false

theorem calm_start {e : Nat × Nat} (m : MId) : Calm e e (start env m) := by
  unfold start
  simp only
  split
  · rfl
  · rfl
  · refine .bind (calm_lift rfl (fun _ _ => rfl)) fun b => ?_
    split
    · refine .bind (calm_lift rfl (fun _ _ => rfl)) fun _ => .bind (calm_notifyListener env ..) fun _ => ?_
      exact .bind (calm_runActs ..) fun _ => .bind (calm_notifyListener env ..) fun _ => calm_lift rfl (fun _ _ => rfl)
    · rfl

theorem calm_startInState {e : Nat × Nat} (m : MId) (s : Option St) : Calm e e (startInState env m s) := by
  unfold startInState
  split
  · refine .bind (calm_lift rfl (fun _ _ => rfl)) fun b => ?_
    split
    · exact .bind (calm_lift rfl (fun _ _ => rfl)) fun _ => calm_lift rfl (fun _ _ => rfl)
    · rfl
  · rfl

/-- The code of an API method. -/
def code : Api → Prog Unit
  | .fire m ev => fire env m ev
  | .stop m => stop env m true
  | .start m => start env m
  | .startInState m s => startInState env m s

theorem calm_code {e : Nat × Nat} (k : Api) : Calm e e (code env k) := by
  cases k with
  | fire m ev => exact calm_fire env m ev
  | stop m => exact calm_update env ..
  | start m => exact calm_start env m
  | startInState m s => exact calm_startInState env m s

theorem handle_handle {γ : Type} (p : Prog α) (f : Except Exc α → Prog β) (g : Except Exc β → Prog γ) :
    (p.handle f).handle g = p.handle fun r => (f r).handle g := by
  induction p with
  | ret a => rfl
  | thr x => rfl
  | op o k ih => simp only [Prog.handle, ih]
  | call c k ih => simp only [Prog.handle, ih]

theorem api_eq (k : Api) (p : Prog Unit) :
    api k p = .op (.emit (.enter k)) fun _ => p.handle fun r => .op (.emit (.leave k (outcome r))) fun _ => .ret r := by
  show Prog.op _ (fun _ => (p.attempt).handle _) = _
  simp only [Prog.attempt, handle_handle]
  rfl

theorem bal_api {e : Nat × Nat} (k : Api) : Bal e e (api k (code env k)) := by
  rw [api_eq]
  intro _
  refine ⟨Nat.le_refl _, Nat.le_succ _, ?_⟩
  exact Bal.handle' (e := (e.1, e.2 + 1)) (Nat.le_refl _) (Nat.le_succ _) (calm_code env k).bal fun r _ =>
    ⟨by simp [bump], by simp [bump], rfl⟩

/-- Every API call in the program is the code of the method, followed by the return. -/
def enters : (o : Op) → (o.Res → Prog α) → Prop
  | .emit (.enter a), k => ∃ f : Except Exc Unit → Unit → Prog α,
      k () = (code env a).handle fun r => .op (.emit (.leave a (outcome r))) (f r)
  | _, _ => True

def Apis : Prog α → Prop
  | .ret _ | .thr _ => True
  | .op o k => enters env o k ∧ ∀ r, Apis (k r)
  | .call _ k => ∀ r, Apis (k r)

variable {env}

theorem Apis.handle {p : Prog α} {f : Except Exc α → Prog β} (h : Apis env p) (hf : ∀ r, Apis env (f r)) : Apis env (p.handle f) := by
  induction p with
  | ret a => exact hf _
  | thr x => exact hf _
  | op o k ih =>
    refine ⟨?_, fun r => ih r (h.2 r)⟩
    have h1 := h.1
    by_cases ho : ∃ a, o = .emit (.enter a)
    · obtain ⟨a, rfl⟩ := ho
      obtain ⟨g, h1⟩ := h1
      exact ⟨fun r u => (g r u).handle f, by simp only [h1, handle_handle]; rfl⟩
    · unfold enters
      split
      · exact absurd ⟨_, rfl⟩ ho
      · trivial
  | call c k ih => exact fun r => ih r (h r)

theorem Calm.apis {e s : Nat × Nat} {p : Prog α} (h : Calm e s p) : Apis env p := by
  induction p generalizing s with
  | ret a => trivial
  | thr x => trivial
  | op o k ih =>
    refine ⟨?_, fun r => ih r (h.2 r).2.2⟩
    have h1 := h.1
    unfold enters
    split
    · cases h1
    · trivial
  | call c k ih => exact fun r => ih r (h.2 r)

theorem apis_api (k : Api) : Apis env (api k (code env k)) := by
  rw [api_eq]
  refine ⟨⟨_, rfl⟩, fun _ => ?_⟩
  exact Apis.handle (calm_code env k (e := (0, 0))).apis fun r => ⟨trivial, fun _ => trivial⟩

variable (env)

theorem good_prog {e : Nat × Nat} (u : UCall) : Bal e e (u.prog env) ∧ Apis env (u.prog env) := by
  have hl : ∀ o : Op, (∀ r s, bump o r s = s) → (∀ a, o ≠ .emit (.enter a)) → Bal e e (lift o) ∧ Apis env (lift o) := by
    intro o h1 h2
    refine ⟨fun r => by rw [h1]; exact ⟨Nat.le_refl _, Nat.le_refl _, rfl⟩, ?_, fun _ => trivial⟩
    unfold enters
    split
    · exact absurd rfl (h2 _)
    · trivial
  cases u with
  | fire m ev => exact ⟨bal_api env (.fire m ev), apis_api (.fire m ev)⟩
  | stop m => exact ⟨bal_api env (.stop m), apis_api (.stop m)⟩
  | start m => exact ⟨bal_api env (.start m), apis_api (.start m)⟩
  | startInState m s => exact ⟨bal_api env (.startInState m s), apis_api (.startInState m s)⟩
  | proc i => exact ⟨fun r => by cases r <;> rfl, fun r => by cases r <;> trivial⟩
  | _ => exact hl _ (fun _ _ => rfl) (by simp)

theorem good_denote {e : Nat × Nat} (u : UProg) : Bal e e (u.denote env) ∧ Apis env (u.denote env) := by
  induction u with
  | done => exact ⟨rfl, trivial⟩
  | thr x => exact ⟨rfl, trivial⟩
  | call u k ih =>
    have h := good_prog env (e := e) u
    exact ⟨h.1.bind fun r => (ih r).1, h.2.handle fun r => by cases r with | ok a => exact (ih a).2 | error x => trivial⟩

theorem good_drain {e : Nat × Nat} (s : SId) (cm : MId) : Bal e e (drain env s cm) ∧ Apis env (drain env s cm) := by
  have hp := fun p ev m => calm_processOne env (e := e) s cm p ev m
  unfold drain
  refine ⟨.bind (calm_lift rfl (fun _ _ => rfl)).bal fun b => ?_, Apis.handle ⟨trivial, fun _ => trivial⟩ fun b => ?_⟩
  · split
    · rfl
    · refine .bind (calm_lift rfl (fun _ _ => rfl)).bal fun p => .bind (calm_deref _).bal fun p => ?_
      refine .bind (calm_lift rfl (fun _ _ => rfl)).bal fun x => .bind (calm_deref _).bal fun x => ?_
      exact .bind (hp _ _ _).bal fun _ => fun r => by cases r <;> rfl
  · cases b with
    | error x => trivial
    | ok b =>
      simp only
      split
      · trivial
      · have hd : ∀ {γ : Type} (a : Option γ), Apis env (deref a) := fun a => by cases a <;> trivial
        refine Apis.handle ⟨trivial, fun _ => trivial⟩ fun p => ?_
        cases p with
        | error x => trivial
        | ok p =>
          refine Apis.handle (hd p) fun p => ?_
          cases p with
          | error x => trivial
          | ok p =>
            refine Apis.handle ⟨trivial, fun _ => trivial⟩ fun x => ?_
            cases x with
            | error x => trivial
            | ok x =>
              refine Apis.handle (hd x) fun x => ?_
              cases x with
              | error x => trivial
              | ok x =>
                refine Apis.handle (hp _ _ _).apis fun x => ?_
                cases x with
                | error x => trivial
                | ok x => exact fun r => by cases r <;> trivial

theorem good_body {e : Nat × Nat} (f : Call) : Bal e e (body env f) ∧ Apis env (body env f) := by
  cases f with
  | action k oid i ev m =>
    simp only [body]
    split
    · exact good_denote env _
    · exact ⟨rfl, trivial⟩
  | drain s m => exact good_drain env s m
  | _ => exact good_denote env _

/-! ### Executions -/

variable {env} (r : Run env)

theorem env_none (i : Nat) : (r.conf i).thr .env = none := by
  induction i with
  | zero => exact r.init.idle _
  | succ i ih =>
    have hn := r.next i
    cases hx : r.pick i with
    | none => rw [hx] at hn; simp only at hn; rw [hn]; exact ih
    | some x =>
      rw [hx] at hn
      simp only at hn
      cases x with
      | begin n u =>
        simp only [step] at hn
        split at hn
        · cases hn
        · have hn := Option.some.inj hn; rw [← hn]; exact ih
      | run u =>
        simp only [step] at hn
        split at hn
        · cases hn
        next q hq =>
          have hu : Tid.env ≠ u := by intro h; subst h; rw [ih] at hq; cases hq
          cases q with
          | ret a => have hn := Option.some.inj hn; rw [← hn]; simp only [fset_ne _ _ hu]; exact ih
          | thr x => have hn := Option.some.inj hn; rw [← hn]; simp only [fset_ne _ _ hu]; exact ih
          | op o k =>
            simp only [runThread] at hn
            split at hn
            · have hn := Option.some.inj hn; rw [← hn]; simp only [fset_ne _ _ hu]; exact ih
            · cases hn
          | call f k => have hn := Option.some.inj hn; rw [← hn]; simp only [fset_ne _ _ hu]; exact ih
      | dispatch e' k' n =>
        simp only [step] at hn
        split at hn
        · split at hn
          · have hn := Option.some.inj hn; rw [← hn]; exact ih
          · cases hn
        · cases hn
      | interrupt u => have hn := Option.some.inj hn; rw [← hn]; exact ih
      | shutdown e now => have hn := Option.some.inj hn; rw [← hn]; exact ih

theorem env_obs (i : Nat) {x : Obs} (h : (Tid.env, x) ∈ (r.conf i).w.trace) : ∃ s m, x = .taskDropped s m := by
  induction i with
  | zero => rw [r.init.trace] at h; cases h
  | succ i ih =>
    have hn := r.next i
    cases hx : r.pick i with
    | none => rw [hx] at hn; simp only at hn; rw [hn] at h; exact ih h
    | some c =>
      rw [hx] at hn
      simp only at hn
      cases c with
      | begin n u =>
        simp only [step] at hn
        split at hn
        · cases hn
        · have hn := Option.some.inj hn; rw [← hn] at h; exact ih h
      | run u =>
        simp only [step] at hn
        split at hn
        · cases hn
        next q hq =>
          have hu : Tid.env ≠ u := by intro h; subst h; rw [env_none r i] at hq; cases hq
          cases q with
          | ret a => have hn := Option.some.inj hn; rw [← hn] at h; exact ih h
          | thr x =>
            have hn := Option.some.inj hn; rw [← hn] at h
            exact ih (by simpa [World.log, hu] using h)
          | op o k =>
            simp only [runThread] at hn
            split at hn
            · have hn := Option.some.inj hn; rw [← hn] at h
              simp only [exec_trace] at h
              cases ho : opObs o (r.conf i).w with
              | none => rw [ho] at h; exact ih (by simpa using h)
              | some y => rw [ho] at h; exact ih (by simpa [hu] using h)
            · cases hn
          | call f k => have hn := Option.some.inj hn; rw [← hn] at h; exact ih h
      | dispatch e' k' n =>
        simp only [step] at hn
        split at hn
        · split at hn
          · have hn := Option.some.inj hn; rw [← hn] at h; exact ih h
          · cases hn
        · cases hn
      | interrupt u => have hn := Option.some.inj hn; rw [← hn] at h; exact ih h
      | shutdown e now =>
        have hn := Option.some.inj hn; rw [← hn] at h
        cases now with
        | false => exact ih h
        | true =>
          simp only [World.dropTasks, if_true] at h
          rcases List.mem_append.1 h with h | h
          · exact ih h
          · obtain ⟨y, _, hy⟩ := List.mem_map.1 h
            cases hy
            exact ⟨_, _, rfl⟩

/-- All programs are well-formed. -/
theorem run_apis (i : Nat) (t : Tid) {p : Prog Unit} (h : (r.conf i).thr t = some p) : Apis env p := by
  induction i generalizing t p with
  | zero => rw [r.init.idle] at h; cases h
  | succ i ih =>
    have hn := r.next i
    have upd : ∀ (u : Tid) (q : Option (Prog Unit)), (∀ q', q = some q' → Apis env q') →
        fset (r.conf i).thr u q t = some p → Apis env p := by
      intro u q h1 h2
      by_cases ht : t = u
      · subst ht; rw [fset_same] at h2; exact h1 p h2
      · rw [fset_ne _ _ ht] at h2; exact ih t h2
    cases hx : r.pick i with
    | none => rw [hx] at hn; simp only at hn; rw [hn] at h; exact ih t h
    | some x =>
      rw [hx] at hn
      simp only at hn
      cases x with
      | begin n u =>
        simp only [step] at hn
        split at hn
        · cases hn
        · have hn := Option.some.inj hn; rw [← hn] at h
          exact upd _ _ (fun q' hq => by cases hq; exact (good_denote env (e := (0, 0)) u).2) h
      | run u =>
        simp only [step] at hn
        split at hn
        · cases hn
        next q hq =>
          have h0 := ih u hq
          cases q with
          | ret a => have hn := Option.some.inj hn; rw [← hn] at h; exact upd _ _ (fun q' hq => by cases hq) h
          | thr x => have hn := Option.some.inj hn; rw [← hn] at h; exact upd _ _ (fun q' hq => by cases hq) h
          | op o k =>
            simp only [runThread] at hn
            split at hn
            · have hn := Option.some.inj hn; rw [← hn] at h
              exact upd _ _ (fun q' hq => by cases hq; exact h0.2 _) h
            · cases hn
          | call f k =>
            have hn := Option.some.inj hn; rw [← hn] at h
            exact upd _ _ (fun q' hq => by cases hq; exact Apis.handle (good_body env (e := (0, 0)) f).2 h0) h
      | dispatch e' k' n =>
        simp only [step] at hn
        split at hn
        · split at hn
          · have hn := Option.some.inj hn; rw [← hn] at h
            exact upd _ _ (fun q' hq => by cases hq; exact (good_drain env (e := (0, 0)) _ _).2) h
          · cases hn
        · cases hn
      | interrupt u => have hn := Option.some.inj hn; rw [← hn] at h; exact ih t h
      | shutdown e now => have hn := Option.some.inj hn; rw [← hn] at h; exact ih t h

theorem level_env {t : Tid} (ht : t ≠ .env) (a ys : List (Tid × Obs)) (h : ∀ y ∈ ys, y.1 = .env) : level t (a ++ ys) = level t a := by
  induction ys generalizing a with
  | nil => simp
  | cons y ys ih =>
    have h1 : level t ((a ++ [y]) ++ ys) = level t (a ++ [y]) := ih _ fun z hz => h z (by simp [hz])
    have h2 : y.1 ≠ t := by rw [h y (by simp)]; exact fun h => ht h.symm
    rw [level_append, levelStep, if_neg h2] at h1
    simpa using h1

/-- A thread that is not picked stays at its level. -/
theorem level_stays (i : Nat) {t : Tid} (ht : t ≠ .env) (h : r.pick i ≠ some (.run t)) :
    level t (r.conf (i + 1)).w.trace = level t (r.conf i).w.trace := by
  obtain ⟨ys, h1, h2⟩ := Course.adds r i
  rw [h1]
  rcases h2 with rfl | ⟨u, x, rfl, h2⟩ | h2
  · simp
  · have hu : u ≠ t := by intro he; subst he; exact h h2
    rw [level_append, levelStep, if_neg hu]
  · exact level_env ht _ _ h2

/-- Every history between two moments is, for one thread, like the history at some moment in between. -/
theorem level_between {t : Tid} (ht : t ≠ .env) {i j : Nat} (hij : i ≤ j) {tr : List (Tid × Obs)} (h1 : (r.conf i).w.trace <+: tr)
    (h2 : tr <+: (r.conf j).w.trace) : ∃ l, i ≤ l ∧ l ≤ j ∧ level t tr = level t (r.conf l).w.trace := by
  obtain ⟨n, rfl⟩ := Nat.le.dest hij
  clear hij
  induction n with
  | zero => exact ⟨i, Nat.le_refl _, Nat.le_refl _, by rw [h1.eq_of_length (Nat.le_antisymm h1.length_le h2.length_le)]⟩
  | succ n ih =>
    obtain ⟨ys, h3, h4⟩ := Course.adds r (i + n)
    rw [← Nat.add_assoc, h3] at h2
    have h2' : tr <+: (r.conf (i + n)).w.trace ∨ ∃ zs, tr = (r.conf (i + n)).w.trace ++ zs ∧ zs <+: ys := by
      obtain ⟨z, hz⟩ := h2
      rcases List.append_eq_append_iff.1 hz with ⟨a, ha, _⟩ | ⟨a, ha, hb⟩
      · exact .inl ⟨a, ha.symm⟩
      · exact .inr ⟨a, ha, z, hb.symm⟩
    rcases h2' with h5 | ⟨zs, rfl, h5⟩
    · obtain ⟨l, a, b, c⟩ := ih h5
      exact ⟨l, a, by omega, c⟩
    · rcases h4 with rfl | ⟨u, x, rfl, h6⟩ | h6
      · exact ⟨i + n, by omega, by omega, by simp [List.prefix_nil.1 h5]⟩
      · cases zs with
        | nil => exact ⟨i + n, by omega, by omega, by simp⟩
        | cons z zs =>
          have h7 : z = (u, x) ∧ zs = [] := by simpa using h5
          obtain ⟨rfl, rfl⟩ := h7
          exact ⟨i + (n + 1), by omega, by omega, by rw [← Nat.add_assoc, h3]⟩
      · exact ⟨i + n, by omega, by omega, level_env ht _ _ fun y hy => h6 y (h5.subset hy)⟩

/-- The thread goes on. -/
theorem goes {t : Tid} (ht : t ≠ .env) (hf : r.fair t) {i : Nat} {p : Prog Unit} (hp : (r.conf i).thr t = some p) (hr : Course.ready p = true) :
    ∃ j, i ≤ j ∧ r.pick j = some (.run t) ∧ (r.conf j).thr t = some p ∧
      ∀ l, i ≤ l → l ≤ j → level t (r.conf l).w.trace = level t (r.conf i).w.trace := by
  obtain ⟨j, h1, h2, _⟩ := Course.goes r hf hp hr
  obtain ⟨k, h3, h4, h5⟩ := Course.first_of (P := fun j => r.pick j = some (.run t)) h1 h2
  refine ⟨k, h3, h4, (Course.stays_until r h3 hp h5).1, fun l hl hk => ?_⟩
  obtain ⟨n, rfl⟩ := Nat.le.dest hl
  clear hl
  induction n with
  | zero => rfl
  | succ n ih => rw [← ih (by omega)]; exact level_stays r (i + n) ht (h5 _ (by omega) (by omega))

theorem step_call {i : Nat} {t : Tid} {f : Call} {k : Except Exc Unit → Prog Unit} (h : r.pick i = some (.run t))
    (hp : (r.conf i).thr t = some (.call f k)) :
    (r.conf (i + 1)).thr t = some ((body env f).handle k) ∧ (r.conf (i + 1)).w = (r.conf i).w := by
  have hn := r.next i
  rw [h] at hn
  simp only [step, hp, runThread] at hn
  have hn := Option.some.inj hn
  rw [← hn]
  exact ⟨fset_same _ _ _, rfl⟩

theorem step_op {i : Nat} {t : Tid} {o : Op} {k : o.Res → Prog Unit} (h : r.pick i = some (.run t))
    (hp : (r.conf i).thr t = some (.op o k)) :
    (r.conf (i + 1)).thr t = some (k (exec t o (r.conf i).w).1) ∧ (r.conf (i + 1)).w = (exec t o (r.conf i).w).2 := by
  have hn := r.next i
  rw [h] at hn
  simp only [step, hp, runThread] at hn
  split at hn
  · have hn := Option.some.inj hn
    rw [← hn]
    exact ⟨fset_same _ _ _, rfl⟩
  · cases hn

/-- A program that is balanced runs for ever above its level, or comes to its end. -/
theorem excursion {t : Tid} (ht : t ≠ .env) {e s : Nat × Nat} {q : Prog α} {K : Except Exc α → Prog Unit} {i : Nat}
    (hp : (r.conf i).thr t = some (q.handle K)) (hb : Bal e s q) (hl : level t (r.conf i).w.trace = s) (h1 : e.1 ≤ s.1) (h2 : e.2 ≤ s.2) :
    (∀ j, i ≤ j → e.1 ≤ (level t (r.conf j).w.trace).1 ∧ e.2 ≤ (level t (r.conf j).w.trace).2) ∨
    ∃ j x, i ≤ j ∧ (r.conf j).thr t = some (K x) ∧ level t (r.conf j).w.trace = e ∧
      ∀ l, i ≤ l → l ≤ j → e.2 ≤ (level t (r.conf l).w.trace).2 := by
  refine Classical.byContradiction fun hn => ?_
  have h3 : ¬ ∃ j x, i ≤ j ∧ (r.conf j).thr t = some (K x) ∧ level t (r.conf j).w.trace = e ∧
      ∀ l, i ≤ l → l ≤ j → e.2 ≤ (level t (r.conf l).w.trace).2 := fun h => hn (.inr h)
  have key : ∀ n, (∃ q' s', (r.conf (i + n)).thr t = some (q'.handle K) ∧ Bal e s' q' ∧ level t (r.conf (i + n)).w.trace = s' ∧
      e.1 ≤ s'.1 ∧ e.2 ≤ s'.2) ∧ ∀ l, i ≤ l → l ≤ i + n → e.2 ≤ (level t (r.conf l).w.trace).2 := by
    intro n
    induction n with
    | zero =>
      refine ⟨⟨q, s, hp, hb, hl, h1, h2⟩, fun l a b => ?_⟩
      have : l = i := by omega
      subst this
      rw [hl]; exact h2
    | succ n ih =>
      obtain ⟨⟨q', s', a1, a2, a3, a4, a5⟩, a6⟩ := ih
      have done : (∃ q' s', (r.conf (i + n + 1)).thr t = some (q'.handle K) ∧ Bal e s' q' ∧ level t (r.conf (i + n + 1)).w.trace = s' ∧
          e.1 ≤ s'.1 ∧ e.2 ≤ s'.2) → (∃ q' s', (r.conf (i + (n + 1))).thr t = some (q'.handle K) ∧ Bal e s' q' ∧
          level t (r.conf (i + (n + 1))).w.trace = s' ∧ e.1 ≤ s'.1 ∧ e.2 ≤ s'.2) ∧
          ∀ l, i ≤ l → l ≤ i + (n + 1) → e.2 ≤ (level t (r.conf l).w.trace).2 := by
        intro h
        refine ⟨h, fun l b1 b2 => ?_⟩
        by_cases hl : l = i + (n + 1)
        · obtain ⟨q', s', _, _, c, _, d⟩ := h
          subst hl
          rw [← Nat.add_assoc, c]; exact d
        · exact a6 l b1 (by omega)
      by_cases hx : r.pick (i + n) = some (.run t)
      · cases q' with
        | ret a => cases a2; exact absurd ⟨i + n, _, by omega, a1, a3, a6⟩ h3
        | thr x => cases a2; exact absurd ⟨i + n, _, by omega, a1, a3, a6⟩ h3
        | op o k =>
          obtain ⟨b1, b2⟩ := step_op r hx a1
          refine done ⟨_, _, b1, (a2 _).2.2, ?_, (a2 _).1, (a2 _).2.1⟩
          rw [b2, level_exec, a3]
        | call f k =>
          obtain ⟨b1, b2⟩ := step_call r hx a1
          rw [← handle_handle] at b1
          refine done ⟨_, s', b1, ?_, by rw [b2]; exact a3, a4, a5⟩
          exact Bal.handle' a4 a5 (good_body env f).1 a2
      · exact done ⟨q', s', (Course.stays r _ a1 hx).1, a2, by rw [level_stays r _ ht hx]; exact a3, a4, a5⟩
  refine hn (.inl fun j hj => ?_)
  obtain ⟨n, rfl⟩ := Nat.le.dest hj
  obtain ⟨⟨_, _, _, _, h, h', h''⟩, _⟩ := key n
  rw [h]
  exact ⟨h', h''⟩

/-- Library code comes to its end, unless the user code it calls hangs. -/
theorem finishes {t : Tid} (ht : t ≠ .env) (hf : r.fair t) {e s : Nat × Nat} {p : Prog α} {K : Except Exc α → Prog Unit} {i : Nat}
    (hc : Calm e s p) (hp : (r.conf i).thr t = some (p.handle K)) (hl : level t (r.conf i).w.trace = s) (h1 : e.1 ≤ s.1) (h2 : e.2 ≤ s.2) :
    (∃ i', ∀ j, i' ≤ j → e.1 < (level t (r.conf j).w.trace).1 ∧ e.2 ≤ (level t (r.conf j).w.trace).2) ∨
    ∃ j x, i ≤ j ∧ (r.conf j).thr t = some (K x) ∧ level t (r.conf j).w.trace = e ∧
      ∀ l, i ≤ l → l ≤ j → e.2 ≤ (level t (r.conf l).w.trace).2 := by
  induction p generalizing i s with
  | ret a =>
    cases hc
    refine .inr ⟨i, _, Nat.le_refl _, hp, hl, fun l a b => ?_⟩
    have : l = i := by omega
    subst this; rw [hl]; exact Nat.le_refl _
  | thr x =>
    cases hc
    refine .inr ⟨i, _, Nat.le_refl _, hp, hl, fun l a b => ?_⟩
    have : l = i := by omega
    subst this; rw [hl]; exact Nat.le_refl _
  | op o k ih =>
    have hr : Course.ready (Prog.handle (.op o k) K) = true := by
      have := hc.1
      cases o <;> first | rfl | cases this
    obtain ⟨j, a1, a2, a3, a4⟩ := goes r ht hf hp hr
    obtain ⟨b1, b2⟩ := step_op r a2 a3
    have hlj : level t (r.conf (j + 1)).w.trace = bump o (exec t o (r.conf j).w).1 s := by
      rw [b2, level_exec, a4 j a1 (Nat.le_refl _), hl]
    rcases ih _ (hc.2 _).2.2 b1 hlj (hc.2 _).1 (hc.2 _).2.1 with h | ⟨j', x, c1, c2, c3, c4⟩
    · exact .inl h
    · refine .inr ⟨j', x, by omega, c2, c3, fun l d1 d2 => ?_⟩
      by_cases hlj : l ≤ j
      · rw [a4 l d1 hlj, hl]; exact h2
      · exact c4 l (by omega) d2
  | call f k ih =>
    obtain ⟨j, a1, a2, a3, a4⟩ := goes r ht hf hp rfl
    obtain ⟨b1, b2⟩ := step_call r a2 a3
    have hlj : level t (r.conf (j + 1)).w.trace = s := by rw [b2, a4 j a1 (Nat.le_refl _), hl]
    rcases excursion r ht b1 (good_body env f (e := s)).1 hlj (Nat.le_refl _) (Nat.le_refl _) with h | ⟨j', x, c1, c2, c3, c4⟩
    · refine .inl ⟨j + 1, fun l hl => ?_⟩
      have := h l hl
      have h0 := hc.1
      exact ⟨by omega, by omega⟩
    · rcases ih x (hc.2 x) c2 c3 h1 h2 with h | ⟨j2, y, d1, d2, d3, d4⟩
      · exact .inl h
      · refine .inr ⟨j2, y, by omega, d2, d3, fun l g1 g2 => ?_⟩
        by_cases hlj : l ≤ j
        · rw [a4 l g1 hlj, hl]; exact h2
        · by_cases hl2 : l ≤ j'
          · exact Nat.le_trans h2 (c4 l (by omega) hl2)
          · exact d4 l (by omega) g2

theorem op_of_enter {o : Op} {w : World} {k : Api} (h : opObs o w = some (.enter k)) : o = .emit (.enter k) := by
  cases o <;> simp only [opObs] at h <;> (try split at h) <;> (try split at h) <;> simp_all

/-- Every API call returns, unless it hangs in user code that it has called. -/
theorem returns {i : Nat} {t : Tid} {k : Api} {pre post : List (Tid × Obs)} (h : (r.conf i).w.trace = pre ++ (t, .enter k) :: post)
    (hf : r.fair t) : (∃ j o, Returned t k pre o (r.conf j).w.trace) ∨ r.hangs t pre := by
  have ht : t ≠ .env := by
    intro he
    subst he
    obtain ⟨s, m, hm⟩ := env_obs r i (x := .enter k) (by rw [h]; simp)
    cases hm
  obtain ⟨i0, h0, hx, h1, h2⟩ := Course.entry_time r i ht h
  -- the step that made the entry
  obtain ⟨f, hthr⟩ : ∃ f : Except Exc Unit → Unit → Prog Unit, (r.conf (i0 + 1)).thr t =
      some ((code env k).handle fun r => .op (.emit (.leave k (outcome r))) (f r)) := by
    cases hp : (r.conf i0).thr t with
    | none => have hn := r.next i0; rw [hx] at hn; simp [step, hp] at hn
    | some p =>
      have ha := run_apis r i0 t hp
      have hn := r.next i0
      rw [hx] at hn
      simp only [step, hp] at hn
      cases p with
      | ret a => have hn := Option.some.inj hn; rw [← hn] at h2; simp [h1] at h2
      | thr x => have hn := Option.some.inj hn; rw [← hn] at h2; simp [h1, World.log] at h2
      | call g k => have hn := Option.some.inj hn; rw [← hn] at h2; simp [h1] at h2
      | op o k' =>
        obtain ⟨b1, b2⟩ := step_op r hx hp
        rw [b2, exec_trace, h1] at h2
        have h3 : opObs o (r.conf i0).w = some (.enter k) := by
          cases ho : opObs o (r.conf i0).w with
          | none => rw [ho] at h2; simp at h2
          | some y => rw [ho] at h2; simpa using h2
        have := op_of_enter h3
        subst this
        obtain ⟨f, hf⟩ := ha.1
        exact ⟨f, by rw [b1, ← hf]⟩
  have hl : level t (r.conf (i0 + 1)).w.trace = ((level t pre).1, (level t pre).2 + 1) := by
    rw [h2, level_append]; simp [levelStep]
  rcases finishes r ht hf (calm_code env k) hthr hl (Nat.le_refl _) (Nat.le_refl _) with ⟨i', h3⟩ | ⟨j, x, a1, a2, a3, a4⟩
  · exact .inr ⟨i', fun j hj => ⟨(h3 j hj).1, Nat.lt_of_succ_le (h3 j hj).2⟩⟩
  · obtain ⟨j', b1, b2, b3, b4⟩ := goes r ht hf a2 rfl
    obtain ⟨-, c2⟩ := step_op r b2 b3
    obtain ⟨mid, hmid⟩ := Course.grows_le r (Nat.le_trans a1 b1)
    rw [h2] at hmid
    refine .inl ⟨j' + 1, outcome x, mid, ?_, fun mid' hm => ?_⟩
    · rw [c2, exec_trace, ← hmid]; simp [opObs]
    · obtain ⟨l, d1, d2, d3⟩ := level_between r ht (Nat.le_trans a1 b1) (tr := pre ++ (t, .enter k) :: mid')
        (by rw [h2]; exact ⟨mid', by simp⟩) (by rw [← hmid]; obtain ⟨z, rfl⟩ := hm; exact ⟨z, by simp⟩)
      rw [d3]
      by_cases hlj : l ≤ j
      · exact a4 l d1 hlj
      · rw [b4 l (by omega) d2, a3]; exact Nat.lt_succ_self _

/-! ### No waiting at any moment -/

/-- How an operation changes what is open. -/
def bumpS : (o : Op) → o.Res → List Bool → List Bool
  | .emit (.cb _), _, s => false :: s
  | .emit (.enter _), _, s => true :: s
  | .emit (.cbRet ..), _, s | .emit (.leave ..), _, s => s.tail
  | .notify .., r, s => if r.isSome then false :: s else s
  | _, _, s => s

theorem nest_append (t : Tid) (a : List (Tid × Obs)) (e : Tid × Obs) : nest t (a ++ [e]) = nestStep t (nest t a) e := by
  simp [nest]

theorem nest_exec (t : Tid) (o : Op) (w : World) : nest t (exec t o w).2.trace = bumpS o (exec t o w).1 (nest t w.trace) := by
  cases o
  case emit x => cases x <;> simp [exec, bumpS, World.log, nest_append, nestStep]
  case notify m c =>
    cases h : (w.mach m).listener <;> simp [exec, bumpS, h, World.log, nest_append, nestStep]
  all_goals simp only [exec, bumpS]
  all_goals (try split) <;> (try split) <;> simp_all [World.log, nest_append, nestStep]

theorem nest_other (t u : Tid) (h : u ≠ t) (o : Op) (w : World) : nest t (exec u o w).2.trace = nest t w.trace := by
  rw [exec_trace]
  cases opObs o w with
  | none => simp
  | some x => simp [nest_append, nestStep, h]

/-- From `s` the program comes to `e`; it does not wait, and calls nothing, as long as the innermost call is an API call. -/
def Stk (e : List Bool) : List Bool → Prog α → Prop
  | s, .ret _ => s = e
  | s, .thr _ => s = e
  | s, .op o k => (∀ n, o = .await n → s.head? ≠ some true) ∧ ∀ r, Stk e (bumpS o r s) (k r)
  | s, .call _ k => s.head? ≠ some true ∧ ∀ r, Stk e s (k r)

theorem Stk.handle {e e' s : List Bool} {p : Prog α} {f : Except Exc α → Prog β} (h : Stk e s p) (hf : ∀ r, Stk e' e (f r)) :
    Stk e' s (p.handle f) := by
  induction p generalizing s with
  | ret a => cases h; exact hf _
  | thr x => cases h; exact hf _
  | op o k ih => exact ⟨h.1, fun r => ih r (h.2 r)⟩
  | call c k ih => exact ⟨h.1, fun r => ih r (h.2 r)⟩

theorem Stk.bind {e s : List Bool} {p : Prog α} {f : α → Prog β} (h : Stk e s p) (hf : ∀ a, Stk e e (f a)) : Stk e s (p >>= f) :=
  h.handle fun r => by cases r with | ok a => exact hf a | error x => rfl

theorem Calm.stk {e s : Nat × Nat} {p : Prog α} (S : List Bool) (h1 : 1 ≤ e.1) (h2 : e.1 ≤ s.1) (h : Calm e s p) :
    Stk S (List.replicate (s.1 - e.1) false ++ S) p := by
  induction p generalizing s with
  | ret a => cases h; simp [Stk]
  | thr x => cases h; simp [Stk]
  | call c k ih =>
    refine ⟨?_, fun r => ih r h2 (h.2 r)⟩
    have := h.1
    obtain ⟨n, hn⟩ : ∃ n, s.1 - e.1 = n + 1 := ⟨s.1 - e.1 - 1, by omega⟩
    rw [hn, List.replicate_succ]
    simp
  | op o k ih =>
    refine ⟨fun n hn => absurd h.1 (by rw [hn]; simp [plain]), fun r => ?_⟩
    have hk := ih r (h.2 r).1 (h.2 r).2.2
    have hb : List.replicate ((bump o r s).1 - e.1) false ++ S = bumpS o r (List.replicate (s.1 - e.1) false ++ S) := by
      have h3 := (h.2 r).1
      have hp := h.1
      unfold bump at h3 ⊢
      unfold bumpS
      split at h3
      · have : s.1 + 1 - e.1 = (s.1 - e.1) + 1 := by omega
        simp only [this, List.replicate_succ, List.cons_append]
      · simp only at h3 ⊢
        obtain ⟨n, hn⟩ : ∃ n, s.1 - e.1 = n + 1 := ⟨s.1 - e.1 - 1, by omega⟩
        have : s.1 - 1 - e.1 = n := by omega
        rw [this, hn, List.replicate_succ]
        rfl
      · cases hp
      · cases hp
      · split
        next hs =>
          have : s.1 + 1 - e.1 = (s.1 - e.1) + 1 := by omega
          simp only [this, List.replicate_succ, List.cons_append, hs, if_true]
        next hs => simp only [hs, Bool.false_eq_true, if_false]
      · simp only
    rw [← hb]
    exact hk

theorem stk_calm {p : Prog α} (h : ∀ e, Calm e e p) (S : List Bool) : Stk S S p := by
  simpa using (h (1, 0)).stk S (Nat.le_refl _) (Nat.le_refl _)

theorem stk_api (k : Api) (S : List Bool) : Stk S S (api k (code env k)) := by
  rw [api_eq]
  refine ⟨by simp, fun _ => ?_⟩
  exact (stk_calm (fun _ => calm_code env k) (true :: S)).handle fun r => ⟨by simp, fun _ => rfl⟩

variable (env)

theorem stk_prog (u : UCall) {S : List Bool} (hS : S.head? ≠ some true) : Stk S S (u.prog env) := by
  cases u with
  | fire m ev => exact stk_api (.fire m ev) S
  | stop m => exact stk_api (.stop m) S
  | start m => exact stk_api (.start m) S
  | startInState m s => exact stk_api (.startInState m s) S
  | proc i => exact ⟨hS, fun r => by cases r <;> rfl⟩
  | _ => exact And.intro (fun _ _ => hS) (fun _ => rfl)

theorem stk_denote (u : UProg) {S : List Bool} (hS : S.head? ≠ some true) : Stk S S (u.denote env) := by
  induction u with
  | done => rfl
  | thr x => rfl
  | call u k ih => exact (stk_prog env u hS).bind fun r => ih r

theorem stk_drain (s : SId) (cm : MId) {S : List Bool} (hS : S.head? ≠ some true) : Stk S S (drain env s cm) := by
  have hl : ∀ o : Op, plain o = true → (∀ r s, bump o r s = s) → Stk S S (lift o) :=
    fun o h1 h2 => stk_calm (fun _ => calm_lift h1 h2) S
  have hd : ∀ {γ : Type} (a : Option γ), Stk S S (deref a) := fun a => stk_calm (fun _ => calm_deref a) S
  unfold drain
  refine .bind (hl _ rfl fun _ _ => rfl) fun b => ?_
  split
  · rfl
  · refine .bind (hl _ rfl fun _ _ => rfl) fun p => .bind (hd _) fun p => ?_
    refine .bind (hl _ rfl fun _ _ => rfl) fun x => .bind (hd _) fun x => ?_
    refine .bind (stk_calm (fun _ => calm_processOne env _ _ _ _ _) S) fun _ => ⟨hS, fun r => by cases r <;> rfl⟩

theorem stk_body (f : Call) {S : List Bool} (hS : S.head? ≠ some true) : Stk S S (body env f) := by
  cases f with
  | action k oid i ev m =>
    simp only [body]
    split
    · exact stk_denote env _ hS
    · rfl
  | drain s m => exact stk_drain env s m hS
  | _ => exact stk_denote env _ hS

variable {env}

/-- What is open, and the programs of the threads. -/
def Open (c : Conf) : Prop := ∀ t, t ≠ .env → match c.thr t with
  | none => nest t c.w.trace = []
  | some p => Stk [] (nest t c.w.trace) p

theorem open_step {c c' : Conf} {x : Choice} (h : Open c) (hs : step env c x = some c') : Open c' := by
  have upd : ∀ (u : Tid) (w : World) (q : Option (Prog Unit)), (∀ t, t ≠ u → t ≠ .env → nest t w.trace = nest t c.w.trace) →
      (u ≠ .env → match q with | none => nest u w.trace = [] | some p => Stk [] (nest u w.trace) p) → Open ⟨w, fset c.thr u q⟩ := by
    intro u w q h1 h2 t ht
    by_cases hu : t = u
    · subst hu; simp only [fset_same]; exact h2 ht
    · simp only [fset_ne _ _ hu, h1 t hu ht]; exact h t ht
  cases x with
  | begin n u =>
    simp only [step] at hs
    split at hs
    · cases hs
    next hn =>
      cases hs
      refine upd _ _ _ (fun _ _ _ => rfl) fun hne => ?_
      have := h (.client n) hne
      rw [hn] at this
      simp only at this ⊢
      rw [this]
      exact stk_denote env u (by simp)
  | run t =>
    simp only [step] at hs
    split at hs
    · cases hs
    next p hp =>
      cases p with
      | ret a =>
        cases hs
        refine upd _ _ _ (fun _ _ _ => rfl) fun hne => ?_
        have := h t hne
        rw [hp] at this
        exact this
      | thr x =>
        cases hs
        refine upd _ _ _ (fun u hu _ => ?_) fun hne => ?_
        · simp [World.log, nest_append, nestStep, Ne.symm hu]
        · have := h t hne
          rw [hp] at this
          simp only [World.log, nest_append, nestStep, if_true]
          exact this
      | op o k =>
        simp only [runThread] at hs
        split at hs
        · cases hs
          refine upd _ _ _ (fun u hu _ => nest_other u t (Ne.symm hu) o c.w) fun hne => ?_
          have := h t hne
          rw [hp] at this
          simp only [nest_exec]
          exact this.2 _
        · cases hs
      | call f k =>
        cases hs
        refine upd _ _ _ (fun _ _ _ => rfl) fun hne => ?_
        have := h t hne
        rw [hp] at this
        exact (stk_body env f this.1).handle this.2
  | dispatch e i j =>
    simp only [step] at hs
    split at hs
    · split at hs
      next hn _ =>
        cases hs
        refine upd _ _ _ (fun _ _ _ => rfl) fun hne => ?_
        have := h (.worker e i) hne
        rw [hn] at this
        simp only at this ⊢
        rw [this]
        exact stk_drain env _ _ (by simp)
      · cases hs
    · cases hs
  | interrupt t => cases hs; exact h
  | shutdown e now =>
    cases hs
    cases now with
    | false => exact h
    | true =>
      intro t ht
      have h1 : nest t (c.w.dropTasks e).trace = nest t c.w.trace := by
        simp only [World.dropTasks]
        generalize c.w.trace = tr
        induction c.w.tasks e generalizing tr with
        | nil => simp
        | cons y l ih =>
          have := ih (tr ++ [(Tid.env, Obs.taskDropped y.1 y.2)])
          rw [nest_append, nestStep, if_neg (Ne.symm ht)] at this
          simpa using this
      have := h t ht
      rw [← h1] at this
      exact this

theorem open_reach {c0 c : Conf} (hi : Initial c0) (hr : ReachFrom env c0 c) : Open c := by
  obtain ⟨xs, hx⟩ := hr
  have h0 : Open c0 := fun t _ => by rw [hi.idle t, hi.trace]; rfl
  clear hi
  induction xs generalizing c0 with
  | nil => cases hx; exact h0
  | cons x xs ih =>
    simp only [runs] at hx
    split at hx
    · cases hx
    next c1 h1 => exact ih hx (open_step h0 h1)

end Verif.Wait
