import Verif.Spec.Footprint
/-
The library does only what user code asks for.
-/

namespace Verif.Footprint
open Verif.Spec.HB Verif.Spec.Footprint Prog

variable {env : Env} {A : Tid → UCall → Prop}

/-- What is known about the results of operations. -/
def Gives (A : Tid → UCall → Prop) : (o : Op) → o.Res → Prop
  | .getPair _, r => ∀ ev m, r = some (ev, m) → Fired A m ev
  | .newCopy ev, r => Copy r ev
  | _, _ => True

/-- A program that does only what is licensed. -/
def Fits (env : Env) (A : Tid → UCall → Prop) (t : Tid) {α : Type} : Prog α → Prop
  | .ret _ | .thr _ => True
  | .op o k => (∀ r, Licensed env A (.op t o r)) ∧ ∀ r, Gives A o r → Fits env A t (k r)
  | .call _ k => ∀ r, Fits env A t (k r)

variable {t : Tid} {α β : Type}

theorem Fits.handle {p : Prog α} {f : Except Exc α → Prog β} (hp : Fits env A t p) (hf : ∀ r, Fits env A t (f r)) : Fits env A t (p.handle f) := by
  induction p with
  | ret a => exact hf _
  | thr x => exact hf _
  | op o k ih => exact ⟨hp.1, fun r hr => ih r (hp.2 r hr)⟩
  | call c k ih => exact fun r => ih r (hp r)

theorem Fits.bind {p : Prog α} {f : α → Prog β} (hp : Fits env A t p) (hf : ∀ a, Fits env A t (f a)) : Fits env A t (p >>= f) :=
  hp.handle fun r => match r with
    | .ok a => hf a
    | .error _ => trivial

theorem Fits.bind' {p : Prog α} {f : α → Prog β} (hp : Fits env A t p) (hf : ∀ a, Fits env A t (f a)) : Fits env A t (p.bind f) := hp.bind hf

theorem Fits.attempt {p : Prog α} (hp : Fits env A t p) : Fits env A t p.attempt := hp.handle fun _ => trivial

/-- An operation, and what is done with its result. -/
theorem fits_op {o : Op} {f : o.Res → Prog β} (ho : ∀ r, Licensed env A (.op t o r)) (hf : ∀ r, Gives A o r → Fits env A t (f r)) : Fits env A t (lift o >>= f) :=
  ⟨ho, hf⟩

theorem fits_lift {o : Op} (ho : ∀ r, Licensed env A (.op t o r)) : Fits env A t (lift o) := ⟨ho, fun _ _ => trivial⟩

theorem fits_ofExcept (r : Except Exc α) : Fits env A t (ofExcept r) := by cases r <;> trivial

theorem fits_deref (a : Option α) : Fits env A t (deref a) := by cases a <;> trivial

theorem fits_invoke (c : Call) : Fits env A t (invoke c) := fun r => fits_ofExcept r

theorem fits_userCall (c : Cb) (k : Call) : Fits env A t (userCall c k) :=
  (fits_invoke k).attempt.bind fun r => fits_op (fun _ => trivial) fun _ _ => fits_ofExcept r

theorem fits_callback {c : Cb} (k : Call) (h : Called A t c) : Fits env A t (callback c k) :=
  fits_op (fun _ => h) fun _ _ => fits_userCall c k

theorem fits_notify {m : MId} {complete : Bool} {f : Option St} {ev : Ev} {s : Option St} (h : Starts A t m ∧ ev = immEv ∨ Fired A m ev) :
    Fits env A t (notifyListener env m complete f ev s) := by
  have h' : Starts A t m ∨ ∃ ev, Fired A m ev := h.imp (·.1) fun g => ⟨_, g⟩
  refine fits_op (fun _ => h') fun l _ => ?_
  dsimp only
  split
  · refine fits_op (fun _ => ⟨?_, h'⟩) fun r _ => ?_
    · split <;> exact h
    · cases r with
      | none => trivial
      | some l => exact fits_userCall _ _
  · trivial

theorem fits_runActs {m : MId} {k : Kind} {oid : Nat} {ev : Ev} (h : Starts A t m ∧ ev = immEv ∨ Fired A m ev) : ∀ n i,
    Fits env A t (runActs m k oid ev i n)
  | 0, _ => trivial
  | n + 1, i => (fits_callback (c := .action m k oid i ev) _ h).bind fun _ => fits_runActs h n (i + 1)

theorem fits_update {m : MId} {s : St} {api : Bool} (h : if api then Starts A t m ∨ A t (.stop m) else ∃ ev, Fired A m ev) :
    Fits env A t (updateCurrentState env m s api) := by
  have h1 : ∀ b r, Licensed env A (.op t (.casEnded m s b api) r) := by cases api <;> exact fun _ _ => h
  have h2 : ∀ r, Licensed env A (.op t (.setCur m s api) r) := by cases api <;> exact fun _ => h
  refine fits_op (h1 _) fun r _ => ?_
  split
  · exact fits_lift h2
  · trivial

theorem fits_execute {s : SId} {ev : Ev} {m : MId} (h : Fired A m ev) : Fits env A t (execute env s ev m) := by
  have hg : ∀ r, Licensed env A (.op t (.getCur m) r) := fun _ => .inr ⟨_, h⟩
  refine fits_op hg fun r _ => (fits_deref _).bind fun row => ?_
  split
  · exact fits_callback _ h
  · split
    · exact fits_op hg fun _ _ => (fits_notify (.inr h)).bind fun _ => fits_op hg fun _ _ => fits_notify (.inr h)
    · refine fits_op hg fun _ _ => (fits_notify (.inr h)).bind fun _ => fits_op hg fun _ _ => (fits_deref _).bind fun _ =>
        (fits_runActs (.inr h) _ _).bind fun _ => (fits_update (api := false) ⟨_, h⟩).bind fun _ => fits_op hg fun _ _ => (fits_deref _).bind fun _ =>
        (fits_runActs (.inr h) _ _).bind fun _ => (fits_notify (.inr h)).bind fun _ => ?_
      split
      · exact fits_update (api := false) ⟨_, h⟩
      · trivial

theorem fits_processOne {s : SId} {cm : MId} {p : PairId} {ev : Ev} {m : MId} (h : Fired A m ev) : Fits env A t (processOne env s cm p ev m) := by
  have rest : ∀ r : Except Exc Unit, Fits env A t (do
      lift (.poolGive s p)
      Prog.ofExcept r) := fun r => fits_op (fun _ => trivial) fun _ _ => fits_ofExcept r
  refine Fits.bind (Fits.attempt (fits_op (fun _ => trivial) fun r _ => ?_)) fun r => ?_
  · split
    · exact fits_execute h
    · trivial
  · dsimp only
    split
    · exact rest _
    · split
      · exact (fits_callback (c := .flowEx m ev _) _ h).attempt.bind fun r => rest r
      · exact rest _

theorem fits_drain (s : SId) (cm : MId) : Fits env A t (drain env s cm) := by
  refine fits_op (fun _ => trivial) fun r _ => ?_
  split
  · trivial
  · refine fits_op (fun _ => trivial) fun r _ => (fits_deref r).bind fun p => fits_op (fun _ => trivial) fun r hr => ?_
    cases r with
    | none => trivial
    | some x =>
      obtain ⟨ev, m⟩ := x
      exact (fits_processOne (hr ev m rfl)).bind fun _ => fits_invoke _

theorem fits_anyEqual (ev : Ev) : ∀ ps, Fits env A t (anyEqual ev ps)
  | [] => trivial
  | _ :: ps => fits_op (fun _ => trivial) fun r _ => (fits_deref r).bind fun x => by
    obtain ⟨en, _⟩ := x
    dsimp only
    split
    · trivial
    · exact fits_anyEqual ev ps

theorem fits_default {m : MId} {ev : Ev} (h : A t (.fire m ev)) : Fits env A t (processEventDefault env (env.mach m).strat ev m) := by
  refine fits_op (fun _ => trivial) fun r _ => ?_
  split
  · exact fits_callback _ h
  · refine fits_op (fun _ => trivial) fun p _ => fits_op (fun _ => trivial) fun v _ => ?_
    have rest : Fits env A t (do
        lift (.offer (env.strat (env.mach m).strat).queue p)
        if !(← lift (.submit (env.strat (env.mach m).strat).exec (env.mach m).strat m)) then thr .rejected) := by
      refine fits_op (fun _ => ⟨m, ev, h, rfl⟩) fun _ _ => fits_op (fun _ => ⟨⟨ev, h⟩, rfl, rfl⟩) fun r _ => ?_
      split <;> trivial
    split
    · exact fits_op (fun _ => ⟨m, h⟩) fun ev' hc => fits_op (fun _ => ⟨ev, h, hc⟩) fun _ _ => rest
    · exact fits_op (fun _ => ⟨ev, h, .inl rfl⟩) fun _ _ => rest

theorem fits_fire {m : MId} {ev : Ev} (h : A t (.fire m ev)) : Fits env A t (Verif.fire env m ev) := by
  refine fits_op (fun _ => trivial) fun r _ => ?_
  split
  · exact fits_callback _ h
  · have rest : ∀ e : Bool, Fits env A t (if e then callback (.flowAfter m ev) (.flowAfter (env.mach m).strat ev m) else processEvent env (env.mach m).strat ev m) := by
      intro e
      split
      · exact fits_callback _ h
      · unfold processEvent
        split
        · refine fits_op (fun _ => trivial) fun ps _ => (fits_anyEqual ev ps).bind fun b => ?_
          split
          · exact fits_lift fun _ => h
          · exact fits_default h
        · exact fits_default h
    refine fits_op (o := .getStarted m) (fun _ => trivial) fun r _ => ?_
    cases r
    · exact rest false
    · exact fits_op (o := .getEnded m) (fun _ => trivial) fun e _ => rest e

theorem fits_start {m : MId} (h : A t (.start m)) : Fits env A t (Verif.start env m) := by
  have hs : Starts A t m := .inl h
  unfold Verif.start
  dsimp only
  split
  · trivial
  · trivial
  · refine fits_op (fun _ => hs) fun r _ => ?_
    split
    · exact fits_op (fun _ => .inl hs) fun _ _ => (fits_notify (.inl ⟨hs, rfl⟩)).bind fun _ => (fits_runActs (.inl ⟨hs, rfl⟩) _ _).bind fun _ =>
        (fits_notify (.inl ⟨hs, rfl⟩)).bind fun _ => fits_lift fun _ => hs
    · trivial

theorem fits_startInState {m : MId} {s : Option St} (h : A t (.startInState m s)) : Fits env A t (Verif.startInState env m s) := by
  have hs : Starts A t m := .inr ⟨s, h⟩
  unfold Verif.startInState
  split
  · refine fits_op (fun _ => hs) fun r _ => ?_
    split
    · exact fits_op (fun _ => .inl hs) fun _ _ => fits_lift fun _ => hs
    · trivial
  · trivial

theorem fits_api {c : Api} {p : Prog Unit} (hc : Entered A t c) (hp : Fits env A t p) : Fits env A t (api c p) :=
  fits_op (fun _ => hc) fun _ _ => hp.attempt.bind fun _ => fits_op (fun _ => trivial) fun _ _ => trivial

theorem fits_ucall {u : UCall} (h : A t u) : Fits env A t (u.prog env) := by
  cases u with
  | fire m ev => exact fits_api h (fits_fire h)
  | stop m => exact fits_api h (fits_update (api := true) (.inr h))
  | start m => exact fits_api h (fits_start h)
  | startInState m s => exact fits_api h (fits_startInState h)
  | getCurrentState m => exact fits_lift fun _ => .inl h
  | proc i => exact (fits_invoke _).attempt
  | isStarted | isEnded | getEventQueueSize | getPayload => exact fits_lift fun _ => trivial
  | _ => exact fits_lift fun _ => h

theorem fits_denote : ∀ {u : UProg}, Within (A t) u → Fits env A t (u.denote env)
  | .done, _ | .thr _, _ => trivial
  | .call _ _, h => (fits_ucall h.1).bind' fun r => fits_denote (h.2 r)

theorem fits_body {xs : List Choice} (ho : Obeys env A xs) (c : Call) : Fits env A t (body env c) := by
  cases c with
  | action k oid i ev m =>
    simp only [body]
    cases ha : (env.acts k oid)[i]? with
    | none => trivial
    | some a => exact fits_denote (ho.acts t k oid a (List.mem_of_getElem? ha) ev m)
  | listener => exact fits_denote (ho.listener ..)
  | unmapped => exact fits_denote (ho.unmapped ..)
  | flowEx => exact fits_denote (ho.flowEx ..)
  | flowAfter => exact fits_denote (ho.flowAfter ..)
  | flowBefore => exact fits_denote (ho.flowBefore ..)
  | proc => exact fits_denote (ho.proc ..)
  | drain => exact fits_drain ..

/-- Of configurations. -/
structure Ok (env : Env) (A : Tid → UCall → Prop) (c : Conf) : Prop where
  thr : ∀ t p, c.thr t = some p → Fits env A t p
  pair : ∀ p ev m, c.w.pair p = some (ev, m) → Fired A m ev
  tasks : ∀ e s m, (s, m) ∈ c.w.tasks e → (∃ t ev, A t (.fire m ev)) ∧ s = (env.mach m).strat ∧ e = (env.strat s).exec

theorem exec_pair_eq {o : Op} {w : World} (h : ∀ p ev m, o ≠ .setPair p ev m) : (exec t o w).2.pair = w.pair := by
  cases o <;> simp only [exec] <;> (try split) <;> (try split) <;> first | rfl | exact absurd rfl (h _ _ _)

theorem exec_tasks_eq {o : Op} {w : World} (h : ∀ e s m, o ≠ .submit e s m) : (exec t o w).2.tasks = w.tasks := by
  cases o <;> simp only [exec] <;> (try split) <;> (try split) <;> first | rfl | exact absurd rfl (h _ _ _)

theorem gives_exec {o : Op} {w : World} (hp : ∀ p ev m, w.pair p = some (ev, m) → Fired A m ev) : Gives A o (exec t o w).1 := by
  cases o with
  | getPair p => exact fun ev m h => hp p ev m h
  | newCopy ev => exact .inr ⟨rfl, rfl, _, rfl⟩
  | _ => trivial

theorem Ok.set {c : Conf} (h : Ok env A c) {t : Tid} {p : Option (Prog Unit)} (hp : ∀ q, p = some q → Fits env A t q) : Ok env A ⟨c.w, fset c.thr t p⟩ := by
  refine ⟨fun u q hq => ?_, h.pair, h.tasks⟩
  by_cases hu : u = t
  · subst hu; exact hp q (by simpa using hq)
  · exact h.thr u q (by simpa [fset_ne _ _ hu] using hq)

/-- A step, and what is done in it. -/
theorem ok_step {c c' : Conf} {x : Choice} {xs : List Choice} (ho : Obeys env A xs) (hx : x ∈ xs) (h : Ok env A c) (hs : step env c x = some c') :
    Ok env A c' ∧ ∀ d, did c x = some d → Licensed env A d := by
  cases x with
  | begin n u =>
    simp only [step] at hs
    split at hs
    · cases hs
    · cases hs
      exact ⟨h.set fun q hq => by cases hq; exact fits_denote (ho.clients n u hx), fun d hd => by cases hd⟩
  | run t =>
    simp only [step] at hs
    split at hs
    · cases hs
    next p hp =>
    have hf := h.thr t p hp
    cases p with
    | ret a => cases hs; exact ⟨h.set fun q hq => (by cases hq), fun d hd => by simp [did, hp] at hd⟩
    | thr x => cases hs; exact ⟨Ok.set (c := ⟨c.w.log t (.uncaught x), c.thr⟩) ⟨h.thr, h.pair, h.tasks⟩ fun q hq => (by cases hq), fun d hd => by simp [did, hp] at hd⟩
    | call f k => cases hs; exact ⟨h.set fun q hq => by cases hq; exact (fits_body ho f).handle hf, fun d hd => by simp [did, hp] at hd⟩
    | op o k =>
      simp only [runThread] at hs
      split at hs
      · cases hs
        refine ⟨Ok.set (c := ⟨(exec t o c.w).2, c.thr⟩) ⟨h.thr, ?_, ?_⟩ fun q hq => by cases hq; exact hf.2 _ (gives_exec h.pair), fun d hd => ?_⟩
        · intro p ev m hw
          by_cases hsp : ∃ p ev m, o = .setPair p ev m
          · obtain ⟨p', ev', m', rfl⟩ := hsp
            simp only [exec] at hw
            by_cases hpp : p = p'
            · subst hpp
              rw [fset_same] at hw
              cases hw
              obtain ⟨e, he⟩ := hf.1 ()
              exact ⟨t, e, he⟩
            · rw [fset_ne _ _ hpp] at hw; exact h.pair _ _ _ hw
          · rw [exec_pair_eq (fun p ev m h => hsp ⟨p, ev, m, h⟩)] at hw
            exact h.pair _ _ _ hw
        · intro e s m hm
          by_cases hsp : ∃ e s m, o = .submit e s m
          · obtain ⟨e', s', m', rfl⟩ := hsp
            simp only [exec] at hm
            split at hm
            · exact h.tasks _ _ _ hm
            · simp only [World.log] at hm
              by_cases hee : e = e'
              · subst hee
                rw [fset_same, List.mem_append, List.mem_singleton] at hm
                rcases hm with hm | hm
                · exact h.tasks _ _ _ hm
                · cases hm
                  obtain ⟨⟨ev, h1⟩, h2⟩ := hf.1 true
                  exact ⟨⟨t, ev, h1⟩, h2⟩
              · rw [fset_ne _ _ hee] at hm; exact h.tasks _ _ _ hm
          · rw [exec_tasks_eq (fun p ev m h => hsp ⟨p, ev, m, h⟩)] at hm
            exact h.tasks _ _ _ hm
        · simp only [did, hp, Option.some.injEq] at hd
          subst hd
          exact hf.1 _
      · cases hs
  | dispatch e i j =>
    simp only [step] at hs
    split at hs
    · split at hs
      next s m h1 h2 =>
        cases hs
        have hm := h.tasks e s m (List.mem_of_getElem? h2)
        refine ⟨Ok.set (c := ⟨{ c.w with tasks := fset c.w.tasks e ((c.w.tasks e).eraseIdx j) }, c.thr⟩) ⟨h.thr, h.pair, ?_⟩ fun q hq => by
          cases hq; exact fits_drain s m, fun d hd => ?_⟩
        · intro e' s' m' hm'
          dsimp only at hm'
          by_cases hee : e' = e
          · subst hee
            rw [fset_same] at hm'
            exact h.tasks _ _ _ (List.mem_of_mem_eraseIdx hm')
          · rw [fset_ne _ _ hee] at hm'; exact h.tasks _ _ _ hm'
        · simp only [did, h2, Option.some.injEq] at hd
          subst hd
          exact hm
      · cases hs
    · cases hs
  | interrupt t => cases hs; exact ⟨⟨h.thr, h.pair, h.tasks⟩, fun d hd => by cases hd⟩
  | shutdown e now =>
    cases hs
    refine ⟨⟨h.thr, ?_, ?_⟩, fun d hd => by cases hd⟩
    · cases now <;> exact h.pair
    · cases now
      · exact h.tasks
      · intro e' s m hm
        by_cases hee : e' = e
        · subst hee
          simp [World.dropTasks] at hm
        · simp only [World.dropTasks, if_true, fset_ne _ _ hee] at hm
          exact h.tasks _ _ _ hm

theorem licensed_runs {ys : List Choice} (ho : Obeys env A ys) : ∀ {xs : List Choice} {c : Conf}, (∀ x ∈ xs, x ∈ ys) → Ok env A c →
    ∀ d ∈ history env c xs, Licensed env A d
  | [], _, _, _ => by simp [history]
  | x :: xs, c, hx, h => by
    intro d hd
    simp only [history] at hd
    split at hd
    · simp at hd
    next c' hs =>
      obtain ⟨h1, h2⟩ := ok_step ho (hx x (.head _)) h hs
      rw [List.mem_append, Option.mem_toList] at hd
      rcases hd with hd | hd
      · exact h2 d hd
      · exact licensed_runs ho (fun y hy => hx y (.tail _ hy)) h1 d hd

theorem ok_initial {c0 : Conf} (hi : Initial c0) : Ok env A c0 :=
  ⟨fun t p hp => (by rw [hi.idle] at hp; cases hp), fun p ev m hp => (by rw [hi.pair] at hp; cases hp), fun e s m hm => (by simp [hi.tasks] at hm)⟩

end Verif.Footprint
