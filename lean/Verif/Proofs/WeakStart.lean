import Verif.Proofs.Weak
/-
Weak memory: when `start()` or `startInState()` returns, the calling thread has written the state and then reset `isEnded`, whatever reads return.
-/

namespace Verif.Weak
open Prog Verif.Spec.HB Verif.Spec.Weak

/-- Thread `t` has given machine `m` its state and then reset `isEnded`. -/
def Over (t : Tid) (m : MId) (H : List Did) : Prop :=
  ∃ (a b : Nat) (s : St), a < b ∧ H[a]? = some (.op t (.setCur m s true) ()) ∧ H[b]? = some (.op t (.clearEnded m) ())

/-- The operation reports that `m` has been started. -/
def reports (m : MId) : Op → Prop
  | .emit (.leave (.start m') none) => m' = m
  | .emit (.leave (.startInState m' _) none) => m' = m
  | _ => False

/-- Whatever other threads do meanwhile (`H'`), the program reports only what is true. -/
def Tells {α : Type} (t : Tid) : List Did → Prog α → (Except Exc α → List Did → Prop) → Prop
  | H, .ret a, Q => Q (.ok a) H
  | H, .thr x, Q => Q (.error x) H
  | H, .op o k, Q => ∀ H', H <+: H' → (∀ m, reports m o → Over t m H') ∧ ∀ r, Tells t (H' ++ [.op t o r]) (k r) Q
  | H, .call _ k, Q => ∀ H', H <+: H' → ∀ r, Tells t H' (k r) Q

structure Free {α : Type} (t : Tid) (p : Prog α) : Prop where
  tells : ∀ H, Tells t H p fun _ H' => H <+: H'

variable {α β : Type} {t : Tid} {H : List Did}

theorem pre_get {H H' : List Did} {i : Nat} {d : Did} (h : H <+: H') (hi : H[i]? = some d) : H'[i]? = some d := by
  obtain ⟨B, rfl⟩ := h
  rw [List.getElem?_append_left (get_lt hi)]; exact hi

theorem Over.mono {H H' : List Did} {m : MId} (h : Over t m H) (hp : H <+: H') : Over t m H' := by
  obtain ⟨a, b, s, h1, h2, h3⟩ := h
  exact ⟨a, b, s, h1, pre_get hp h2, pre_get hp h3⟩

theorem tells_mono {p : Prog α} {H : List Did} {Q R : Except Exc α → List Did → Prop} (h : Tells t H p Q) (hq : ∀ r H', Q r H' → R r H') : Tells t H p R := by
  induction p generalizing H with
  | ret a => exact hq _ _ h
  | thr x => exact hq _ _ h
  | op o k ih => exact fun H' hp => ⟨(h H' hp).1, fun r => ih r ((h H' hp).2 r)⟩
  | call c k ih => exact fun H' hp r => ih r (h H' hp r)

theorem tells_later {p : Prog Unit} {H H' : List Did} (h : Tells t H p fun _ _ => True) (hp : H <+: H') : Tells t H' p fun _ _ => True := by
  cases p with
  | ret a => trivial
  | thr x => trivial
  | op o k => exact fun H2 h2 => h H2 (hp.trans h2)
  | call c k => exact fun H2 h2 => h H2 (hp.trans h2)

theorem tells_handle {p : Prog α} {f : Except Exc α → Prog β} {H : List Did} {Q : Except Exc β → List Did → Prop}
    (h : Tells t H p fun r s => Tells t s (f r) Q) : Tells t H (p.handle f) Q := by
  induction p generalizing H with
  | ret a => exact h
  | thr x => exact h
  | op o k ih => exact fun H' hp => ⟨(h H' hp).1, fun r => ih r ((h H' hp).2 r)⟩
  | call c k ih => exact fun H' hp r => ih r (h H' hp r)

theorem Free.handle {p : Prog α} {f : Except Exc α → Prog β} (hp : Free t p) (hf : ∀ r, Free t (f r)) : Free t (p.handle f) :=
  ⟨fun H => tells_handle (tells_mono (hp.tells H) fun r s hs => tells_mono ((hf r).tells s) fun _ _ hs' => hs.trans hs')⟩

theorem tells_bind {p : Prog α} {f : α → Prog β} {H : List Did} {Q : Except Exc α → List Did → Prop} {R : Except Exc β → List Did → Prop} (hp : Tells t H p Q)
    (hf : ∀ a H', Q (.ok a) H' → Tells t H' (f a) R) (hx : ∀ x H', Q (.error x) H' → R (.error x) H') : Tells t H (p >>= f) R :=
  tells_handle (tells_mono hp fun r H' h => by cases r <;> first | exact hf _ _ h | exact hx _ _ h)

theorem free_ret (a : α) : Free t (ret a : Prog α) := ⟨fun _ => List.prefix_rfl⟩
theorem free_thr (x : Exc) : Free t (thr x : Prog α) := ⟨fun _ => List.prefix_rfl⟩

theorem Free.bind {p : Prog α} {f : α → Prog β} (hp : Free t p) (hf : ∀ a, Free t (f a)) : Free t (p >>= f) :=
  hp.handle fun r => by cases r <;> first | exact hf _ | exact free_thr _

theorem Free.attempt {p : Prog α} (hp : Free t p) : Free t p.attempt := hp.handle fun _ => free_ret _

theorem free_ofExcept (r : Except Exc α) : Free t (ofExcept r) := by cases r <;> first | exact free_ret _ | exact free_thr _

theorem free_invoke (c : Call) : Free t (invoke c) := ⟨fun _ H' hp r => tells_mono ((free_ofExcept r).tells H') fun _ _ h => hp.trans h⟩

/-- Not a report. -/
def mute : Op → Bool
  | .emit (.leave (.start _) none) | .emit (.leave (.startInState _ _) none) => false
  | _ => true

theorem mute_reports {o : Op} {m : MId} (h : mute o = true) : ¬reports m o := by
  intro hr
  unfold reports at hr
  split at hr
  · cases h
  · cases h
  · exact hr

theorem free_lift {o : Op} (h : mute o = true) : Free t (lift o) :=
  ⟨fun _ _ hp => ⟨fun _ hr => absurd hr (mute_reports h), fun _ => hp.trans (List.prefix_append _ _)⟩⟩

theorem free_deref {γ : Type} (x : Option γ) : Free t (deref x) := by cases x <;> first | exact free_ret _ | exact free_thr _

/-! ### The library -/

variable {env : Env}

theorem free_userCall (c : Cb) (f : Call) : Free t (userCall c f) :=
  (free_invoke f).attempt.bind fun _ => (free_lift rfl).bind fun _ => free_ofExcept _

theorem free_callback (c : Cb) (f : Call) : Free t (callback c f) := (free_lift rfl).bind fun _ => free_userCall c f

theorem free_notify (m : MId) (b : Bool) (f : Option St) (ev : Ev) (to : Option St) : Free t (notifyListener env m b f ev to) := by
  refine (free_lift rfl).bind fun l => ?_
  split
  · refine (free_lift rfl).bind fun r => ?_
    split
    · exact free_thr _
    · exact free_userCall _ _
  · exact free_ret _

theorem free_runActs (m : MId) (k : Kind) (oid : Nat) (ev : Ev) : ∀ n i, Free t (runActs m k oid ev i n)
  | 0, _ => free_ret _
  | n + 1, _ => (free_callback _ _).bind fun _ => free_runActs m k oid ev n _

theorem free_update (m : MId) (s : St) (api : Bool) : Free t (updateCurrentState env m s api) := by
  refine (free_lift rfl).bind fun r => ?_
  split
  · exact free_lift rfl
  · exact free_ret _

theorem free_execute (s : SId) (ev : Ev) (m : MId) : Free t (execute env s ev m) := by
  refine (free_lift rfl).bind fun _ => (free_deref _).bind fun row => ?_
  split
  · exact free_callback _ _
  · split
    · exact (free_lift rfl).bind fun _ => (free_notify ..).bind fun _ => (free_lift rfl).bind fun _ => free_notify ..
    · refine (free_lift rfl).bind fun _ => (free_notify ..).bind fun _ => (free_lift rfl).bind fun _ => (free_deref _).bind fun _ =>
        (free_runActs ..).bind fun _ => (free_update ..).bind fun _ => (free_lift rfl).bind fun _ => (free_deref _).bind fun _ =>
        (free_runActs ..).bind fun _ => (free_notify ..).bind fun _ => ?_
      split
      · exact free_update ..
      · exact free_ret _

theorem free_processOne (s : SId) (cm : MId) (p : PairId) (ev : Ev) (m : MId) : Free t (processOne env s cm p ev m) := by
  refine Free.bind (Free.attempt ((free_lift rfl).bind fun b => ?_)) fun r => ?_
  · split
    · exact free_execute ..
    · exact free_ret _
  · have hrest : ∀ r : Except Exc Unit, Free t (do
        lift (.poolGive s p)
        ofExcept r) := fun r => (free_lift rfl).bind fun _ => free_ofExcept _
    dsimp only
    split
    · exact (free_ret _).bind hrest
    · split
      · exact (free_callback _ _).attempt.bind hrest
      · exact (free_ret _).bind hrest

theorem free_drain (s : SId) (cm : MId) : Free t (drain env s cm) := by
  refine (free_lift rfl).bind fun b => ?_
  split
  · exact free_ret _
  · exact (free_lift rfl).bind fun _ => (free_deref _).bind fun _ => (free_lift rfl).bind fun _ => (free_deref _).bind fun x =>
      (free_processOne ..).bind fun _ => free_invoke _

theorem free_anyEqual (ev : Ev) : ∀ ps, Free t (anyEqual ev ps)
  | [] => free_ret _
  | p :: ps => by
    refine (free_lift rfl).bind fun _ => (free_deref _).bind fun x => ?_
    show Free t (if _ then _ else _)
    split
    · exact free_ret _
    · exact free_anyEqual ev ps

theorem free_default (s : SId) (ev : Ev) (m : MId) : Free t (processEventDefault env s ev m) := by
  refine (free_lift rfl).bind fun n => ?_
  split
  · exact free_callback _ _
  · refine (free_lift rfl).bind fun p => (free_lift rfl).bind fun x => ?_
    have hrest : Free t (do
        lift (.offer (env.strat s).queue p)
        if !(← lift (.submit (env.strat s).exec s m)) then thr .rejected) :=
      (free_lift rfl).bind fun _ => (free_lift rfl).bind fun b => by
        split
        · exact free_thr _
        · exact free_ret _
    split
    · exact (free_lift rfl).bind fun _ => (free_lift rfl).bind fun _ => hrest
    · exact (free_lift rfl).bind fun _ => hrest

theorem free_processEvent (s : SId) (ev : Ev) (m : MId) : Free t (processEvent env s ev m) := by
  unfold processEvent
  split
  · refine (free_lift rfl).bind fun _ => (free_anyEqual ..).bind fun b => ?_
    split
    · exact free_lift rfl
    · exact free_default ..
  · exact free_default ..

theorem free_fire (m : MId) (ev : Ev) : Free t (fire env m ev) := by
  refine (free_lift rfl).bind fun b => ?_
  split
  · exact free_callback _ _
  · have hrest : ∀ e : Bool, Free t (if e then callback (.flowAfter m ev) (.flowAfter (env.mach m).strat ev m) else processEvent env (env.mach m).strat ev m) :=
      fun e => by
        split
        · exact free_callback _ _
        · exact free_processEvent ..
    refine (free_lift rfl).bind fun b => ?_
    split
    · exact (free_lift rfl).bind hrest
    · exact (free_ret _).bind hrest


/-- After `start()` the machine is started. -/
theorem tells_start (m : MId) (H : List Did) : Tells t H (start env m) fun r H' => H <+: H' ∧ ∀ u, r = .ok u → Over t m H' := by
  unfold start
  dsimp only
  split
  · exact ⟨List.prefix_rfl, fun _ h => by cases h⟩
  · exact ⟨List.prefix_rfl, fun _ h => by cases h⟩
  next i _ _ =>
    intro H1 h1
    refine ⟨fun _ h => h.elim, fun r => ?_⟩
    cases r with
    | false => exact ⟨h1.trans (List.prefix_append _ _), fun _ h => by cases h⟩
    | true =>
      intro H2 h2
      refine ⟨fun _ h => h.elim, fun r => ?_⟩
      have hpre : H <+: H2 ++ [.op t (.setCur m i true) r] := h1.trans ((List.prefix_append _ _).trans (h2.trans (List.prefix_append _ _)))
      have hget : (H2 ++ [.op t (.setCur m i true) r])[H2.length]? = some (.op t (.setCur m i true) ()) := last_snoc
      generalize H2 ++ [.op t (.setCur m i true) r] = H3 at hpre hget
      have key : ∀ H4, H3 <+: H4 → Tells t H4 (lift (.clearEnded m)) fun r H' => H <+: H' ∧ ∀ u, r = .ok u → Over t m H' := by
        intro H4 h4 H5 h5
        refine ⟨fun _ h => h.elim, fun r => ⟨hpre.trans (h4.trans (h5.trans (List.prefix_append _ _))), fun _ _ => ⟨H2.length, H5.length, i, ?_, ?_, last_snoc⟩⟩⟩
        · exact get_lt (pre_get (h4.trans h5) hget)
        · exact get_snoc (pre_get (h4.trans h5) hget)
      have hx : ∀ H4, H3 <+: H4 → ∀ x : Exc, H <+: H4 ∧ ∀ u, (Except.error x : Except Exc Unit) = .ok u → Over t m H4 :=
        fun H4 h4 x => ⟨hpre.trans h4, fun _ h => by cases h⟩
      exact tells_bind ((free_notify ..).tells H3) (fun _ H4 h4 => tells_bind ((free_runActs ..).tells H4) (fun _ H5 h5 => tells_bind ((free_notify ..).tells H5)
        (fun _ H6 h6 => key H6 (h4.trans (h5.trans h6))) (fun x H6 h6 => hx H6 (h4.trans (h5.trans h6)) x)) (fun x H5 h5 => hx H5 (h4.trans h5) x))
        (fun x H4 h4 => hx H4 h4 x)

theorem tells_startIn (m : MId) (s : Option St) (H : List Did) : Tells t H (startInState env m s) fun r H' => H <+: H' ∧ ∀ u, r = .ok u → Over t m H' := by
  unfold startInState
  split
  next _ s0 _ =>
    intro H1 h1
    refine ⟨fun _ h => h.elim, fun r => ?_⟩
    cases r with
    | false => exact ⟨h1.trans (List.prefix_append _ _), fun _ h => by cases h⟩
    | true =>
      intro H2 h2
      refine ⟨fun _ h => h.elim, fun r H5 h5 => ⟨fun _ h => h.elim, fun r' => ⟨?_, fun _ _ => ⟨H2.length, H5.length, s0, ?_, ?_, last_snoc⟩⟩⟩⟩
      · exact h1.trans ((List.prefix_append _ _).trans (h2.trans ((List.prefix_append _ _).trans (h5.trans (List.prefix_append _ _)))))
      · exact get_lt (pre_get h5 last_snoc)
      · exact get_snoc (pre_get h5 last_snoc)
  · exact ⟨List.prefix_rfl, fun _ h => by cases h⟩

theorem free_api (c : Api) {p : Prog Unit} (hc : ∀ r, mute (.emit (.leave c r)) = true) (hp : Free t p) : Free t (Verif.api c p) :=
  (free_lift rfl).bind fun _ => hp.attempt.bind fun _ => (free_lift (hc _)).bind fun _ => free_ret _

/-- A call that starts the machine reports so only if it is true. -/
theorem free_report (c : Api) {m : MId} {p : Prog Unit} (hc : ∀ m' (r : Except Exc Unit), reports m' (.emit (.leave c (outcome r))) → m' = m ∧ ∃ u, r = .ok u)
    (hp : ∀ H, Tells t H p fun r H' => H <+: H' ∧ ∀ u, r = .ok u → Over t m H') : Free t (Verif.api c p) := by
  refine (free_lift rfl).bind fun _ => ⟨fun H => ?_⟩
  refine tells_bind (Q := fun r H' => ∃ r', r = .ok r' ∧ H <+: H' ∧ ∀ u, r' = .ok u → Over t m H') (tells_handle (tells_mono (hp H) fun r H' h => ⟨r, rfl, h⟩)) ?_
    (fun x H' ⟨r', h, _⟩ => by cases h)
  rintro r H' ⟨r', h, h1, h2⟩
  cases h
  refine fun H2 h3 => ⟨fun m' hm => ?_, fun _ => h1.trans (h3.trans (List.prefix_append _ _))⟩
  obtain ⟨rfl, u, hu⟩ := hc m' r hm
  exact (h2 u hu).mono h3

theorem free_prog (u : UCall) : Free t (u.prog env) := by
  cases u <;> first
    | exact free_lift rfl
    | exact free_api _ (fun _ => rfl) (free_fire ..)
    | exact free_api _ (fun _ => rfl) (free_update ..)
    | exact free_report _ (fun m' r h => by cases r <;> first | exact ⟨h.symm, _, rfl⟩ | exact h.elim) (tells_start _)
    | exact free_report _ (fun m' r h => by cases r <;> first | exact ⟨h.symm, _, rfl⟩ | exact h.elim) (tells_startIn _ _)
    | exact (free_invoke _).attempt

theorem free_denote (u : UProg) : Free t (u.denote env) := by
  induction u with
  | done => exact free_ret _
  | thr x => exact free_thr _
  | call u k ih => exact (free_prog u).bind ih

theorem free_body (f : Call) : Free t (body env f) := by
  cases f with
  | action k oid i ev m =>
    show Free t (match (env.acts k oid)[i]? with
      | some a => (a ev m).denote env
      | none => ret ())
    split
    · exact free_denote _
    · exact free_ret _
  | drain s m => exact free_drain s m
  | _ => exact free_denote _

/-! ### Histories -/

variable {M : MId → Prop} [DecidablePred M]

structure Told (H : List Did) (c : Conf) : Prop where
  thr : ∀ t p, c.thr t = some p → Tells t H p fun _ _ => True
  told : ∀ (i : Nat) t o r m, H[i]? = some (.op t o r) → reports m o → Over t m (H.take i)

theorem Told.snoc {c c' : Conf} (h : Told H c) {x : Did} (hx : ∀ t o r m, x = .op t o r → reports m o → Over t m H)
    (ht : ∀ t p, c'.thr t = some p → Tells t (H ++ [x]) p fun _ _ => True) : Told (H ++ [x]) c' where
  thr := ht
  told i t o r m hi ho := by
    rcases snoc_get.1 hi with hi' | ⟨rfl, hi'⟩
    · rw [List.take_append_of_le_length (Nat.le_of_lt (get_lt hi'))]
      exact h.told i t o r m hi' ho
    · rw [List.take_append_of_le_length (Nat.le_refl _), List.take_length]
      exact hx t o r m hi'.symm ho

theorem Told.op {c : Conf} (h : Told H c) {t : Tid} {o : Op} {k : o.Res → Prog Unit} (hp : c.thr t = some (.op o k)) (r : o.Res) (w' : World) :
    Told (H ++ [.op t o r]) ⟨w', fset c.thr t (some (k r))⟩ := by
  have h0 := h.thr t _ hp H List.prefix_rfl
  refine h.snoc (fun u o' r' m hx ho => ?_) fun u p hu => ?_
  · cases hx
    exact h0.1 m ho
  · by_cases hut : u = t
    · subst hut
      simp only [fset_same] at hu
      cases hu
      exact h0.2 r
    · simp only [fset_ne _ _ hut] at hu
      exact tells_later (h.thr u p hu) (List.prefix_append _ _)

theorem Told.same {c : Conf} (h : Told H c) {t : Tid} {p : Option (Prog Unit)} (w' : World) (hp : ∀ q, p = some q → Tells t H q fun _ _ => True) :
    Told H ⟨w', fset c.thr t p⟩ where
  thr u q hu := by
    by_cases hut : u = t
    · subst hut
      simp only [fset_same] at hu
      exact hp q hu
    · simp only [fset_ne _ _ hut] at hu
      exact h.thr u q hu
  told := h.told

theorem Free.all {p : Prog Unit} (h : Free t p) : Tells t H p fun _ _ => True := tells_mono (h.tells H) fun _ _ _ => trivial

theorem told_step {c c' : Conf} {y : WChoice} (h : Told H c) (hs : step env M c y = some c') : Told (H ++ (Spec.Weak.did c y).toList) c' := by
  cases y with
  | read t v =>
    simp only [step] at hs
    split at hs
    next m k hp =>
      split at hs
      · cases hs
        simpa [Spec.Weak.did, hp] using h.op hp v c.w
      · cases hs
    · cases hs
  | sched y =>
    cases y with
    | begin n u =>
      simp only [step, Verif.step] at hs
      split at hs
      · cases hs
      · cases hs
        simpa [Spec.Weak.did, Spec.HB.did] using h.same (t := .client n) (p := some (u.denote env)) c.w (fun q hq => by cases hq; exact (free_denote u).all)
    | run t =>
      simp only [step, Verif.step] at hs
      split at hs
      · cases hs
      next p hp =>
        have h0 := h.thr t p hp
        cases p with
        | ret a => cases hs; simpa [Spec.Weak.did, Spec.HB.did, hp] using h.same (t := t) (p := none) c.w (fun q hq => by cases hq)
        | thr e => cases hs; simpa [Spec.Weak.did, Spec.HB.did, hp] using h.same (t := t) (p := none) (c.w.log t (.uncaught e)) (fun q hq => by cases hq)
        | op o k =>
          simp only [runThread] at hs
          split at hs
          · cases hs
            simpa [Spec.Weak.did, Spec.HB.did, hp] using h.op hp (exec t o c.w).1 (exec t o c.w).2
          · cases hs
        | call f k =>
          cases hs
          simpa [Spec.Weak.did, Spec.HB.did, hp] using h.same (t := t) (p := some ((body env f).handle k)) c.w (fun q hq => by
            cases hq
            exact tells_handle (tells_mono ((free_body f).tells H) fun r s hs => h0 s hs r))
    | dispatch e i j =>
      simp only [step, Verif.step] at hs
      split at hs
      · split at hs
        next s m hn hj' =>
          cases hs
          have h1 := h.same (t := .worker e i) (p := some (drain env s m)) { c.w with tasks := fset c.w.tasks e ((c.w.tasks e).eraseIdx j) }
            (fun q hq => by cases hq; exact (free_drain s m).all)
          have h2 := h1.snoc (x := .take (.worker e i) e s m) (fun _ _ _ _ hx => by cases hx) (fun u p hu => tells_later (h1.thr u p hu) (List.prefix_append _ _))
          simpa [Spec.Weak.did, Spec.HB.did, hj'] using h2
        · cases hs
      · cases hs
    | interrupt t => cases hs; exact ⟨by simpa [Spec.Weak.did, Spec.HB.did] using h.thr, by simpa [Spec.Weak.did, Spec.HB.did] using h.told⟩
    | shutdown e now => cases hs; exact ⟨by simpa [Spec.Weak.did, Spec.HB.did] using h.thr, by simpa [Spec.Weak.did, Spec.HB.did] using h.told⟩

/-- When `start()` or `startInState()` has returned, the thread has written the state and then reset `isEnded`. -/
theorem over {c0 c : Conf} (hi : Initial c0) {xs : List WChoice} (hr : runs env M c0 xs = some c) {i : Nat} {t : Tid} {o : Op} {r : o.Res} {m : MId}
    (h : (Spec.Weak.history env M c0 xs)[i]? = some (.op t o r)) (ho : reports m o) : Over t m ((Spec.Weak.history env M c0 xs).take i) := by
  have := sound (J := Told) (fun H c x c' h hs => told_step h hs) (H := []) (c := c0) (env := env) (M := M)
    ⟨(fun t p hp => by rw [hi.idle t] at hp; cases hp), fun i _ _ _ _ h => (by simp at h)⟩ hr
  rw [List.nil_append] at this
  exact this.told i t o r m h ho

end Verif.Weak
