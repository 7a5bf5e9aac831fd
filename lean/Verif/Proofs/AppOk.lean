import Verif.Proofs.AppProto
/-
The code of library and app follows the protocol.
-/

namespace Verif
open Prog Spec.App OProto

namespace Svc
variable {a : App} {env : Env} {t : Tid} {α β : Type}

theorem watched_iff {oid : Nat} : watched a oid = false ↔ a.action oid = none := by
  unfold watched App.action
  simp only [Bool.or_eq_false_iff, beq_eq_false_iff_ne, ne_eq]
  by_cases h1 : oid = a.starting.oid
  · rw [if_pos h1]; exact ⟨fun h => absurd h1 h.1.1, fun h => by cases h⟩
  · rw [if_neg h1]
    by_cases h2 : oid = a.stopping.oid
    · rw [if_pos h2]; exact ⟨fun h => absurd h2 h.1.2, fun h => by cases h⟩
    · rw [if_neg h2]
      by_cases h3 : oid = a.stopped.oid
      · rw [if_pos h3]; exact ⟨fun h => absurd h3 h.2, fun h => by cases h⟩
      · rw [if_neg h3]; exact ⟨fun _ => rfl, fun _ => ⟨⟨h1, h2⟩, h3⟩⟩

/-- The control state is the same before and after. -/
def Keeps (a : App) (env : Env) (t : Tid) (p : Prog α) (l : Ctl) : Prop := (proto a env).Ok t p l (fun _ l' => l' = l)

theorem Keeps.use {p : Prog α} {l : Ctl} (h : Keeps a env t p l) {Q : Except Exc α → Ctl → Prop} (hQ : ∀ r, Q r l) :
    (proto a env).Ok t p l Q := h.mono (by rintro r _ rfl; exact hQ r)

theorem keeps_ret {x : α} {l : Ctl} : Keeps a env t (ret x) l := rfl
theorem keeps_thr {x : Exc} {l : Ctl} : Keeps a env t (Prog.thr x : Prog α) l := rfl

theorem keeps_bind {p : Prog α} {f : α → Prog β} {l : Ctl} (h : Keeps a env t p l) (hf : ∀ x, Keeps a env t (f x) l) :
    Keeps a env t (p >>= f) l := by
  refine ok_bind.2 (h.use fun r => ?_)
  cases r with
  | ok x => exact hf x
  | error x => rfl

theorem keeps_handle {p : Prog α} {f : Except Exc α → Prog β} {l : Ctl} (h : Keeps a env t p l)
    (hf : ∀ x, Keeps a env t (f x) l) : Keeps a env t (p.handle f) l := ok_handle.2 (h.use hf)

theorem keeps_attempt {p : Prog α} {l : Ctl} (h : Keeps a env t p l) : Keeps a env t p.attempt l :=
  keeps_handle h fun _ => keeps_ret

theorem keeps_ofExcept {r : Except Exc α} {l : Ctl} : Keeps a env t (ofExcept r) l := ok_ofExcept.2 rfl

theorem keeps_deref {x : Option α} {l : Ctl} : Keeps a env t (deref x) l := by cases x <;> rfl

theorem keeps_ite {c : Prop} [Decidable c] {p q : Prog α} {l : Ctl} (h1 : c → Keeps a env t p l) (h2 : ¬c → Keeps a env t q l) :
    Keeps a env t (if c then p else q) l := ok_ite h1 h2

theorem readFrame_still {l : Ctl} {f : Frame} {ms : List Frame} (hl : l.meths = f :: ms) (h : still l) (o : Op) (w : World) :
    readFrame a f o w = f := by
  simp only [still, hl] at h
  unfold readFrame
  split
  next hb => exact absurd hb h.1
  next hb => exact absurd hb (h.2.1 _ _)
  next hb => exact absurd hb (h.2.2 _ _ _ _)
  · rfl

/-- Operations that have nothing to do with the app. -/
theorem keeps_lift {o : Op} {l : Ctl} (hs : still l) (ho : opOk o = true) (hp : priv a o = false) :
    Keeps a env t (lift o) l := by
  refine ok_lift.2 ⟨⟨ho, fun h => by rw [hp] at h; cases h⟩, fun w _ => ?_⟩
  show nxt a t l o w = l
  unfold Svc.nxt
  rw [if_neg (by simp [hp])]
  split
  · rfl
  next f ms hm => rw [readFrame_still hm hs]; cases l; simp only at hm; rw [hm]

theorem keeps_invoke {c : Call} {l : Ctl} (h : pre a env c l) (hp : ∀ r l', post a c l r l' → l' = l) :
    Keeps a env t (invoke c) l := ok_invoke.2 ⟨h, hp⟩

theorem keeps_userCall {cb : Cb} {c : Call} {l : Ctl} (hs : still l) (h : pre a env c l) (hp : ∀ r l', post a c l r l' → l' = l)
    (hcb : ∀ r, privObs a (.cbRet cb r) = false) : Keeps a env t (userCall cb c) l :=
  keeps_bind (keeps_attempt (keeps_invoke h hp)) fun _ =>
    keeps_bind (keeps_lift hs rfl (hcb _)) fun _ => keeps_ofExcept

theorem keeps_callback {cb : Cb} {c : Call} {l : Ctl} (hs : still l) (h : pre a env c l) (hp : ∀ r l', post a c l r l' → l' = l)
    (hcb : ∀ r, privObs a (.cbRet cb r) = false) (hcb' : privObs a (.cb cb) = false) : Keeps a env t (callback cb c) l :=
  keeps_bind (keeps_lift hs rfl hcb') fun _ => keeps_userCall hs h hp hcb

theorem keeps_notifyListener {l : Ctl} (ho : isOpen l) (m : MId) (b : Bool) (f : Option St) (ev : Ev) (to : Option St) :
    Keeps a env t (notifyListener env m b f ev to) l := by
  have hs := still_of_open ho
  refine keeps_bind (keeps_lift hs rfl rfl) fun r => keeps_ite (fun _ => ?_) (fun _ => keeps_ret)
  refine keeps_bind (keeps_lift hs (by cases b <;> rfl) rfl) fun r => ?_
  cases r with
  | none => exact keeps_thr
  | some x => cases b <;> exact keeps_userCall hs ho (fun _ _ h => h) fun _ => rfl

/-- Actions of states other than the app's. -/
theorem keeps_runActs {l : Ctl} (ho : isOpen l) (m : MId) {k : Kind} {oid : Nat} (hk : k = .entry → watched a oid = false)
    (ev : Ev) (i n : Nat) : Keeps a env t (runActs m k oid ev i n) l := by
  have hk' : ¬ (k = .entry ∧ watched a oid = true) := fun h => by rw [hk h.1] at h; cases h.2
  induction n generalizing i with
  | zero => exact keeps_ret
  | succ n ih =>
    refine keeps_bind (keeps_callback (still_of_open ho) ?_ ?_ ?_ ?_) fun _ => ih _
    · simp only [pre]; rw [if_neg hk']; exact ho
    · intro r l' h; simp only [post] at h; rw [if_neg hk'] at h; exact h
    · intro r; cases k
      · exact hk rfl
      · rfl
    · cases k
      · exact hk rfl
      · rfl

theorem isOpen_l0 : isOpen l0 := fun _ h => by cases h

theorem mayEnd_step {act : Act} {r : Option Exc} {m : MId} {oid i : Nat} {ev : Ev} (hw : watched a oid = true)
    (h : mayEnd a act r = true) :
    Spec.App.step a (some (.action m .entry oid i ev, act)) (.cbRet (.action m .entry oid i ev) r) = some none := by
  simp only [Spec.App.step, relevant, hw, if_true]
  simp [h]

/-- Actions of the app's states. -/
theorem keeps_appAct (m : MId) {oid : Nat} (hw : watched a oid = true) (ev : Ev) :
    Keeps a env t (runActs m .entry oid ev 0 1) l0 := by
  have hpo : ∀ x, priv a (.emit (.cb (.action m .entry oid 0 ev))) = true ∧
      priv a (.emit (.cbRet (.action m .entry oid 0 ev) x)) = true :=
    fun x => ⟨hw, hw⟩
  have hstep : ∀ t w, privStep a t l0 (.emit (.cb (.action m .entry oid 0 ev))) w =
      some ⟨some (.action m .entry oid 0 ev, entryAct a oid), []⟩ := by
    intro t w
    simp only [privStep, l0, obsOf, Spec.App.step, relevant, hw, if_true, Option.map_some]
  have hstep2 : ∀ act r t w, mayEnd a act r = true →
      privStep a t ⟨some (.action m .entry oid 0 ev, act), []⟩ (.emit (.cbRet (.action m .entry oid 0 ev) r)) w = some l0 := by
    intro act r t w h
    simp only [privStep, obsOf]
    rw [if_pos (by simp [relevant, hw]), mayEnd_step hw h]
    rfl
  refine ok_bind.2 (ok_bind.2 (ok_lift.2 ⟨⟨rfl, fun _ t w => by rw [hstep]; rfl⟩, fun w _ => ?_⟩))
  show (proto a env).Ok t _ (nxt a t l0 _ w) _
  have : nxt a t l0 (.emit (.cb (.action m .entry oid 0 ev))) w = ⟨some (.action m .entry oid 0 ev, entryAct a oid), []⟩ := by
    unfold Svc.nxt
    rw [if_pos (hpo none).1, hstep]; rfl
  rw [this]
  refine ok_bind.2 (ok_attempt.2 (ok_invoke.2 ⟨?_, fun r l' hp => ?_⟩))
  · simp only [proto, pre, hw, and_self, if_true]
  · simp only [proto, post, hw, and_self, if_true] at hp
    obtain ⟨act, rfl, he⟩ := hp
    refine ok_bind.2 (ok_lift.2 ⟨⟨rfl, fun _ t w => by rw [hstep2 _ _ _ _ he]; rfl⟩, fun w _ => ?_⟩)
    have : (proto a env).nxt t ⟨some (.action m .entry oid 0 ev, act), []⟩ (.emit (.cbRet (.action m .entry oid 0 ev) (outcome r))) w = l0 := by
      simp only [proto]
      unfold Svc.nxt
      rw [if_pos (hpo (outcome r)).2, hstep2 _ _ _ _ he]; rfl
    rw [this]
    cases r <;> exact rfl

theorem keeps_updateCurrentState {l : Ctl} (hs : still l) (m : MId) (s : St) (b : Bool) :
    Keeps a env t (updateCurrentState env m s b) l :=
  keeps_bind (keeps_lift hs rfl rfl) fun _ => keeps_ite (fun _ => keeps_lift hs rfl rfl) (fun _ => keeps_ret)

theorem keeps_stop {l : Ctl} (hs : still l) (m : MId) (b : Bool) : Keeps a env t (stop env m b) l :=
  keeps_updateCurrentState hs m _ b

theorem keeps_onState (ha : a.Wired env) (k : Kind) (s : St) (ev : Ev) (m : MId) : Keeps a env t (onState env k s ev m) l0 := by
  unfold onState
  by_cases hk : k = .entry ∧ watched a s.oid = true
  · obtain ⟨rfl, hw⟩ := hk
    cases hx : a.action s.oid with
    | none => rw [watched_iff.2 hx] at hw; cases hw
    | some p => rw [ha.entry _ _ hx]; exact keeps_appAct m hw ev
  · refine keeps_runActs isOpen_l0 m ?_ ev 0 _
    intro h
    cases hw : watched a s.oid with
    | false => rfl
    | true => exact absurd ⟨h, hw⟩ hk

theorem still_l0 : still l0 := trivial

theorem keeps_execute (ha : a.Wired env) (s : SId) (ev : Ev) (m : MId) : Keeps a env t (execute env s ev m) l0 := by
  have lf : ∀ {o : Op}, opOk o = true → priv a o = false → Keeps a env t (lift o) l0 := fun h1 h2 => keeps_lift still_l0 h1 h2
  refine keeps_bind (lf rfl rfl) fun _ => keeps_bind keeps_deref fun row => ?_
  cases row.target (some ev.key) with
  | none => exact keeps_callback still_l0 isOpen_l0 (fun _ _ h => h) (fun _ => rfl) rfl
  | some to =>
    refine keeps_ite (fun _ => ?_) (fun _ => ?_)
    · refine keeps_bind (lf rfl rfl) fun _ => keeps_bind (keeps_notifyListener isOpen_l0 ..) fun _ => ?_
      exact keeps_bind (lf rfl rfl) fun _ => keeps_notifyListener isOpen_l0 ..
    · refine keeps_bind (lf rfl rfl) fun _ => keeps_bind (keeps_notifyListener isOpen_l0 ..) fun _ => ?_
      refine keeps_bind (lf rfl rfl) fun _ => keeps_bind keeps_deref fun _ => ?_
      refine keeps_bind (keeps_onState ha ..) fun _ => keeps_bind (keeps_updateCurrentState still_l0 ..) fun _ => ?_
      refine keeps_bind (lf rfl rfl) fun _ => keeps_bind keeps_deref fun _ => ?_
      refine keeps_bind (keeps_onState ha ..) fun _ => keeps_bind (keeps_notifyListener isOpen_l0 ..) fun _ => ?_
      exact keeps_ite (fun _ => keeps_stop still_l0 ..) (fun _ => keeps_ret)

theorem keeps_processOne (ha : a.Wired env) (s : SId) (cm : MId) (p : PairId) (ev : Ev) (m : MId) :
    Keeps a env t (processOne env s cm p ev m) l0 := by
  have rest : ∀ r, Keeps a env t (do lift (.poolGive s p); Prog.ofExcept r) l0 := fun (r : Except Exc Unit) =>
    keeps_bind (keeps_lift still_l0 rfl rfl) fun _ => keeps_ofExcept
  refine keeps_bind (keeps_attempt ?_) fun r => ?_
  · exact keeps_bind (keeps_lift still_l0 rfl rfl) fun _ => keeps_ite (fun _ => keeps_execute ha ..) (fun _ => keeps_ret)
  · cases r with
    | ok _ => exact keeps_bind keeps_ret fun _ => rest _
    | error x =>
      refine keeps_ite (fun _ => keeps_bind (keeps_attempt ?_) fun _ => rest _) (fun _ => keeps_bind keeps_ret fun _ => rest _)
      exact keeps_callback still_l0 (Or.inr isOpen_l0) (fun _ _ h => h) (fun _ => rfl) rfl

theorem keeps_drain (ha : a.Wired env) (s : SId) (m : MId) : Keeps a env t (drain env s m) l0 := by
  refine keeps_bind (keeps_lift still_l0 rfl rfl) fun _ => keeps_ite (fun _ => keeps_ret) (fun _ => ?_)
  refine keeps_bind (keeps_lift still_l0 rfl rfl) fun _ => keeps_bind keeps_deref fun _ => ?_
  refine keeps_bind (keeps_lift still_l0 rfl rfl) fun _ => keeps_bind keeps_deref fun em => ?_
  exact keeps_bind (keeps_processOne ha ..) fun _ => keeps_invoke rfl fun _ _ h => h

theorem keeps_anyEqual {l : Ctl} (hs : still l) (ev : Ev) (ps : List PairId) : Keeps a env t (anyEqual ev ps) l := by
  induction ps with
  | nil => exact keeps_ret
  | cons p ps ih =>
    exact keeps_bind (keeps_lift hs rfl rfl) fun _ => keeps_bind keeps_deref fun _ => keeps_ite (fun _ => keeps_ret) (fun _ => ih)

theorem keeps_processEvent {l : Ctl} (hs : still l) (s : SId) (hl : s = (env.mach a.m).strat ∨ isOpen l) (ev : Ev) (m : MId) :
    Keeps a env t (processEvent env s ev m) l := by
  have hd : Keeps a env t (processEventDefault env s ev m) l := by
    refine keeps_bind (keeps_lift hs rfl rfl) fun _ => keeps_ite (fun _ => ?_) (fun _ => ?_)
    · exact keeps_callback hs hl (fun _ _ h => h) (fun _ => rfl) rfl
    · refine keeps_bind (keeps_lift hs rfl rfl) fun _ => keeps_bind (keeps_lift hs rfl rfl) fun _ => ?_
      have rest : ∀ p, Keeps a env t (do
          lift (.offer (env.strat s).queue p)
          if !(← lift (.submit (env.strat s).exec s m)) then
            Prog.thr .rejected) l := fun p =>
        keeps_bind (keeps_lift hs rfl rfl) fun _ => keeps_bind (keeps_lift hs rfl rfl) fun _ =>
          keeps_ite (fun _ => keeps_thr) (fun _ => keeps_ret)
      refine keeps_ite (fun _ => ?_) (fun _ => ?_)
      · exact keeps_bind (keeps_lift hs rfl rfl) fun _ => keeps_bind (keeps_lift hs rfl rfl) fun _ => rest _
      · exact keeps_bind (keeps_lift hs rfl rfl) fun _ => rest _
  refine keeps_ite (fun _ => ?_) (fun _ => hd)
  exact keeps_bind (keeps_lift hs rfl rfl) fun _ => keeps_bind (keeps_anyEqual hs ..) fun _ =>
    keeps_ite (fun _ => keeps_lift hs rfl rfl) (fun _ => hd)

theorem keeps_fire {l : Ctl} (hs : still l) (m : MId) (hl : m = a.m ∨ isOpen l) (ev : Ev) :
    Keeps a env t (Verif.fire env m ev) l := by
  have hl : (env.mach m).strat = (env.mach a.m).strat ∨ isOpen l := hl.imp (fun h => by rw [h]) id
  refine keeps_bind (keeps_lift hs rfl rfl) fun _ => keeps_ite (fun _ => ?_) (fun _ => ?_)
  · exact keeps_callback hs hl (fun _ _ h => h) (fun _ => rfl) rfl
  · have rest : ∀ e : Bool, Keeps a env t (if e = true then
        callback (.flowAfter m ev) (.flowAfter (env.mach m).strat ev m) else processEvent env (env.mach m).strat ev m) l := fun e =>
      keeps_ite (fun _ => keeps_callback hs hl (fun _ _ h => h) (fun _ => rfl) rfl)
        (fun _ => keeps_processEvent hs _ hl ev m)
    refine keeps_bind (keeps_lift hs rfl rfl) fun _ => keeps_ite (fun _ => ?_) (fun _ => ?_)
    · exact keeps_bind (keeps_lift hs rfl rfl) fun _ => rest _
    · exact keeps_bind keeps_ret fun _ => rest _

theorem keeps_start (ha : a.Wired env) {l : Ctl} (ho : isOpen l) (m : MId) : Keeps a env t (Verif.start env m) l := by
  have hs := still_of_open ho
  unfold Verif.start
  dsimp only
  split
  · exact keeps_thr
  · exact keeps_thr
  next i hc hi =>
    refine keeps_bind (keeps_lift hs rfl rfl) fun _ => keeps_ite (fun _ => ?_) (fun _ => keeps_thr)
    refine keeps_bind (keeps_lift hs rfl rfl) fun _ => keeps_bind (keeps_notifyListener ho ..) fun _ => ?_
    refine keeps_bind (keeps_runActs ho m (fun _ => watched_iff.2 (ha.otherInit m i hi)) ..) fun _ => ?_
    exact keeps_bind (keeps_notifyListener ho ..) fun _ => keeps_lift hs rfl rfl

theorem keeps_startInState {l : Ctl} (hs : still l) (m : MId) (s : Option St) : Keeps a env t (Verif.startInState env m s) l := by
  unfold Verif.startInState
  split
  · refine keeps_bind (keeps_lift hs rfl rfl) fun _ => keeps_ite (fun _ => ?_) (fun _ => keeps_thr)
    exact keeps_bind (keeps_lift hs rfl rfl) fun _ => keeps_lift hs rfl rfl
  · exact keeps_thr

theorem keeps_api {l : Ctl} (hs : still l) {c : Api} (hc : privObs a (.enter c) = false) (hr : ∀ r, privObs a (.leave c r) = false)
    {p : Prog Unit} (hp : Keeps a env t p l) : Keeps a env t (Verif.api c p) l :=
  keeps_bind (keeps_lift hs rfl hc) fun _ => keeps_bind (keeps_attempt hp) fun _ =>
    keeps_bind (keeps_lift hs rfl (hr _)) fun _ => keeps_ret

/-- Calls of code outside the app. -/
theorem keeps_ucall (ha : a.Wired env) {l : Ctl} (ho : isOpen l) {u : UCall} (hu : a.own u = false) :
    Keeps a env t (u.prog env) l := by
  have hs := still_of_open ho
  cases u with
  | fire m ev => exact keeps_api (c := .fire m ev) hs hu (fun _ => hu) (keeps_fire hs m (Or.inr ho) ev)
  | stop m => exact keeps_api (c := .stop m) hs hu (fun _ => hu) (keeps_stop hs m true)
  | start m => exact keeps_api (c := .start m) hs hu (fun _ => hu) (keeps_start ha ho m)
  | startInState m s => exact keeps_api (c := .startInState m s) hs hu (fun _ => hu) (keeps_startInState hs m s)
  | proc i => exact keeps_attempt (keeps_invoke ho fun _ _ h => h)
  | note n =>
    refine keeps_lift hs rfl ?_
    cases n <;> first | exact hu | rfl
  | await n => exact keeps_lift hs rfl hu
  | countDown n => exact keeps_lift hs rfl hu
  | _ => exact keeps_lift hs rfl rfl

/-! ### The app's own code -/

theorem ok_priv {o : Op} {l : Ctl} {Q : Except Exc o.Res → Ctl → Prop} (ho : opOk o = true) (hp : priv a o = true)
    (h : ∀ t w, ∃ l', privStep a t l o w = some l')
    (hQ : ∀ w l', enabled t o w = true → privStep a t l o w = some l' → Q (.ok (exec t o w).1) l') :
    (proto a env).Ok t (lift o) l Q := by
  refine ok_lift.2 ⟨⟨ho, fun _ t w => ?_⟩, fun w he => ?_⟩
  · obtain ⟨l', h⟩ := h t w; rw [h]; rfl
  · obtain ⟨l', h⟩ := h t w
    show Q _ (nxt a t l o w)
    unfold Svc.nxt
    rw [if_pos hp, h]
    exact hQ w l' he h

/-- An API call on the app's machine. -/
theorem ok_ownApi {c : Api} {p : Prog Unit} {l l1 : Ctl} {l2 : Option Exc → Ctl} {Q : Except Exc (Except Exc Unit) → Ctl → Prop}
    (hc : privObs a (.enter c) = true) (hr : ∀ r, privObs a (.leave c r) = true)
    (h1 : ∀ t w, privStep a t l (.emit (.enter c)) w = some l1) (hp : Keeps a env t p l1)
    (h2 : ∀ r t w, privStep a t l1 (.emit (.leave c r)) w = some (l2 r))
    (hQ : ∀ r, Q (.ok r) (l2 (outcome r))) : (proto a env).Ok t (Verif.api c p) l Q := by
  refine ok_bind.2 (ok_priv rfl hc (fun t w => ⟨_, h1 t w⟩) fun w l' _ h => ?_)
  rw [h1] at h; cases h
  refine ok_bind.2 (ok_attempt.2 (hp.use fun r => ?_))
  refine ok_bind.2 (ok_priv rfl (hr _) (fun t w => ⟨_, h2 _ t w⟩) fun w l' _ h => ?_)
  rw [h2] at h; cases h
  exact hQ r

/-- `appStateMachine.fire(ev)`. -/
theorem ok_fire {ev : Ev} {l l1 : Ctl} {l2 : Option Exc → Ctl} {Q : Except Exc Unit → Ctl → Prop}
    (h1 : ∀ t w, privStep a t l (.emit (.enter (.fire a.m ev))) w = some l1) (hs : still l1)
    (h2 : ∀ r t w, privStep a t l1 (.emit (.leave (.fire a.m ev) r)) w = some (l2 r))
    (hQ : ∀ r, Q r (l2 (outcome r))) : (proto a env).Ok t ((a.fire ev).denote env) l Q := by
  refine ok_bind'.2 (ok_ownApi (by simp [privObs]) (fun _ => by simp [privObs]) h1 (keeps_fire hs a.m (Or.inl rfl) ev) h2 fun r => ?_)
  cases r <;> exact hQ _

theorem ok_note {n : Mark} {p : UProg} {l : Ctl} {Q : Except Exc Unit → Ctl → Prop} (hp : privObs a (.user n) = true)
    (h : ∀ t w, ∃ l', privStep a t l (.emit (.user n)) w = some l')
    (hQ : ∀ w l', privStep a t l (.emit (.user n)) w = some l' → (proto a env).Ok t (p.denote env) l' Q) :
    (proto a env).Ok t ((UProg.note n p).denote env) l Q :=
  ok_bind'.2 (ok_priv rfl hp h fun w l' _ hl => hQ w l' hl)


theorem ok_get {o : Op} {act : Option (Cb × Act)} {f : Frame} {ms : List Frame} {Q : Except Exc o.Res → Ctl → Prop}
    (ho : opOk o = true) (hp : priv a o = false)
    (hQ : ∀ w, Q (.ok (exec t o w).1) ⟨act, readFrame a f o w :: ms⟩) : (proto a env).Ok t (lift o) ⟨act, f :: ms⟩ Q := by
  refine ok_lift.2 ⟨⟨ho, fun h => by rw [hp] at h; cases h⟩, fun w _ => ?_⟩
  have : (proto a env).nxt t ⟨act, f :: ms⟩ o w = ⟨act, readFrame a f o w :: ms⟩ := by
    simp only [proto, Svc.nxt, hp]
    rfl
  rw [this]
  exact hQ w

theorem named_iff {s : Option St} {n : String} : App.named s n = true ↔ nm s = some n := by
  cases s with
  | none => simp [App.named, nm]
  | some s => simp [App.named, nm]

theorem stop_fire {s : Option St} :
    (App.named s STATE_STARTED || !a.exitOnStop && App.named s STATE_STOPPED) = true ↔ onStop a.exitOnStop (nm s) = .fire := by
  simp only [Bool.or_eq_true, Bool.and_eq_true, named_iff, STATE_STARTED, STATE_STOPPED, onStop]
  by_cases h1 : nm s = some "STARTED"
  · simp [h1]
  · by_cases h2 : nm s = some "STOPPED"
    · cases a.exitOnStop <;> simp [h2]
    · simp [h1, h2]

theorem stop_refuse {s : Option St}
    (h : ¬ (App.named s STATE_STARTED || !a.exitOnStop && App.named s STATE_STOPPED) = true) :
    (!(a.exitOnStop && App.named s STATE_STOPPED)) = true ↔ onStop a.exitOnStop (nm s) = .refuse := by
  rw [stop_fire] at h
  have h3 : App.named s STATE_STOPPED = decide (nm s = some "STOPPED") := by
    rw [Bool.eq_iff_iff, named_iff, decide_eq_true_iff]; rfl
  rw [h3]
  simp only [onStop] at h ⊢
  by_cases h1 : nm s = some "STARTED"
  · simp [h1] at h
  · by_cases h2 : nm s = some "STOPPED"
    · cases hx : a.exitOnStop <;> simp [h2, hx] at h ⊢
    · simp [h1, h2]

theorem start_fire {s : Option St} :
    (!a.exitOnStop && App.named s STATE_STOPPED) = true ↔ onStart a.exitOnStop (nm s) = .fire := by
  simp only [Bool.and_eq_true, named_iff, STATE_STOPPED, onStart]
  by_cases h2 : nm s = some "STOPPED"
  · cases a.exitOnStop <;> simp [h2]
  · simp [h2]

theorem start_refuse {s : Option St} (h : ¬ onStart a.exitOnStop (nm s) = .fire) : onStart a.exitOnStop (nm s) = .refuse := by
  unfold onStart at h ⊢
  split
  next hx => rw [if_pos hx] at h; exact absurd rfl h
  · rfl

/-- How a method call that began at `n` has to end. -/
def Ended (a : App) (act : Option (Cb × Act)) (ms : List Frame) (c : AppCall) (n : Nat) (r : Except Exc Unit) (l : Ctl) : Prop :=
  ∃ ph, l = ⟨act, ⟨c, n, ph⟩ :: ms⟩ ∧ mayReturn a ⟨c, n, ph⟩ (outcome r)

theorem ok_recorded {c : AppCall} {b : UProg} {l : Ctl} {act : Option (Cb × Act)} {ms : List Frame}
    {Q : Except Exc Unit → Ctl → Prop}
    (hpush : ∀ t w, privStep a t l (.emit (.user (.app a.id c))) w = some ⟨act, ⟨c, w.trace.length, .begin⟩ :: ms⟩)
    (hb : ∀ n, (proto a env).Ok t (b.denote env) ⟨act, ⟨c, n, .begin⟩ :: ms⟩ (Ended a act ms c n))
    (hQ : ∀ r, Q r ⟨act, pop ms (outcome r)⟩) : (proto a env).Ok t ((a.recorded c b).denote env) l Q := by
  refine ok_note (by simp [privObs]) (fun t w => ⟨_, hpush t w⟩) fun w l' h => ?_
  rw [hpush] at h; cases h
  generalize w.trace.length = n
  rw [UProg.denote_handle]
  refine ok_handle.2 ((hb n).mono ?_)
  rintro r l' ⟨ph, rfl, hr⟩
  have hpop : ∀ t w, privStep a t ⟨act, ⟨c, n, ph⟩ :: ms⟩ (.emit (.user (.appRet a.id c (outcome r)))) w =
      some ⟨act, pop ms (outcome r)⟩ := by
    intro t w
    simp only [privStep, methStep]
    rw [if_pos ⟨trivial, hr⟩]; rfl
  refine ok_note (by simp [privObs]) (fun t w => ⟨_, hpop t w⟩) fun w l' h => ?_
  rw [hpop] at h; cases h
  cases r <;> exact hQ _

/-- A method that fires an event as its last step. -/
theorem ok_lastFire {ev : Ev} {act : Option (Cb × Act)} {ms : List Frame} {c : AppCall} {k : Nat} {ph : Ph}
    {s : Option St} {n n2 : Nat} (h : enterFire a ⟨c, k, ph⟩ ev = some (.firing ev s n n2)) :
    (proto a env).Ok t ((a.fire ev).denote env) ⟨act, ⟨c, k, ph⟩ :: ms⟩ (Ended a act ms c k) := by
  refine ok_fire (l1 := ⟨act, ⟨c, k, .firing ev s n n2⟩ :: ms⟩) (l2 := fun r => ⟨act, ⟨c, k, .fired ev s n n2 r⟩ :: ms⟩)
    ?_ ?_ ?_ ?_
  · intro t w; simp only [privStep, methStep, h]; rfl
  · refine ⟨?_, ?_, ?_⟩ <;> intros <;> intro h <;> cases h
  · intro r t w; simp only [privStep, methStep, if_true]; rfl
  · intro r; exact ⟨_, rfl, by cases c <;> exact rfl⟩

theorem ok_stopRest {act : Option (Cb × Act)} {ms : List Frame} (k : Nat) (s : Option St) (n : Nat) :
    (proto a env).Ok t (UProg.denote env (
      if App.named s STATE_STARTED || !a.exitOnStop && App.named s STATE_STOPPED then a.fire evtStop
      else if !(a.exitOnStop && App.named s STATE_STOPPED) then .thr (.ise .appState)
      else .done)) ⟨act, ⟨.stop, k, .read s n⟩ :: ms⟩ (Ended a act ms .stop k) := by
  split
  next h =>
    have h := stop_fire.1 h
    refine ok_lastFire (s := s) (n := n) (n2 := n) ?_
    simp only [enterFire, h, and_self, if_true]
  next h =>
    split
    next h2 => exact ⟨_, rfl, Or.inr ⟨(stop_refuse h).1 h2, rfl⟩⟩
    next h2 =>
      refine ⟨_, rfl, Or.inl ⟨?_, rfl⟩⟩
      have h3 := fun h4 => h2 ((stop_refuse h).2 h4)
      have h4 := fun h4 => h (stop_fire.2 h4)
      cases hx : onStop a.exitOnStop (nm s) with
      | fire => exact absurd hx h4
      | ignore => rfl
      | refuse => exact absurd hx h3

theorem ok_stopBody {act : Option (Cb × Act)} {ms : List Frame} (k : Nat) :
    (proto a env).Ok t (a.stopBody.denote env) ⟨act, ⟨.stop, k, .begin⟩ :: ms⟩ (Ended a act ms .stop k) := by
  refine ok_bind'.2 (ok_get rfl rfl fun w => ?_)
  have hr : readFrame a ⟨.stop, k, .begin⟩ (.getCur a.m) w = ⟨.stop, k, .read (w.mach a.m).cur w.trace.length⟩ := by
    simp only [readFrame, if_true]
  rw [hr]
  exact ok_stopRest k _ _

theorem ok_startFinally {act : Option (Cb × Act)} {ms : List Frame} {k : Nat} {s : Option St} {n n2 : Nat} {i : Bool} :
    (proto a env).Ok t (a.startFinally.denote env) ⟨act, ⟨.start, k, .finish s n n2 i⟩ :: ms⟩ (Ended a act ms .start k) := by
  refine ok_bind'.2 (ok_get rfl rfl fun w => ?_)
  have hr : readFrame a ⟨.start, k, .finish s n n2 i⟩ (.getEnded a.m) w =
      ⟨.start, k, if (w.mach a.m).ended then .clean s n n2 i else .toStop s n n2 i⟩ := by simp only [readFrame, if_true]
  rw [hr]
  simp only [exec]
  show (proto a env).Ok t ((if _ then _ else _ : UProg).denote env) _ _
  cases (w.mach a.m).ended with
  | true => exact ⟨_, rfl, rfl⟩
  | false =>
    refine ok_recorded (act := act) (ms := ⟨.start, k, .inStop s n n2 i⟩ :: ms) ?_ (fun n => ok_stopBody n) ?_
    · intro t w; simp only [privStep, methStep, if_true]; rfl
    · intro r; exact ⟨_, rfl, rfl⟩

theorem ok_startBody (ha : a.Wired env) {act : Option (Cb × Act)} {ms : List Frame} (k : Nat) :
    (proto a env).Ok t (a.startBody.denote env) ⟨act, ⟨.start, k, .begin⟩ :: ms⟩ (Ended a act ms .start k) := by
  refine ok_bind'.2 (ok_get rfl rfl fun w => ?_)
  have hr : readFrame a ⟨.start, k, .begin⟩ (.getCur a.m) w = ⟨.start, k, .read (w.mach a.m).cur w.trace.length⟩ := by
    simp only [readFrame, if_true]
  rw [hr]
  simp only [exec]
  generalize (w.mach a.m).cur = s
  generalize w.trace.length = n
  refine ok_bind'.2 (ok_get rfl rfl fun w => ?_)
  have hr : readFrame a ⟨.start, k, .read s n⟩ (.getStarted a.m) w =
      ⟨.start, k, .known s n (w.mach a.m).started w.trace.length⟩ := by simp only [readFrame, and_self, if_true]
  rw [hr]
  simp only [exec]
  generalize (w.mach a.m).started = b
  generalize w.trace.length = n2
  show (proto a env).Ok t ((if _ then _ else _ : UProg).denote env) _ _
  cases b with
  | true =>
    rw [if_neg (by simp)]
    split
    next h =>
      have h := start_fire.1 h
      refine ok_lastFire (s := s) (n := n) (n2 := n2) ?_
      simp only [enterFire, h, and_self, if_true]
    next h => exact ⟨_, rfl, start_refuse fun h2 => h (start_fire.2 h2), rfl⟩
  | false =>
    rw [if_pos (by rfl)]
    have o1 : isOpen ⟨act, ⟨.start, k, .starting s n n2⟩ :: ms⟩ := ⟨s, n, n2, rfl⟩
    refine ok_bind'.2 (ok_ownApi (l1 := ⟨act, ⟨.start, k, .starting s n n2⟩ :: ms⟩)
      (l2 := fun r => ⟨act, ⟨.start, k, match r with | none => .started s n n2 | some x => .noStart s n n2 x⟩ :: ms⟩)
      (by simp [privObs]) (fun _ => by simp [privObs]) ?_ (keeps_start ha o1 a.m) ?_ fun r => ?_)
    · intro t w; simp only [privStep, methStep, if_true]; rfl
    · intro r t w; simp only [privStep, methStep]; rfl
    cases r with
    | error x => exact ⟨_, rfl, rfl⟩
    | ok _ =>
      show (proto a env).Ok t (UProg.denote env (UProg.andThen (a.fire evtStart) _)) _ _
      unfold UProg.andThen
      rw [UProg.denote_handle]
      refine ok_handle.2 (ok_fire (l1 := ⟨act, ⟨.start, k, .firing1 s n n2⟩ :: ms⟩)
        (l2 := fun r => ⟨act, ⟨.start, k, match r with | none => .waiting s n n2 | some x => .noFire s n n2 x⟩ :: ms⟩) ?_ ?_ ?_ ?_)
      · intro t w; simp only [privStep, methStep, enterFire, if_true, outcome]; rfl
      · refine ⟨?_, ?_, ?_⟩ <;> intros <;> intro h <;> cases h
      · intro r t w; simp only [privStep, methStep, if_true]; rfl
      intro r
      cases r with
      | error x => exact ⟨_, rfl, rfl⟩
      | ok _ =>
        have h1 : ∀ t w, privStep a t ⟨act, ⟨.start, k, .waiting s n n2⟩ :: ms⟩ (.await a.latch) w =
            some ⟨act, ⟨.start, k, if w.intr t then .awake s n n2 else .finish s n n2 false⟩ :: ms⟩ := by
          intro t w; simp only [privStep, methStep]; rfl
        refine ok_bind'.2 (ok_priv rfl (by simp [priv]) (fun t w => ⟨_, h1 t w⟩) fun w l' _ hl => ?_)
        cases hl.symm.trans (h1 t w)
        simp only [exec]
        cases w.intr t with
        | false => exact ok_startFinally
        | true =>
          have h2 : ∀ t w, privStep a t ⟨act, ⟨.start, k, .awake s n n2⟩ :: ms⟩ (.emit (.user (.intr a.id))) w =
              some ⟨act, ⟨.start, k, .finish s n n2 true⟩ :: ms⟩ := by
            intro t w; simp only [privStep, methStep]; rfl
          refine ok_note (by simp [privObs]) (fun t w => ⟨_, h2 t w⟩) fun w l' hl => ?_
          cases hl.symm.trans (h2 t w)
          refine ok_bind'.2 (ok_get rfl rfl fun w => ?_)
          exact ok_startFinally

theorem ok_methodBody (ha : a.Wired env) {act : Option (Cb × Act)} {ms : List Frame} (c : AppCall) (k : Nat) :
    (proto a env).Ok t ((a.methodBody c).denote env) ⟨act, ⟨c, k, .begin⟩ :: ms⟩ (Ended a act ms c k) := by
  cases c with
  | start => exact ok_startBody ha k
  | stop => exact ok_stopBody k
  | error => exact ok_lastFire (s := none) (n := 0) (n2 := 0) (by simp only [enterFire, if_true])

theorem keeps_method (ha : a.Wired env) {l : Ctl} (ho : isOpen l) (c : AppCall) : Keeps a env t ((a.method c).denote env) l := by
  obtain ⟨act, ms⟩ := l
  refine ok_recorded (act := act) (ms := ms) ?_ (fun n => ok_methodBody ha c n) ?_
  · intro t w
    cases ms with
    | nil =>
      have : privStep.isOpen' ⟨act, []⟩ = true := by
        cases act with
        | none => rfl
        | some p => exact ho p rfl
      simp only [privStep, this, if_true]
    | cons f ms =>
      obtain ⟨s, n, n2, hf⟩ := ho
      cases f with
      | mk c' p ph => simp only at hf; subst hf; rfl
  · intro r
    cases ms with
    | nil => rfl
    | cons f ms =>
      obtain ⟨s, n, n2, hf⟩ := ho
      cases f with
      | mk c' p ph => simp only at hf; subst hf; rfl

/-- Code outside the app can run whenever the control state is open. -/
theorem keeps_outside (ha : a.Wired env) {l : Ctl} (ho : isOpen l) {u : UProg} (hu : a.Outside u) : Keeps a env t (u.denote env) l := by
  induction hu with
  | done => exact keeps_ret
  | thr x => exact keeps_thr
  | call u k h _ ih => exact ok_bind'.2 ((keeps_ucall ha ho h).use fun r => by cases r; exact rfl; exact ih _)
  | method c k _ ih =>
    rw [UProg.denote_handle]
    exact keeps_handle (keeps_method ha ho c) ih


/-! ### The entry actions -/

/-- How the entry action of state `oid` has to end. -/
def Acted (a : App) (cb : Cb) (r : Except Exc Unit) (l : Ctl) : Prop :=
  ∃ act, l = ⟨some (cb, act), []⟩ ∧ mayEnd a act (outcome r) = true

theorem actStep_run {cb : Cb} {act act' : Act} {x : Obs} (hr : relevant a (some (cb, act)) x = true)
    (hc : ∀ c r, x ≠ .cbRet c r) (hu : ∀ i c, x ≠ .user (.app i c)) (h : actStep a act x = some act') {o : Op} (ho : obsOf o = some x)
    (t : Tid) (w : World) : privStep a t ⟨some (cb, act), []⟩ o w = some ⟨some (cb, act'), []⟩ := by
  have hs : Spec.App.step a (some (cb, act)) x = some (some (cb, act')) := by
    unfold Spec.App.step
    rw [if_pos hr]
    cases x with
    | cbRet c r => exact absurd rfl (hc _ _)
    | _ => simp only [h, Option.map_some]
  simp only [privStep]
  split
  next c => cases ho; exact absurd rfl (hu _ _)
  · rw [ho]
    simp only [hr, hs, if_true]
    rfl

/-- Firing an event from an entry action. -/
theorem ok_actFire {ev : Ev} {cb : Cb} {act act1 : Act} {act2 : Option Exc → Act} {Q : Except Exc Unit → Ctl → Prop}
    (hn : act.isInSub = false) (hn1 : act1.isInSub = false)
    (h1 : actStep a act (.enter (.fire a.m ev)) = some act1) (h2 : ∀ r, actStep a act1 (.leave (.fire a.m ev) r) = some (act2 r))
    (hQ : ∀ r, Q r ⟨some (cb, act2 (outcome r)), []⟩) :
    (proto a env).Ok t ((a.fire ev).denote env) ⟨some (cb, act), []⟩ Q := by
  refine ok_fire (l1 := ⟨some (cb, act1), []⟩) (l2 := fun r => ⟨some (cb, act2 r), []⟩) ?_ trivial ?_ hQ
  · exact actStep_run (by simp [relevant, hn]) (fun _ _ h => by cases h) (fun _ _ h => by cases h) h1 rfl
  · intro r
    exact actStep_run (by simp [relevant, hn1]) (fun _ _ h => by cases h) (fun _ _ h => by cases h) (h2 r) rfl

theorem ok_quiet {o : Op} {l : Ctl} {Q : Except Exc o.Res → Ctl → Prop} (hs : still l) (ho : opOk o = true) (hp : priv a o = false)
    (hQ : ∀ r, Q (.ok r) l) : (proto a env).Ok t (lift o) l Q := by
  have h : Keeps a env t (lift o) l := keeps_lift hs ho hp
  refine ok_lift.2 ⟨(ok_lift.1 h).1, fun w he => ?_⟩
  have h2 := (ok_lift.1 h).2 w he
  rw [h2]
  exact hQ _

/-- The exception handler reports one `error`. -/
theorem ok_handler {cb : Cb} {x : Exc} :
    (proto a env).Ok t ((a.exceptionHandler x).denote env) ⟨some (cb, .failed x), []⟩ (Acted a cb) := by
  refine ok_bind'.2 (ok_quiet trivial rfl rfl fun _ => ?_)
  exact ok_actFire (act1 := .erring) (act2 := fun r => .over r) rfl rfl (by simp [actStep]) (by simp [actStep])
    fun r => ⟨_, rfl, by simp [mayEnd]⟩

/-- How the wrapped actions end: done, or failed. -/
def Tried (cb : Cb) (r : Except Exc Unit) (l : Ctl) : Prop :=
  match r with
  | .ok _ => l = ⟨some (cb, .over none), []⟩
  | .error x => l = ⟨some (cb, afterFail x), []⟩

theorem ok_handleException {p : UProg} {cb : Cb} {l : Ctl} (h : (proto a env).Ok t (p.denote env) l (Tried cb)) :
    (proto a env).Ok t ((handleException p a.exceptionHandler).denote env) l (Acted a cb) := by
  unfold handleException
  rw [UProg.denote_handle]
  refine ok_handle.2 (h.mono ?_)
  intro r l' hl
  cases r with
  | ok _ => exact ⟨_, hl, by simp [mayEnd, outcome]⟩
  | error x =>
    simp only [Tried, afterFail] at hl
    subst hl
    show (proto a env).Ok t ((if _ then _ else _ : UProg).denote env) _ _
    split
    · exact ok_handler
    · exact ⟨_, rfl, by simp [mayEnd, outcome]⟩

theorem ok_complete {cb : Cb} {up : Bool} :
    (proto a env).Ok t ((a.fire evtComplete).denote env) ⟨some (cb, .phase up a.nsubs), []⟩ (Tried cb) := by
  refine ok_actFire (act1 := .completing) (act2 := fun r => match r with | none => .over none | some x => afterFail x) rfl rfl
    (by simp [actStep]) (fun r => ?_) fun r => ?_
  · cases r <;> simp [actStep]
  · cases r <;> rfl

theorem ok_callSub (ha : a.Wired env) {cb : Cb} {up : Bool} {i k : Nat} {next : UProg} (hi : i < a.nsubs)
    (hk : k = order a.nsubs up i)
    (h : (proto a env).Ok t (next.denote env) ⟨some (cb, .phase up (i + 1)), []⟩ (Tried cb)) :
    (proto a env).Ok t ((a.callSub k up next).denote env) ⟨some (cb, .phase up i), []⟩ (Tried cb) := by
  have h1 : ∀ t w, privStep a t ⟨some (cb, .phase up i), []⟩ (.emit (.user (.sub a.id k up))) w =
      some ⟨some (cb, .inSub up i), []⟩ :=
    actStep_run (by simp [relevant]) (fun _ _ h => by cases h) (fun _ _ h => by cases h) (by simp [actStep, hi, hk]) rfl
  refine ok_note (by simp [privObs]) (fun t w => ⟨_, h1 t w⟩) fun w l' hl => ?_
  cases hl.symm.trans (h1 t w)
  rw [UProg.denote_handle]
  refine ok_handle.2 ((keeps_outside ha (l := ⟨some (cb, .inSub up i), []⟩) (fun p hp => by cases hp; rfl) (ha.sub k up)).use fun r => ?_)
  have h2 : ∀ t w, privStep a t ⟨some (cb, .inSub up i), []⟩ (.emit (.user (.subRet a.id k up (outcome r)))) w =
      some ⟨some (cb, match r with | .ok _ => .phase up (i + 1) | .error x => afterFail x), []⟩ := by
    refine actStep_run (by simp [relevant]) (fun _ _ h => by cases h) (fun _ _ h => by cases h) ?_ rfl
    cases r <;> simp [actStep, hk, outcome]
  refine ok_note (by simp [privObs]) (fun t w => ⟨_, h2 t w⟩) fun w l' hl => ?_
  cases hl.symm.trans (h2 t w)
  cases r with
  | ok _ => exact h
  | error x => exact rfl

theorem ok_startLoop (ha : a.Wired env) {cb : Cb} {k n : Nat} (h : k + n = a.nsubs) :
    (proto a env).Ok t ((a.startLoop k n).denote env) ⟨some (cb, .phase true k), []⟩ (Tried cb) := by
  induction n generalizing k with
  | zero => cases (by omega : k = a.nsubs); exact ok_complete
  | succ n ih => exact ok_callSub ha (by omega) rfl (ih (by omega))

theorem ok_stopLoop (ha : a.Wired env) {cb : Cb} {k i : Nat} (h : k + i = a.nsubs) :
    (proto a env).Ok t ((a.stopLoop k).denote env) ⟨some (cb, .phase false i), []⟩ (Tried cb) := by
  induction k generalizing i with
  | zero => cases (by omega : i = a.nsubs); exact ok_complete
  | succ k ih =>
    refine ok_callSub ha (by omega) ?_ (ih (by omega))
    show k = a.nsubs - 1 - i
    omega

theorem ok_stoppedAction {cb : Cb} : (proto a env).Ok t (a.stoppedAction.denote env) ⟨some (cb, .fresh), []⟩ (Acted a cb) := by
  unfold App.stoppedAction
  split
  next hx =>
    unfold UProg.andThen
    rw [UProg.denote_handle]
    refine ok_handle.2 (ok_actFire (act1 := .ending) (act2 := fun r => match r with | none => .counting | some x => .over (some x)) rfl rfl
      (by simp [actStep, hx]) (fun r => by cases r <;> simp [actStep]) fun r => ?_)
    cases r with
    | error x => exact ⟨_, rfl, by simp [mayEnd, outcome]⟩
    | ok _ =>
      have h1 : ∀ t w, privStep a t ⟨some (cb, .counting), []⟩ (.countDown a.latch) w = some ⟨some (cb, .over none), []⟩ :=
        actStep_run (by simp [relevant]) (fun _ _ h => by cases h) (fun _ _ h => by cases h) (by simp [actStep]) rfl
      refine ok_bind'.2 (ok_priv rfl (by simp [priv]) (fun t w => ⟨_, h1 t w⟩) fun w l' _ hl => ?_)
      cases hl.symm.trans (h1 t w)
      exact ⟨_, rfl, by simp [mayEnd, outcome]⟩
  next hx => exact ⟨_, rfl, by simp [mayEnd, outcome, hx]⟩

/-- The entry actions of the app's states do what they have to do. -/
theorem ok_action (ha : a.Wired env) {oid : Nat} {p : UProg} (h : a.action oid = some p) (cb : Cb) :
    (proto a env).Ok t (p.denote env) ⟨some (cb, entryAct a oid), []⟩ (Acted a cb) := by
  unfold App.action at h
  unfold entryAct
  split at h
  next h1 =>
    cases h; rw [if_pos h1]
    exact ok_handleException (ok_startLoop ha (Nat.zero_add _))
  next h1 =>
    rw [if_neg h1]
    split at h
    next h2 =>
      cases h; rw [if_pos h2]
      exact ok_handleException (ok_stopLoop ha (Nat.add_zero _))
    next h2 =>
      rw [if_neg h2]
      split at h
      · cases h; exact ok_stoppedAction
      · cases h

/-- All code follows the protocol. -/
theorem checked (ha : a.Wired env) : OChecked env (proto a env) a.Outside l0 where
  body t c l h := by
    have out : ∀ {u : UProg}, isOpen l → a.Outside u → (proto a env).Ok t (u.denote env) l (fun _ l' => l' = l) :=
      fun ho hu => keeps_outside ha ho hu
    cases c with
    | action k oid i ev m =>
      simp only [proto, pre] at h
      by_cases hw : k = .entry ∧ watched a oid = true
      · rw [if_pos hw] at h
        obtain ⟨rfl, rfl⟩ := h
        obtain ⟨rfl, hw⟩ := hw
        cases hx : a.action oid with
        | none => rw [watched_iff.2 hx] at hw; cases hw
        | some p =>
          simp only [body, ha.entry _ _ hx, List.getElem?_cons_zero]
          refine (ok_action ha hx _).mono ?_
          rintro r l' ⟨act, rfl, he⟩
          simp only [proto, post, hw, and_self, if_true]
          exact ⟨act, rfl, he⟩
      · rw [if_neg hw] at h
        have hp : ∀ r, (proto a env).post (.action k oid i ev m) l r l := by
          intro r; simp only [proto, post]; rw [if_neg hw]; trivial
        simp only [body]
        split
        next f hf =>
          refine Keeps.use (keeps_outside ha h ?_) hp
          refine (ha.other k oid f (List.mem_of_getElem? hf) ?_ ev m)
          intro hk
          refine watched_iff.1 ?_
          cases hx : watched a oid with
          | false => rfl
          | true => exact absurd ⟨hk, hx⟩ hw
        · exact hp _
    | listener l c f ev t => exact out h (ha.listener ..)
    | unmapped s ev m => exact out h (ha.unmapped ..)
    | proc i => exact out h (ha.proc i)
    | flowEx s ev m x =>
      rcases h with rfl | h
      · simp only [body, (ha.flowOwn ev m x).1]; exact rfl
      · exact out h (ha.flowEx ..)
    | flowAfter s ev m =>
      rcases h with rfl | h
      · simp only [body, (ha.flowOwn ev m .npe).2.1]; exact rfl
      · exact out h (ha.flowAfter ..)
    | flowBefore s ev m =>
      rcases h with rfl | h
      · simp only [body, (ha.flowOwn ev m .npe).2.2]; exact rfl
      · exact out h (ha.flowBefore ..)
    | drain s m =>
      have h : l = l0 := h
      subst h
      exact keeps_drain ha s m
  client n u hu := keeps_outside ha isOpen_l0 hu
  drain t s m := keeps_drain ha s m

end Svc
end Verif
