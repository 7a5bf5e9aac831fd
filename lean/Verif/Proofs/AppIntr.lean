import Verif.Proofs.AppOk
/-
The interrupt status of a thread that calls `start()` of an app: a small protocol of its own.
-/

namespace Verif
open Prog Spec.App OProto

namespace Flag
variable {α β : Type}

/-- `noted`: the waiting of `start()` has been interrupted; `set`: the interrupt status has been restored. -/
inductive Fl
  | idle
  | noted
  | set
deriving DecidableEq, Repr

variable (a : App)

def intrObs : Obs → Bool
  | .user (.intr i) => i == a.id
  | _ => false

def retObs : Obs → Bool
  | .user (.appRet i .start _) => i == a.id
  | _ => false

/-- Operations that do not matter. -/
def quiet : Op → Bool
  | .emit x => !intrObs a x && !retObs a x
  | .await _ | .setIntr => false
  | _ => true

def nxt (_ : Tid) (l : Fl) (o : Op) (_ : World) : Fl :=
  match o, l with
  | .emit x, l => if intrObs a x then .noted else if retObs a x then .idle else l
  | .setIntr, .noted => .set
  | _, l => l

def allowed (l : Fl) (o : Op) : Prop :=
  match l with
  | .idle => True
  | .noted => o = .setIntr
  | .set => ∀ n, o ≠ .await n

def pre (env : Env) : Call → Fl → Prop
  | .flowEx s .., l | .flowAfter s .., l | .flowBefore s .., l => l = .idle ∨ (l = .set ∧ s = (env.mach a.m).strat)
  | _, l => l = .idle

def post (_ : Call) (l : Fl) (_ : Except Exc Unit) (l' : Fl) : Prop := l' = l

def proto (env : Env) : OProto Fl := ⟨allowed, nxt a, pre a env, post⟩

variable {a} {env : Env} {t : Tid}

def Keeps (a : App) (env : Env) (t : Tid) (p : Prog α) (l : Fl) : Prop := (proto a env).Ok t p l (fun _ l' => l' = l)

theorem Keeps.use {p : Prog α} {l : Fl} (h : Keeps a env t p l) {Q : Except Exc α → Fl → Prop} (hQ : ∀ r, Q r l) :
    (proto a env).Ok t p l Q := h.mono (by rintro r _ rfl; exact hQ r)

theorem keeps_ret {x : α} {l : Fl} : Keeps a env t (ret x) l := rfl
theorem keeps_thr {x : Exc} {l : Fl} : Keeps a env t (Prog.thr x : Prog α) l := rfl

theorem keeps_bind {p : Prog α} {f : α → Prog β} {l : Fl} (h : Keeps a env t p l) (hf : ∀ x, Keeps a env t (f x) l) :
    Keeps a env t (p >>= f) l := by
  refine ok_bind.2 (h.use fun r => ?_)
  cases r with
  | ok x => exact hf x
  | error x => rfl

theorem keeps_handle {p : Prog α} {f : Except Exc α → Prog β} {l : Fl} (h : Keeps a env t p l)
    (hf : ∀ x, Keeps a env t (f x) l) : Keeps a env t (p.handle f) l := ok_handle.2 (h.use hf)

theorem keeps_attempt {p : Prog α} {l : Fl} (h : Keeps a env t p l) : Keeps a env t p.attempt l :=
  keeps_handle h fun _ => keeps_ret

theorem keeps_ofExcept {r : Except Exc α} {l : Fl} : Keeps a env t (ofExcept r) l := ok_ofExcept.2 rfl

theorem keeps_deref {x : Option α} {l : Fl} : Keeps a env t (deref x) l := by cases x <;> rfl

theorem keeps_ite {c : Prop} [Decidable c] {p q : Prog α} {l : Fl} (h1 : c → Keeps a env t p l) (h2 : ¬c → Keeps a env t q l) :
    Keeps a env t (if c then p else q) l := ok_ite h1 h2

/-- Not waiting for the status to be restored. -/
abbrev still (l : Fl) : Prop := l ≠ .noted

theorem nxt_quiet {l : Fl} {o : Op} {w : World} (ho : quiet a o = true) : nxt a t l o w = l := by
  cases o <;> first | rfl | (simp [quiet] at ho; done) | skip
  next x => simp only [quiet, Bool.and_eq_true, Bool.not_eq_true'] at ho; simp [nxt, ho.1, ho.2]

theorem allowed_quiet {l : Fl} {o : Op} (hs : still l) (ho : quiet a o = true) : allowed l o := by
  cases l with
  | idle => trivial
  | noted => exact absurd rfl hs
  | set => rintro n rfl; cases ho

theorem keeps_lift {o : Op} {l : Fl} (hs : still l) (ho : quiet a o = true) : Keeps a env t (lift o) l :=
  ok_lift.2 ⟨allowed_quiet hs ho, fun w _ => nxt_quiet (t := t) (w := w) ho⟩

theorem keeps_invoke {c : Call} {l : Fl} (h : pre a env c l) : Keeps a env t (invoke c) l := ok_invoke.2 ⟨h, fun _ _ h => h⟩

theorem keeps_userCall {cb : Cb} {c : Call} {l : Fl} (hs : still l) (h : pre a env c l) : Keeps a env t (userCall cb c) l :=
  keeps_bind (keeps_attempt (keeps_invoke h)) fun _ => keeps_bind (keeps_lift hs rfl) fun _ => keeps_ofExcept

theorem keeps_callback {cb : Cb} {c : Call} {l : Fl} (hs : still l) (h : pre a env c l) : Keeps a env t (callback cb c) l :=
  keeps_bind (keeps_lift hs rfl) fun _ => keeps_userCall hs h

theorem idle_still : still .idle := by intro h; cases h

theorem keeps_notifyListener (m : MId) (b : Bool) (f : Option St) (ev : Ev) (to : Option St) :
    Keeps a env t (notifyListener env m b f ev to) .idle := by
  refine keeps_bind (keeps_lift idle_still rfl) fun r => keeps_ite (fun _ => ?_) (fun _ => keeps_ret)
  refine keeps_bind (keeps_lift idle_still rfl) fun r => ?_
  cases r with
  | none => exact keeps_thr
  | some x => cases b <;> exact keeps_userCall idle_still rfl

theorem keeps_runActs (m : MId) (k : Kind) (oid : Nat) (ev : Ev) (i n : Nat) : Keeps a env t (runActs m k oid ev i n) .idle := by
  induction n generalizing i with
  | zero => exact keeps_ret
  | succ n ih => exact keeps_bind (keeps_callback idle_still rfl) fun _ => ih _

theorem keeps_updateCurrentState {l : Fl} (hs : still l) (m : MId) (s : St) (b : Bool) :
    Keeps a env t (updateCurrentState env m s b) l :=
  keeps_bind (keeps_lift hs rfl) fun _ => keeps_ite (fun _ => keeps_lift hs rfl) (fun _ => keeps_ret)

theorem keeps_stop {l : Fl} (hs : still l) (m : MId) (b : Bool) : Keeps a env t (stop env m b) l :=
  keeps_updateCurrentState hs m _ b

theorem keeps_execute (s : SId) (ev : Ev) (m : MId) : Keeps a env t (execute env s ev m) .idle := by
  have lf : ∀ {o : Op}, quiet a o = true → Keeps a env t (lift o) .idle := fun h1 => keeps_lift idle_still h1
  refine keeps_bind (lf rfl) fun _ => keeps_bind keeps_deref fun row => ?_
  cases row.target (some ev.key) with
  | none => exact keeps_callback idle_still rfl
  | some to =>
    refine keeps_ite (fun _ => ?_) (fun _ => ?_)
    · refine keeps_bind (lf rfl) fun _ => keeps_bind (keeps_notifyListener ..) fun _ => ?_
      exact keeps_bind (lf rfl) fun _ => keeps_notifyListener ..
    · refine keeps_bind (lf rfl) fun _ => keeps_bind (keeps_notifyListener ..) fun _ => ?_
      refine keeps_bind (lf rfl) fun _ => keeps_bind keeps_deref fun _ => ?_
      refine keeps_bind (keeps_runActs ..) fun _ => keeps_bind (keeps_updateCurrentState idle_still ..) fun _ => ?_
      refine keeps_bind (lf rfl) fun _ => keeps_bind keeps_deref fun _ => ?_
      refine keeps_bind (keeps_runActs ..) fun _ => keeps_bind (keeps_notifyListener ..) fun _ => ?_
      exact keeps_ite (fun _ => keeps_stop idle_still ..) (fun _ => keeps_ret)

theorem keeps_processOne (s : SId) (cm : MId) (p : PairId) (ev : Ev) (m : MId) :
    Keeps a env t (processOne env s cm p ev m) .idle := by
  have rest : ∀ r, Keeps a env t (do lift (.poolGive s p); Prog.ofExcept r) .idle := fun (r : Except Exc Unit) =>
    keeps_bind (keeps_lift idle_still rfl) fun _ => keeps_ofExcept
  refine keeps_bind (keeps_attempt ?_) fun r => ?_
  · exact keeps_bind (keeps_lift idle_still rfl) fun _ => keeps_ite (fun _ => keeps_execute ..) (fun _ => keeps_ret)
  · cases r with
    | ok _ => exact keeps_bind keeps_ret fun _ => rest _
    | error x =>
      refine keeps_ite (fun _ => keeps_bind (keeps_attempt ?_) fun _ => rest _) (fun _ => keeps_bind keeps_ret fun _ => rest _)
      exact keeps_callback idle_still (Or.inl rfl)

theorem keeps_drain (s : SId) (m : MId) : Keeps a env t (drain env s m) .idle := by
  refine keeps_bind (keeps_lift idle_still rfl) fun _ => keeps_ite (fun _ => keeps_ret) (fun _ => ?_)
  refine keeps_bind (keeps_lift idle_still rfl) fun _ => keeps_bind keeps_deref fun _ => ?_
  refine keeps_bind (keeps_lift idle_still rfl) fun _ => keeps_bind keeps_deref fun em => ?_
  exact keeps_bind (keeps_processOne ..) fun _ => keeps_invoke rfl

theorem keeps_anyEqual {l : Fl} (hs : still l) (ev : Ev) (ps : List PairId) : Keeps a env t (anyEqual ev ps) l := by
  induction ps with
  | nil => exact keeps_ret
  | cons p ps ih =>
    exact keeps_bind (keeps_lift hs rfl) fun _ => keeps_bind keeps_deref fun _ => keeps_ite (fun _ => keeps_ret) (fun _ => ih)

/-- `fire` on a machine of strategy `s` is possible. -/
def Can (a : App) (env : Env) (l : Fl) (s : SId) : Prop := l = .idle ∨ (l = .set ∧ s = (env.mach a.m).strat)

theorem Can.still {l : Fl} {s : SId} (h : Can a env l s) : still l := by
  rcases h with rfl | ⟨rfl, _⟩ <;> (intro h; cases h)

theorem keeps_processEvent {l : Fl} (s : SId) (hl : Can a env l s) (ev : Ev) (m : MId) :
    Keeps a env t (processEvent env s ev m) l := by
  have hs := hl.still
  have hd : Keeps a env t (processEventDefault env s ev m) l := by
    refine keeps_bind (keeps_lift hs rfl) fun _ => keeps_ite (fun _ => ?_) (fun _ => ?_)
    · exact keeps_callback hs hl
    · refine keeps_bind (keeps_lift hs rfl) fun _ => keeps_bind (keeps_lift hs rfl) fun _ => ?_
      have rest : ∀ p, Keeps a env t (do
          lift (.offer (env.strat s).queue p)
          if !(← lift (.submit (env.strat s).exec s m)) then
            Prog.thr .rejected) l := fun p =>
        keeps_bind (keeps_lift hs rfl) fun _ => keeps_bind (keeps_lift hs rfl) fun _ =>
          keeps_ite (fun _ => keeps_thr) (fun _ => keeps_ret)
      refine keeps_ite (fun _ => ?_) (fun _ => ?_)
      · exact keeps_bind (keeps_lift hs rfl) fun _ => keeps_bind (keeps_lift hs rfl) fun _ => rest _
      · exact keeps_bind (keeps_lift hs rfl) fun _ => rest _
  refine keeps_ite (fun _ => ?_) (fun _ => hd)
  exact keeps_bind (keeps_lift hs rfl) fun _ => keeps_bind (keeps_anyEqual hs ..) fun _ =>
    keeps_ite (fun _ => keeps_lift hs rfl) (fun _ => hd)

theorem keeps_fire {l : Fl} (m : MId) (hl : Can a env l (env.mach m).strat) (ev : Ev) : Keeps a env t (Verif.fire env m ev) l := by
  have hs := hl.still
  refine keeps_bind (keeps_lift hs rfl) fun _ => keeps_ite (fun _ => ?_) (fun _ => ?_)
  · exact keeps_callback hs hl
  · have rest : ∀ e : Bool, Keeps a env t (if e = true then
        callback (.flowAfter m ev) (.flowAfter (env.mach m).strat ev m) else processEvent env (env.mach m).strat ev m) l := fun e =>
      keeps_ite (fun _ => keeps_callback hs hl) (fun _ => keeps_processEvent _ hl ev m)
    refine keeps_bind (keeps_lift hs rfl) fun _ => keeps_ite (fun _ => ?_) (fun _ => ?_)
    · exact keeps_bind (keeps_lift hs rfl) fun _ => rest _
    · exact keeps_bind keeps_ret fun _ => rest _

theorem keeps_start (m : MId) : Keeps a env t (Verif.start env m) .idle := by
  unfold Verif.start
  dsimp only
  split
  · exact keeps_thr
  · exact keeps_thr
  · refine keeps_bind (keeps_lift idle_still rfl) fun _ => keeps_ite (fun _ => ?_) (fun _ => keeps_thr)
    refine keeps_bind (keeps_lift idle_still rfl) fun _ => keeps_bind (keeps_notifyListener ..) fun _ => ?_
    refine keeps_bind (keeps_runActs ..) fun _ => ?_
    exact keeps_bind (keeps_notifyListener ..) fun _ => keeps_lift idle_still rfl

theorem keeps_startInState (m : MId) (s : Option St) : Keeps a env t (Verif.startInState env m s) .idle := by
  unfold Verif.startInState
  split
  · refine keeps_bind (keeps_lift idle_still rfl) fun _ => keeps_ite (fun _ => ?_) (fun _ => keeps_thr)
    exact keeps_bind (keeps_lift idle_still rfl) fun _ => keeps_lift idle_still rfl
  · exact keeps_thr

theorem keeps_api {l : Fl} (hs : still l) {c : Api} {p : Prog Unit} (hp : Keeps a env t p l) : Keeps a env t (Verif.api c p) l :=
  keeps_bind (keeps_lift hs rfl) fun _ => keeps_bind (keeps_attempt hp) fun _ => keeps_bind (keeps_lift hs rfl) fun _ => keeps_ret

/-- Calls of code outside the app. -/
theorem keeps_ucall {u : UCall} (hu : a.own u = false) : Keeps a env t (u.prog env) .idle := by
  cases u with
  | fire m ev => exact keeps_api idle_still (keeps_fire m (Or.inl rfl) ev)
  | stop m => exact keeps_api idle_still (keeps_stop idle_still m true)
  | start m => exact keeps_api idle_still (keeps_start m)
  | startInState m s => exact keeps_api idle_still (keeps_startInState m s)
  | proc i => exact keeps_attempt (keeps_invoke rfl)
  | note n =>
    refine keeps_lift idle_still ?_
    cases n with
    | intr i => simp only [App.own] at hu; simp [quiet, intrObs, retObs, hu]
    | appRet i c r => simp only [App.own] at hu; cases c <;> simp [quiet, intrObs, retObs, hu]
    | _ => rfl
  | await n => exact ok_lift.2 ⟨trivial, fun _ _ => rfl⟩
  | setIntr => exact ok_lift.2 ⟨trivial, fun _ _ => rfl⟩
  | _ => exact keeps_lift idle_still rfl

/-! ### The app's own code -/

theorem keeps_appFire {l : Fl} (hl : l = .idle ∨ l = .set) (ev : Ev) : Keeps a env t ((a.fire ev).denote env) l := by
  have hc : Can a env l (env.mach a.m).strat := hl.imp id fun h => ⟨h, rfl⟩
  refine ok_bind'.2 ((keeps_api hc.still (keeps_fire a.m hc ev)).use fun r => ?_)
  cases r with
  | error x => exact rfl
  | ok r => cases r <;> exact rfl

theorem ok_note {n : Mark} {p : UProg} {l : Fl} {Q : Except Exc Unit → Fl → Prop} (hl : allowed l (.emit (.user n)))
    (h : ∀ w, (proto a env).Ok t (p.denote env) (nxt a t l (.emit (.user n)) w) Q) :
    (proto a env).Ok t ((UProg.note n p).denote env) l Q :=
  ok_bind'.2 (ok_lift.2 ⟨hl, fun w _ => h w⟩)

theorem keeps_get {u : UCall} {k : u.Res → UProg} {l : Fl} (hu : Keeps a env t (u.prog env) l)
    (h : ∀ r, Keeps a env t ((k r).denote env) l) : Keeps a env t ((UProg.call u k).denote env) l :=
  ok_bind'.2 (hu.use fun r => by cases r; exact rfl; exact h _)

theorem keeps_stopBody {l : Fl} (hl : l = .idle ∨ l = .set) : Keeps a env t (a.stopBody.denote env) l := by
  have hs : still l := by rcases hl with rfl | rfl <;> (intro h; cases h)
  refine keeps_get (keeps_lift hs rfl) fun s => ?_
  split
  · exact keeps_appFire hl _
  · split
    · exact keeps_thr
    · exact keeps_ret

theorem keeps_recordedStop {l : Fl} (hl : l = .idle ∨ l = .set) : Keeps a env t ((a.recorded .stop a.stopBody).denote env) l := by
  have ha : ∀ n, allowed l (.emit (.user n)) := by rcases hl with rfl | rfl <;> (intro n; first | trivial | (intro k h; cases h))
  refine ok_note (ha _) fun w => ?_
  rw [show nxt a t l (.emit (.user (.app a.id .stop))) w = l by rfl, UProg.denote_handle]
  refine ok_handle.2 ((keeps_stopBody hl).use fun r => ok_note (ha _) fun w => ?_)
  rw [show nxt a t l (.emit (.user (.appRet a.id .stop (outcome r)))) w = l by rfl]
  cases r <;> exact rfl

theorem keeps_startFinally {l : Fl} (hl : l = .idle ∨ l = .set) : Keeps a env t (a.startFinally.denote env) l := by
  have hs : still l := by rcases hl with rfl | rfl <;> (intro h; cases h)
  refine keeps_get (keeps_lift hs rfl) fun e => ?_
  split
  · exact keeps_recordedStop hl
  · exact keeps_ret

/-- `start()` ends with the status restored if it was interrupted. -/
theorem ok_startBody : (proto a env).Ok t (a.startBody.denote env) .idle (fun _ l => still l) := by
  have use : ∀ {p : Prog Unit} {l : Fl}, still l → Keeps a env t p l → (proto a env).Ok t p l (fun _ l => still l) :=
    fun hl h => h.use fun _ => hl
  refine ok_bind'.2 ((keeps_lift (o := .getCur a.m) idle_still rfl).use fun s => ?_)
  cases s with
  | error x => exact idle_still
  | ok s =>
    refine ok_bind'.2 ((keeps_lift (o := .getStarted a.m) idle_still rfl).use fun b => ?_)
    cases b with
    | error x => exact idle_still
    | ok b =>
      show (proto a env).Ok t ((if _ then _ else _ : UProg).denote env) _ _
      split
      · unfold UProg.andThen
        rw [UProg.denote_handle]
        refine ok_handle.2 (Keeps.use (keeps_get (keeps_api idle_still (keeps_start a.m)) fun r => by cases r <;> exact rfl) fun r => ?_)
        cases r with
        | error x => exact idle_still
        | ok _ =>
          show (proto a env).Ok t (UProg.denote env (UProg.handle (a.fire evtStart) _)) _ _
          rw [UProg.denote_handle]
          refine ok_handle.2 ((keeps_appFire (Or.inl rfl) _).use fun r => ?_)
          cases r with
          | error x => exact idle_still
          | ok _ =>
            refine ok_bind'.2 (ok_lift.2 ⟨trivial, fun w _ => ?_⟩)
            show (proto a env).Ok t ((if _ then _ else _ : UProg).denote env) .idle _
            split
            · refine ok_note trivial fun w => ?_
              rw [show nxt a t .idle (.emit (.user (.intr a.id))) w = .noted by simp [nxt, intrObs]]
              refine ok_bind'.2 (ok_lift.2 ⟨rfl, fun w _ => ?_⟩)
              exact use (l := .set) (by intro h; cases h) (keeps_startFinally (Or.inr rfl))
            · exact use idle_still (keeps_startFinally (Or.inl rfl))
      · split
        · exact use idle_still (keeps_appFire (Or.inl rfl) _)
        · exact idle_still

theorem keeps_method (c : AppCall) : Keeps a env t ((a.method c).denote env) .idle := by
  cases c with
  | start =>
    refine ok_note trivial fun w => ?_
    rw [show nxt a t .idle (.emit (.user (.app a.id .start))) w = .idle by rfl, UProg.denote_handle]
    refine ok_handle.2 (ok_startBody.mono fun r l hl => ok_note ?_ fun w => ?_)
    · cases l with
      | idle => trivial
      | noted => exact absurd rfl hl
      | set => intro n h; cases h
    · rw [show nxt a t l (.emit (.user (.appRet a.id .start (outcome r)))) w = .idle by simp [nxt, intrObs, retObs]]
      cases r <;> exact rfl
  | stop => exact keeps_recordedStop (Or.inl rfl)
  | error =>
    refine ok_note trivial fun w => ?_
    rw [show nxt a t .idle (.emit (.user (.app a.id .error))) w = .idle by rfl, UProg.denote_handle]
    refine ok_handle.2 ((keeps_appFire (Or.inl rfl) _).use fun r => ok_note trivial fun w => ?_)
    rw [show nxt a t .idle (.emit (.user (.appRet a.id .error (outcome r)))) w = .idle by rfl]
    cases r <;> exact rfl

theorem keeps_outside {u : UProg} (hu : a.Outside u) : Keeps a env t (u.denote env) .idle := by
  induction hu with
  | done => exact keeps_ret
  | thr x => exact keeps_thr
  | call u k h _ ih => exact keeps_get (keeps_ucall h) ih
  | method c k _ ih => rw [UProg.denote_handle]; exact keeps_handle (keeps_method c) ih

theorem keeps_handleException {p : UProg} {h : Exc → UProg} (hp : Keeps a env t (p.denote env) .idle)
    (hh : ∀ x, Keeps a env t ((h x).denote env) .idle) : Keeps a env t ((handleException p h).denote env) .idle := by
  unfold handleException
  rw [UProg.denote_handle]
  refine keeps_handle hp fun r => ?_
  cases r with
  | ok _ => exact keeps_ret
  | error x =>
    show Keeps a env t ((if _ then _ else _ : UProg).denote env) _
    split
    · exact hh x
    · exact keeps_thr

theorem keeps_exceptionHandler (x : Exc) : Keeps a env t ((a.exceptionHandler x).denote env) .idle :=
  keeps_get (keeps_lift idle_still rfl) fun _ => keeps_appFire (Or.inl rfl) _

theorem keeps_callSub (ha : a.Wired env) (k : Nat) (up : Bool) {next : UProg} (h : Keeps a env t (next.denote env) .idle) :
    Keeps a env t ((a.callSub k up next).denote env) .idle := by
  refine ok_note trivial fun w => ?_
  rw [show nxt a t .idle (.emit (.user (.sub a.id k up))) w = .idle by rfl, UProg.denote_handle]
  refine keeps_handle (keeps_outside (ha.sub k up)) fun r => ok_note trivial fun w => ?_
  rw [show nxt a t .idle (.emit (.user (.subRet a.id k up (outcome r)))) w = .idle by rfl]
  cases r with
  | ok _ => exact h
  | error x => exact rfl

theorem keeps_startLoop (ha : a.Wired env) (k n : Nat) : Keeps a env t ((a.startLoop k n).denote env) .idle := by
  induction n generalizing k with
  | zero => exact keeps_appFire (Or.inl rfl) _
  | succ n ih => exact keeps_callSub ha _ _ (ih _)

theorem keeps_stopLoop (ha : a.Wired env) (k : Nat) : Keeps a env t ((a.stopLoop k).denote env) .idle := by
  induction k with
  | zero => exact keeps_appFire (Or.inl rfl) _
  | succ k ih => exact keeps_callSub ha _ _ ih

theorem keeps_action (ha : a.Wired env) {oid : Nat} {p : UProg} (h : a.action oid = some p) : Keeps a env t (p.denote env) .idle := by
  unfold App.action at h
  split at h
  · cases h; exact keeps_handleException (keeps_startLoop ha _ _) keeps_exceptionHandler
  · split at h
    · cases h; exact keeps_handleException (keeps_stopLoop ha _) keeps_exceptionHandler
    · split at h
      · cases h
        unfold App.stoppedAction
        split
        · unfold UProg.andThen
          rw [UProg.denote_handle]
          refine keeps_handle (keeps_appFire (Or.inl rfl) _) fun r => ?_
          cases r with
          | error x => exact rfl
          | ok _ => exact keeps_get (keeps_lift idle_still rfl) fun _ => keeps_ret
        · exact keeps_ret
      · cases h

theorem checked (ha : a.Wired env) : OChecked env (proto a env) a.Outside .idle where
  body t c l h := by
    have out : ∀ {u : UProg}, l = .idle → a.Outside u → (proto a env).Ok t (u.denote env) l (fun _ l' => l' = l) := by
      rintro u rfl hu; exact keeps_outside hu
    cases c with
    | action k oid i ev m =>
      have h : l = .idle := h
      subst h
      simp only [body]
      split
      next f hf =>
        by_cases hk : k = .entry → a.action oid = none
        · exact keeps_outside (ha.other k oid f (List.mem_of_getElem? hf) hk ev m)
        · have hk1 : k = .entry := Classical.byContradiction fun h => hk fun h' => absurd h' h
          subst hk1
          cases hx : a.action oid with
          | none => exact absurd (fun _ => hx) hk
          | some p =>
            rw [ha.entry _ _ hx] at hf
            have : f ∈ [fun _ _ => p] := List.mem_of_getElem? hf
            rw [List.mem_singleton] at this
            subst this
            exact keeps_action ha hx
      · exact rfl
    | listener l c f ev t => exact out h (ha.listener ..)
    | unmapped s ev m => exact out h (ha.unmapped ..)
    | proc i => exact out h (ha.proc i)
    | flowEx s ev m x =>
      rcases h with h | ⟨rfl, rfl⟩
      · exact out h (ha.flowEx ..)
      · simp only [body, (ha.flowOwn ev m x).1]; exact rfl
    | flowAfter s ev m =>
      rcases h with h | ⟨rfl, rfl⟩
      · exact out h (ha.flowAfter ..)
      · simp only [body, (ha.flowOwn ev m .npe).2.1]; exact rfl
    | flowBefore s ev m =>
      rcases h with h | ⟨rfl, rfl⟩
      · exact out h (ha.flowBefore ..)
      · simp only [body, (ha.flowOwn ev m .npe).2.2]; exact rfl
    | drain s m =>
      have h : l = .idle := h
      subst h
      exact keeps_drain s m
  client n u hu := keeps_outside hu
  drain t s m := keeps_drain s m

end Flag
end Verif
