import Verif.Proofs.Wait
import Verif.Proofs.AppInv
import Verif.Proofs.AppSettle
import Verif.Spec.AppLive
/-
The methods of an app return: `C76`.
-/

namespace Verif.AppWait
open Spec Spec.App Prog

variable (a : App) {α β : Type}

/-- Number of open calls of the app's methods after an operation. -/
def cnt : Op → Nat → Nat
  | .emit (.user (.app i _)), s => if i = a.id then s + 1 else s
  | .emit (.user (.appRet i _ _)), s => if i = a.id then s - 1 else s
  | _, s => s

def below : Op → Nat → Prop
  | .emit (.user (.appRet i _ _)), s => i = a.id → 0 < s
  | _, _ => True

/-- Every call of a method of the app is the code of the method, followed by the return. -/
def begins (env : Env) : (o : Op) → (o.Res → Prog α) → Prop
  | .emit (.user (.app i c)), k => i = a.id → ∃ f : Except Exc Unit → Unit → Prog α,
      k () = ((a.methodBody c).denote env).handle fun r => .op (.emit (.user (.appRet a.id c (outcome r)))) (f r)
  | _, _ => True

/-- The program has `s` open calls, and comes to none. -/
def Ap (env : Env) : Nat → Prog α → Prop
  | s, .ret _ => s = 0
  | s, .thr _ => s = 0
  | s, .op o k => begins a env o k ∧ below a o s ∧ ∀ r, Ap env (cnt a o s) (k r)
  | s, .call _ k => ∀ r, Ap env s (k r)

variable {a} {env : Env}

theorem cnt_add {o : Op} {s n : Nat} (h : below a o s) : cnt a o (s + n) = cnt a o s + n ∧ below a o (s + n) := by
  unfold cnt
  split
  · split <;> exact ⟨by omega, trivial⟩
  · split
    next h1 => exact ⟨by have := h h1; omega, fun h1 => by have := h h1; omega⟩
    next h1 => exact ⟨rfl, fun h2 => absurd h2 h1⟩
  next h1 h2 =>
    refine ⟨rfl, ?_⟩
    unfold below
    split
    · exact absurd rfl (h2 _ _ _)
    · trivial

theorem Ap.handle {s n : Nat} {p : Prog α} {f : Except Exc α → Prog β} (h : Ap a env s p) (hf : ∀ r, Ap a env n (f r)) :
    Ap a env (s + n) (p.handle f) := by
  induction p generalizing s with
  | ret x => cases h; rw [Nat.zero_add]; exact hf _
  | thr x => cases h; rw [Nat.zero_add]; exact hf _
  | call c k ih => exact fun r => ih r (h r)
  | op o k ih =>
    obtain ⟨h1, h2, h3⟩ := h
    obtain ⟨h4, h5⟩ := cnt_add (n := n) h2
    refine ⟨?_, h5, fun r => ?_⟩
    · by_cases ho : ∃ i c, o = .emit (.user (.app i c))
      · obtain ⟨i, c, rfl⟩ := ho
        intro hi
        obtain ⟨g, hg⟩ := h1 hi
        exact ⟨fun r u => (g r u).handle f, by simp only [hg, Prog.handle_handle]; rfl⟩
      · unfold begins
        split
        · exact absurd ⟨_, _, rfl⟩ ho
        · trivial
    · rw [h4]; exact ih r (h3 r)

theorem Ap.handle0 {p : Prog α} {f : Except Exc α → Prog β} (h : Ap a env 0 p) (hf : ∀ r, Ap a env 0 (f r)) :
    Ap a env 0 (p.handle f) := h.handle hf

theorem Ap.bind {p : Prog α} {f : α → Prog β} (h : Ap a env 0 p) (hf : ∀ x, Ap a env 0 (f x)) : Ap a env 0 (p.bind f) :=
  h.handle0 fun r => by cases r with | ok x => exact hf x | error x => rfl

/-- Operations that are no calls or returns of the app's methods. -/
def unmarked : Op → Bool
  | .emit (.user (.app ..)) | .emit (.user (.appRet ..)) => false
  | _ => true

theorem begins_un {o : Op} {k : o.Res → Prog α} (h : unmarked o = true) : begins a env o k := by
  unfold begins; split
  · cases h
  · trivial

theorem cnt_un {o : Op} (h : unmarked o = true) (s : Nat) : below a o s ∧ cnt a o s = s := by
  refine ⟨?_, ?_⟩
  · unfold below; split
    · cases h
    · trivial
  · unfold cnt; split
    · cases h
    · cases h
    · rfl

theorem ap_lift {o : Op} (h : unmarked o = true) : Ap a env 0 (lift o) := by
  exact ⟨begins_un h, (cnt_un h 0).1, fun r => (cnt_un h 0).2⟩

theorem ap_calm {e s : Nat × Nat} {p : Prog α} (h : Wait.Calm e s p) : Ap a env 0 p := by
  induction p generalizing s with
  | ret x => rfl
  | thr x => rfl
  | call c k ih => exact fun r => ih r (h.2 r)
  | op o k ih =>
    have hu : unmarked o = true := by
      have := h.1
      unfold unmarked
      split
      · cases this
      · cases this
      · rfl
    refine ⟨begins_un hu, (cnt_un hu 0).1, fun r => ?_⟩
    rw [(cnt_un hu 0).2]
    exact ih r (h.2 r).2.2

theorem ap_api (k : Api) : Ap a env 0 (api k (Wait.code env k)) := by
  rw [Wait.api_eq]
  refine ⟨trivial, trivial, fun _ => ?_⟩
  exact (ap_calm (Wait.calm_code env k (e := (0, 0)))).handle0 fun r => ⟨trivial, trivial, fun _ => rfl⟩

/-- Calls of user code, except for the marks of the app. -/
def UCall.mark : UCall → Bool
  | .note (.app ..) | .note (.appRet ..) => true
  | _ => false

theorem ap_prog {u : UCall} (h : UCall.mark u = false) : Ap a env 0 (u.prog env) := by
  cases u with
  | fire m ev => exact ap_api (.fire m ev)
  | stop m => exact ap_api (.stop m)
  | start m => exact ap_api (.start m)
  | startInState m s => exact ap_api (.startInState m s)
  | proc i => exact fun r => by cases r <;> rfl
  | note n => cases n <;> first | exact ap_lift rfl | cases h
  | _ => exact ap_lift rfl

/-- User code without marks of apps. -/
inductive Plain : UProg → Prop
  | done : Plain .done
  | thr (x : Exc) : Plain (.thr x)
  | call (u : UCall) (k : u.Res → UProg) : UCall.mark u = false → (∀ r, Plain (k r)) → Plain (.call u k)

theorem Plain.ap {u : UProg} (h : Plain u) : Ap a env 0 (u.denote env) := by
  induction h with
  | done => rfl
  | thr x => rfl
  | call u k h _ ih => exact (ap_prog h).bind ih

theorem Plain.handle {u : UProg} {f : Except Exc Unit → UProg} (h : Plain u) (hf : ∀ r, Plain (f r)) : Plain (u.handle f) := by
  induction h with
  | done => exact hf _
  | thr x => exact hf _
  | call u k h _ ih => exact .call u _ h ih

theorem plain_ofRes (r : Except Exc Unit) : Plain (UProg.ofRes r) := by cases r; exact .thr _; exact .done

theorem plain_fire (ev : Ev) : Plain (a.fire ev) := .call _ _ rfl plain_ofRes

theorem plain_stop : Plain a.stopBody := by
  refine .call _ _ rfl fun s => ?_
  split
  · exact plain_fire _
  · split
    · exact .thr _
    · exact .done

theorem ap_note {n : Mark} {p : UProg} (h : UCall.mark (.note n) = false) (hp : Ap a env 0 (p.denote env)) :
    Ap a env 0 ((UProg.note n p).denote env) := (ap_prog h).bind fun _ => hp

theorem denote_note (n : Mark) (p : UProg) : (UProg.note n p).denote env = .op (.emit (.user n)) fun _ => p.denote env := rfl

theorem recorded_eq (c : AppCall) (b : UProg) : (a.recorded c b).denote env = .op (.emit (.user (.app a.id c))) fun _ =>
    (b.denote env).handle fun r => .op (.emit (.user (.appRet a.id c (outcome r)))) fun _ => (UProg.ofRes r).denote env := by
  unfold App.recorded
  rw [denote_note]
  congr 1
  funext _
  rw [UProg.denote_handle]
  rfl

theorem ap_recorded {c : AppCall} (hb : Ap a env 0 ((a.methodBody c).denote env)) :
    Ap a env 0 ((a.recorded c (a.methodBody c)).denote env) := by
  rw [recorded_eq]
  refine ⟨fun _ => ⟨_, rfl⟩, trivial, fun _ => ?_⟩
  simp only [cnt, if_true]
  have h1 : ∀ r : Except Exc Unit, Ap a env 1 (Prog.op (.emit (.user (.appRet a.id c (outcome r)))) fun _ => (UProg.ofRes r).denote env) := by
    intro r
    refine ⟨trivial, fun _ => Nat.one_pos, fun _ => ?_⟩
    simp only [cnt, if_true]
    cases r <;> rfl
  exact hb.handle h1

theorem ap_finally : Ap a env 0 (a.startFinally.denote env) := by
  refine (ap_prog (u := .isEnded a.m) rfl).bind fun e => ?_
  dsimp only
  split
  · exact ap_recorded (c := .stop) plain_stop.ap
  · rfl

theorem ap_methodBody (c : AppCall) : Ap a env 0 ((a.methodBody c).denote env) := by
  cases c with
  | stop => exact plain_stop.ap
  | error => exact (plain_fire _).ap
  | start =>
    refine (ap_prog (u := .getCurrentState a.m) rfl).bind fun s => (ap_prog (u := .isStarted a.m) rfl).bind fun b => ?_
    dsimp only
    split
    · rw [UProg.andThen, UProg.denote_handle]
      refine (Plain.ap (.call (.start a.m) _ rfl plain_ofRes)).handle0 fun r => ?_
      cases r with
      | error x => rfl
      | ok _ =>
        show Ap a env 0 (UProg.denote env (UProg.andThen _ _))
        rw [UProg.andThen, UProg.denote_handle]
        refine (plain_fire _).ap.handle0 fun r => ?_
        cases r with
        | error x => rfl
        | ok _ =>
          refine (ap_prog (u := .await a.latch) rfl).bind fun i => ?_
          dsimp only
          split
          · exact ap_note rfl ((ap_prog (u := .setIntr) rfl).bind fun _ => ap_finally)
          · exact ap_finally
    · split
      · exact (plain_fire _).ap
      · rfl

theorem ap_method (c : AppCall) : Ap a env 0 ((a.method c).denote env) := ap_recorded (ap_methodBody c)

theorem own_mark {u : UCall} (h : a.own u = false) (hm : UCall.mark u = true) :
    (∃ i c, u = .note (.app i c) ∧ i ≠ a.id) ∨ ∃ i c r, u = .note (.appRet i c r) ∧ i ≠ a.id := by
  cases u with
  | note n =>
    cases n with
    | app i c => exact .inl ⟨i, c, rfl, by simpa [App.own] using h⟩
    | appRet i c r => exact .inr ⟨i, c, r, rfl, by simpa [App.own] using h⟩
    | _ => cases hm
  | _ => cases hm

theorem ap_outside {u : UProg} (h : a.Outside u) : Ap a env 0 (u.denote env) := by
  induction h with
  | done => rfl
  | thr x => rfl
  | method c k _ ih => rw [UProg.denote_handle]; exact (ap_method c).handle0 ih
  | call u k h _ ih =>
    cases hm : UCall.mark u with
    | false => exact (ap_prog hm).bind ih
    | true =>
      rcases own_mark h hm with ⟨i, c, rfl, hi⟩ | ⟨i, c, r, rfl, hi⟩
      · refine ⟨fun h => absurd h hi, trivial, fun r => ?_⟩
        simp only [cnt, if_neg hi]
        exact ih r
      · refine ⟨trivial, fun h => absurd h hi, fun r => ?_⟩
        simp only [cnt, if_neg hi]
        exact ih r

theorem ap_callSub (ha : a.Wired env) {i : Nat} {up : Bool} {next : UProg} (h : Ap a env 0 (next.denote env)) :
    Ap a env 0 ((a.callSub i up next).denote env) := by
  refine ap_note rfl ?_
  rw [UProg.denote_handle]
  refine (ap_outside (ha.sub i up)).handle0 fun r => ap_note rfl ?_
  cases r with
  | ok _ => exact h
  | error x => rfl

theorem ap_handleException {p : UProg} (h : Ap a env 0 (p.denote env)) : Ap a env 0 ((handleException p a.exceptionHandler).denote env) := by
  unfold handleException
  rw [UProg.denote_handle]
  refine h.handle0 fun r => ?_
  cases r with
  | ok _ => rfl
  | error x =>
    simp only
    split
    · exact (ap_prog (u := .getCurrentState a.m) rfl).bind fun _ => (plain_fire _).ap
    · rfl

theorem ap_action (ha : a.Wired env) {oid : Nat} {p : UProg} (h : a.action oid = some p) : Ap a env 0 (p.denote env) := by
  have h1 : ∀ k n, Ap a env 0 ((a.startLoop k n).denote env) := by
    intro k n
    induction n generalizing k with
    | zero => exact (plain_fire _).ap
    | succ n ih => exact ap_callSub ha (ih _)
  have h2 : ∀ k, Ap a env 0 ((a.stopLoop k).denote env) := by
    intro k
    induction k with
    | zero => exact (plain_fire _).ap
    | succ n ih => exact ap_callSub ha ih
  unfold App.action at h
  split at h
  · cases h; exact ap_handleException (h1 _ _)
  · split at h
    · cases h; exact ap_handleException (h2 _)
    · split at h
      · cases h
        unfold App.stoppedAction
        split
        · unfold UProg.andThen
          rw [UProg.denote_handle]
          refine (plain_fire _).ap.handle0 fun r => ?_
          cases r with
          | ok _ => exact (ap_prog (u := .countDown a.latch) rfl).bind fun _ => rfl
          | error x => rfl
        · rfl
      · cases h

theorem ap_drain (s : SId) (cm : MId) : Ap a env 0 (drain env s cm) := by
  have hd : ∀ {γ : Type} (x : Option γ), Ap a env 0 (deref x) := fun x => by cases x <;> rfl
  refine Ap.bind (ap_lift rfl) fun b => ?_
  split
  · rfl
  · refine Ap.bind (ap_lift rfl) fun p => Ap.bind (hd p) fun p => Ap.bind (ap_lift rfl) fun x => Ap.bind (hd x) fun x => ?_
    exact Ap.bind (ap_calm (Wait.calm_processOne env (e := (0, 0)) ..)) fun _ => fun r => by cases r <;> rfl

theorem ap_body (ha : a.Wired env) (f : Call) : Ap a env 0 (body env f) := by
  cases f with
  | action k oid i ev m =>
    simp only [body]
    split
    next g hg =>
      have hm := List.mem_of_getElem? hg
      by_cases hk : k = .entry ∧ a.action oid ≠ none
      · obtain ⟨rfl, hk⟩ := hk
        cases hx : a.action oid with
        | none => exact absurd hx hk
        | some p =>
          rw [ha.entry _ _ hx] at hm
          rw [List.mem_singleton.1 hm]
          exact ap_action ha hx
      · exact ap_outside (ha.other k oid g hm (fun h => Classical.byContradiction fun h' => hk ⟨h, h'⟩) ev m)
    · rfl
  | drain s m => exact ap_drain s m
  | listener l c f ev t => exact ap_outside (ha.listener ..)
  | unmapped s ev m => exact ap_outside (ha.unmapped ..)
  | flowEx s ev m x => exact ap_outside (ha.flowEx ..)
  | flowAfter s ev m => exact ap_outside (ha.flowAfter ..)
  | flowBefore s ev m => exact ap_outside (ha.flowBefore ..)
  | proc i => exact ap_outside (ha.proc i)

/-! ### Code that does not wait for anybody -/

/-- Operations that are done at once and say nothing about the app's methods. -/
def easy : Op → Bool
  | .await _ => false
  | o => unmarked o

/-- A program that comes to its end by itself: it does not wait, and the code it calls does nothing. -/
def Free (env : Env) : Prog α → Prop
  | .ret _ => True
  | .thr _ => True
  | .op o k => easy o = true ∧ ∀ r, Free env (k r)
  | .call f k => body env f = ret () ∧ ∀ r, Free env (k r)

theorem Free.handle {p : Prog α} {f : Except Exc α → Prog β} (h : Free env p) (hf : ∀ r, Free env (f r)) : Free env (p.handle f) := by
  induction p with
  | ret x => exact hf _
  | thr x => exact hf _
  | op o k ih => exact ⟨h.1, fun r => ih r (h.2 r)⟩
  | call c k ih => exact ⟨h.1, fun r => ih r (h.2 r)⟩

theorem Free.bind {p : Prog α} {f : α → Prog β} (h : Free env p) (hf : ∀ x, Free env (f x)) : Free env (p >>= f) :=
  h.handle fun r => by cases r with | ok x => exact hf x | error x => trivial

theorem free_lift {o : Op} (h : easy o = true) : Free env (lift o) := ⟨h, fun _ => trivial⟩

theorem free_deref (x : Option α) : Free env (deref x) := by cases x <;> trivial

theorem free_callback {c : Cb} {f : Call} (h : body env f = ret ()) : Free env (callback c f) := by
  refine ⟨rfl, fun _ => (⟨h, fun r => ?_⟩ : Free env (userCall c f))⟩
  cases r <;> exact ⟨rfl, fun _ => trivial⟩

theorem free_anyEqual (ev : Ev) (ps : List PairId) : Free env (anyEqual ev ps) := by
  induction ps with
  | nil => trivial
  | cons p ps ih =>
    refine .bind (free_lift rfl) fun x => .bind (free_deref _) fun y => ?_
    obtain ⟨b, c⟩ := y
    dsimp only
    split
    · trivial
    · exact ih

theorem free_fire (ha : a.Wired env) (ev : Ev) : Free env (Verif.fire env a.m ev) := by
  have hb : ∀ ev m x, body env (.flowEx (env.mach a.m).strat ev m x) = ret () ∧ body env (.flowAfter (env.mach a.m).strat ev m) = ret () ∧
      body env (.flowBefore (env.mach a.m).strat ev m) = ret () := by
    intro ev m x
    obtain ⟨h1, h2, h3⟩ := ha.flowOwn ev m x
    simp only [body, h1, h2, h3]
    exact ⟨rfl, rfl, rfl⟩
  have hd : Free env (processEventDefault env (env.mach a.m).strat ev a.m) := by
    refine .bind (free_lift rfl) fun n => ?_
    split
    · exact free_callback (hb _ _ _).1
    · refine .bind (free_lift rfl) fun p => .bind (free_lift rfl) fun v => ?_
      have hk : ∀ p, Free env (do
          lift (.offer (env.strat (env.mach a.m).strat).queue p)
          if !(← lift (.submit (env.strat (env.mach a.m).strat).exec (env.mach a.m).strat a.m)) then
            Prog.thr .rejected) := fun p =>
        .bind (free_lift rfl) fun _ => .bind (free_lift rfl) fun b => by split <;> trivial
      dsimp only
      split
      · exact .bind (free_lift rfl) fun _ => .bind (free_lift rfl) fun _ => hk p
      · exact .bind (free_lift rfl) fun _ => hk p
  have hp : Free env (processEvent env (env.mach a.m).strat ev a.m) := by
    unfold processEvent
    split
    · refine .bind (free_lift rfl) fun ps => .bind (free_anyEqual ..) fun b => ?_
      split
      · exact free_lift rfl
      · exact hd
    · exact hd
  refine .bind (free_lift rfl) fun b => ?_
  split
  · exact free_callback (hb _ _ .npe).2.2
  · refine .bind (free_lift rfl) fun b => ?_
    have hk : ∀ e : Bool, Free env (if e = true then callback (.flowAfter a.m ev) (.flowAfter (env.mach a.m).strat ev a.m)
        else processEvent env (env.mach a.m).strat ev a.m) := by
      intro e
      split
      · exact free_callback (hb _ _ .npe).2.1
      · exact hp
    dsimp only
    split
    · exact .bind (free_lift rfl) fun _ => hk _
    · exact .bind (p := ret false) trivial fun _ => hk _

theorem free_fireU (ha : a.Wired env) (ev : Ev) : Free env ((a.fire ev).denote env) := by
  refine Free.bind (p := api (.fire a.m ev) (Verif.fire env a.m ev)) ?_ fun r => by cases r <;> trivial
  rw [Wait.api_eq]
  exact ⟨rfl, fun _ => (free_fire ha ev).handle fun _ => ⟨rfl, fun _ => trivial⟩⟩

theorem free_stop (ha : a.Wired env) : Free env (a.stopBody.denote env) := by
  refine Free.bind (free_lift rfl) fun s => ?_
  dsimp only
  split
  · exact free_fireU ha _
  · split
    · trivial
    · trivial

/-! ### Executions -/

theorem op_of_user {o : Op} {w : World} {n : Mark} (h : opObs o w = some (.user n)) : o = .emit (.user n) := by
  cases o <;> simp only [opObs] at h <;> (try split at h) <;> (try split at h) <;> simp_all

theorem oc_un {t : Tid} {o : Op} {w : World} (hu : unmarked o = true) : openCalls a t (exec t o w).2.trace = openCalls a t w.trace := by
  rw [exec_trace]
  cases ho : opObs o w with
  | none => simp
  | some x =>
    simp only [Option.map_some, Option.toList_some, Svc.openCalls_snoc, if_true]
    unfold callsStep
    split
    · have := op_of_user ho; subst this; cases hu
    · have := op_of_user ho; subst this; cases hu
    · rfl

/-- Open calls after an operation. -/
theorem oc_exec {t : Tid} {o : Op} {w : World} {s : Nat} {L' L : List (Nat × AppCall)} (h : openCalls a t w.trace = L' ++ L) (hs : L'.length = s)
    (hb : below a o s) : ∃ L'', openCalls a t (exec t o w).2.trace = L'' ++ L ∧ L''.length = cnt a o s := by
  by_cases hu : unmarked o = true
  · rw [(cnt_un hu s).2, oc_un hu]
    exact ⟨L', h, hs⟩
  · have : (∃ i c, o = .emit (.user (.app i c))) ∨ ∃ i c r, o = .emit (.user (.appRet i c r)) := by
      unfold unmarked at hu
      split at hu
      · exact .inl ⟨_, _, rfl⟩
      · exact .inr ⟨_, _, _, rfl⟩
      · exact absurd rfl hu
    rw [exec_trace]
    rcases this with ⟨i, c, rfl⟩ | ⟨i, c, r, rfl⟩
    · simp only [opObs, Option.map_some, Option.toList_some, Svc.openCalls_snoc, if_true, h, callsStep, cnt]
      split
      · exact ⟨_ :: L', rfl, by simp [hs]⟩
      · exact ⟨L', rfl, hs⟩
    · simp only [opObs, Option.map_some, Option.toList_some, Svc.openCalls_snoc, if_true, h, callsStep, cnt]
      split
      next hi =>
        have := hb hi
        cases L' with
        | nil => simp at hs; omega
        | cons y L' => exact ⟨L', rfl, by simp at hs ⊢; omega⟩
      · exact ⟨L', rfl, hs⟩

variable (r : Run env)

theorem oc_env {t : Tid} (ht : t ≠ .env) (x ys : List (Tid × Obs)) (h : ∀ y ∈ ys, y.1 = .env) : openCalls a t (x ++ ys) = openCalls a t x := by
  induction ys generalizing x with
  | nil => simp
  | cons y ys ih =>
    have h1 := ih (x ++ [y]) fun z hz => h z (by simp [hz])
    have h2 : y.1 ≠ t := by rw [h y (by simp)]; exact fun h => ht h.symm
    obtain ⟨u, o⟩ := y
    rw [Svc.openCalls_snoc, if_neg h2] at h1
    simpa using h1

/-- The open calls of a thread that is not picked stay the same. -/
theorem oc_stays (i : Nat) {t : Tid} (ht : t ≠ .env) (h : r.pick i ≠ some (.run t)) :
    openCalls a t (r.conf (i + 1)).w.trace = openCalls a t (r.conf i).w.trace := by
  obtain ⟨ys, h1, h2⟩ := Course.adds r i
  rw [h1]
  rcases h2 with rfl | ⟨u, x, rfl, h2⟩ | h2
  · simp
  · have hu : u ≠ t := by intro he; subst he; exact h h2
    rw [Svc.openCalls_snoc, if_neg hu]
  · exact oc_env ht _ _ h2

/-- Programs and open calls fit together. -/
theorem run_ap (ha : a.Wired env) (hw : ∀ i x, r.pick i = some x → x.within a.Outside) (i : Nat) {t : Tid} (ht : t ≠ .env) :
    match (r.conf i).thr t with
    | none => openCalls a t (r.conf i).w.trace = []
    | some p => Ap a env (openCalls a t (r.conf i).w.trace).length p := by
  induction i with
  | zero => rw [r.init.idle, r.init.trace]; rfl
  | succ i ih =>
    by_cases hx : r.pick i = some (.run t)
    · cases hp : (r.conf i).thr t with
      | none => have hn := r.next i; rw [hx] at hn; simp [Verif.step, hp] at hn
      | some p =>
        rw [hp] at ih
        cases p with
        | ret x =>
          have hn := r.next i
          rw [hx] at hn
          simp only [Verif.step, hp] at hn
          have hn := Option.some.inj hn
          rw [← hn]
          simp only [fset_same]
          exact List.length_eq_zero_iff.1 ih
        | thr x =>
          have hn := r.next i
          rw [hx] at hn
          simp only [Verif.step, hp] at hn
          have hn := Option.some.inj hn
          rw [← hn]
          simp only [fset_same, World.log, Svc.openCalls_snoc, if_true, callsStep]
          exact List.length_eq_zero_iff.1 ih
        | op o k =>
          obtain ⟨h1, h2⟩ := Wait.step_op r hx hp
          obtain ⟨L, h3, h4⟩ := oc_exec (a := a) (t := t) (o := o) (w := (r.conf i).w) (L := []) (by simp) rfl ih.2.1
          rw [h1, h2, h3, List.append_nil, h4]
          exact ih.2.2 _
        | call f k =>
          obtain ⟨h1, h2⟩ := Wait.step_call r hx hp
          rw [h1, h2]
          have := (ap_body ha f).handle ih
          rwa [Nat.zero_add] at this
    · have h1 := oc_stays (a := a) r i ht hx
      rw [h1]
      cases hp : (r.conf i).thr t with
      | some p => rw [(Course.stays r i hp hx).1]; rw [hp] at ih; exact ih
      | none =>
        rw [hp] at ih
        simp only at ih
        cases hp' : (r.conf (i + 1)).thr t with
        | none => exact ih
        | some p =>
          simp only [ih, List.length_nil]
          have hn := r.next i
          cases hc : r.pick i with
          | none => rw [hc] at hn; simp only at hn; rw [hn, hp] at hp'; cases hp'
          | some c =>
            rw [hc] at hn
            simp only at hn
            have hsame : ∀ {u : Tid} {q : Option (Prog Unit)}, fset (r.conf i).thr u q t = some p → t = u ∧ q = some p := by
              intro u q h
              by_cases hu : t = u
              · subst hu; rw [fset_same] at h; exact ⟨rfl, h⟩
              · rw [fset_ne _ _ hu, hp] at h; cases h
            cases c with
            | begin n u =>
              simp only [Verif.step] at hn
              split at hn
              · cases hn
              · have hn := Option.some.inj hn
                rw [← hn] at hp'
                obtain ⟨_, h⟩ := hsame hp'
                cases h
                exact ap_outside (hw i _ hc)
            | run u =>
              have hu : t ≠ u := by intro h; subst h; exact hx hc
              simp only [Verif.step] at hn
              split at hn
              · cases hn
              next q hq =>
                cases q with
                | ret x => have hn := Option.some.inj hn; rw [← hn] at hp'; exact absurd (hsame hp').1 hu
                | thr x => have hn := Option.some.inj hn; rw [← hn] at hp'; exact absurd (hsame hp').1 hu
                | op o k =>
                  simp only [runThread] at hn
                  split at hn
                  · have hn := Option.some.inj hn; rw [← hn] at hp'; exact absurd (hsame hp').1 hu
                  · cases hn
                | call f k => have hn := Option.some.inj hn; rw [← hn] at hp'; exact absurd (hsame hp').1 hu
            | dispatch e k n =>
              simp only [Verif.step] at hn
              split at hn
              · split at hn
                · have hn := Option.some.inj hn
                  rw [← hn] at hp'
                  obtain ⟨_, h⟩ := hsame hp'
                  cases h
                  exact ap_drain _ _
                · cases hn
              · cases hn
            | interrupt u => have hn := Option.some.inj hn; rw [← hn, hp] at hp'; cases hp'
            | shutdown e now => have hn := Option.some.inj hn; rw [← hn, hp] at hp'; cases hp'

/-- The thread goes on. -/
theorem goes {t : Tid} (ht : t ≠ .env) (hf : r.fair t) {i : Nat} {p : Prog Unit} (hp : (r.conf i).thr t = some p) (hr : Course.ready p = true) :
    ∃ j, i ≤ j ∧ r.pick j = some (.run t) ∧ (r.conf j).thr t = some p ∧
      level t (r.conf j).w.trace = level t (r.conf i).w.trace ∧ openCalls a t (r.conf j).w.trace = openCalls a t (r.conf i).w.trace := by
  obtain ⟨j, h1, h2, _⟩ := Course.goes r hf hp hr
  obtain ⟨k, h3, h4, h5⟩ := Course.first_of (P := fun j => r.pick j = some (.run t)) h1 h2
  refine ⟨k, h3, h4, (Course.stays_until r h3 hp h5).1, ?_⟩
  obtain ⟨n, rfl⟩ := Nat.le.dest h3
  clear h3 h4
  induction n with
  | zero => exact ⟨rfl, rfl⟩
  | succ n ih =>
    obtain ⟨a1, a2⟩ := ih fun l b1 b2 => h5 l b1 (by omega)
    have hx := h5 (i + n) (by omega) (by omega)
    exact ⟨(Wait.level_stays r (i + n) ht hx).trans a1, (oc_stays r (i + n) ht hx).trans a2⟩

/-- A step that does not wait. -/
theorem do_op {t : Tid} (ht : t ≠ .env) (hf : r.fair t) {i : Nat} {o : Op} {k : o.Res → Prog Unit} (hp : (r.conf i).thr t = some (.op o k))
    (hr : ∀ n, o ≠ .await n) : ∃ j, i ≤ j ∧ r.pick j = some (.run t) ∧ (r.conf (j + 1)).thr t = some (k (exec t o (r.conf j).w).1) ∧
      (r.conf (j + 1)).w = (exec t o (r.conf j).w).2 ∧ level t (r.conf j).w.trace = level t (r.conf i).w.trace ∧
      openCalls a t (r.conf j).w.trace = openCalls a t (r.conf i).w.trace := by
  obtain ⟨j, h1, h2, h3, h4, h5⟩ := goes (a := a) r ht hf hp (by cases o <;> first | rfl | exact absurd rfl (hr _))
  obtain ⟨h6, h7⟩ := Wait.step_op r h2 h3
  exact ⟨j, h1, h2, h6, h7, h4, h5⟩

/-- A program that does not wait for anybody comes to its end. -/
theorem finish_free {t : Tid} (ht : t ≠ .env) (hf : r.fair t) {p : Prog α} {K : Except Exc α → Prog Unit} {i : Nat} (hp : Free env p)
    (h : (r.conf i).thr t = some (p.handle K)) :
    ∃ j x, i ≤ j ∧ (r.conf j).thr t = some (K x) ∧ openCalls a t (r.conf j).w.trace = openCalls a t (r.conf i).w.trace := by
  induction p generalizing i with
  | ret x => exact ⟨i, _, Nat.le_refl _, h, rfl⟩
  | thr x => exact ⟨i, _, Nat.le_refl _, h, rfl⟩
  | op o k ih =>
    have h0 := hp.1
    obtain ⟨j, h1, _, h2, h3, _, h4⟩ := do_op (a := a) r ht hf h (by rintro n rfl; cases h0)
    have hu : unmarked o = true := by cases o <;> first | exact h0 | rfl
    obtain ⟨j', x, h5, h6, h7⟩ := ih _ (hp.2 _) h2
    exact ⟨j', x, by omega, h6, by rw [h7, h3, oc_un hu, h4]⟩
  | call f k ih =>
    obtain ⟨j, h1, h2, h3, _, h4⟩ := goes (a := a) r ht hf h rfl
    obtain ⟨h5, h6⟩ := Wait.step_call r h2 h3
    rw [hp.1] at h5
    obtain ⟨j', x, h7, h8, h9⟩ := ih _ (hp.2 _) h5
    exact ⟨j', x, by omega, h8, by rw [h9, h6, h4]⟩

/-- Code that runs for ever above its level, or comes to its end. -/
theorem excursion (ha : a.Wired env) {t : Tid} (ht : t ≠ .env) {e s : Nat × Nat} {n : Nat} {L' L : List (Nat × AppCall)} {q : Prog α}
    {K : Except Exc α → Prog Unit} {i : Nat} (hp : (r.conf i).thr t = some (q.handle K)) (hb : Wait.Bal e s q) (hq : Ap a env n q)
    (hl : level t (r.conf i).w.trace = s) (h1 : e.1 ≤ s.1) (h2 : e.2 ≤ s.2) (hL : openCalls a t (r.conf i).w.trace = L' ++ L) (hn : L'.length = n) :
    (∀ j, i ≤ j → e.1 ≤ (level t (r.conf j).w.trace).1 ∧ e.2 ≤ (level t (r.conf j).w.trace).2) ∨
    ∃ j x, i ≤ j ∧ (r.conf j).thr t = some (K x) ∧ level t (r.conf j).w.trace = e ∧ openCalls a t (r.conf j).w.trace = L := by
  refine Classical.byContradiction fun hno => ?_
  have h3 : ¬ ∃ j x, i ≤ j ∧ (r.conf j).thr t = some (K x) ∧ level t (r.conf j).w.trace = e ∧ openCalls a t (r.conf j).w.trace = L :=
    fun h => hno (.inr h)
  have key : ∀ m, ∃ q' s' n' L'', (r.conf (i + m)).thr t = some (q'.handle K) ∧ Wait.Bal e s' q' ∧ Ap a env n' q' ∧
      level t (r.conf (i + m)).w.trace = s' ∧ e.1 ≤ s'.1 ∧ e.2 ≤ s'.2 ∧ openCalls a t (r.conf (i + m)).w.trace = L'' ++ L ∧ L''.length = n' := by
    intro m
    induction m with
    | zero => exact ⟨q, s, n, L', hp, hb, hq, hl, h1, h2, hL, hn⟩
    | succ m ih =>
      obtain ⟨q', s', n', L'', a1, a2, a3, a4, a5, a6, a7, a8⟩ := ih
      by_cases hx : r.pick (i + m) = some (.run t)
      · cases q' with
        | ret x =>
          cases a2; cases a3
          exact absurd ⟨i + m, _, by omega, a1, a4, by rw [a7, List.length_eq_zero_iff.1 a8]; rfl⟩ h3
        | thr x =>
          cases a2; cases a3
          exact absurd ⟨i + m, _, by omega, a1, a4, by rw [a7, List.length_eq_zero_iff.1 a8]; rfl⟩ h3
        | op o k =>
          obtain ⟨b1, b2⟩ := Wait.step_op r hx a1
          obtain ⟨L3, b3, b4⟩ := oc_exec (t := t) (o := o) a7 a8 a3.2.1
          exact ⟨_, _, _, L3, b1, (a2 _).2.2, a3.2.2 _, by rw [← Nat.add_assoc, b2, Wait.level_exec, a4], (a2 _).1, (a2 _).2.1,
            by rw [← Nat.add_assoc, b2]; exact b3, b4⟩
        | call f k =>
          obtain ⟨b1, b2⟩ := Wait.step_call r hx a1
          rw [← Wait.handle_handle] at b1
          refine ⟨_, s', n', L'', b1, Wait.Bal.handle' a5 a6 (Wait.good_body env f).1 a2, ?_, by rw [← Nat.add_assoc, b2]; exact a4, a5, a6,
            by rw [← Nat.add_assoc, b2]; exact a7, a8⟩
          have := (ap_body ha f).handle a3
          rwa [Nat.zero_add] at this
      · exact ⟨q', s', n', L'', (Course.stays r _ a1 hx).1, a2, a3, by rw [← Nat.add_assoc, Wait.level_stays r _ ht hx]; exact a4, a5, a6,
          by rw [← Nat.add_assoc, oc_stays r _ ht hx]; exact a7, a8⟩
  refine hno (.inl fun j hj => ?_)
  obtain ⟨m, rfl⟩ := Nat.le.dest hj
  obtain ⟨_, _, _, _, _, _, _, h, h', h'', _⟩ := key m
  rw [h]
  exact ⟨h', h''⟩

/-- Library code comes to its end, unless the user code it calls hangs. -/
theorem finishes (ha : a.Wired env) {t : Tid} (ht : t ≠ .env) (hf : r.fair t) {e s : Nat × Nat} {p : Prog α} {K : Except Exc α → Prog Unit} {i : Nat}
    (hc : Wait.Calm e s p) (hp : (r.conf i).thr t = some (p.handle K)) (hl : level t (r.conf i).w.trace = s) (h1 : e.1 ≤ s.1) (h2 : e.2 ≤ s.2) :
    (∃ i', ∀ j, i' ≤ j → e.1 < (level t (r.conf j).w.trace).1 ∧ e.2 ≤ (level t (r.conf j).w.trace).2) ∨
    ∃ j x, i ≤ j ∧ (r.conf j).thr t = some (K x) ∧ openCalls a t (r.conf j).w.trace = openCalls a t (r.conf i).w.trace := by
  induction p generalizing i s with
  | ret x => exact .inr ⟨i, _, Nat.le_refl _, hp, rfl⟩
  | thr x => exact .inr ⟨i, _, Nat.le_refl _, hp, rfl⟩
  | op o k ih =>
    have h0 := hc.1
    obtain ⟨j, a1, _, a2, a3, a4, a5⟩ := do_op (a := a) r ht hf hp (by rintro n rfl; cases h0)
    have hu : unmarked o = true := by
      unfold unmarked
      split
      · cases h0
      · cases h0
      · rfl
    have hlj : level t (r.conf (j + 1)).w.trace = Wait.bump o (exec t o (r.conf j).w).1 s := by rw [a3, Wait.level_exec, a4, hl]
    rcases ih _ (hc.2 _).2.2 a2 hlj (hc.2 _).1 (hc.2 _).2.1 with h | ⟨j', x, c1, c2, c3⟩
    · exact .inl h
    · exact .inr ⟨j', x, by omega, c2, by rw [c3, a3, oc_un hu, a5]⟩
  | call f k ih =>
    obtain ⟨j, a1, a2, a3, a4, a5⟩ := goes (a := a) r ht hf hp rfl
    obtain ⟨b1, b2⟩ := Wait.step_call r a2 a3
    have hlj : level t (r.conf (j + 1)).w.trace = s := by rw [b2, a4, hl]
    rcases excursion r ha ht (n := 0) (L' := []) b1 (Wait.good_body env f (e := s)).1 (ap_body ha f) hlj (Nat.le_refl _) (Nat.le_refl _)
      (L := openCalls a t (r.conf (j + 1)).w.trace) rfl rfl with h | ⟨j', x, c1, c2, c3, c4⟩
    · refine .inl ⟨j + 1, fun l hl => ?_⟩
      have := h l hl
      have h0 := hc.1
      exact ⟨by omega, by omega⟩
    · rcases ih x (hc.2 x) c2 c3 h1 h2 with h | ⟨j2, y, d1, d2, d3⟩
      · exact .inl h
      · exact .inr ⟨j2, y, by omega, d2, by rw [d3, c4, b2, a5]⟩

theorem en_step {t : Tid} {n : Nat} {i : Nat} (h : enabled t (.await n) (r.conf i).w = true) (hx : r.pick i ≠ some (.run t)) :
    enabled t (.await n) (r.conf (i + 1)).w = true := by
  have hn := r.next i
  simp only [enabled, Bool.or_eq_true, beq_iff_eq] at h ⊢
  cases hc : r.pick i with
  | none => rw [hc] at hn; simp only at hn; rw [hn]; exact h
  | some c =>
    rw [hc] at hn
    simp only at hn
    cases c with
    | begin m u =>
      simp only [Verif.step] at hn
      split at hn
      · cases hn
      · have hn := Option.some.inj hn; rw [← hn]; exact h
    | run u =>
      have hu : t ≠ u := by intro h; subst h; exact hx hc
      simp only [Verif.step] at hn
      split at hn
      · cases hn
      next q hq =>
        cases q with
        | ret x => have hn := Option.some.inj hn; rw [← hn]; exact h
        | thr x => have hn := Option.some.inj hn; rw [← hn]; exact h
        | call f k => have hn := Option.some.inj hn; rw [← hn]; exact h
        | op o k =>
          simp only [runThread] at hn
          split at hn
          · have hn := Option.some.inj hn
            rw [← hn]
            simp only
            refine h.imp (fun h => ?_) (fun h => ?_)
            · cases o <;> simp only [exec] <;> (try split) <;> (try split) <;> simp_all [World.log, fset_ne]
            · cases o <;> simp only [exec] <;> (try split) <;> (try split) <;> simp_all [World.log]
              unfold fset
              split <;> simp_all
          · cases hn
    | dispatch e k m =>
      simp only [Verif.step] at hn
      split at hn
      · split at hn
        · have hn := Option.some.inj hn; rw [← hn]; exact h
        · cases hn
      · cases hn
    | interrupt u =>
      have hn := Option.some.inj hn
      rw [← hn]
      simp only
      refine h.imp (fun h => ?_) id
      by_cases hu : t = u
      · subst hu; simp
      · rw [fset_ne _ _ hu]; exact h
    | shutdown e now =>
      have hn := Option.some.inj hn
      rw [← hn]
      cases now <;> exact h

/-- Waiting for a latch: it goes on, or waits for ever. -/
theorem waiting {t : Tid} (ht : t ≠ .env) (hf : r.fair t) {i n : Nat} {k : Bool → Prog Unit} (hp : (r.conf i).thr t = some (.op (.await n) k)) :
    (∀ j, i ≤ j → Verif.step env (r.conf j) (.run t) = none ∧ (r.conf j).w.latch n ≠ 0 ∧ (r.conf j).w.intr t = false ∧
      openCalls a t (r.conf j).w.trace = openCalls a t (r.conf i).w.trace) ∨
    ∃ j b, i ≤ j ∧ (r.conf j).thr t = some (k b) ∧ openCalls a t (r.conf j).w.trace = openCalls a t (r.conf i).w.trace := by
  have hoc : ∀ m, (∀ l, i ≤ l → l < i + m → r.pick l ≠ some (.run t)) →
      openCalls a t (r.conf (i + m)).w.trace = openCalls a t (r.conf i).w.trace := by
    intro m h
    induction m with
    | zero => rfl
    | succ m ih => exact (oc_stays r (i + m) ht (h _ (by omega) (by omega))).trans (ih fun l b1 b2 => h l b1 (by omega))
  by_cases hx : ∃ j, i ≤ j ∧ r.pick j = some (.run t)
  · obtain ⟨j, h1, h2⟩ := hx
    obtain ⟨k', h3, h4, h5⟩ := Course.first_of (P := fun j => r.pick j = some (.run t)) h1 h2
    obtain ⟨b1, b2⟩ := Wait.step_op r h4 (Course.stays_until r h3 hp h5).1
    obtain ⟨m, rfl⟩ := Nat.le.dest h3
    exact .inr ⟨_, _, by omega, b1, by rw [b2, oc_un rfl, hoc m h5]⟩
  · have hno : ∀ l, i ≤ l → r.pick l ≠ some (.run t) := fun l h1 h2 => hx ⟨l, h1, h2⟩
    refine .inl fun j hj => ?_
    have hthr : ∀ l, i ≤ l → (r.conf l).thr t = some (.op (.await n) k) := fun l hl => (Course.stays_until r hl hp fun l h _ => hno l h).1
    have hst : ∀ l, i ≤ l → (Verif.step env (r.conf l) (.run t)).isSome = enabled t (.await n) (r.conf l).w := by
      intro l hl
      simp only [Verif.step, hthr l hl, runThread]
      cases enabled t (.await n) (r.conf l).w <;> rfl
    have hen : enabled t (.await n) (r.conf j).w = false := by
      refine Classical.byContradiction fun hne => ?_
      have hne : enabled t (.await n) (r.conf j).w = true := by simpa using hne
      have hall : ∀ l, j ≤ l → enabled t (.await n) (r.conf l).w = true := by
        intro l hl
        obtain ⟨m, rfl⟩ := Nat.le.dest hl
        clear hl
        induction m with
        | zero => exact hne
        | succ m ih => exact en_step r ih (hno (j + m) (by omega))
      obtain ⟨l, h1, h2⟩ := hf j fun l hl => by rw [hst l (by omega)]; exact hall l hl
      exact hno l (by omega) h2
    have h1 := hst j hj
    rw [hen] at h1
    simp only [enabled, Bool.or_eq_false_iff, beq_eq_false_iff_ne] at hen
    obtain ⟨m, rfl⟩ := Nat.le.dest hj
    exact ⟨by simpa using h1, hen.2, hen.1, hoc m fun l h _ => hno l h⟩

theorem env_user {i : Nat} {t : Tid} {n : Mark} (h : (t, Obs.user n) ∈ (r.conf i).w.trace) : t ≠ .env := by
  rintro rfl
  obtain ⟨s, m, hm⟩ := Wait.env_obs r i h
  cases hm

/-- The moment when a method of the app is called. -/
theorem called (ha : a.Wired env) (hw : ∀ i x, r.pick i = some x → x.within a.Outside) {i : Nat} {t : Tid} {c : AppCall}
    {pre post : List (Tid × Obs)} (h : (r.conf i).w.trace = pre ++ (t, .user (.app a.id c)) :: post) :
    ∃ i0 L, ∃ f : Except Exc Unit → Unit → Prog Unit, i0 ≤ i ∧ (r.conf i0).thr t = some (((a.methodBody c).denote env).handle fun x =>
      .op (.emit (.user (.appRet a.id c (outcome x)))) (f x)) ∧ openCalls a t (r.conf i0).w.trace = (pre.length, c) :: L ∧
      (r.conf i0).w.trace = pre ++ [(t, .user (.app a.id c))] := by
  have ht : t ≠ .env := env_user r (i := i) (n := .app a.id c) (by rw [h]; simp)
  obtain ⟨i0, h0, hx, h1, h2⟩ := Course.entry_time r i ht h
  have hap := run_ap r ha hw i0 ht
  have hoc : openCalls a t (r.conf (i0 + 1)).w.trace = (pre.length, c) :: openCalls a t pre := by
    rw [h2, Svc.openCalls_snoc]; simp [callsStep]
  cases hp : (r.conf i0).thr t with
  | none => have hn := r.next i0; rw [hx] at hn; simp [Verif.step, hp] at hn
  | some p =>
    rw [hp] at hap
    have hn := r.next i0
    rw [hx] at hn
    simp only [Verif.step, hp] at hn
    cases p with
    | ret x => have hn := Option.some.inj hn; rw [← hn] at h2; simp [h1] at h2
    | thr x => have hn := Option.some.inj hn; rw [← hn] at h2; simp [h1, World.log] at h2
    | call g k => have hn := Option.some.inj hn; rw [← hn] at h2; simp [h1] at h2
    | op o k =>
      obtain ⟨b1, b2⟩ := Wait.step_op r hx hp
      have h3 : opObs o (r.conf i0).w = some (.user (.app a.id c)) := by
        have h2' := h2
        rw [b2, exec_trace, h1] at h2'
        cases ho : opObs o (r.conf i0).w with
        | none => rw [ho] at h2'; simp at h2'
        | some y => rw [ho] at h2'; simpa using h2'
      have := op_of_user h3
      subst this
      obtain ⟨f, hf⟩ := hap.1 rfl
      exact ⟨i0 + 1, _, f, h0, by rw [b1, ← hf], hoc, h2⟩

/-- The return of a method. -/
theorem returned {t : Tid} (ht : t ≠ .env) (hf : r.fair t) {i pos : Nat} {c : AppCall} {o : Option Exc} {L : List (Nat × AppCall)} {k : Unit → Prog Unit}
    (h : (r.conf i).thr t = some (.op (.emit (.user (.appRet a.id c o))) k)) (hL : openCalls a t (r.conf i).w.trace = (pos, c) :: L) :
    ∃ j, i ≤ j ∧ Returns a t pos c o (r.conf j).w.trace ∧ (r.conf j).thr t = some (k ()) ∧ openCalls a t (r.conf j).w.trace = L := by
  obtain ⟨j, h1, _, h2, h3, _, h4⟩ := do_op (a := a) r ht hf h (by simp)
  refine ⟨j + 1, by omega, ⟨(r.conf j).w.trace, ?_, by rw [h4, hL]; rfl⟩, h2, ?_⟩
  · rw [h3, exec_trace]; simp [opObs]
  · rw [h3, exec_trace]
    simp only [opObs, Option.map_some, Option.toList_some, Svc.openCalls_snoc, if_true, callsStep]
    rw [h4, hL]; rfl

/-- A call of `stop()` or `error()` returns. -/
theorem others_return (ha : a.Wired env) (hw : ∀ i x, r.pick i = some x → x.within a.Outside) {i : Nat} {t : Tid} {c : AppCall}
    {pre post : List (Tid × Obs)} (h : (r.conf i).w.trace = pre ++ (t, .user (.app a.id c)) :: post) (hc : c ≠ .start) (hf : r.fair t) :
    ∃ j o, Returns a t pre.length c o (r.conf j).w.trace := by
  have ht : t ≠ .env := env_user r (i := i) (n := .app a.id c) (by rw [h]; simp)
  obtain ⟨i0, L, f, _, h2, h3, _⟩ := called r ha hw h
  have hfree : Free env ((a.methodBody c).denote env) := by
    cases c with
    | start => exact absurd rfl hc
    | stop => exact free_stop ha
    | error => exact free_fireU ha _
  obtain ⟨j, x, h4, h5, h6⟩ := finish_free (a := a) r ht hf hfree h2
  obtain ⟨j', _, h7, _⟩ := returned r ht hf h5 (h6.trans h3)
  exact ⟨j', _, h7⟩

/-- A call of `start()` returns, hangs, or waits for ever. -/
theorem start_returns (ha : a.Wired env) (hw : ∀ i x, r.pick i = some x → x.within a.Outside) (hl : (r.conf 0).w.latch a.latch ≠ 0)
    {i : Nat} {t : Tid} {pre post : List (Tid × Obs)} (h : (r.conf i).w.trace = pre ++ (t, .user (.app a.id .start)) :: post) (hf : r.fair t) :
    (∃ j o, Returns a t pre.length .start o (r.conf j).w.trace) ∨
    (startedOf a.m pre = false ∧ (Hangs a r t pre.length ∨ Waits a r t pre.length)) := by
  have ht : t ≠ .env := env_user r (i := i) (n := .app a.id .start) (by rw [h]; simp)
  obtain ⟨i0, L, f, _, h2, h3, h4⟩ := called r ha hw h
  -- what happens at the end of the call
  have last : ∀ i x, (r.conf i).thr t = some (.op (.emit (.user (.appRet a.id .start (outcome x)))) (f x)) →
      openCalls a t (r.conf i).w.trace = (pre.length, .start) :: L → ∃ j o, Returns a t pre.length .start o (r.conf j).w.trace := by
    intro i x h5 h6
    obtain ⟨j', _, h7, _⟩ := returned r ht hf h5 h6
    exact ⟨j', _, h7⟩
  have lastFree : ∀ i (p : Prog Unit), Free env p → (r.conf i).thr t = some (p.handle fun x => .op (.emit (.user (.appRet a.id .start (outcome x)))) (f x)) →
      openCalls a t (r.conf i).w.trace = (pre.length, .start) :: L → ∃ j o, Returns a t pre.length .start o (r.conf j).w.trace := by
    intro i p hp h5 h6
    obtain ⟨j, x, _, h7, h8⟩ := finish_free (a := a) r ht hf hp h5
    exact last j x h7 (h8.trans h6)
  -- the finally block
  have lastFin : ∀ i, (r.conf i).thr t = some ((a.startFinally.denote env).handle fun x => .op (.emit (.user (.appRet a.id .start (outcome x)))) (f x)) →
      openCalls a t (r.conf i).w.trace = (pre.length, .start) :: L → ∃ j o, Returns a t pre.length .start o (r.conf j).w.trace := by
    intro i h5 h6
    obtain ⟨j, _, _, h7, h8, _, h9⟩ := do_op (a := a) r ht hf h5 (by simp)
    have h10 := (congrArg (fun w => openCalls a t w.trace) h8).trans ((oc_un (a := a) (t := t) (o := .getEnded a.m) (w := (r.conf j).w) rfl).trans (h9.trans h6))
    generalize (exec t (.getEnded a.m) (r.conf j).w).1 = e at h7
    change (r.conf (j + 1)).thr t = some (Prog.handle (UProg.denote env (if (!e) = true then a.recorded .stop a.stopBody else .done)) _) at h7
    split at h7
    · rw [recorded_eq] at h7
      obtain ⟨k, _, _, h11, h12, _, h13⟩ := do_op (a := a) r ht hf h7 (by simp)
      have h14 : openCalls a t (r.conf (k + 1)).w.trace = ((r.conf k).w.trace.length, .stop) :: (pre.length, .start) :: L := by
        rw [h12, exec_trace]
        simp only [opObs, Option.map_some, Option.toList_some, Svc.openCalls_snoc, if_true, callsStep]
        rw [h13, h10]
      rw [Wait.handle_handle] at h11
      obtain ⟨l, x, _, h15, h16⟩ := finish_free (a := a) r ht hf (free_stop ha) h11
      obtain ⟨l', _, _, h17, h18⟩ := returned r ht hf h15 (h16.trans h14)
      exact lastFree _ _ (by cases x <;> trivial) h17 h18
    · exact lastFree _ (.ret ()) trivial h7 h10
  -- the two reads
  obtain ⟨j1, hj1, _, a1, a2, _, a3⟩ := do_op (a := a) r ht hf h2 (by simp)
  have a4 := (congrArg (fun w => openCalls a t w.trace) a2).trans ((oc_un (a := a) (t := t) (o := .getCur a.m) (w := (r.conf j1).w) rfl).trans (a3.trans h3))
  generalize (exec t (.getCur a.m) (r.conf j1).w).1 = s at a1
  obtain ⟨j2, hj2, _, b1, b2, _, b3⟩ := do_op (a := a) r ht hf a1 (by simp)
  have b4 := (congrArg (fun w => openCalls a t w.trace) b2).trans ((oc_un (a := a) (t := t) (o := .getStarted a.m) (w := (r.conf j2).w) rfl).trans (b3.trans a4))
  have hst : (exec t (.getStarted a.m) (r.conf j2).w).1 = ((r.conf j2).w.mach a.m).started := rfl
  rw [hst] at b1
  have hs2 : startedOf a.m pre = true → ((r.conf j2).w.mach a.m).started = true := by
    intro hs
    obtain ⟨lst, hI⟩ := Svc.inv ha r.init hl (Settle.execution hw j2)
    have h5 : startedOf a.m (r.conf j2).w.trace = ((r.conf j2).w.mach a.m).started := congrArg Prod.fst hI.started
    obtain ⟨ys, h6⟩ := Course.grows_le r (show i0 ≤ j2 by omega)
    rw [← h5, ← h6, h4]
    unfold startedOf at hs ⊢
    rw [List.append_assoc, List.any_append, hs]
    rfl
  generalize ((r.conf j2).w.mach a.m).started = b at b1 hs2
  change (r.conf (j2 + 1)).thr t = some (Prog.handle (UProg.denote env (if (!b) = true then _ else _)) _) at b1
  cases b with
  | true =>
    rw [if_neg (by simp)] at b1
    refine .inl (lastFree _ _ ?_ b1 b4)
    split
    · exact free_fireU ha _
    · trivial
  | false =>
    rw [if_pos (by rfl)] at b1
    refine Classical.or_iff_not_imp_left.2 fun hnr => ⟨?_, ?_⟩
    · cases hh : startedOf a.m pre with
      | false => rfl
      | true => cases hs2 hh
    rw [UProg.andThen, UProg.denote_handle, Wait.handle_handle] at b1
    change (r.conf (j2 + 1)).thr t = some (((api (.start a.m) (Wait.code env (.start a.m))).bind fun x => (UProg.ofRes x).denote env).handle _) at b1
    rw [Prog.bind, Wait.handle_handle, Wait.api_eq] at b1
    obtain ⟨j3, _, hx3, c1, c2, c3, c4⟩ := do_op (a := a) r ht hf b1 (by simp)
    have c5 : openCalls a t (r.conf j3).w.trace = (pre.length, .start) :: L := c4.trans b4
    have c6 : openCalls a t (r.conf (j3 + 1)).w.trace = (pre.length, .start) :: L := by rw [c2, oc_un rfl, c5]
    have c7 : (r.conf (j3 + 1)).w.trace = (r.conf j3).w.trace ++ (t, .enter (.start a.m)) :: [] := by
      rw [c2, exec_trace]; simp [opObs]
    have c8 : level t (r.conf (j3 + 1)).w.trace = ((level t (r.conf j3).w.trace).1, (level t (r.conf j3).w.trace).2 + 1) := by
      rw [c7, Wait.level_append]; simp [levelStep]
    rw [Wait.handle_handle] at c1
    rcases finishes r ha ht hf (Wait.calm_code env (.start a.m)) c1 c8 (Nat.le_refl _) (Nat.le_refl _) with ⟨i', d1⟩ | ⟨j4, x, _, d1, d2⟩
    · exact .inl ⟨_, _, _, c7, by rw [c5]; rfl, i', fun j hj => ⟨(d1 j hj).1, Nat.lt_of_succ_le (d1 j hj).2⟩⟩
    obtain ⟨j5, _, _, e1, e2, _, e3⟩ := do_op (a := a) r ht hf d1 (by simp)
    have e4 : openCalls a t (r.conf (j5 + 1)).w.trace = (pre.length, .start) :: L := by rw [e2, oc_un rfl, e3, d2, c6]
    cases x with
    | error x => exact absurd (last _ (.error x) e1 e4) hnr
    | ok x =>
      change (r.conf (j5 + 1)).thr t = some (Prog.handle (UProg.denote env (UProg.andThen _ _)) _) at e1
      rw [UProg.andThen, UProg.denote_handle, Wait.handle_handle] at e1
      obtain ⟨j6, y, _, f1, f2⟩ := finish_free (a := a) r ht hf (free_fireU ha evtStart) e1
      have f3 := f2.trans e4
      cases y with
      | error y => exact absurd (last _ (.error y) f1 f3) hnr
      | ok y =>
        change (r.conf j6).thr t = some (.op (.await a.latch) _) at f1
        rcases waiting (a := a) r ht hf f1 with g | ⟨j7, b, _, g1, g2⟩
        · exact .inr ⟨j6, fun j hj => ⟨(g j hj).1, (g j hj).2.1, (g j hj).2.2.1, by rw [(g j hj).2.2.2, f3]; rfl⟩⟩
        · have g3 := g2.trans f3
          change (r.conf j7).thr t = some (Prog.handle (UProg.denote env (if b = true then _ else _)) _) at g1
          split at g1
          · obtain ⟨j8, _, _, k1, k2, _, k3⟩ := do_op (a := a) r ht hf g1 (by simp)
            have k4 : openCalls a t (r.conf (j8 + 1)).w.trace = (pre.length, .start) :: L := by rw [k2, oc_un rfl, k3, g3]
            obtain ⟨j9, _, _, l1, l2, _, l3⟩ := do_op (a := a) r ht hf k1 (by simp)
            have l4 : openCalls a t (r.conf (j9 + 1)).w.trace = (pre.length, .start) :: L := by rw [l2, oc_un rfl, l3, k4]
            exact absurd (lastFin _ l1 l4) hnr
          · exact absurd (lastFin _ g1 g3) hnr

end Verif.AppWait
