import Verif.Proofs.Direct
import Verif.Spec.Fate
import Verif.Spec.Trace
import Verif.Demo.Calls
/-
C80, C81: executors that execute tasks in the thread that hands them over.
-/

namespace Verif
open Prog
open Spec.Calls (own IsCall)
open Spec.Direct (Frame State next Sent)

namespace Direct

/-! ### Without such executors nothing is new -/

variable {env : Env} {d : EId → Bool} {c0 c : Conf} {t : Tid}

theorem processEventDefault_none (s : SId) (ev : Ev) (m : MId) :
    processEventDefault env (fun _ => false) s ev m = Verif.processEventDefault env s ev m := rfl

theorem uprog_none (u : UCall) : uprog env (fun _ => false) u = u.prog env := by
  cases u <;> rfl

theorem denote_none (u : UProg) : denote env (fun _ => false) u = u.denote env := by
  induction u with
  | done => rfl
  | thr x => rfl
  | call u k ih =>
    simp only [denote, UProg.denote, uprog_none]
    congr 1
    funext r
    exact ih r

theorem body_none (f : Call) : body env (fun _ => false) f = Verif.body env f := by
  cases f <;> simp only [body, Verif.body, denote_none] <;> rfl

/-- Without executors of this kind the model is the one of Model/Sem. -/
theorem step_none (c : Conf) (x : Choice) : step env (fun _ => false) c x = Verif.step env c x := by
  cases x <;> simp only [step, Verif.step, denote_none] <;> first
    | rfl
    | (rename_i t
       cases c.thr t with
       | none => rfl
       | some p => cases p <;> simp only [runThread, Verif.runThread, body_none])

/-! ### Programs that run one after the other -/

/-- Client thread `i` executes programs, one after the other, and nobody else does anything; the last one may still be running. -/
inductive Serial (env : Env) (d : EId → Bool) (i : Nat) (c0 : Conf) : Conf → Prop
  | init : Serial env d i c0 c0
  | next {c c' : Conf} {u : UProg} {n : Nat} : Serial env d i c0 c → c.thr (.client i) = none →
      runs env d c (.begin i u :: List.replicate n (.run (.client i))) = some c' → Serial env d i c0 c'

theorem solo {Ac : World → Prop} {n : Nat} {p : Prog Unit} {Q : World → Prop} {c c' : Conf} (h : Wp env d Ac t n p c.w fun _ w' _ => Q w')
    (hp : c.thr t = some p) (hr : runs env d c (List.replicate n (.run t)) = some c') :
    (∀ u, u ≠ t → c'.thr u = c.thr u) ∧ ((Ac c'.w ∧ c'.thr t ≠ none) ∨
      c'.thr t = none ∧ ∃ w', Q w' ∧ Ac w' ∧ (c'.w = w' ∨ ∃ x, c'.w = w'.log t (.uncaught x))) := by
  induction n generalizing p c with
  | zero => cases hr; exact ⟨fun _ _ => rfl, .inl ⟨h.acc, by rw [hp]; simp⟩⟩
  | succ n ih =>
    simp only [List.replicate_succ, runs, step, hp] at hr
    have fin : ∀ c1 : Conf, c1.thr t = none → runs env d c1 (List.replicate n (.run t)) = some c' → c' = c1 := by
      intro c1 h1 h2
      cases n with
      | zero => cases h2; rfl
      | succ n => simp [List.replicate_succ, runs, step, h1] at h2
    cases p with
    | ret a =>
      simp only [runThread] at hr
      rw [fin _ (by simp) hr]
      exact ⟨fun u hu => fset_ne _ _ hu, .inr ⟨by simp, c.w, h.2, h.1, .inl rfl⟩⟩
    | thr x =>
      simp only [runThread] at hr
      rw [fin _ (by simp) hr]
      exact ⟨fun u hu => fset_ne _ _ hu, .inr ⟨by simp, c.w, h.2, h.1, .inr ⟨x, rfl⟩⟩⟩
    | op o k =>
      simp only [runThread] at hr
      by_cases he : enabled t o c.w = true
      · simp only [he, if_true] at hr
        obtain ⟨h1, h2⟩ := ih (c := { w := (exec t o c.w).2, thr := fset c.thr t (some (k (exec t o c.w).1)) }) (h.2 he) (by simp) hr
        exact ⟨fun u hu => by rw [h1 u hu]; exact fset_ne _ _ hu, h2⟩
      · simp [he] at hr
    | call f k =>
      simp only [runThread] at hr
      obtain ⟨h1, h2⟩ := ih (c := { c with thr := fset c.thr t (some ((body env d f).handle k)) }) h.2 (by simp) hr
      exact ⟨fun u hu => by rw [h1 u hu]; exact fset_ne _ _ hu, h2⟩

theorem serial_inv {i : Nat} (hd : ∀ s, d (env.strat s).exec = true) (hi : Initial c0) (hr : Serial env d i c0 c) :
    Acc env (.client i) c.w ∧ (c.thr (.client i) = none → ∃ g loc, Inv env (.client i) c.w g loc ∧ g.stack = []) := by
  induction hr with
  | init =>
    have h : Inv env (.client i) c0.w .init (fun _ => .free) := by
      refine ⟨by rw [hi.trace]; rfl, fun q p h => ?_, fun s p h => ?_, fun q => ?_, fun s => ?_, fun _ _ => rfl, fun q => ?_⟩
      · rw [hi.queue] at h; cases h
      · rw [hi.pool] at h; cases h
      · rw [hi.queue]; exact List.nodup_nil
      · rw [hi.pool]; exact List.nodup_nil
      · rw [hi.queue]; rfl
    exact ⟨h.acc, fun _ => ⟨_, _, h, rfl⟩⟩
  | @next c c' u n _ hidle hrun ih =>
    obtain ⟨g, loc, hinv, hs⟩ := ih.2 hidle
    simp only [runs, step, hidle] at hrun
    have hw := bal_denote (below env (.client i) hd n) hd u n (Nat.le_refl _) c.w g loc hinv
    obtain ⟨h1, h2⟩ := solo (c := { c with thr := fset c.thr (.client i) (some (denote env d u)) }) hw (by simp) hrun
    rcases h2 with ⟨h2, h3⟩ | ⟨h2, w', ⟨g', loc', hi', hk', hs'⟩, h4, h5⟩
    · exact ⟨h2, fun h => absurd h h3⟩
    · have : Inv env (.client i) c'.w g' loc' := by
        rcases h5 with h5 | ⟨x, h5⟩
        · rw [h5]; exact hi'
        · rw [h5]; exact inv_log hi' rfl rfl
      exact ⟨this.acc, fun _ => ⟨g', loc', this, hs'.trans hs⟩⟩

/-! ### What the automaton tells -/

variable {queue : MId → QId} {g g' : State}

/-- Entries that change nothing. -/
def plain : Obs → Bool
  | .enter _ | .accepted .. | .taken .. | .done .. | .cb _ | .cbRet .. | .leave .. | .submitted .. | .rejected .. | .taskDropped .. => false
  | _ => true

inductive Move (queue : MId → QId) : State → Obs → State → Prop
  | enter {S W c} : Move queue ⟨S, W⟩ (.enter c) ⟨.api c false :: S, W⟩
  | accepted {S W m ev e} : Move queue ⟨.api (.fire m ev) false :: S, W⟩ (.accepted (queue m) m e)
      ⟨.api (.fire m ev) true :: S, fset W (queue m) (W (queue m) ++ [(m, e)])⟩
  | taken {S W m' ev m e xs} : W (queue m') = (m, e) :: xs → Move queue ⟨.api (.fire m' ev) true :: S, W⟩ (.taken (queue m') m e)
      ⟨.proc m e :: .api (.fire m' ev) true :: S, fset W (queue m') xs⟩
  | done {S W m e} : Move queue ⟨.proc m e :: S, W⟩ (.done m e) ⟨S, W⟩
  | cb {S W c} : Move queue ⟨S, W⟩ (.cb c) ⟨.cb c :: S, W⟩
  | cbRet {S W c r} : Move queue ⟨.cb c :: S, W⟩ (.cbRet c r) ⟨S, W⟩
  | leave {S W c acc r} : (acc = true → r = none → State.drained queue ⟨.api c acc :: S, W⟩ c = true) →
      Move queue ⟨.api c acc :: S, W⟩ (.leave c r) ⟨S, W⟩
  | plain {g o} : plain o = true → Move queue g o g

theorem move_of_next {o : Obs} (hn : next queue g o = some g') : Move queue g o g' := by
  obtain ⟨S, W⟩ := g
  cases o <;> first
    | (cases hn; exact .plain rfl)
    | (cases hn; constructor)
    | (cases hn; done)
    | skip
  · simp only [next] at hn
    split at hn
    · split at hn
      next h => cases hn; obtain ⟨rfl, h⟩ := h; exact .leave h
      · cases hn
    · cases hn
  · simp only [next] at hn
    split at hn
    · split at hn
      next h => cases hn; subst h; exact .cbRet
      · cases hn
    · cases hn
  · simp only [next] at hn
    split at hn
    · split at hn
      next h => cases hn; obtain ⟨rfl, rfl, _⟩ := h; exact .accepted
      · cases hn
    · cases hn
  · simp only [next] at hn
    split at hn
    · split at hn
      next hw h => cases hn; obtain ⟨rfl, rfl⟩ := h; exact .taken hw
      · cases hn
    · cases hn
  · simp only [next] at hn
    split at hn
    · split at hn
      next h => cases hn; obtain ⟨rfl, rfl⟩ := h; exact .done
      · cases hn
    · cases hn

theorem run_cons {e : Tid × Obs} {tr : List (Tid × Obs)} (hr : Spec.Direct.run queue t g (e :: tr) = some g') :
    e.1 = t ∧ ∃ g1, Move queue g e.2 g1 ∧ Spec.Direct.run queue t g1 tr = some g' := by
  obtain ⟨u, o⟩ := e
  simp only [Spec.Direct.run] at hr
  split at hr
  next hu =>
    split at hr
    next g1 hn => exact ⟨hu, g1, move_of_next hn, hr⟩
    · cases hr
  · cases hr

theorem run_split {a b : List (Tid × Obs)} (hr : Spec.Direct.run queue t g (a ++ b) = some g') :
    ∃ g1, Spec.Direct.run queue t g a = some g1 ∧ Spec.Direct.run queue t g1 b = some g' := by
  rw [run_append] at hr
  cases h : Spec.Direct.run queue t g a with
  | none => rw [h] at hr; cases hr
  | some g1 => rw [h] at hr; exact ⟨g1, rfl, hr⟩

theorem move_enter {k : Api} (hm : Move queue g (.enter k) g') : g'.stack = .api k false :: g.stack ∧ g'.waiting = g.waiting := by
  cases hm with
  | enter => exact ⟨rfl, rfl⟩
  | plain h => cases h

theorem move_leave {k : Api} {r : Option Exc} (hm : Move queue g (.leave k r) g') :
    ∃ acc, g.stack = .api k acc :: g'.stack ∧ (acc = true → r = none → g.drained queue k = true) := by
  cases hm with
  | leave h => exact ⟨_, rfl, h⟩
  | plain h => cases h

theorem move_taken {q : QId} {m : MId} {e : Ev} (hm : Move queue g (.taken q m e) g') : g'.stack = .proc m e :: g.stack := by
  cases hm with
  | taken h => rfl
  | plain h => cases h

/-- Events wait only while a call of `fire` that has put one into the queue is in progress. -/
def Covered (queue : MId → QId) (g : State) : Prop :=
  ∀ q, g.waiting q ≠ [] → ∃ m ev, .api (.fire m ev) true ∈ g.stack ∧ queue m = q

theorem covered_move {o : Obs} (h : Covered queue g) (hm : Move queue g o g') (ho : ∀ m ev x, o ≠ .leave (.fire m ev) (some x)) :
    Covered queue g' := by
  intro q hq
  cases hm with
  | enter =>
    obtain ⟨m, ev, hm, he⟩ := h q hq
    exact ⟨m, ev, List.mem_cons_of_mem _ hm, he⟩
  | @accepted S W m ev e =>
    by_cases hqq : q = queue m
    · exact ⟨m, ev, by simp, hqq.symm⟩
    · obtain ⟨m1, ev1, hm1, he1⟩ := h q (by simpa [fset_ne _ _ hqq] using hq)
      refine ⟨m1, ev1, ?_, he1⟩
      simp only [List.mem_cons, Frame.api.injEq, Bool.true_eq_false, and_false, false_or] at hm1 ⊢
      exact .inr hm1
  | @taken S W m' ev m e xs hw =>
    by_cases hqq : q = queue m'
    · exact ⟨m', ev, by simp, hqq.symm⟩
    · obtain ⟨m1, ev1, hm1, he1⟩ := h q (by simpa [fset_ne _ _ hqq] using hq)
      exact ⟨m1, ev1, List.mem_cons_of_mem _ hm1, he1⟩
  | done =>
    obtain ⟨m, ev, hm, he⟩ := h q hq
    exact ⟨m, ev, by simpa using hm, he⟩
  | cb =>
    obtain ⟨m, ev, hm, he⟩ := h q hq
    exact ⟨m, ev, List.mem_cons_of_mem _ hm, he⟩
  | cbRet =>
    obtain ⟨m, ev, hm, he⟩ := h q hq
    exact ⟨m, ev, by simpa using hm, he⟩
  | @leave S W c acc r hd =>
    obtain ⟨m, ev, hm, he⟩ := h q hq
    rcases List.mem_cons.1 hm with hm | hm
    · obtain ⟨rfl, rfl⟩ := Frame.api.inj hm
      cases r with
      | some x => exact absurd rfl (ho m ev x)
      | none =>
        have := hd rfl rfl
        simp only [State.drained, List.isEmpty_iff] at this
        subst he
        exact absurd this hq
    · exact ⟨m, ev, hm, he⟩
  | plain _ => exact h q hq

theorem covered_run {tr : List (Tid × Obs)} (h : Covered queue g) (hr : Spec.Direct.run queue t g tr = some g')
    (ho : ∀ u m ev x, (u, .leave (.fire m ev) (some x)) ∉ tr) : Covered queue g' := by
  induction tr generalizing g with
  | nil => cases hr; exact h
  | cons e tr ih =>
    obtain ⟨_, g1, hm, hr⟩ := run_cons hr
    exact ih (covered_move h hm fun m ev x he => ho e.1 m ev x (by rw [← he]; simp)) hr fun u m ev x hm => ho u m ev x (by simp [hm])

/-- What waits has been accepted and not been taken. -/
theorem waiting_run {tr : List (Tid × Obs)} (hr : Spec.Direct.run queue t g tr = some g') (q : QId) :
    (g.waiting q).map Prod.swap ++ Spec.accepted q tr = Spec.taken q tr ++ (g'.waiting q).map Prod.swap := by
  induction tr generalizing g with
  | nil => cases hr; simp [Spec.accepted, Spec.taken]
  | cons e tr ih =>
    obtain ⟨_, g1, hm, hr⟩ := run_cons hr
    have := ih hr
    obtain ⟨u, o⟩ := e
    unfold Spec.accepted Spec.taken at *
    cases hm with
    | @accepted S W m ev e =>
      by_cases hqq : q = queue m
      · subst hqq; simpa using this
      · simpa [Ne.symm hqq, fset_ne _ _ hqq] using this
    | @taken S W m' ev m e xs hw =>
      by_cases hqq : q = queue m'
      · subst hqq; simpa [hw] using this
      · simpa [Ne.symm hqq, fset_ne _ _ hqq] using this
    | plain ho => cases o <;> first | (cases ho; done) | simpa using this
    | _ => simpa using this

/-- Number of API calls in progress. -/
def apis (S : List Frame) : Nat := S.countP fun | .api .. => true | _ => false

/-- A call of the thread stays on the stack until it returns. -/
theorem frame_move {o : Obs} {k : Api} {acc : Bool} {X S : List Frame} {tr : List (Tid × Obs)} {os : List Obs} (hm : Move queue g o g')
    (hs : g.stack = X ++ .api k acc :: S) (ho : own t (apis X) ((t, o) :: tr) = some os) :
    ∃ X' acc' os1 os2, g'.stack = X' ++ .api k acc' :: S ∧ own t (apis X') tr = some os2 ∧ os = os1 ++ os2 ∧
      ((∃ q m e, .accepted q m e ∈ os1) → acc' = true) ∧ (acc = true → acc' = true) := by
  simp only [own, ne_eq, not_true_eq_false, if_false] at ho
  have lift : ∀ (o : Obs) (X' : List Frame) (acc' : Bool), apis X' = apis X → g'.stack = X' ++ .api k acc' :: S →
      (if apis X = 0 ∧ Spec.Calls.userObs o = false then (own t (apis X) tr).map (o :: ·) else own t (apis X) tr) = some os →
      ((∃ q m e, o = .accepted q m e) → apis X = 0 → acc' = true) → (acc = true → acc' = true) →
      ∃ X' acc' os1 os2, g'.stack = X' ++ .api k acc' :: S ∧ own t (apis X') tr = some os2 ∧ os = os1 ++ os2 ∧
        ((∃ q m e, .accepted q m e ∈ os1) → acc' = true) ∧ (acc = true → acc' = true) := by
    intro o X' acc' h1 h2 h3 h4 h5
    split at h3
    next hc =>
      cases hw : own t (apis X) tr with
      | none => rw [hw] at h3; cases h3
      | some os2 =>
        rw [hw] at h3
        cases h3
        refine ⟨X', acc', [o], os2, h2, by rw [h1]; exact hw, rfl, ?_, h5⟩
        rintro ⟨q, m, e, he⟩
        exact h4 ⟨q, m, e, (List.mem_singleton.1 he).symm⟩ hc.1
    · exact ⟨X', acc', [], os, h2, by rw [h1]; exact h3, rfl, by simp, h5⟩
  cases hm with
  | enter =>
    exact ⟨_ :: X, acc, [], os, by simp only at hs ⊢; rw [hs]; rfl, by simpa [apis] using ho, rfl, by simp, id⟩
  | @leave S' W c acc1 r hd =>
    simp only at hs
    cases X with
    | nil => simp [apis] at ho
    | cons x X =>
      obtain ⟨rfl, rfl⟩ := List.cons.inj hs
      have ho : own t (apis X) tr = some os := by simpa [apis] using ho
      exact ⟨X, acc, [], os, rfl, ho, rfl, by simp, id⟩
  | @accepted S' W m ev e =>
    simp only at hs
    cases X with
    | nil =>
      obtain ⟨h1, rfl⟩ := List.cons.inj hs
      cases h1
      exact lift _ [] true rfl rfl ho (fun _ _ => rfl) (fun _ => rfl)
    | cons x X =>
      obtain ⟨rfl, rfl⟩ := List.cons.inj hs
      exact lift _ (_ :: X) acc (by simp [apis]) rfl ho (fun _ h => by simp [apis] at h) id
  | @taken S' W m' ev m e xs _ =>
    exact lift _ (.proc m e :: X) acc (by simp [apis]) (by simp only at hs ⊢; rw [hs]; rfl) ho (fun ⟨_, _, _, h⟩ => by cases h) id
  | @cb S' W c =>
    exact lift _ (.cb c :: X) acc (by simp [apis]) (by simp only at hs ⊢; rw [hs]; rfl) ho (fun ⟨_, _, _, h⟩ => by cases h) id
  | done =>
    simp only at hs
    cases X with
    | nil => cases hs
    | cons x X =>
      obtain ⟨rfl, rfl⟩ := List.cons.inj hs
      exact lift _ X acc (by simp [apis]) rfl ho (fun ⟨_, _, _, h⟩ => by cases h) id
  | cbRet =>
    simp only at hs
    cases X with
    | nil => cases hs
    | cons x X =>
      obtain ⟨rfl, rfl⟩ := List.cons.inj hs
      exact lift _ X acc (by simp [apis]) rfl ho (fun ⟨_, _, _, h⟩ => by cases h) id
  | plain hp =>
    cases o <;> first
      | (cases hp; done)
      | exact lift _ X acc rfl hs ho (fun ⟨_, _, _, h⟩ => by cases h) id

theorem frame_run {k : Api} {S : List Frame} {b : List (Tid × Obs)} : ∀ {a : List (Tid × Obs)} {g : State} {X : List Frame} {acc : Bool}
    {os : List Obs}, Spec.Direct.run queue t g a = some g' → g.stack = X ++ .api k acc :: S → own t (apis X) (a ++ b) = some os →
    ∃ X' acc' os1 os2, g'.stack = X' ++ .api k acc' :: S ∧ own t (apis X') b = some os2 ∧ os = os1 ++ os2 ∧
      ((∃ q m e, .accepted q m e ∈ os1) → acc' = true) ∧ (acc = true → acc' = true) := by
  intro a
  induction a with
  | nil => intro g X acc os hr hs ho; cases hr; exact ⟨X, acc, [], os, hs, ho, rfl, by simp, id⟩
  | cons e a ih =>
    intro g X acc os hr hs ho
    obtain ⟨he, g1, hm, hr1⟩ := run_cons hr
    obtain ⟨u, o⟩ := e
    cases he
    obtain ⟨X1, acc1, os1, os2, h1, h2, h3, h4, h5⟩ := frame_move hm hs ho
    obtain ⟨X2, acc2, os3, os4, h6, h7, h8, h9, h10⟩ := ih hr1 h1 h2
    refine ⟨X2, acc2, os1 ++ os3, os4, h6, h7, by rw [h3, h8, List.append_assoc], ?_, h10 ∘ h5⟩
    rintro ⟨q, m, e, he⟩
    rcases List.mem_append.1 he with he | he
    · exact h10 (h4 ⟨q, m, e, he⟩)
    · exact h9 ⟨q, m, e, he⟩

/-- The processing of an event ends before what is below it on the stack. -/
theorem done_run {m : MId} {e : Ev} {Y : List Frame} {tr : List (Tid × Obs)} : ∀ {g : State} {Z : List Frame},
    Spec.Direct.run queue t g tr = some g' → g.stack = Z ++ .proc m e :: Y → g'.stack.length ≤ Y.length → (t, .done m e) ∈ tr := by
  induction tr with
  | nil => intro g Z hr hs hl; cases hr; rw [hs] at hl; simp at hl; omega
  | cons x tr ih =>
    intro g Z hr hs hl
    obtain ⟨he, g1, hm, hr1⟩ := run_cons hr
    obtain ⟨u, o⟩ := x
    cases he
    have key : (∃ Z1, g1.stack = Z1 ++ .proc m e :: Y) ∨ o = .done m e := by
      cases hm <;> (try simp only at hs ⊢)
      case enter => exact .inl ⟨_ :: Z, by rw [hs]; rfl⟩
      case cb => exact .inl ⟨_ :: Z, by rw [hs]; rfl⟩
      case plain => exact .inl ⟨Z, hs⟩
      case taken => exact .inl ⟨_ :: Z, by rw [hs]; rfl⟩
      case accepted =>
        cases Z with
        | nil => cases hs
        | cons z Z => obtain ⟨rfl, rfl⟩ := List.cons.inj hs; exact .inl ⟨_ :: Z, rfl⟩
      case done =>
        cases Z with
        | nil => cases hs; exact .inr rfl
        | cons z Z => obtain ⟨rfl, rfl⟩ := List.cons.inj hs; exact .inl ⟨Z, rfl⟩
      case cbRet =>
        cases Z with
        | nil => cases hs
        | cons z Z => obtain ⟨rfl, rfl⟩ := List.cons.inj hs; exact .inl ⟨Z, rfl⟩
      case leave =>
        cases Z with
        | nil => cases hs
        | cons z Z => obtain ⟨rfl, rfl⟩ := List.cons.inj hs; exact .inl ⟨Z, rfl⟩
    rcases key with ⟨Z1, h1⟩ | rfl
    · exact List.mem_cons_of_mem _ (ih hr1 h1 hl)
    · simp

end Direct

open Direct

variable {env : Env} {d : EId → Bool} {c0 c : Conf} {i : Nat}

/-- C80: a program that consists of one client thread; all strategies have executors of this kind. Then everything that happens is nested
properly (`Spec.Direct.next`): events are taken and processed inside calls of `fire`, first in first out; the processing of an event is over when
everything that it called has returned; when `fire` returns normally and has put an event into the queue then the queue is empty. -/
theorem C80_nested (hd : ∀ s, d (env.strat s).exec = true) (hi : Initial c0) (hr : Serial env d i c0 c) :
    ∃ g, Spec.Direct.run (queueOf env) (.client i) .init c.w.trace = some g :=
  (serial_inv hd hi hr).1

/-- C80: if no call of `fire` has thrown an exception then no event is left when the thread is idle. -/
theorem C80_rest (hd : ∀ s, d (env.strat s).exec = true) (hi : Initial c0) (hr : Serial env d i c0 c) (ht : c.thr (.client i) = none)
    (hx : ∀ t m ev x, (t, .leave (.fire m ev) (some x)) ∉ c.w.trace) (q : QId) :
    c.w.queue q = [] ∧ Spec.accepted q c.w.trace = Spec.taken q c.w.trace := by
  obtain ⟨g, loc, hinv, hs⟩ := (serial_inv hd hi hr).2 ht
  have hw : g.waiting q = [] := by
    by_cases h : g.waiting q = []
    · exact h
    · have h0 : Covered (queueOf env) State.init := fun q h => absurd rfl h
      obtain ⟨m, ev, hm, _⟩ := covered_run h0 hinv.run hx q h
      rw [hs] at hm; cases hm
  have h1 := waiting_run hinv.run q
  have h2 := hinv.wait q
  rw [hw] at h1 h2
  exact ⟨by simpa using h2, by simpa [State.init] using h1⟩

/-- C80: a call of `fire` that has put its event into the queue and returns normally: then all events that were ever put into the queue have been
taken, in the same order, and the processing of each event that was taken during the call (its own event, for instance) is over. -/
theorem C80_processed (hd : ∀ s, d (env.strat s).exec = true) (hi : Initial c0) (hr : Serial env d i c0 c) {m : MId} {ev : Ev}
    {pre mid : List (Tid × Obs)} {os : List Obs} (hc : IsCall c.w.trace (.client i) (.fire m ev) pre mid os none)
    (ho : ∃ q m' e, .accepted q m' e ∈ os) :
    Spec.accepted (queueOf env m) (pre ++ mid) = Spec.taken (queueOf env m) (pre ++ mid) ∧
      ∀ q m' e, (.client i, .taken q m' e) ∈ mid → (.client i, .done m' e) ∈ mid := by
  obtain ⟨g, hg⟩ := C80_nested hd hi hr
  obtain ⟨⟨post, htr⟩, hown⟩ := hc
  rw [htr] at hg
  obtain ⟨g0, h0, hg⟩ := run_split hg
  obtain ⟨-, g1, hm1, hg⟩ := run_cons hg
  obtain ⟨hs1, hw1⟩ := move_enter hm1
  obtain ⟨g2, h1, hg⟩ := run_split hg
  obtain ⟨-, g3, hm3, -⟩ := run_cons hg
  obtain ⟨acc3, hs3, hd3⟩ := move_leave hm3
  obtain ⟨X, acc, os1, os2, hs2, ho2, hos, hacc, -⟩ := frame_run (b := []) (X := []) h1 hs1 (by simpa [apis] using hown)
  have hX : apis X = 0 ∧ os2 = [] := by
    simp only [own] at ho2
    split at ho2
    next h => cases ho2; exact ⟨h, rfl⟩
    · cases ho2
  have ha : acc = true := by
    rw [hos, hX.2, List.append_nil] at ho
    exact hacc ho
  rw [hs3] at hs2
  cases X with
  | cons x X =>
    obtain ⟨rfl, _⟩ := List.cons.inj hs2
    simp [apis] at hX
  | nil =>
    obtain ⟨he, hs2⟩ := List.cons.inj hs2
    obtain ⟨-, rfl⟩ := Frame.api.inj he
    have hw := hd3 ha rfl
    simp only [State.drained, List.isEmpty_iff] at hw
    refine ⟨?_, fun q m' e hm => ?_⟩
    · have a1 := waiting_run h0 (queueOf env m)
      have a2 := waiting_run h1 (queueOf env m)
      rw [hw] at a2
      rw [hw1] at a2
      simp only [State.init, List.map_nil, List.nil_append, List.append_nil] at a1 a2
      have e1 : Spec.accepted (queueOf env m) (pre ++ mid) = Spec.accepted (queueOf env m) pre ++ Spec.accepted (queueOf env m) mid := by
        simp [Spec.accepted]
      have e2 : Spec.taken (queueOf env m) (pre ++ mid) = Spec.taken (queueOf env m) pre ++ Spec.taken (queueOf env m) mid := by
        simp [Spec.taken]
      rw [e1, e2, a1, ← a2, List.append_assoc]
    · obtain ⟨a, b, rfl⟩ := List.append_of_mem hm
      obtain ⟨g4, h4, h5⟩ := run_split h1
      obtain ⟨-, g5, hm5, h5⟩ := run_cons h5
      obtain ⟨X, acc, os3, os4, hs4, -⟩ := frame_run (X := []) h4 hs1 (by simpa [apis] using hown)
      have := done_run (Z := []) h5 (by rw [move_taken hm5]; rfl) (by rw [hs3, hs4, hs2]; simp)
      exact List.mem_append_right _ (List.mem_cons_of_mem _ this)

namespace Demo

def hop : Ev := ⟨0, "hop", .client 5⟩

/-- A --go--> B, A --hop--> C, B --back--> A, C --back--> A. -/
def hopCfg : CfgSt := cfgRun rs [.initialSate (some A), .receives (some go), .itTransitionsTo (some B),
  .when_ (some A), .receives (some hop), .itTransitionsTo (some C),
  .when_ (some B), .receives (some back), .itTransitionsTo (some A),
  .when_ (some C), .receives (some back), .itTransitionsTo (some A)] .empty

def hopEnv (acts : Kind → Nat → List (Ev → MId → UProg)) : Env := { Demo.env acts with
  mach := fun m => ⟨m, hopCfg.table, hopCfg.init, rs⟩
  strat := fun s => ⟨s, s, 0, false, hopCfg.table⟩ }

/-- The exit action of A fires `hop` when `go` is being processed. -/
def exitFires : Kind → Nat → List (Ev → MId → UProg)
  | .exit, 1 => [fun ev m => if ev.name = "go" then .call (.fire m hop) fun _ => .done else .done]
  | _, _ => []

/-- The first entry action of B fires `back`, the second one makes a note. -/
def entryFires : Kind → Nat → List (Ev → MId → UProg)
  | .entry, 2 => [fun _ m => .call (.fire m back) fun _ => .done, fun _ _ => noteP 1]
  | _, _ => []

def directXs (env : Env) (lst : Bool) (xs : List Choice) : Option Conf := Direct.runs env (fun _ => true) (conf lst) xs

/-- Client 0 executes `u`, in `n` steps. -/
def directRun (env : Env) (u : UProg) (n : Nat) (lst : Bool := false) : Option Conf := directXs env lst (.begin 0 u :: runN (.client 0) n)

theorem some_getD {o : Option Conf} {c : Conf} (h : o.isSome = true) : o = some (o.getD c) := by
  cases o with
  | none => cases h
  | some c => rfl

/-- `go` and `back`, one after the other. -/
def directGo : Conf := (directRun (hopEnv acts) (client 0 [go, back]) 76).getD conf
def directExit : Conf := (directRun (hopEnv exitFires) (client 0 [go]) 66).getD conf
def directEntry : Conf := (directRun (hopEnv entryFires) (client 0 [go]) 85 true).getD conf

theorem directGo_serial : Direct.Serial (hopEnv acts) (fun _ => true) 0 conf directGo :=
  .next .init rfl (some_getD (o := directRun (hopEnv acts) (client 0 [go, back]) 76) (by decide +kernel))

theorem directExit_serial : Direct.Serial (hopEnv exitFires) (fun _ => true) 0 conf directExit :=
  .next .init rfl (some_getD (o := directRun (hopEnv exitFires) (client 0 [go]) 66) (by decide +kernel))

theorem directEntry_serial : Direct.Serial (hopEnv entryFires) (fun _ => true) 0 (conf true) directEntry :=
  .next .init rfl (some_getD (o := directRun (hopEnv entryFires) (client 0 [go]) 85 true) (by decide +kernel))

/-- Client 0 has processed `go` and is about to look for the next event, client 1 puts `back` into the queue, client 0 takes it, client 1 finds
the queue empty and returns. -/
def directTwoXs : List Choice := [.begin 0 (client 0 [go])] ++ runN (.client 0) 30 ++ [.begin 1 (.call (.fire 0 back) fun _ => .done)] ++
  runN (.client 1) 9 ++ runN (.client 0) 3 ++ runN (.client 1) 4

def directTwo : Conf := (directXs (hopEnv fun _ _ => []) false directTwoXs).getD conf

theorem directTwo_reach : Direct.ReachFrom (hopEnv fun _ _ => []) (fun _ => true) conf directTwo :=
  ⟨directTwoXs, some_getD (o := directXs (hopEnv fun _ _ => []) false directTwoXs) (by decide +kernel)⟩

end Demo

/-- C80: `hop` is fired while `go` is being processed, and is processed at once. -/
example : ∃ g, Spec.Direct.run (queueOf (Demo.hopEnv Demo.exitFires)) (.client 0) .init Demo.directExit.w.trace = some g :=
  C80_nested (fun _ => rfl) (Demo.conf_initial _) Demo.directExit_serial

example : Demo.directGo.w.queue 0 = [] ∧ Spec.accepted 0 Demo.directGo.w.trace = Spec.taken 0 Demo.directGo.w.trace :=
  C80_rest (fun _ => rfl) (Demo.conf_initial _) Demo.directGo_serial (Demo.isNone_eq (by decide +kernel))
    (fun t m ev x h => by
      have : Demo.directGo.w.trace.all (fun e => match e.2 with | .leave (.fire ..) (some _) => false | _ => true) = true := by decide +kernel
      have := List.all_eq_true.1 this _ h
      cases this) 0

example : Spec.accepted 0 Demo.directGo.w.trace = [(Demo.go, 0), (Demo.back, 0)] := by decide +kernel

/-- C80: the call of `fire` that begins after 5 entries. -/
example : ∀ q m' e, (.client 0, .taken q m' e) ∈ (Demo.directGo.w.trace.drop 6).take 17 → (.client 0, .done m' e) ∈ (Demo.directGo.w.trace.drop 6).take 17 :=
  (C80_processed (fun _ => rfl) (Demo.conf_initial _) Demo.directGo_serial (m := 0) (ev := Demo.go)
    (os := (((Demo.directGo.w.trace.drop 6).take 17).map (·.2)).filter fun o => !Spec.Calls.userObs o)
    (isCall_of (i := 5) (n := 17) (by decide +kernel)) ⟨0, 0, Demo.go, by decide +kernel⟩).2

/-! ### What does not hold with such executors

With executors that have threads of their own and one event at a time these statements are true (C15, C17, C36). Here a program with
one thread is sufficient to refute them. -/

/-- C81: an event can be taken before the processing of the event taken before is over. -/
theorem C81_negation_completion : ¬ ∀ (env : Env) (c0 c : Conf), Initial c0 → Serial env (fun _ => true) 0 c0 c →
    ∀ a mid b t t' q m e e', c.w.trace = a ++ (t, .taken q m e) :: (mid ++ (t', .taken q m e') :: b) → ∃ u, (u, .done m e) ∈ mid := by
  intro h
  obtain ⟨u, hu⟩ := h _ _ _ (Demo.conf_initial _) Demo.directExit_serial (Demo.directExit.w.trace.take 7) ((Demo.directExit.w.trace.drop 8).take 3)
    (Demo.directExit.w.trace.drop 12) (.client 0) (.client 0) 0 0 Demo.go Demo.hop (by decide +kernel)
  have h1 : ((Demo.directExit.w.trace.drop 8).take 3).all (fun e => !(e.2 == .done 0 Demo.go)) = true := by decide +kernel
  have := List.all_eq_true.1 h1 _ hu
  simp at this

/-- C81: an entry action of a state can run while the machine is in another state. -/
theorem C81_negation_entry : ¬ ∀ (env : Env) (c0 c : Conf), Initial c0 → Serial env (fun _ => true) 0 c0 c →
    ∀ a b t m s j e, c.w.trace = a ++ (t, .cb (.action m .entry s j e)) :: b → ∃ x, (Spec.Direct.states m a).getLast? = some x ∧ x.oid = s := by
  intro h
  obtain ⟨x, h1, h2⟩ := h _ _ _ (Demo.conf_initial _) Demo.directEntry_serial (Demo.directEntry.w.trace.take 29) (Demo.directEntry.w.trace.drop 30)
    (.client 0) 0 2 1 Demo.go (by decide +kernel)
  have h3 : (Spec.Direct.states 0 (Demo.directEntry.w.trace.take 29)).getLast? = some Demo.A := by decide +kernel
  rw [h3] at h1
  cases h1
  cases h2

/-- C81: the machine can go from one state to another although the table has no such transition. -/
theorem C81_negation_table : ¬ ∀ (env : Env) (c0 c : Conf), Initial c0 → Serial env (fun _ => true) 0 c0 c →
    ∀ m pre x y post, Spec.Direct.states m c.w.trace = pre ++ x :: y :: post → Spec.Direct.Leads (env.mach m).table x y := by
  intro h
  obtain ⟨row, ev, h1, h2⟩ := h _ _ _ (Demo.conf_initial _) Demo.directExit_serial 0 [Demo.A] Demo.C Demo.B [] (by decide +kernel)
  have h3 : (Demo.hopCfg.table.row? (some Demo.C)).all (fun r => r.ents.all fun e => e.2 == some Demo.A) = true := by decide +kernel
  have h1 : Demo.hopCfg.table.row? (some Demo.C) = some row := h1
  rw [h1] at h3
  unfold Row.target at h2
  cases h4 : AMap.get? row.ents (some ev) with
  | none => rw [h4] at h2; cases h2
  | some v =>
    rw [h4] at h2
    cases h2
    have := List.all_eq_true.1 h3 _ (AMap.get?_some_mem h4)
    exact absurd (show (some Demo.B == some Demo.A) = true from this) (by decide)

/-- C81: what the listener is told last can be wrong, forever. -/
theorem C81_negation_listener : ¬ ∀ (env : Env) (c0 c : Conf), Initial c0 → Serial env (fun _ => true) 0 c0 c → c.thr (.client 0) = none →
    ∀ m s, (Spec.Direct.told m c.w.trace).getLast? = some s → (Spec.Direct.states m c.w.trace).getLast? = some s := by
  intro h
  have h1 := h _ _ _ (Demo.conf_initial _) Demo.directEntry_serial (Demo.isNone_eq (by decide +kernel)) 0 Demo.B (by decide +kernel)
  have h2 : (Spec.Direct.states 0 Demo.directEntry.w.trace).getLast? = some Demo.A := by decide +kernel
  rw [h2] at h1
  exact absurd h1 (by decide)

/-- C81: C80 is about one thread. If there are two, `fire` can return although its event has not been processed. -/
theorem C81_negation_two : ¬ ∀ (env : Env) (c0 c : Conf), Initial c0 → Direct.ReachFrom env (fun _ => true) c0 c →
    ∀ t m ev pre mid os q e, IsCall c.w.trace t (.fire m ev) pre mid os none → .accepted q m e ∈ os →
      ∃ u, (u, .done m e) ∈ c.w.trace := by
  intro h
  obtain ⟨u, hu⟩ := h _ _ _ (Demo.conf_initial _) Demo.directTwo_reach (.client 1) 0 Demo.back _ _ [.accepted 0 0 Demo.back] 0 Demo.back
    (isCall_of (i := 11) (n := 2) (by decide +kernel)) (by simp)
  have h1 : Demo.directTwo.w.trace.all (fun e => !(e.2 == .done 0 Demo.back)) = true := by decide +kernel
  have := List.all_eq_true.1 h1 _ hu
  simp at this

end Verif
