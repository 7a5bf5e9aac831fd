import Verif.Model.Sem
/-
A second logic for threads, like `Proto`, for programs in which the code run by client threads is restricted: control states
may depend on the thread, and an operation is only assumed to be done in worlds in which it is not blocked.
-/

namespace Verif
open Prog

structure OProto (L : Type) where
  allowed : L → Op → Prop
  nxt : Tid → L → Op → World → L
  pre : Call → L → Prop
  post : Call → L → Except Exc Unit → L → Prop

namespace OProto
variable {L : Type} (P : OProto L) (t : Tid) {α β : Type}

def Ok : Prog α → L → (Except Exc α → L → Prop) → Prop
  | .ret a, l, Q => Q (.ok a) l
  | .thr x, l, Q => Q (.error x) l
  | .op o k, l, Q => P.allowed l o ∧ ∀ w, enabled t o w = true → Ok (k (exec t o w).1) (P.nxt t l o w) Q
  | .call c k, l, Q => P.pre c l ∧ ∀ r l', P.post c l r l' → Ok (k r) l' Q

variable {P} {t}

theorem Ok.mono {p : Prog α} {l : L} {Q Q' : Except Exc α → L → Prop} (h : P.Ok t p l Q)
    (hQ : ∀ r l, Q r l → Q' r l) : P.Ok t p l Q' := by
  induction p generalizing l with
  | ret a => exact hQ _ _ h
  | thr x => exact hQ _ _ h
  | op o k ih => exact ⟨h.1, fun w hw => ih _ (h.2 w hw)⟩
  | call c k ih => exact ⟨h.1, fun r l' hp => ih _ (h.2 r l' hp)⟩

theorem ok_handle {p : Prog α} {f : Except Exc α → Prog β} {l : L} {Q : Except Exc β → L → Prop} :
    P.Ok t (p.handle f) l Q ↔ P.Ok t p l (fun r l' => P.Ok t (f r) l' Q) := by
  induction p generalizing l with
  | ret a => exact Iff.rfl
  | thr x => exact Iff.rfl
  | op o k ih => simp only [handle, Ok, ih]
  | call c k ih => simp only [handle, Ok, ih]

@[simp] theorem ok_ret {a : α} {l : L} {Q : Except Exc α → L → Prop} : P.Ok t (ret a) l Q ↔ Q (.ok a) l := Iff.rfl
@[simp] theorem ok_pure {a : α} {l : L} {Q : Except Exc α → L → Prop} : P.Ok t (pure a) l Q ↔ Q (.ok a) l := Iff.rfl
@[simp] theorem ok_thr {x : Exc} {l : L} {Q : Except Exc α → L → Prop} : P.Ok t (Prog.thr x) l Q ↔ Q (.error x) l :=
  Iff.rfl

/-- Continuation of a bind. -/
def Cont (P : OProto L) (t : Tid) (f : α → Prog β) (Q : Except Exc β → L → Prop) : Except Exc α → L → Prop
  | .ok a, l => P.Ok t (f a) l Q
  | .error x, l => Q (.error x) l

@[simp] theorem cont_ok {f : α → Prog β} {Q : Except Exc β → L → Prop} {a : α} {l : L} :
    Cont P t f Q (.ok a) l ↔ P.Ok t (f a) l Q := Iff.rfl
@[simp] theorem cont_error {f : α → Prog β} {Q : Except Exc β → L → Prop} {x : Exc} {l : L} :
    Cont P t f Q (.error x) l ↔ Q (.error x) l := Iff.rfl

theorem ok_bind {p : Prog α} {f : α → Prog β} {l : L} {Q : Except Exc β → L → Prop} :
    P.Ok t (p >>= f) l Q ↔ P.Ok t p l (Cont P t f Q) := by
  show P.Ok t (p.handle _) l Q ↔ _
  rw [ok_handle]
  constructor <;> intro h <;> refine h.mono ?_ <;> intro r l h <;> cases r <;> exact h

theorem ok_bind' {p : Prog α} {f : α → Prog β} {l : L} {Q : Except Exc β → L → Prop} :
    P.Ok t (p.bind f) l Q ↔ P.Ok t p l (Cont P t f Q) := ok_bind

theorem ok_attempt {p : Prog α} {l : L} {Q : Except Exc (Except Exc α) → L → Prop} :
    P.Ok t p.attempt l Q ↔ P.Ok t p l (fun r l' => Q (.ok r) l') := by
  unfold attempt; rw [ok_handle]; rfl

theorem ok_lift {o : Op} {l : L} {Q : Except Exc o.Res → L → Prop} :
    P.Ok t (lift o) l Q ↔ P.allowed l o ∧ ∀ w, enabled t o w = true → Q (.ok (exec t o w).1) (P.nxt t l o w) := Iff.rfl

theorem ok_ofExcept {r : Except Exc α} {l : L} {Q : Except Exc α → L → Prop} :
    P.Ok t (ofExcept r) l Q ↔ Q r l := by cases r <;> rfl

theorem ok_ite {c : Prop} [Decidable c] {p q : Prog α} {l : L} {Q : Except Exc α → L → Prop}
    (h1 : c → P.Ok t p l Q) (h2 : ¬c → P.Ok t q l Q) : P.Ok t (if c then p else q) l Q := by
  by_cases h : c
  · rw [if_pos h]; exact h1 h
  · rw [if_neg h]; exact h2 h

theorem ok_invoke {c : Call} {l : L} {Q : Except Exc Unit → L → Prop} :
    P.Ok t (invoke c) l Q ↔ P.pre c l ∧ ∀ r l', P.post c l r l' → Q r l' := by
  simp only [invoke, Ok, ok_ofExcept]

end OProto

/-- Programs of client threads come from a class `U`. -/
def Choice.within (U : UProg → Prop) : Choice → Prop
  | .begin _ u => U u
  | _ => True

/-- What has to be shown about the code. All threads are in state `l0` between tasks. -/
structure OChecked {L : Type} (env : Env) (P : OProto L) (U : UProg → Prop) (l0 : L) : Prop where
  body : ∀ t c l, P.pre c l → P.Ok t (body env c) l (P.post c l)
  client : ∀ n u, U u → P.Ok (.client n) (UProg.denote env u) l0 (fun _ l => l = l0)
  drain : ∀ t s m, P.Ok t (drain env s m) l0 (fun _ l => l = l0)

/-- What has to be shown about an invariant. -/
structure OInvariant {L : Type} (P : OProto L) (Inv : (Tid → L) → World → Prop) : Prop where
  op : ∀ lst w t o, Inv lst w → P.allowed (lst t) o → enabled t o w = true →
    Inv (fset lst t (P.nxt t (lst t) o w)) (exec t o w).2
  thr : ∀ lst w t x, Inv lst w → Inv lst (w.log t (.uncaught x))
  dispatch : ∀ lst w e q, Inv lst w → Inv lst { w with tasks := fset w.tasks e q }
  interrupt : ∀ lst w t, Inv lst w → Inv lst { w with intr := fset w.intr t true }
  shutdown : ∀ lst w e, Inv lst w → Inv lst { w with shut := fset w.shut e true }
  dropTasks : ∀ lst w e, Inv lst w → Inv lst (w.dropTasks e)

def OThreads {L : Type} (P : OProto L) (l0 : L) (lst : Tid → L) (c : Conf) : Prop :=
  ∀ t, match c.thr t with
    | none => lst t = l0
    | some p => P.Ok t p (lst t) (fun _ l => l = l0)

theorem osound_step {L : Type} {env : Env} {P : OProto L} {U : UProg → Prop} {l0 : L}
    {Inv : (Tid → L) → World → Prop} (hc : OChecked env P U l0) (hi : OInvariant P Inv)
    {c c' : Conf} {x : Choice} (hx : x.within U) {lst : Tid → L} (ht : OThreads P l0 lst c) (hI : Inv lst c.w)
    (hs : step env c x = some c') : ∃ lst', OThreads P l0 lst' c' ∧ Inv lst' c'.w := by
  have upd : ∀ (t : Tid) (l : L) (p : Option (Prog Unit)) (w : World),
      (match p with | none => l = l0 | some p => P.Ok t p l (fun _ l => l = l0)) →
      OThreads P l0 (fset lst t l) ⟨w, fset c.thr t p⟩ := by
    intro t l p w hp u
    by_cases hu : u = t
    · subst hu; simp only [fset_same]; exact hp
    · simp only [fset_ne _ _ hu]; exact ht u
  have self : ∀ t l, lst t = l → fset lst t l = lst := by
    intro t l h; funext u; by_cases hu : u = t <;> simp [fset, hu, h]
  cases x with
  | begin n u =>
    simp only [step] at hs
    split at hs
    · cases hs
    next hn =>
      cases hs
      have h0 := ht (.client n)
      rw [hn] at h0
      refine ⟨fset lst (.client n) l0, upd _ _ _ _ (hc.client n u hx), ?_⟩
      rw [self _ _ h0]; exact hI
  | run t =>
    simp only [step] at hs
    split at hs
    · cases hs
    next p hp =>
      have h0 := ht t
      rw [hp] at h0
      cases p with
      | ret a =>
        cases hs
        refine ⟨fset lst t l0, upd _ _ _ _ rfl, ?_⟩
        rw [self _ _ h0]; exact hI
      | thr x =>
        cases hs
        refine ⟨fset lst t l0, upd _ _ _ _ rfl, ?_⟩
        rw [self _ _ h0]; exact hi.thr _ _ _ _ hI
      | op o k =>
        simp only [runThread] at hs
        split at hs
        next he =>
          cases hs
          exact ⟨fset lst t (P.nxt t (lst t) o c.w), upd _ _ _ _ (h0.2 c.w he), hi.op _ _ _ _ hI h0.1 he⟩
        · cases hs
      | call f k =>
        cases hs
        refine ⟨fset lst t (lst t), upd _ _ _ _ ?_, ?_⟩
        · simp only
          rw [OProto.ok_handle]
          exact (hc.body t f (lst t) h0.1).mono (fun r l' hp => h0.2 r l' hp)
        · rw [self _ _ rfl]; exact hI
  | dispatch e i j =>
    simp only [step] at hs
    split at hs
    next hw =>
      split at hs
      next s m hn hj =>
        cases hs
        have h0 := ht (.worker e i)
        rw [hn] at h0
        refine ⟨fset lst (.worker e i) l0, upd _ _ _ _ (hc.drain _ s m), ?_⟩
        rw [self _ _ h0]; exact hi.dispatch _ _ _ _ hI
      · cases hs
    · cases hs
  | interrupt t =>
    cases hs
    exact ⟨lst, ht, hi.interrupt _ _ _ hI⟩
  | shutdown e now =>
    cases hs
    refine ⟨lst, ht, ?_⟩
    cases now with
    | false => exact hi.shutdown _ _ _ hI
    | true => exact hi.dropTasks _ _ _ (hi.shutdown _ _ _ hI)

theorem osound {L : Type} {env : Env} {P : OProto L} {U : UProg → Prop} {l0 : L}
    {Inv : (Tid → L) → World → Prop} (hc : OChecked env P U l0) (hi : OInvariant P Inv)
    {c c' : Conf} {xs : List Choice} (hx : ∀ x ∈ xs, x.within U) {lst : Tid → L} (ht : OThreads P l0 lst c) (hI : Inv lst c.w)
    (hs : runs env c xs = some c') : ∃ lst', OThreads P l0 lst' c' ∧ Inv lst' c'.w := by
  induction xs generalizing c lst with
  | nil => cases hs; exact ⟨lst, ht, hI⟩
  | cons x xs ih =>
    simp only [runs] at hs
    split at hs
    · cases hs
    next c1 h1 =>
      obtain ⟨l1, ht1, hI1⟩ := osound_step hc hi (hx x (List.mem_cons_self ..)) ht hI h1
      exact ih (fun x h => hx x (List.mem_cons_of_mem _ h)) ht1 hI1 hs

end Verif
