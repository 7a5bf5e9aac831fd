import Verif.Model.Sem
/-
A logic for threads. A protocol gives every thread a local control state `L`, says which atomic operations
are allowed in it, and how it changes. `Ok` checks a program against a protocol *with an arbitrary world at every
operation*, so that a check covers all interleavings. `sound` combines checked programs with an
invariant over the world and the control states of all the threads.
-/

namespace Verif
open Prog

structure Proto (L : Type) where
  /-- operations allowed in a control state -/
  allowed : L → Op → Prop
  /-- what may be assumed of the world in a control state (has to follow from the invariant) -/
  know : L → World → Prop
  /-- the control state after an operation done in world `w` -/
  nxt : L → Op → World → L
  pre : Call → L → Prop
  post : Call → L → Except Exc Unit → L → Prop

namespace Proto
variable {L : Type} (P : Proto L) (t : Tid) {α β : Type}

def Ok : Prog α → L → (Except Exc α → L → Prop) → Prop
  | .ret a, l, Q => Q (.ok a) l
  | .thr x, l, Q => Q (.error x) l
  | .op o k, l, Q => P.allowed l o ∧ ∀ w, P.know l w → Ok (k (exec t o w).1) (P.nxt l o w) Q
  | .call c k, l, Q => P.pre c l ∧ ∀ r l', P.post c l r l' → Ok (k r) l' Q

variable {P} {t}

theorem Ok.mono {p : Prog α} {l : L} {Q Q' : Except Exc α → L → Prop} (h : P.Ok t p l Q)
    (hQ : ∀ r l, Q r l → Q' r l) : P.Ok t p l Q' := by
  induction p generalizing l with
  | ret a => exact hQ _ _ h
  | thr x => exact hQ _ _ h
  | op o k ih => exact ⟨h.1, fun w hw => ih _ (h.2 w hw)⟩
  | call c k ih => exact ⟨h.1, fun r l' hp => ih _ (h.2 r l' hp)⟩

theorem ok_handle {p : Prog α} {f : Except Exc α → Prog β} {l : L} {Q : Except Exc β → L → Prop} :
    P.Ok t (p.handle f) l Q ↔ P.Ok t p l (fun r l' => P.Ok t (f r) l' Q) := by
  induction p generalizing l with
  | ret a => exact Iff.rfl
  | thr x => exact Iff.rfl
  | op o k ih => simp only [handle, Ok, ih]
  | call c k ih => simp only [handle, Ok, ih]

@[simp] theorem ok_ret {a : α} {l : L} {Q : Except Exc α → L → Prop} : P.Ok t (ret a) l Q ↔ Q (.ok a) l := Iff.rfl
@[simp] theorem ok_pure {a : α} {l : L} {Q : Except Exc α → L → Prop} : P.Ok t (pure a) l Q ↔ Q (.ok a) l := Iff.rfl
@[simp] theorem ok_thr {x : Exc} {l : L} {Q : Except Exc α → L → Prop} : P.Ok t (Prog.thr x) l Q ↔ Q (.error x) l :=
  Iff.rfl

/-- Continuation of a bind. -/
def Cont (P : Proto L) (t : Tid) (f : α → Prog β) (Q : Except Exc β → L → Prop) : Except Exc α → L → Prop
  | .ok a, l => P.Ok t (f a) l Q
  | .error x, l => Q (.error x) l

@[simp] theorem cont_ok {f : α → Prog β} {Q : Except Exc β → L → Prop} {a : α} {l : L} :
    Cont P t f Q (.ok a) l ↔ P.Ok t (f a) l Q := Iff.rfl
@[simp] theorem cont_error {f : α → Prog β} {Q : Except Exc β → L → Prop} {x : Exc} {l : L} :
    Cont P t f Q (.error x) l ↔ Q (.error x) l := Iff.rfl

theorem ok_bind {p : Prog α} {f : α → Prog β} {l : L} {Q : Except Exc β → L → Prop} :
    P.Ok t (p >>= f) l Q ↔ P.Ok t p l (Cont P t f Q) := by
  show P.Ok t (p.handle _) l Q ↔ _
  rw [ok_handle]
  constructor <;> intro h <;> refine h.mono ?_ <;> intro r l h <;> cases r <;> exact h

theorem ok_bind' {p : Prog α} {f : α → Prog β} {l : L} {Q : Except Exc β → L → Prop} :
    P.Ok t (p.bind f) l Q ↔ P.Ok t p l (Cont P t f Q) := ok_bind

theorem ok_attempt {p : Prog α} {l : L} {Q : Except Exc (Except Exc α) → L → Prop} :
    P.Ok t p.attempt l Q ↔ P.Ok t p l (fun r l' => Q (.ok r) l') := by
  unfold attempt; rw [ok_handle]; rfl

theorem ok_lift {o : Op} {l : L} {Q : Except Exc o.Res → L → Prop} :
    P.Ok t (lift o) l Q ↔ P.allowed l o ∧ ∀ w, P.know l w → Q (.ok (exec t o w).1) (P.nxt l o w) := Iff.rfl

theorem ok_ofExcept {r : Except Exc α} {l : L} {Q : Except Exc α → L → Prop} :
    P.Ok t (ofExcept r) l Q ↔ Q r l := by cases r <;> rfl

theorem ok_ite {c : Prop} [Decidable c] {p q : Prog α} {l : L} {Q : Except Exc α → L → Prop}
    (h1 : c → P.Ok t p l Q) (h2 : ¬c → P.Ok t q l Q) : P.Ok t (if c then p else q) l Q := by
  by_cases h : c
  · rw [if_pos h]; exact h1 h
  · rw [if_neg h]; exact h2 h

theorem ok_invoke {c : Call} {l : L} {Q : Except Exc Unit → L → Prop} :
    P.Ok t (invoke c) l Q ↔ P.pre c l ∧ ∀ r l', P.post c l r l' → Q r l' := by
  simp only [invoke, Ok, ok_ofExcept]

end Proto

/-- What has to be shown about the code. -/
structure Checked {L : Type} (env : Env) (P : Proto L) (l0 : L) (task : SId → MId → L)
    (fin : Tid → Except Exc Unit → L → Prop) : Prop where
  body : ∀ t c l, P.pre c l → P.Ok t (body env c) l (P.post c l)
  client : ∀ n u, P.Ok (.client n) (UProg.denote env u) l0 (fin (.client n))
  drain : ∀ t s m, P.Ok t (drain env s m) (task s m) (fin t)

/-- What has to be shown about an invariant. -/
structure Invariant {L : Type} (env : Env) (P : Proto L) (l0 : L) (task : SId → MId → L)
    (fin : Tid → Except Exc Unit → L → Prop) (Inv : (Tid → L) → World → Prop) : Prop where
  know : ∀ lst w t, Inv lst w → P.know (lst t) w
  op : ∀ lst w t o, Inv lst w → P.allowed (lst t) o → enabled t o w = true →
    Inv (fset lst t (P.nxt (lst t) o w)) (exec t o w).2
  ret : ∀ lst w t, Inv lst w → fin t (.ok ()) (lst t) → Inv (fset lst t l0) w
  thr : ∀ lst w t x, Inv lst w → fin t (.error x) (lst t) → Inv (fset lst t l0) (w.log t (.uncaught x))
  dispatch : ∀ lst w e i j s m, Inv lst w → lst (.worker e i) = l0 → i < env.width e → (w.tasks e)[j]? = some (s, m) →
    Inv (fset lst (.worker e i) (task s m)) { w with tasks := fset w.tasks e ((w.tasks e).eraseIdx j) }
  interrupt : ∀ lst w t, Inv lst w → Inv lst { w with intr := fset w.intr t true }
  shutdown : ∀ lst w e, Inv lst w → Inv lst { w with shut := fset w.shut e true }
  dropTasks : ∀ lst w e, Inv lst w → Inv lst (w.dropTasks e)

/-- Every thread is where its control state says. -/
def ThreadsOk {L : Type} (P : Proto L) (l0 : L) (fin : Tid → Except Exc Unit → L → Prop) (lst : Tid → L) (c : Conf) : Prop :=
  ∀ t, match c.thr t with
    | none => lst t = l0
    | some p => P.Ok t p (lst t) (fin t)

/-- One step preserves "there are control states which fit the threads and satisfy the invariant". -/
theorem sound_step {L : Type} {env : Env} {P : Proto L} {l0 : L} {task : SId → MId → L}
    {fin : Tid → Except Exc Unit → L → Prop} {Inv : (Tid → L) → World → Prop}
    (hc : Checked env P l0 task fin) (hi : Invariant env P l0 task fin Inv)
    {c c' : Conf} {x : Choice} {lst : Tid → L} (ht : ThreadsOk P l0 fin lst c) (hI : Inv lst c.w)
    (hs : step env c x = some c') : ∃ lst', ThreadsOk P l0 fin lst' c' ∧ Inv lst' c'.w := by
  have upd : ∀ (t : Tid) (l : L) (p : Option (Prog Unit)) (w : World),
      (match p with | none => l = l0 | some p => P.Ok t p l (fin t)) →
      ThreadsOk P l0 fin (fset lst t l) ⟨w, fset c.thr t p⟩ := by
    intro t l p w hp u
    by_cases hu : u = t
    · subst hu; simp only [fset_same]; exact hp
    · simp only [fset_ne _ _ hu]; exact ht u
  cases x with
  | begin n u =>
    simp only [step] at hs
    split at hs
    · cases hs
    next hn =>
      cases hs
      have h0 := ht (.client n)
      rw [hn] at h0
      refine ⟨fset lst (.client n) (lst (.client n)), upd _ _ _ _ ?_, ?_⟩
      · simp only; rw [h0]; exact hc.client n u
      · have : fset lst (.client n) (lst (.client n)) = lst := by
          funext u; by_cases h : u = .client n <;> simp [fset, h]
        rw [this]; exact hI
  | run t =>
    simp only [step] at hs
    split at hs
    · cases hs
    next p hp =>
      have h0 := ht t
      rw [hp] at h0
      cases p with
      | ret a =>
        cases hs
        exact ⟨fset lst t l0, upd _ _ _ _ rfl, hi.ret _ _ _ hI h0⟩
      | thr x =>
        cases hs
        exact ⟨fset lst t l0, upd _ _ _ _ rfl, hi.thr _ _ _ _ hI h0⟩
      | op o k =>
        simp only [runThread] at hs
        split at hs
        next he =>
          cases hs
          exact ⟨fset lst t (P.nxt (lst t) o c.w), upd _ _ _ _ (h0.2 c.w (hi.know _ _ t hI)), hi.op _ _ _ _ hI h0.1 he⟩
        · cases hs
      | call f k =>
        cases hs
        refine ⟨fset lst t (lst t), upd _ _ _ _ ?_, ?_⟩
        · simp only
          rw [Proto.ok_handle]
          exact (hc.body t f (lst t) h0.1).mono (fun r l' hp => h0.2 r l' hp)
        · have : fset lst t (lst t) = lst := by
            funext u; by_cases h : u = t <;> simp [fset, h]
          rw [this]; exact hI
  | dispatch e i j =>
    simp only [step] at hs
    split at hs
    next hw =>
      split at hs
      next s m hn hj =>
        cases hs
        have h0 := ht (.worker e i)
        rw [hn] at h0
        exact ⟨fset lst (.worker e i) (task s m), upd _ _ _ _ (hc.drain _ s m), hi.dispatch _ _ _ _ _ _ _ hI h0 hw hj⟩
      · cases hs
    · cases hs
  | interrupt t =>
    cases hs
    exact ⟨lst, ht, hi.interrupt _ _ _ hI⟩
  | shutdown e now =>
    cases hs
    refine ⟨lst, ht, ?_⟩
    cases now with
    | false => exact hi.shutdown _ _ _ hI
    | true => exact hi.dropTasks _ _ _ (hi.shutdown _ _ _ hI)

theorem sound_runs {L : Type} {env : Env} {P : Proto L} {l0 : L} {task : SId → MId → L}
    {fin : Tid → Except Exc Unit → L → Prop} {Inv : (Tid → L) → World → Prop}
    (hc : Checked env P l0 task fin) (hi : Invariant env P l0 task fin Inv)
    {c : Conf} {xs : List Choice} {c' : Conf} {lst : Tid → L} (ht : ThreadsOk P l0 fin lst c) (hI : Inv lst c.w)
    (hs : runs env c xs = some c') : ∃ lst', ThreadsOk P l0 fin lst' c' ∧ Inv lst' c'.w := by
  induction xs generalizing c lst with
  | nil => cases hs; exact ⟨lst, ht, hI⟩
  | cons x xs ih =>
    simp only [runs] at hs
    split at hs
    · cases hs
    next c1 h1 =>
      obtain ⟨l1, ht1, hI1⟩ := sound_step hc hi ht hI h1
      exact ih ht1 hI1 hs

/-- Soundness: an invariant that holds initially holds in every reachable configuration. -/
theorem sound {L : Type} {env : Env} {P : Proto L} {l0 : L} {task : SId → MId → L}
    {fin : Tid → Except Exc Unit → L → Prop} {Inv : (Tid → L) → World → Prop}
    (hc : Checked env P l0 task fin) (hi : Invariant env P l0 task fin Inv)
    (h0 : ∀ c, Initial c → Inv (fun _ => l0) c.w) {c : Conf} (hr : Reach env c) :
    ∃ lst, ThreadsOk P l0 fin lst c ∧ Inv lst c.w := by
  obtain ⟨c0, hi0, xs, hx⟩ := hr
  refine sound_runs hc hi (lst := fun _ => l0) ?_ (h0 c0 hi0) hx
  intro t
  rw [hi0.idle t]

end Verif
