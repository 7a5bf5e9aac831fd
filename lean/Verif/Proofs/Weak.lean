import Verif.Spec.Weak
import Verif.Proofs.HBCur
/-
Weak memory: every write to `currentState` follows, in its thread, a successful change of `isStarted` or `isEnded`, whatever reads return.
-/

namespace Verif.Weak
open Prog Verif.Spec.HB Verif.Spec.Weak

/-! ### A thread that has changed a flag writes the state next -/

/-- May the thread do `o`, if it owes a write to `currentState` of machine `st`? -/
def allowed : Option MId → Op → Prop
  | none, .setCur .. => False
  | none, _ => True
  | some m, .setCur m' .. => m' = m
  | some _, _ => False

def nxt : Option MId → (o : Op) → o.Res → Option MId
  | none, .casEnded m _ _ _, true => some m
  | none, .casStarted m, true => some m
  | _, _, _ => none

/-- The program keeps to this, whatever the results of operations are. -/
def Walk {α : Type} : Option MId → Prog α → (Except Exc α → Option MId → Prop) → Prop
  | st, .ret a, Q => Q (.ok a) st
  | st, .thr x, Q => Q (.error x) st
  | st, .op o k, Q => allowed st o ∧ ∀ r, Walk (nxt st o r) (k r) Q
  | st, .call _ k, Q => st = none ∧ ∀ r, Walk none (k r) Q

def Clean {α : Type} (p : Prog α) : Prop := Walk none p fun _ st => st = none

variable {α β : Type}

theorem walk_mono {p : Prog α} {st : Option MId} {Q R : Except Exc α → Option MId → Prop} (h : Walk st p Q) (hq : ∀ r s, Q r s → R r s) :
    Walk st p R := by
  induction p generalizing st with
  | ret a => exact hq _ _ h
  | thr x => exact hq _ _ h
  | op o k ih => exact ⟨h.1, fun r => ih r (h.2 r)⟩
  | call c k ih => exact ⟨h.1, fun r => ih r (h.2 r)⟩

theorem walk_handle {p : Prog α} {f : Except Exc α → Prog β} {st : Option MId} {Q : Except Exc β → Option MId → Prop}
    (h : Walk st p fun r s => Walk s (f r) Q) : Walk st (p.handle f) Q := by
  induction p generalizing st with
  | ret a => exact h
  | thr x => exact h
  | op o k ih => exact ⟨h.1, fun r => ih r (h.2 r)⟩
  | call c k ih => exact ⟨h.1, fun r => ih r (h.2 r)⟩

theorem Clean.handle {p : Prog α} {f : Except Exc α → Prog β} (hp : Clean p) (hf : ∀ r, Clean (f r)) : Clean (p.handle f) :=
  walk_handle (walk_mono hp fun r s hs => by subst hs; exact hf r)

theorem clean_ret (a : α) : Clean (ret a : Prog α) := rfl
theorem clean_thr (x : Exc) : Clean (thr x : Prog α) := rfl

theorem Clean.bind {p : Prog α} {f : α → Prog β} (hp : Clean p) (hf : ∀ a, Clean (f a)) : Clean (p >>= f) :=
  hp.handle fun r => by cases r <;> first | exact hf _ | exact clean_thr _

theorem Clean.attempt {p : Prog α} (hp : Clean p) : Clean p.attempt := hp.handle fun _ => clean_ret _

theorem clean_ofExcept (r : Except Exc α) : Clean (ofExcept r) := by cases r <;> rfl

theorem clean_invoke (c : Call) : Clean (invoke c) := ⟨rfl, fun r => clean_ofExcept r⟩

/-- Operations that are neither changes of flags nor writes of the state. -/
def plain : Op → Bool
  | .casStarted _ | .casEnded .. | .setCur .. => false
  | _ => true

theorem plain_nxt {o : Op} (h : plain o = true) (r : o.Res) : allowed none o ∧ nxt none o r = none := by
  cases o <;> first | exact ⟨trivial, rfl⟩ | cases h

theorem clean_lift {o : Op} (h : plain o = true) : Clean (lift o) :=
  ⟨(by cases o <;> first | exact trivial | cases h), fun r => (plain_nxt h r).2⟩

theorem clean_deref {γ : Type} (x : Option γ) : Clean (deref x) := by cases x <;> rfl

/-! ### The library -/

variable {env : Env}

theorem clean_userCall (c : Cb) (f : Call) : Clean (userCall c f) :=
  (clean_invoke f).attempt.bind fun _ => (clean_lift rfl).bind fun _ => clean_ofExcept _

theorem clean_callback (c : Cb) (f : Call) : Clean (callback c f) := (clean_lift rfl).bind fun _ => clean_userCall c f

theorem clean_notify (m : MId) (b : Bool) (f : Option St) (ev : Ev) (t : Option St) : Clean (notifyListener env m b f ev t) := by
  refine (clean_lift rfl).bind fun l => ?_
  split
  · refine (clean_lift rfl).bind fun r => ?_
    split
    · exact clean_thr _
    · exact clean_userCall _ _
  · exact clean_ret _

theorem clean_runActs (m : MId) (k : Kind) (oid : Nat) (ev : Ev) : ∀ n i, Clean (runActs m k oid ev i n)
  | 0, _ => clean_ret _
  | n + 1, _ => (clean_callback _ _).bind fun _ => clean_runActs m k oid ev n _

theorem clean_update (m : MId) (s : St) (api : Bool) : Clean (updateCurrentState env m s api) := by
  refine ⟨trivial, fun r => ?_⟩
  cases r with
  | false => exact rfl
  | true => exact ⟨rfl, fun _ => rfl⟩

theorem clean_execute (s : SId) (ev : Ev) (m : MId) : Clean (execute env s ev m) := by
  refine (clean_lift rfl).bind fun _ => (clean_deref _).bind fun row => ?_
  split
  · exact clean_callback _ _
  · split
    · exact (clean_lift rfl).bind fun _ => (clean_notify ..).bind fun _ => (clean_lift rfl).bind fun _ => clean_notify ..
    · refine (clean_lift rfl).bind fun _ => (clean_notify ..).bind fun _ => (clean_lift rfl).bind fun _ => (clean_deref _).bind fun _ =>
        (clean_runActs ..).bind fun _ => (clean_update ..).bind fun _ => (clean_lift rfl).bind fun _ => (clean_deref _).bind fun _ =>
        (clean_runActs ..).bind fun _ => (clean_notify ..).bind fun _ => ?_
      split
      · exact clean_update ..
      · exact clean_ret _

theorem clean_processOne (s : SId) (cm : MId) (p : PairId) (ev : Ev) (m : MId) : Clean (processOne env s cm p ev m) := by
  refine Clean.bind (Clean.attempt ((clean_lift rfl).bind fun b => ?_)) fun r => ?_
  · split
    · exact clean_execute ..
    · exact clean_ret _
  · have hrest : ∀ r : Except Exc Unit, Clean (do
        lift (.poolGive s p)
        ofExcept r) := fun r => (clean_lift rfl).bind fun _ => clean_ofExcept _
    dsimp only
    split
    · exact (clean_ret _).bind hrest
    · split
      · exact (clean_callback _ _).attempt.bind hrest
      · exact (clean_ret _).bind hrest

theorem clean_drain (s : SId) (cm : MId) : Clean (drain env s cm) := by
  refine (clean_lift rfl).bind fun b => ?_
  split
  · exact clean_ret _
  · exact (clean_lift rfl).bind fun _ => (clean_deref _).bind fun _ => (clean_lift rfl).bind fun _ => (clean_deref _).bind fun x =>
      (clean_processOne ..).bind fun _ => clean_invoke _

theorem clean_anyEqual (ev : Ev) : ∀ ps, Clean (anyEqual ev ps)
  | [] => clean_ret _
  | p :: ps => by
    refine (clean_lift rfl).bind fun _ => (clean_deref _).bind fun x => ?_
    show Clean (if _ then _ else _)
    split
    · exact clean_ret _
    · exact clean_anyEqual ev ps

theorem clean_default (s : SId) (ev : Ev) (m : MId) : Clean (processEventDefault env s ev m) := by
  refine (clean_lift rfl).bind fun n => ?_
  split
  · exact clean_callback _ _
  · refine (clean_lift rfl).bind fun p => (clean_lift rfl).bind fun x => ?_
    have hrest : Clean (do
        lift (.offer (env.strat s).queue p)
        if !(← lift (.submit (env.strat s).exec s m)) then thr .rejected) :=
      (clean_lift rfl).bind fun _ => (clean_lift rfl).bind fun b => by
        split
        · exact clean_thr _
        · exact clean_ret _
    split
    · exact (clean_lift rfl).bind fun _ => (clean_lift rfl).bind fun _ => hrest
    · exact (clean_lift rfl).bind fun _ => hrest

theorem clean_processEvent (s : SId) (ev : Ev) (m : MId) : Clean (processEvent env s ev m) := by
  unfold processEvent
  split
  · refine (clean_lift rfl).bind fun _ => (clean_anyEqual ..).bind fun b => ?_
    split
    · exact clean_lift rfl
    · exact clean_default ..
  · exact clean_default ..

theorem clean_fire (m : MId) (ev : Ev) : Clean (fire env m ev) := by
  refine (clean_lift rfl).bind fun b => ?_
  split
  · exact clean_callback _ _
  · have hrest : ∀ e : Bool, Clean (if e then callback (.flowAfter m ev) (.flowAfter (env.mach m).strat ev m) else processEvent env (env.mach m).strat ev m) :=
      fun e => by
        split
        · exact clean_callback _ _
        · exact clean_processEvent ..
    refine (clean_lift rfl).bind fun b => ?_
    split
    · exact (clean_lift rfl).bind hrest
    · exact (clean_ret _).bind hrest

theorem clean_start (m : MId) : Clean (start env m) := by
  unfold start
  dsimp only
  split
  · exact clean_thr _
  · exact clean_thr _
  · refine ⟨trivial, fun r => ?_⟩
    cases r with
    | false => exact rfl
    | true =>
      refine ⟨rfl, fun _ => ?_⟩
      exact (clean_notify ..).bind fun _ => (clean_runActs ..).bind fun _ => (clean_notify ..).bind fun _ => clean_lift rfl

theorem clean_startIn (m : MId) (s : Option St) : Clean (startInState env m s) := by
  unfold startInState
  split
  · refine ⟨trivial, fun r => ?_⟩
    cases r with
    | false => exact rfl
    | true => exact ⟨rfl, fun _ => clean_lift (o := .clearEnded m) rfl⟩
  · exact clean_thr _

theorem clean_api (c : Api) {p : Prog Unit} (hp : Clean p) : Clean (Verif.api c p) :=
  (clean_lift rfl).bind fun _ => hp.attempt.bind fun _ => (clean_lift rfl).bind fun _ => clean_ret _

theorem clean_prog (u : UCall) : Clean (u.prog env) := by
  cases u <;> first
    | exact clean_lift rfl
    | exact clean_api _ (clean_fire ..)
    | exact clean_api _ (clean_update ..)
    | exact clean_api _ (clean_start ..)
    | exact clean_api _ (clean_startIn ..)
    | exact (clean_invoke _).attempt

theorem clean_denote (u : UProg) : Clean (u.denote env) := by
  induction u with
  | done => exact clean_ret _
  | thr x => exact clean_thr _
  | call u k ih => exact (clean_prog u).bind ih

theorem clean_body (f : Call) : Clean (body env f) := by
  cases f with
  | action k oid i ev m =>
    show Clean (match (env.acts k oid)[i]? with
      | some a => (a ev m).denote env
      | none => ret ())
    split
    · exact clean_denote _
    · exact clean_ret _
  | drain s m => exact clean_drain s m
  | _ => exact clean_denote _

/-! ### Histories -/

variable {M : MId → Prop} [DecidablePred M]

/-- What holds at the beginning and is preserved by every step holds at the end. -/
theorem sound {J : List Did → Conf → Prop} (hs : ∀ H c x c', J H c → step env M c x = some c' → J (H ++ (Spec.Weak.did c x).toList) c') {c c' : Conf}
    {xs : List WChoice} {H : List Did} (h : J H c) (hr : runs env M c xs = some c') : J (H ++ history env M c xs) c' := by
  induction xs generalizing c H with
  | nil => cases hr; simpa [Spec.Weak.history] using h
  | cons x xs ih =>
    simp only [runs] at hr
    split at hr
    · cases hr
    next c1 h1 =>
      have := ih (hs _ _ _ _ h h1) hr
      simpa [Spec.Weak.history, h1] using this

/-- Action `c` is a successful change of a flag of `m` by `t`. -/
def Changes (H : List Did) (t : Tid) (m : MId) (c : Nat) : Prop :=
  H[c]? = some (.op t (.casStarted m) true) ∨ ∃ s b api, H[c]? = some (.op t (.casEnded m s b api) true)

/-- Thread `t` has done nothing after `c` and before `k`. -/
def Quiet (H : List Did) (t : Tid) (c k : Nat) : Prop := ∀ l a, c < l → l < k → H[l]? = some a → a.tid ≠ t

/-- What a history is like: before every write there is a change of a flag; `isStarted` changes once. -/
structure Shape (H : List Did) : Prop where
  writes : ∀ (k : Nat) t m s api, H[k]? = some (.op t (.setCur m s api) ()) → ∃ c < k, Changes H t m c ∧ Quiet H t c k
  once : ∀ (i j : Nat) t u m, H[i]? = some (.op t (.casStarted m) true) → H[j]? = some (.op u (.casStarted m) true) → i = j

structure Inv (H : List Did) (c : Conf) (st : Tid → Option MId) : Prop where
  thr : ∀ t p, c.thr t = some p → Walk (st t) p fun _ s => s = none
  idle : ∀ t, c.thr t = none → st t = none
  owes : ∀ t m, st t = some m → ∃ k, k < H.length ∧ Changes H t m k ∧ Quiet H t k H.length
  started : ∀ (i : Nat) t m, H[i]? = some (.op t (.casStarted m) true) → (c.w.mach m).started = true
  shape : Shape H

variable {H : List Did} {x : Did}

theorem Changes.snoc {t : Tid} {m : MId} {k : Nat} (h : Changes H t m k) : Changes (H ++ [x]) t m k :=
  h.imp get_snoc fun ⟨s, b, api, h⟩ => ⟨s, b, api, get_snoc h⟩

theorem Quiet.snoc {t : Tid} {k n : Nat} (hn : n ≤ H.length) (h : Quiet H t k n) : Quiet (H ++ [x]) t k n := fun l a h1 h2 h3 => by
  rcases snoc_get.1 h3 with h4 | ⟨rfl, _⟩
  · exact h l a h1 h2 h4
  · omega

theorem Shape.snoc (h : Shape H) (hw : ∀ t m s api, x = .op t (.setCur m s api) () → ∃ c < H.length, Changes H t m c ∧ Quiet H t c H.length)
    (ho : ∀ t m, x = .op t (.casStarted m) true → ∀ (i : Nat) u, H[i]? ≠ some (.op u (.casStarted m) true)) : Shape (H ++ [x]) where
  writes k t m s api hk := by
    rcases snoc_get.1 hk with hk' | ⟨rfl, hx⟩
    · obtain ⟨c, h1, h2, h3⟩ := h.writes k t m s api hk'
      exact ⟨c, h1, h2.snoc, h3.snoc (Nat.le_of_lt (get_lt hk'))⟩
    · obtain ⟨c, h1, h2, h3⟩ := hw t m s api hx.symm
      exact ⟨c, h1, h2.snoc, h3.snoc (Nat.le_refl _)⟩
  once i j t u m hi hj := by
    rcases snoc_get.1 hi with hi' | ⟨rfl, hx⟩ <;> rcases snoc_get.1 hj with hj' | ⟨rfl, hy⟩
    · exact h.once i j t u m hi' hj'
    · exact absurd hi' (ho u m hy.symm i t)
    · exact absurd hj' (ho t m hx.symm j u)
    · rfl

/-- An operation of thread `t`, with result `r`. -/
theorem Inv.op {c : Conf} {st : Tid → Option MId} (h : Inv H c st) {t : Tid} {o : Op} {k : o.Res → Prog Unit} (hp : c.thr t = some (.op o k)) (r : o.Res)
    (hr : ∀ m, o = .casStarted m → HEq r true → (c.w.mach m).started = false) {w' : World}
    (hw : ∀ m, (c.w.mach m).started = true → (w'.mach m).started = true)
    (hw' : ∀ m, o = .casStarted m → HEq r true → (w'.mach m).started = true) :
    Inv (H ++ [.op t o r]) ⟨w', fset c.thr t (some (k r))⟩ (fset st t (nxt (st t) o r)) := by
  have hwalk := h.thr t _ hp
  refine ⟨fun u p hu => ?_, fun u hu => ?_, fun u m hu => ?_, fun i u m hi => ?_, h.shape.snoc (fun u m s api hx => ?_) fun u m hx i v hi => ?_⟩
  · by_cases hut : u = t
    · subst hut
      simp only [fset_same] at hu ⊢
      cases hu
      exact hwalk.2 r
    · simp only [fset_ne _ _ hut] at hu ⊢
      exact h.thr u p hu
  · by_cases hut : u = t
    · subst hut
      simp only [fset_same] at hu
      cases hu
    · simp only [fset_ne _ _ hut] at hu ⊢
      exact h.idle u hu
  · by_cases hut : u = t
    · subst hut
      rw [fset_same] at hu
      refine ⟨H.length, by simp, ?_, fun l a h1 h2 h3 => ?_⟩
      · cases hst : st u with
        | some m' => rw [hst] at hu; cases o <;> simp [nxt] at hu
        | none =>
          rw [hst] at hu
          cases o with
          | casEnded m' s b api => cases r <;> simp [nxt] at hu; subst hu; exact Or.inr ⟨s, b, api, last_snoc⟩
          | casStarted m' => cases r <;> simp [nxt] at hu; subst hu; exact Or.inl last_snoc
          | _ => simp [nxt] at hu
      · simp at h2
        omega
    · rw [fset_ne _ _ hut] at hu
      obtain ⟨k', h1, h2, h3⟩ := h.owes u m hu
      refine ⟨k', by simp; omega, h2.snoc, fun l a hl1 hl2 hl3 => ?_⟩
      rcases snoc_get.1 hl3 with hl | ⟨rfl, rfl⟩
      · exact h3 l a hl1 (get_lt hl) hl
      · exact fun he => hut he.symm
  · rcases snoc_get.1 hi with hi' | ⟨_, hx⟩
    · exact hw m (h.started i u m hi')
    · cases hx
      exact hw' m rfl HEq.rfl
  · cases hx
    cases hst : st t with
    | none => rw [hst] at hwalk; exact hwalk.1.elim
    | some m' =>
      rw [hst] at hwalk
      cases (show m = m' from hwalk.1)
      exact h.owes t m hst
  · cases hx
    exact Bool.noConfusion ((h.started i v m hi).symm.trans (hr m rfl HEq.rfl))

/-- Nothing is done that the history shows. -/
theorem Inv.same {c : Conf} {st : Tid → Option MId} (h : Inv H c st) {t : Tid} {p : Option (Prog Unit)} {w' : World}
    (hp : ∀ q, p = some q → Walk (st t) q fun _ s => s = none) (hn : p = none → st t = none)
    (hw : ∀ m, (c.w.mach m).started = true → (w'.mach m).started = true) : Inv H ⟨w', fset c.thr t p⟩ st where
  thr u q hu := by
    by_cases hut : u = t
    · subst hut
      simp only [fset_same] at hu
      exact hp q hu
    · simp only [fset_ne _ _ hut] at hu
      exact h.thr u q hu
  idle u hu := by
    by_cases hut : u = t
    · subst hut
      simp only [fset_same] at hu
      exact hn hu
    · simp only [fset_ne _ _ hut] at hu
      exact h.idle u hu
  owes := h.owes
  started i u m hi := hw m (h.started i u m hi)
  shape := h.shape

theorem Inv.world {c : Conf} {st : Tid → Option MId} (h : Inv H c st) {w' : World} (hw : ∀ m, (c.w.mach m).started = true → (w'.mach m).started = true) :
    Inv H ⟨w', c.thr⟩ st := ⟨h.thr, h.idle, h.owes, fun i u m hi => hw m (h.started i u m hi), h.shape⟩

/-- A worker begins with a task. -/
theorem Inv.take {c : Conf} {st : Tid → Option MId} (h : Inv H c st) {t : Tid} {e : EId} {s : SId} {m : MId} (hn : st t = none) : Inv (H ++ [.take t e s m]) c st := by
  refine ⟨h.thr, h.idle, fun u m' hu => ?_, fun i' u m' hi' => ?_, h.shape.snoc (fun _ _ _ _ hx => by cases hx) (fun _ _ hx => by cases hx)⟩
  · obtain ⟨k', g1, g2, g3⟩ := h.owes u m' hu
    refine ⟨k', by simp; omega, g2.snoc, fun l a hl1 hl2 hl3 => ?_⟩
    rcases snoc_get.1 hl3 with hl | ⟨rfl, rfl⟩
    · exact g3 l a hl1 (get_lt hl) hl
    · intro he
      rw [← he, show st (Did.take t e s m).tid = none from hn] at hu
      cases hu
  · rcases snoc_get.1 hi' with hi | ⟨_, hx⟩
    · exact h.started i' u m' hi
    · cases hx

theorem inv_step {c c' : Conf} {y : WChoice} {st : Tid → Option MId} (h : Inv H c st) (hs : step env M c y = some c') :
    ∃ st', Inv (H ++ (Spec.Weak.did c y).toList) c' st' := by
  cases y with
  | read t v =>
    simp only [step] at hs
    split at hs
    next m k hp =>
      split at hs
      · cases hs
        refine ⟨fset st t (nxt (st t) (.getCur m) v), ?_⟩
        have := h.op hp v (w' := c.w) (fun m' hm => by cases hm) (fun _ hm => hm) (fun m' hm => by cases hm)
        simpa [Spec.Weak.did, hp] using this
      · cases hs
    · cases hs
  | sched y =>
    cases y with
    | begin n u =>
      simp only [step, Verif.step] at hs
      split at hs
      · cases hs
      next hn =>
        cases hs
        refine ⟨st, ?_⟩
        have := h.same (t := .client n) (p := some (u.denote env)) (w' := c.w)
          (fun q hq => by cases hq; rw [h.idle _ hn]; exact clean_denote u) (fun hq => by cases hq) (fun _ hm => hm)
        simpa [Spec.Weak.did, Spec.HB.did] using this
    | run t =>
      simp only [step, Verif.step] at hs
      split at hs
      · cases hs
      next p hp =>
        have h0 := h.thr t p hp
        cases p with
        | ret a =>
          cases hs
          refine ⟨st, ?_⟩
          have := h.same (t := t) (p := none) (w' := c.w) (fun q hq => by cases hq) (fun _ => h0) (fun _ hm => hm)
          simpa [Spec.Weak.did, Spec.HB.did, hp] using this
        | thr e =>
          cases hs
          refine ⟨st, ?_⟩
          have := h.same (t := t) (p := none) (w' := c.w.log t (.uncaught e)) (fun q hq => by cases hq) (fun _ => h0) (fun _ hm => hm)
          simpa [Spec.Weak.did, Spec.HB.did, hp] using this
        | op o k =>
          simp only [runThread] at hs
          split at hs
          next he =>
            cases hs
            refine ⟨fset st t (nxt (st t) o (exec t o c.w).1), ?_⟩
            have := h.op hp (exec t o c.w).1 (w' := (exec t o c.w).2) (fun m' hm hr => by
                subst hm
                simp only [exec] at hr
                split at hr
                · cases hr
                next hm => simpa using hm) (fun _ hm => exec_started hm) (fun m' hm hr => by
                subst hm
                simp only [exec] at hr ⊢
                split at hr
                · cases hr
                next hm => simp [hm, World.log])
            simpa [Spec.Weak.did, Spec.HB.did, hp] using this
          · cases hs
        | call f k =>
          cases hs
          refine ⟨st, ?_⟩
          have := h.same (t := t) (p := some ((body env f).handle k)) (w' := c.w)
            (fun q hq => by
              cases hq
              rw [h0.1]
              exact walk_handle (walk_mono (clean_body f) fun r s hs => by subst hs; exact h0.2 r))
            (fun hq => by cases hq) (fun _ hm => hm)
          simpa [Spec.Weak.did, Spec.HB.did, hp] using this
    | dispatch e i j =>
      simp only [step, Verif.step] at hs
      split at hs
      next hw =>
        split at hs
        next s m hn hj' =>
          cases hs
          refine ⟨st, ?_⟩
          have h1 := h.same (t := .worker e i) (p := some (drain env s m)) (w' := { c.w with tasks := fset c.w.tasks e ((c.w.tasks e).eraseIdx j) })
            (fun q hq => by cases hq; rw [h.idle _ hn]; exact clean_drain s m) (fun hq => by cases hq) (fun _ hm => hm)
          have h2 := h1.take (t := .worker e i) (e := e) (s := s) (m := m) (h.idle _ hn)
          simpa [Spec.Weak.did, Spec.HB.did, hj'] using h2
        · cases hs
      · cases hs
    | interrupt t =>
      cases hs
      exact ⟨st, by simpa [Spec.Weak.did, Spec.HB.did] using h.world (w' := { c.w with intr := fset c.w.intr t true }) (fun _ hm => hm)⟩
    | shutdown e now =>
      cases hs
      refine ⟨st, ?_⟩
      cases now with
      | false => simpa [Spec.Weak.did, Spec.HB.did] using h.world (w' := { c.w with shut := fset c.w.shut e true }) (fun _ hm => hm)
      | true => simpa [Spec.Weak.did, Spec.HB.did] using h.world (w' := ({ c.w with shut := fset c.w.shut e true }).dropTasks e) (fun _ hm => hm)

theorem shape {c0 c : Conf} (hi : Initial c0) {xs : List WChoice} (hr : runs env M c0 xs = some c) : Shape (Spec.Weak.history env M c0 xs) := by
  have := sound (J := fun H c => ∃ st, Inv H c st) (fun H c x c' ⟨st, h⟩ hs => inv_step h hs) (H := []) (c := c0)
    ⟨fun _ => none, (fun t p hp => by rw [hi.idle t] at hp; cases hp), fun _ _ => rfl, fun _ _ h => (by cases h), fun i _ _ h => (by simp at h),
      ⟨fun k _ _ _ _ h => (by simp at h), fun i _ _ _ _ h => (by simp at h)⟩⟩ hr
  obtain ⟨st, h⟩ := this
  simpa using h.shape

/-! ### The order of writes -/

variable {wide : Bool} {W : Tid} {m : MId} {a b : Nat}

theorem ended_sync {i j : Nat} {t u : Tid} (hij : i < j) (h1 : H[i]? = some (.op t (.clearEnded m) ()) ∨ ∃ s b api, H[i]? = some (.op t (.casEnded m s b api) true))
    (h2 : (∃ r, H[j]? = some (.op u (.getEnded m) r)) ∨ ∃ s b api r, H[j]? = some (.op u (.casEnded m s b api) r)) : HB wide H i j := .sync (.ended hij h1 h2)

/-- A write other than that of `start()` belongs to a change of `isEnded` by `W`. -/
theorem later (hs : Shape H) (hc : Tidy W m H a b) {k : Nat} {s : St} (hk : Writes H m k s) (hka : k ≠ a) :
    ∃ c < k, b < c ∧ (∃ s b api, H[c]? = some (.op W (.casEnded m s b api) true)) ∧ (∃ api, H[k]? = some (.op W (.setCur m s api) ())) ∧ Quiet H W c k := by
  obtain ⟨t, api, hk⟩ := hk
  obtain ⟨c, h1, h2, h3⟩ := hs.writes k t m s api hk
  rcases h2 with h2 | ⟨s', b', api', h2⟩
  · obtain ⟨t0, s0, h4, h5⟩ := hc.start
    obtain ⟨c', g1, g2, g3⟩ := hs.writes a t0 m s0 true h4
    rcases g2 with g2 | ⟨s', b', api', g2⟩
    · have := hs.once c c' t t0 m h2 g2
      subst this
      rw [h2] at g2
      cases g2
      rcases Nat.lt_trichotomy k a with h | h | h
      · exact absurd rfl (g3 k _ h1 h hk)
      · exact absurd h hka
      · exact absurd rfl (h3 a _ g1 h h4)
    · have := (hc.changes c' _ _ _ _ g2).2
      have := hc.order
      omega
  · obtain ⟨rfl, hb⟩ := hc.changes c _ _ _ _ h2
    exact ⟨c, h1, hb, ⟨s', b', api', h2⟩, ⟨api, hk⟩, h3⟩

/-- The first write happens before the end of `start()`. -/
theorem first (hc : Tidy W m H a b) : HB wide H a b := by
  obtain ⟨t, s, h1, h2⟩ := hc.start
  exact .po hc.order h1 h2 rfl

theorem first_le (hs : Shape H) (hc : Tidy W m H a b) {k : Nat} {s : St} (hk : Writes H m k s) : a ≤ k := by
  by_cases h : k = a
  · omega
  · obtain ⟨c, h1, h2, _⟩ := later hs hc hk h
    have := hc.order
    omega

/-- Writes are ordered. -/
theorem ordered (hs : Shape H) (hc : Tidy W m H a b) {j k : Nat} {s s' : St} (hj : Writes H m j s) (hk : Writes H m k s') (hjk : j < k) : HB wide H j k := by
  have hka : k ≠ a := by have := first_le hs hc hj; omega
  obtain ⟨c, h1, h2, ⟨_, _, _, h3⟩, ⟨api, h4⟩, h5⟩ := later hs hc hk hka
  by_cases hja : j = a
  · subst hja
    obtain ⟨t, s0, g1, g2⟩ := hc.start
    exact .trans (first hc) (.trans (ended_sync h2 (Or.inl g2) (Or.inr ⟨_, _, _, _, h3⟩)) (.po h1 h3 h4 rfl))
  · obtain ⟨_, _, _, _, ⟨api', g4⟩, _⟩ := later hs hc hj hja
    exact .po hjk g4 h4 rfl

/-- What is overwritten before `i` is not seen. -/
theorem known (hs : Shape H) (hc : Tidy W m H a b) {past : Bool} (hj : Justified wide past m H) {i k : Nat} {t : Tid} {v : Option St} {s : St} (hi : H[i]? = some (.op t (.getCur m) v))
    (hk : Writes H m k s) (hki : HB wide H k i) : ∃ j s, k ≤ j ∧ Writes H m j s ∧ v = some s := by
  rcases hj i t v hi with ⟨_, h⟩ | ⟨j, s', rfl, h1, h2, _⟩
  · exact absurd hki (h k s hk)
  · refine ⟨j, s', ?_, h1, rfl⟩
    rcases Nat.lt_or_ge j k with h | h
    · exact absurd hki (h2.2 k s hk (ordered hs hc h1 hk h))
    · exact h

/-- Whoever asks whether the machine has ended knows all writes but the last. -/
theorem asked (hs : Shape H) (hc : Tidy W m H a b) {e k1 k2 : Nat} {t : Tid} {r : Bool} {s1 s2 : St} (he : H[e]? = some (.op t (.getEnded m) r))
    (h1 : Writes H m k1 s1) (h2 : Writes H m k2 s2) (h12 : k1 < k2) (h2e : k2 < e) : HB wide H k1 e := by
  have hka : k2 ≠ a := by have := first_le hs hc h1; omega
  obtain ⟨c, g1, g2, ⟨s', b', api', g3⟩, ⟨api, g4⟩, g5⟩ := later hs hc h2 hka
  have hce : HB wide H c e := ended_sync (by omega) (Or.inr ⟨_, _, _, g3⟩) (Or.inl ⟨_, he⟩)
  by_cases hja : k1 = a
  · subst hja
    obtain ⟨t', s0, f1, f2⟩ := hc.start
    exact .trans (first hc) (.trans (ended_sync g2 (Or.inl f2) (Or.inr ⟨_, _, _, _, g3⟩)) hce)
  · obtain ⟨_, _, _, _, ⟨api', f4⟩, _⟩ := later hs hc h1 hja
    have hkc : k1 < c := by
      rcases Nat.lt_trichotomy k1 c with h | h | h
      · exact h
      · subst h; rw [f4] at g3; cases g3
      · exact absurd rfl (g5 k1 (.op W (.setCur m s1 api') ()) h h12 f4)
    exact .trans (.po hkc f4 g3 rfl) hce

end Verif.Weak
