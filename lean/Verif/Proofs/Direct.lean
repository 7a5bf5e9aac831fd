import Verif.Model.Direct
import Verif.Spec.Direct
/-
Threads that process events themselves: safety of all prefixes of an execution of one thread that runs alone.
-/

namespace Verif.Direct
open Prog
open Spec.Direct (Frame State next Sent)

section Wp
variable {α β : Type} (env : Env) (d : EId → Bool) (Acc : World → Prop) (t : Tid)

/-- `p`, executed alone for at most `n` steps from `w`: `Acc` holds all the time, and if `p` comes to an end with `n'` steps to go then `Q`. -/
def Wp : Nat → Prog α → World → (Nat → World → Except Exc α → Prop) → Prop
  | 0, p, w, Q => Acc w ∧ match p with
    | .ret a => Q 0 w (.ok a)
    | .thr x => Q 0 w (.error x)
    | _ => True
  | n + 1, p, w, Q => Acc w ∧ match p with
    | .ret a => Q (n + 1) w (.ok a)
    | .thr x => Q (n + 1) w (.error x)
    | .op o k => enabled t o w = true → Wp n (k (exec t o w).1) (exec t o w).2 Q
    | .call f k => Wp n ((body env d f).handle k) w Q

variable {env d Acc t}

theorem handle_assoc {γ : Type} (p : Prog α) (f : Except Exc α → Prog β) (g : Except Exc β → Prog γ) :
    (p.handle f).handle g = p.handle fun r => (f r).handle g := by
  induction p with
  | ret a => rfl
  | thr x => rfl
  | op o k ih => simp only [Prog.handle, ih]
  | call c k ih => simp only [Prog.handle, ih]

theorem Wp.acc {n : Nat} {p : Prog α} {w : World} {Q : Nat → World → Except Exc α → Prop} (h : Wp env d Acc t n p w Q) : Acc w := by
  cases n <;> exact h.1

theorem Wp.mono {n : Nat} {p : Prog α} {w : World} {Q Q' : Nat → World → Except Exc α → Prop} (h : Wp env d Acc t n p w Q)
    (hq : ∀ n' w r, n' ≤ n → Acc w → Q n' w r → Q' n' w r) : Wp env d Acc t n p w Q' := by
  induction n generalizing p w with
  | zero => cases p <;> exact ⟨h.1, by first | trivial | exact hq _ _ _ (Nat.le_refl _) h.1 h.2⟩
  | succ n ih =>
    cases p with
    | ret a => exact ⟨h.1, hq _ _ _ (Nat.le_refl _) h.1 h.2⟩
    | thr x => exact ⟨h.1, hq _ _ _ (Nat.le_refl _) h.1 h.2⟩
    | op o k => exact ⟨h.1, fun he => ih (h.2 he) fun n' w r hn => hq n' w r (by omega)⟩
    | call f k => exact ⟨h.1, ih h.2 fun n' w r hn => hq n' w r (by omega)⟩

theorem Wp.handle {n : Nat} {p : Prog α} {w : World} {f : Except Exc α → Prog β} {Q : Nat → World → Except Exc β → Prop}
    (h : Wp env d Acc t n p w fun n' w' r => Wp env d Acc t n' (f r) w' Q) : Wp env d Acc t n (p.handle f) w Q := by
  induction n generalizing p w with
  | zero =>
    cases p with
    | ret a => exact h.2
    | thr x => exact h.2
    | op o k => exact ⟨h.1, trivial⟩
    | call c k => exact ⟨h.1, trivial⟩
  | succ n ih =>
    cases p with
    | ret a => exact h.2
    | thr x => exact h.2
    | op o k => exact ⟨h.1, fun he => ih (h.2 he)⟩
    | call c k =>
      refine ⟨h.1, ?_⟩
      show Wp env d Acc t n ((body env d c).handle fun r => (k r).handle f) w Q
      rw [← handle_assoc]
      exact ih h.2

theorem Wp.bind {n : Nat} {p : Prog α} {w : World} {f : α → Prog β} {Q : Nat → World → Except Exc β → Prop}
    (h : Wp env d Acc t n p w fun n' w' r => match r with
      | .ok a => Wp env d Acc t n' (f a) w' Q
      | .error x => Q n' w' (.error x)) : Wp env d Acc t n (p.bind f) w Q := by
  refine Wp.handle (h.mono fun n' w' r _ ha h => ?_)
  cases r with
  | ok a => exact h
  | error x => cases n' <;> exact ⟨ha, h⟩

theorem Wp.lift {n : Nat} {o : Op} {w : World} {Q : Nat → World → Except Exc o.Res → Prop} (ha : Acc w)
    (h : ∀ n', n' < n → Q n' (exec t o w).2 (.ok (exec t o w).1)) (ha' : enabled t o w = true → Acc (exec t o w).2) :
    Wp env d Acc t n (Prog.lift o) w Q := by
  cases n with
  | zero => exact ⟨ha, trivial⟩
  | succ n =>
    refine ⟨ha, fun he => ?_⟩
    have := h n (by omega)
    cases n <;> exact ⟨ha' he, this⟩

theorem Wp.ret {n : Nat} {a : α} {w : World} {Q : Nat → World → Except Exc α → Prop} (ha : Acc w) (h : Q n w (.ok a)) :
    Wp env d Acc t n (.ret a) w Q := by
  cases n <;> exact ⟨ha, h⟩

theorem Wp.thr {n : Nat} {x : Exc} {w : World} {Q : Nat → World → Except Exc α → Prop} (ha : Acc w) (h : Q n w (.error x)) :
    Wp env d Acc t n (.thr x) w Q := by
  cases n <;> exact ⟨ha, h⟩

end Wp

/-! ### The invariant -/

/-- Where a pair is. -/
inductive Loc
  | free | queue (q : QId) | pool (s : SId) | held
deriving DecidableEq

variable (env : Env)

/-- Queue of the strategy of a machine. -/
abbrev queueOf (m : MId) : QId := (env.strat (env.mach m).strat).queue

/-- The history is one that `Spec.Direct` permits. -/
def Acc (t : Tid) (w : World) : Prop := ∃ g, Spec.Direct.run (queueOf env) t .init w.trace = some g

structure Inv (t : Tid) (w : World) (g : State) (loc : PairId → Loc) : Prop where
  run : Spec.Direct.run (queueOf env) t .init w.trace = some g
  queue : ∀ q p, p ∈ w.queue q → loc p = .queue q
  pool : ∀ s p, p ∈ w.pool s → loc p = .pool s
  qnd : ∀ q, (w.queue q).Nodup
  pnd : ∀ s, (w.pool s).Nodup
  free : ∀ p, w.nextPair ≤ p → loc p = .free
  wait : ∀ q, (w.queue q).map w.pair = (g.waiting q).map fun x => some (x.2, x.1)

/-- Pairs that are held stay so, unchanged. -/
def Keeps (w : World) (loc : PairId → Loc) (w' : World) (loc' : PairId → Loc) : Prop :=
  ∀ p, loc p = .held → loc' p = .held ∧ w'.pair p = w.pair p

variable {env}

theorem Inv.acc {t : Tid} {w : World} {g : State} {loc : PairId → Loc} (h : Inv env t w g loc) : Acc env t w := ⟨g, h.run⟩

theorem Keeps.refl {w : World} {loc : PairId → Loc} : Keeps w loc w loc := fun _ h => ⟨h, rfl⟩

theorem Keeps.trans {w w' w'' : World} {loc loc' loc'' : PairId → Loc} (h : Keeps w loc w' loc') (h' : Keeps w' loc' w'' loc'') :
    Keeps w loc w'' loc'' := fun p hp => by
  obtain ⟨h1, h2⟩ := h p hp
  obtain ⟨h3, h4⟩ := h' p h1
  exact ⟨h3, h4.trans h2⟩

theorem run_append {queue : MId → QId} {t : Tid} {a b : List (Tid × Obs)} : ∀ {g : State},
    Spec.Direct.run queue t g (a ++ b) = (Spec.Direct.run queue t g a).bind fun g => Spec.Direct.run queue t g b := by
  induction a with
  | nil => intro g; rfl
  | cons e a ih =>
    intro g
    obtain ⟨u, o⟩ := e
    simp only [List.cons_append, Spec.Direct.run]
    split
    · cases next queue g o with
      | none => rfl
      | some g' => exact ih
    · rfl

theorem run_log {queue : MId → QId} {w : World} {g0 g g' : State} {t : Tid} {o : Obs}
    (h : Spec.Direct.run queue t g0 w.trace = some g) (hn : next queue g o = some g') :
    Spec.Direct.run queue t g0 (w.log t o).trace = some g' := by
  show Spec.Direct.run queue t g0 (w.trace ++ [(t, o)]) = _
  rw [run_append, h]
  simp [Spec.Direct.run, hn]

/-- Operations that touch neither pairs, queues, pools nor anything that is relevant in the history. -/
def quiet : Op → Bool
  | .offer .. | .poll _ | .poolTake _ | .poolGive .. | .setPair .. | .submit .. | .emit _ | .notify .. => false
  | _ => true

theorem inv_quiet {o : Op} (ho : quiet o = true) {t : Tid} {w : World} {g : State} {loc : PairId → Loc} (h : Inv env t w g loc) :
    Inv env t (exec t o w).2 g loc ∧ (exec t o w).2.pair = w.pair := by
  have key : ∀ w' : World, w'.queue = w.queue → w'.pool = w.pool → w'.nextPair = w.nextPair → w'.pair = w.pair →
      Spec.Direct.run (queueOf env) t .init w'.trace = some g → Inv env t w' g loc ∧ w'.pair = w.pair := by
    intro w' h1 h2 h3 h4 h5
    exact ⟨⟨h5, by rw [h1]; exact h.queue, by rw [h2]; exact h.pool, by rw [h1]; exact h.qnd, by rw [h2]; exact h.pnd,
      by rw [h3]; exact h.free, by rw [h1, h4]; exact h.wait⟩, h4⟩
  cases o <;> first
    | (cases ho; done)
    | exact key _ rfl rfl rfl rfl h.run
    | exact key _ rfl rfl rfl rfl (run_log h.run rfl)
    | (simp only [exec]
       split
       · exact key _ rfl rfl rfl rfl h.run
       · first
         | exact key _ rfl rfl rfl rfl h.run
         | exact key _ rfl rfl rfl rfl (run_log h.run rfl))

/-- Something is recorded that changes the stack only. -/
theorem inv_log {t : Tid} {o : Obs} {w : World} {g g' : State} {loc : PairId → Loc} (h : Inv env t w g loc)
    (hn : next (queueOf env) g o = some g') (hw : g'.waiting = g.waiting) : Inv env t (w.log t o) g' loc :=
  ⟨run_log h.run hn, h.queue, h.pool, h.qnd, h.pnd, h.free, by rw [hw]; exact h.wait⟩

/-! ### Balanced programs -/

variable {α β : Type} {d : EId → Bool} {t : Tid}

/-- What holds when a program that began in `w`, `g`, `loc` has come to its end. -/
def After (env : Env) (t : Tid) (w : World) (g : State) (loc : PairId → Loc) (w' : World) : Prop :=
  ∃ g' loc', Inv env t w' g' loc' ∧ Keeps w loc w' loc' ∧ g'.stack = g.stack

/-- A program that leaves the stack as it was, for the next `n` steps. -/
def Bal (env : Env) (d : EId → Bool) (t : Tid) (n : Nat) (p : Prog α) : Prop :=
  ∀ n', n' ≤ n → ∀ w g loc, Inv env t w g loc → Wp env d (Acc env t) t n' p w fun _ w' _ => After env t w g loc w'

theorem Bal.le {n n' : Nat} {p : Prog α} (h : Bal env d t n p) (hn : n' ≤ n) : Bal env d t n' p :=
  fun k hk => h k (by omega)

theorem Bal.ret {n : Nat} (a : α) : Bal env d t n (.ret a) := fun _ _ _ g loc h => .ret h.acc ⟨g, loc, h, .refl, rfl⟩

theorem Bal.thr {n : Nat} (x : Exc) : Bal env d t n (.thr x : Prog α) := fun _ _ _ g loc h => .thr h.acc ⟨g, loc, h, .refl, rfl⟩

theorem After.trans {w w' w'' : World} {g : State} {loc : PairId → Loc} (h : After env t w g loc w')
    (h' : ∀ g' loc', Inv env t w' g' loc' → g'.stack = g.stack → After env t w' g' loc' w'') : After env t w g loc w'' := by
  obtain ⟨g', loc', hi, hk, hs⟩ := h
  obtain ⟨g'', loc'', hi', hk', hs'⟩ := h' g' loc' hi hs
  exact ⟨g'', loc'', hi', hk.trans hk', hs'.trans hs⟩

theorem Bal.handle {n : Nat} {p : Prog α} {f : Except Exc α → Prog β} (h : Bal env d t n p) (hf : ∀ r, Bal env d t n (f r)) :
    Bal env d t n (p.handle f) := by
  intro n' hn w g loc hi
  refine Wp.handle ((h n' hn w g loc hi).mono fun k w' r hk _ h1 => ?_)
  obtain ⟨g', loc', hi', hk', hs⟩ := h1
  refine (hf r k (by omega) w' g' loc' hi').mono fun _ w'' _ _ _ h2 => ?_
  obtain ⟨g'', loc'', hi'', hk'', hs'⟩ := h2
  exact ⟨g'', loc'', hi'', hk'.trans hk'', hs'.trans hs⟩

theorem Bal.bind {n : Nat} {p : Prog α} {f : α → Prog β} (h : Bal env d t n p) (hf : ∀ a, Bal env d t n (f a)) :
    Bal env d t n (p.bind f) :=
  h.handle fun
    | .ok a => hf a
    | .error x => .thr x

theorem Bal.bind' {n : Nat} {p : Prog α} {f : α → Prog β} (h : Bal env d t n p) (hf : ∀ a, Bal env d t n (f a)) :
    Bal env d t n (p >>= f) := h.bind hf

theorem Bal.attempt {n : Nat} {p : Prog α} (h : Bal env d t n p) : Bal env d t n p.attempt := h.handle fun r => .ret r

theorem Bal.ofExcept {n : Nat} (r : Except Exc α) : Bal env d t n (ofExcept r) := by
  cases r
  · exact .thr _
  · exact .ret _

theorem Bal.deref {n : Nat} (o : Option α) : Bal env d t n (deref o) := by
  cases o
  · exact .thr _
  · exact .ret _

theorem Bal.lift {n : Nat} {o : Op} (h : quiet o = true) : Bal env d t n (Prog.lift o) := by
  intro n' hn w g loc hi
  obtain ⟨h1, h2⟩ := inv_quiet (t := t) h hi
  exact .lift hi.acc (fun _ _ => ⟨g, loc, h1, fun p hp => ⟨hp, by rw [h2]⟩, rfl⟩) fun _ => h1.acc

/-- Between two entries that open and close a call. -/
theorem Bal.around {n : Nat} {o : Obs} {f : Frame} {p : Prog α} {o' : Except Exc α → Obs} {k : Except Exc α → Prog β}
    (ho : ∀ g : State, next (queueOf env) g o = some { g with stack := f :: g.stack })
    (ho' : ∀ r (g : State) fs, g.stack = f :: fs → next (queueOf env) g (o' r) = some { g with stack := fs })
    (h : Bal env d t n p) (hk : ∀ r, Bal env d t n (k r)) :
    Bal env d t n ((Prog.lift (.emit o)).bind fun _ => p.handle fun r => (Prog.lift (.emit (o' r))).bind fun _ => k r) := by
  intro n' hn w g loc hi
  have h1 : Inv env t (w.log t o) { g with stack := f :: g.stack } loc := inv_log hi (ho g) rfl
  refine Wp.bind (.lift hi.acc (fun n1 hn1 => ?_) fun _ => h1.acc)
  refine Wp.handle ((h n1 (by omega) _ _ _ h1).mono fun n2 w2 r hn2 _ h2 => ?_)
  obtain ⟨g2, loc2, hi2, hk2, hs2⟩ := h2
  have h3 : Inv env t (w2.log t (o' r)) { g2 with stack := g.stack } loc2 := inv_log hi2 (ho' r g2 _ hs2) rfl
  refine Wp.bind (.lift hi2.acc (fun n3 hn3 => ?_) fun _ => h3.acc)
  refine (hk r n3 (by omega) _ _ _ h3).mono fun _ w4 _ _ _ h4 => ?_
  obtain ⟨g4, loc4, hi4, hk4, hs4⟩ := h4
  exact ⟨g4, loc4, hi4, Keeps.trans (w' := w2) hk2 hk4, hs4⟩

/-- Calls of user code. -/
def isUser : Call → Bool
  | .drain .. => false
  | _ => true

def UserOk (env : Env) (d : EId → Bool) (t : Tid) (n : Nat) : Prop := ∀ f, isUser f = true → Bal env d t n (body env d f)

/-- The drain task leaves an empty queue. -/
def DrainOk (env : Env) (d : EId → Bool) (t : Tid) (n : Nat) : Prop :=
  ∀ s m n', n' ≤ n → ∀ w g loc, Inv env t w g loc →
    (∃ m' ev fs, g.stack = .api (.fire m' ev) true :: fs ∧ queueOf env m' = (env.strat s).queue) →
    Wp env d (Acc env t) t n' (drain env s m) w fun _ w' r => ∃ g' loc', Inv env t w' g' loc' ∧ Keeps w loc w' loc' ∧ g'.stack = g.stack ∧
      (r = .ok () → g'.waiting (env.strat s).queue = [])

def Below (env : Env) (d : EId → Bool) (t : Tid) (n : Nat) : Prop := ∀ k, k < n → UserOk env d t k ∧ DrainOk env d t k

theorem Below.le {n n' : Nat} (h : Below env d t n) (hn : n' ≤ n) : Below env d t n' := fun k hk => h k (by omega)

variable {n : Nat}

theorem bal_invoke (h : Below env d t n) {f : Call} (hf : isUser f = true) : Bal env d t n (invoke f) := by
  intro n' hn w g loc hi
  cases n' with
  | zero => exact ⟨hi.acc, trivial⟩
  | succ k =>
    refine ⟨hi.acc, ?_⟩
    exact Bal.handle ((h k (by omega)).1 f hf) (fun r => .ofExcept r) k (Nat.le_refl _) w g loc hi

theorem bind_def (p : Prog α) (f : α → Prog β) : (p >>= f) = p.bind f := rfl

theorem attempt_bind (p : Prog α) (f : Except Exc α → Prog β) : p.attempt.bind f = p.handle f := by
  unfold Prog.attempt Prog.bind
  rw [handle_assoc]
  rfl

theorem bal_userCall_after (h : Below env d t n) (c : Cb) {f : Call} (hf : isUser f = true) {n' : Nat} (hn : n' ≤ n) {w : World} {g : State}
    {loc : PairId → Loc} {fs : List Frame} (hi : Inv env t w g loc) (hs : g.stack = .cb c :: fs) :
    Wp env d (Acc env t) t n' (userCall c f) w fun _ w' _ => After env t w { g with stack := fs } loc w' := by
  refine Wp.handle (Wp.handle ((bal_invoke h hf n' hn w g loc hi).mono fun n1 w1 r hn1 _ h1 => ?_))
  obtain ⟨g1, loc1, hi1, hk1, hs1⟩ := h1
  refine .ret hi1.acc ?_
  have h2 : Inv env t (w1.log t (.cbRet c (outcome r))) { g1 with stack := fs } loc1 :=
    inv_log hi1 (by simp [next, hs1, hs]) rfl
  refine Wp.bind (.lift hi1.acc (fun n2 hn2 => ?_) fun _ => h2.acc)
  refine (Bal.ofExcept (n := n2) r n2 (Nat.le_refl _) _ _ _ h2).mono fun _ w4 _ _ _ h4 => ?_
  obtain ⟨g4, loc4, hi4, hk4, hs4⟩ := h4
  exact ⟨g4, loc4, hi4, Keeps.trans (w' := w1) hk1 hk4, hs4⟩

theorem bal_callback (h : Below env d t n) (c : Cb) {f : Call} (hf : isUser f = true) : Bal env d t n (callback c f) := by
  intro n' hn w g loc hi
  have h1 : Inv env t (w.log t (.cb c)) { g with stack := .cb c :: g.stack } loc := inv_log hi rfl rfl
  refine Wp.bind (.lift hi.acc (fun n1 hn1 => ?_) fun _ => h1.acc)
  refine (bal_userCall_after h c hf (by omega) h1 rfl).mono fun _ w' _ _ _ h2 => ?_
  exact h2

theorem bal_notify (h : Below env d t n) (m : MId) (b : Bool) (f : Option St) (ev : Ev) (to : Option St) :
    Bal env d t n (notifyListener env m b f ev to) := by
  refine Bal.bind' (.lift rfl) fun l => ?_
  split
  · intro n' hn w g loc hi
    cases n' with
    | zero => exact ⟨hi.acc, trivial⟩
    | succ k =>
      refine ⟨hi.acc, fun _ => ?_⟩
      simp only [exec]
      cases hl : (w.mach m).listener with
      | none => exact .thr hi.acc ⟨g, loc, hi, .refl, rfl⟩
      | some l =>
        have h1 : Inv env t (w.log t (.cb (if b = true then Cb.end_ m (f.getD (env.mach m).res.noSt) ev (to.getD (env.mach m).res.noSt)
            else Cb.begin m (f.getD (env.mach m).res.noSt) ev (to.getD (env.mach m).res.noSt)))) _ loc := inv_log hi rfl rfl
        exact (bal_userCall_after h _ (by rfl) (by omega) h1 rfl).mono fun _ w' _ _ _ h2 => h2
  · exact .ret _

theorem bal_runActs (h : Below env d t n) (m : MId) (k : Kind) (oid : Nat) (ev : Ev) (j : Nat) : ∀ i,
    Bal env d t n (runActs m k oid ev i j) := by
  induction j with
  | zero => exact fun _ => .ret _
  | succ j ih => exact fun i => (bal_callback h _ rfl).bind' fun _ => ih _

theorem bal_onState (h : Below env d t n) (k : Kind) (s : St) (ev : Ev) (m : MId) : Bal env d t n (onState env k s ev m) :=
  bal_runActs h _ _ _ _ _ _

theorem bal_update (m : MId) (s : St) (b : Bool) : Bal env d t n (updateCurrentState env m s b) := by
  refine Bal.bind' (.lift rfl) fun c => ?_
  split
  · exact .lift rfl
  · exact .ret _

theorem bal_execute (h : Below env d t n) (s : SId) (ev : Ev) (m : MId) : Bal env d t n (execute env s ev m) := by
  refine Bal.bind' (.lift rfl) fun a => Bal.bind' (.deref _) fun row => ?_
  split
  · exact bal_callback h _ rfl
  · split
    · exact Bal.bind' (.lift rfl) fun _ => (bal_notify h _ _ _ _ _).bind' fun _ => Bal.bind' (.lift rfl) fun _ => bal_notify h _ _ _ _ _
    · refine Bal.bind' (.lift rfl) fun _ => (bal_notify h _ _ _ _ _).bind' fun _ => Bal.bind' (.lift rfl) fun _ => Bal.bind' (.deref _) fun _ =>
        (bal_onState h _ _ _ _).bind' fun _ => (bal_update _ _ _).bind' fun _ => Bal.bind' (.lift rfl) fun _ => Bal.bind' (.deref _) fun _ =>
        (bal_onState h _ _ _ _).bind' fun _ => (bal_notify h _ _ _ _ _).bind' fun _ => ?_
      split
      · exact bal_update _ _ _
      · exact .ret _

theorem bal_start (h : Below env d t n) (m : MId) : Bal env d t n (start env m) := by
  unfold start
  dsimp only
  split
  · exact .thr _
  · exact .thr _
  · refine Bal.bind' (.lift rfl) fun _ => ?_
    split
    · exact Bal.bind' (.lift rfl) fun _ => (bal_notify h _ _ _ _ _).bind' fun _ => (bal_onState h _ _ _ _).bind' fun _ => (bal_notify h _ _ _ _ _).bind' fun _ => .lift rfl
    · exact .thr _

theorem bal_startInState (m : MId) (s : Option St) : Bal env d t n (startInState env m s) := by
  unfold startInState
  split
  · refine Bal.bind' (.lift rfl) fun _ => ?_
    split
    · exact Bal.bind' (.lift rfl) fun _ => .lift rfl
    · exact .thr _
  · exact .thr _

theorem bal_api {c : Api} {p : Prog Unit} (h : Bal env d t n p) : Bal env d t n (api c p) := by
  have := Bal.around (env := env) (d := d) (t := t) (n := n) (o := .enter c) (f := .api c false) (p := p)
    (o' := fun r => .leave c (outcome r)) (k := fun r => .ret r) (fun g => rfl)
    (fun r g fs hs => by simp [next, hs]) h (fun r => .ret r)
  refine cast ?_ this
  congr 1
  show _ = (Prog.lift (.emit (.enter c))).bind fun _ => p.attempt.bind _
  congr 1
  funext _
  show _ = (p.handle Prog.ret).handle _
  rw [handle_assoc]
  rfl

/-! ### Processing -/

/-- A pair is given back. -/
theorem inv_give {w : World} {g : State} {loc : PairId → Loc} {s : SId} {p : PairId} {m : MId} {ev : Ev} {fs : List Frame}
    (hi : Inv env t w g loc) (hp : loc p = .held) (hv : w.pair p = some (ev, m)) (hs : g.stack = .proc m ev :: fs) :
    Inv env t (exec t (.poolGive s p) w).2 { g with stack := fs } (fset loc p (.pool s)) := by
  have hw : (exec t (.poolGive s p) w).2 = ({ w with pool := fset w.pool s (w.pool s ++ [p]) }).log t (.done m ev) := by
    simp [exec, hv]
  rw [hw]
  have hne : ∀ p', loc p' ≠ .held → p' ≠ p := fun p' h e => h (e ▸ hp)
  refine ⟨run_log (w := { w with pool := fset w.pool s (w.pool s ++ [p]) }) hi.run (by simp [next, hs]), fun q p' h => ?_, fun s' p' h => ?_,
    hi.qnd, fun s' => ?_, fun p' h => ?_, hi.wait⟩
  · have := hi.queue q p' h
    rw [fset_ne _ _ (hne _ (by rw [this]; simp))]
    exact this
  · by_cases hps : s' = s
    · subst hps
      have h' : p' ∈ w.pool s' ++ [p] := by simpa [World.log] using h
      rcases List.mem_append.1 h' with h' | h'
      · have := hi.pool _ p' h'
        rw [fset_ne _ _ (hne _ (by rw [this]; simp))]
        exact this
      · rw [List.mem_singleton.1 h', fset_same]
    · have h' : p' ∈ w.pool s' := by simpa [World.log, fset_ne _ _ hps] using h
      have := hi.pool _ p' h'
      rw [fset_ne _ _ (hne _ (by rw [this]; simp))]
      exact this
  · by_cases hps : s' = s
    · subst hps
      have : p ∉ w.pool s' := fun h => hne p (by rw [hi.pool _ _ h]; simp) rfl
      simp only [World.log, fset_same]
      rw [List.nodup_append]
      exact ⟨hi.pnd _, by simp, by rintro a ha b hb rfl; exact this (List.mem_singleton.1 hb ▸ ha)⟩
    · simp only [World.log, fset_ne _ _ hps]
      exact hi.pnd _
  · have := hi.free p' h
    rw [fset_ne _ _ (hne _ (by rw [this]; simp))]
    exact this

theorem wp_processOne (h : Below env d t n) {s : SId} {cm : MId} {p : PairId} {ev : Ev} {m : MId} {n' : Nat} (hn : n' ≤ n) {w : World} {g : State}
    {loc : PairId → Loc} {fs : List Frame} (hi : Inv env t w g loc) (hp : loc p = .held) (hv : w.pair p = some (ev, m))
    (hs : g.stack = .proc m ev :: fs) :
    Wp env d (Acc env t) t n' (processOne env s cm p ev m) w fun _ w' _ => ∃ g' loc', Inv env t w' g' loc' ∧ g'.stack = fs ∧
      ∀ p', loc p' = .held → p' ≠ p → loc' p' = .held ∧ w'.pair p' = w.pair p' := by
  have hb : Bal env d t n (do
      if !(← Prog.lift (.getEnded cm)) then
        execute env s ev m) := by
    refine Bal.bind' (.lift rfl) fun _ => ?_
    split
    · exact bal_execute h _ _ _
    · exact .ret _
  have tail : ∀ (r : Except Exc Unit) n1 w1, n1 ≤ n → After env t w g loc w1 →
      Wp env d (Acc env t) t n1 ((Prog.lift (.poolGive s p)).bind fun _ => ofExcept r) w1 fun _ w' _ => ∃ g' loc', Inv env t w' g' loc' ∧ g'.stack = fs ∧
        ∀ p', loc p' = .held → p' ≠ p → loc' p' = .held ∧ w'.pair p' = w.pair p' := by
    intro r n1 w1 hn1 h1
    obtain ⟨g1, loc1, hi1, hk1, hs1⟩ := h1
    obtain ⟨hp1, hv1⟩ := hk1 p hp
    have h2 := inv_give (t := t) (s := s) hi1 hp1 (hv1.trans hv) (hs1.trans hs)
    refine Wp.bind (.lift hi1.acc (fun n2 hn2 => ?_) fun _ => h2.acc)
    refine (Bal.ofExcept (n := n2) r n2 (Nat.le_refl _) _ _ _ h2).mono fun _ w4 _ _ _ h4 => ?_
    obtain ⟨g4, loc4, hi4, hk4, hs4⟩ := h4
    refine ⟨g4, loc4, hi4, hs4, fun p' hp' hne => ?_⟩
    obtain ⟨a1, a2⟩ := hk1 p' hp'
    obtain ⟨b1, b2⟩ := hk4 p' (by rw [fset_ne _ _ hne]; exact a1)
    refine ⟨b1, b2.trans ?_⟩
    rw [← a2]
    simp only [exec]
    split <;> rfl
  have hh : processOne env s cm p ev m = (do
      if !(← Prog.lift (.getEnded cm)) then
        execute env s ev m : Prog Unit).handle fun r => match r with
      | .ok () => (Prog.lift (.poolGive s p)).bind fun _ => ofExcept (.ok ())
      | .error x =>
        if x.isException then
          (callback (.flowEx m ev x) (.flowEx s ev m x)).handle fun r => (Prog.lift (.poolGive s p)).bind fun _ => ofExcept r
        else (Prog.lift (.poolGive s p)).bind fun _ => ofExcept (.error x) := by
    unfold processOne
    rw [bind_def, attempt_bind]
    congr 1
    funext r
    cases r with
    | ok r => rfl
    | error x =>
      simp only [bind_def, attempt_bind]
      rfl
  rw [hh]
  refine Wp.handle ((hb n' hn w g loc hi).mono fun n1 w1 r hn1 _ h1 => ?_)
  split
  · exact tail _ n1 w1 (by omega) h1
  · split
    · obtain ⟨g1, loc1, hi1, hk1, hs1⟩ := h1
      refine Wp.handle ((bal_callback h _ rfl n1 (by omega) w1 g1 loc1 hi1).mono fun n2 w2 r hn2 _ h2 => ?_)
      obtain ⟨g2, loc2, hi2, hk2, hs2⟩ := h2
      exact tail _ n2 w2 (by omega) ⟨g2, loc2, hi2, hk1.trans hk2, hs2.trans hs1⟩
    · exact tail _ n1 w1 (by omega) h1

/-- The head of the queue is taken. -/
theorem inv_poll {w : World} {g : State} {loc : PairId → Loc} {q : QId} {p : PairId} {ps : List PairId} {m' : MId} {ev : Ev} {fs : List Frame}
    (hi : Inv env t w g loc) (hq : w.queue q = p :: ps) (hs : g.stack = .api (.fire m' ev) true :: fs) (hm : queueOf env m' = q) :
    ∃ e m, w.pair p = some (e, m) ∧ loc p = .queue q ∧ (exec t (.poll q) w).1 = some p ∧ (exec t (.poll q) w).2.pair = w.pair ∧
      Inv env t (exec t (.poll q) w).2 { stack := .proc m e :: g.stack, waiting := fset g.waiting q (g.waiting q).tail } (fset loc p .held) := by
  have hw := hi.wait q
  rw [hq] at hw
  cases hx : g.waiting q with
  | nil => rw [hx] at hw; cases hw
  | cons x xs =>
    obtain ⟨m, e⟩ := x
    rw [hx] at hw
    simp only [List.map_cons, List.cons.injEq] at hw
    have hl := hi.queue q p (by rw [hq]; simp)
    have hnd := hi.qnd q
    rw [hq, List.nodup_cons] at hnd
    have he : exec t (.poll q) w = (some p, ({ w with queue := fset w.queue q ps }).log t (.taken q m e)) := by
      simp [exec, hq, hw.1]
    have hne : ∀ p', loc p' ≠ .queue q → p' ≠ p := fun p' h e => h (e ▸ hl)
    refine ⟨e, m, hw.1, hl, by rw [he], by rw [he]; rfl, ?_⟩
    rw [he]
    refine ⟨run_log (w := { w with queue := fset w.queue q ps }) hi.run (by simp [next, hs, hx, hm]), fun q' p' h => ?_, fun s' p' h => ?_,
      fun q' => ?_, hi.pnd, fun p' h => ?_, fun q' => ?_⟩
    · by_cases hqq : q' = q
      · subst hqq
        have h' : p' ∈ ps := by simpa [World.log] using h
        rw [fset_ne _ _ (show p' ≠ p from fun e => hnd.1 (by rw [← e]; exact h'))]
        exact hi.queue _ _ (by rw [hq]; simp [h'])
      · have h' : p' ∈ w.queue q' := by simpa [World.log, fset_ne _ _ hqq] using h
        have := hi.queue _ _ h'
        rw [fset_ne _ _ (hne _ (by rw [this]; simp [hqq]))]
        exact this
    · have := hi.pool _ _ h
      rw [fset_ne _ _ (hne _ (by rw [this]; simp))]
      exact this
    · by_cases hqq : q' = q
      · subst hqq; simp only [World.log, fset_same]; exact hnd.2
      · simp only [World.log, fset_ne _ _ hqq]; exact hi.qnd _
    · have := hi.free _ h
      rw [fset_ne _ _ (hne _ (by rw [this]; simp))]
      exact this
    · by_cases hqq : q' = q
      · subst hqq; simp only [World.log, fset_same, List.tail_cons]; exact hw.2
      · simp only [World.log, fset_ne _ _ hqq]; exact hi.wait _

theorem wp_invoke_drain (h : Below env d t n) {s : SId} {m : MId} {n' : Nat} (hn : n' ≤ n) {w : World} {g : State} {loc : PairId → Loc}
    (hi : Inv env t w g loc) (hs : ∃ m' ev fs, g.stack = .api (.fire m' ev) true :: fs ∧ queueOf env m' = (env.strat s).queue) :
    Wp env d (Acc env t) t n' (invoke (.drain s m)) w fun _ w' r => ∃ g' loc', Inv env t w' g' loc' ∧ Keeps w loc w' loc' ∧ g'.stack = g.stack ∧
      (r = .ok () → g'.waiting (env.strat s).queue = []) := by
  cases n' with
  | zero => exact ⟨hi.acc, trivial⟩
  | succ k =>
    refine ⟨hi.acc, ?_⟩
    refine Wp.handle (((h k (by omega)).2 s m k (Nat.le_refl _) w g loc hi hs).mono fun n1 w1 r _ ha h1 => ?_)
    cases r with
    | ok u => exact .ret ha h1
    | error x => exact .thr ha h1

theorem drainOk (h : Below env d t n) : DrainOk env d t n := by
  intro s m n' hn w g loc hi hs
  obtain ⟨m', ev, fs, hst, hm⟩ := hs
  unfold drain
  refine Wp.bind (.lift hi.acc (fun n1 hn1 => ?_) fun _ => hi.acc)
  have hb : (exec t (.qIsEmpty (env.strat s).queue) w).1 = (w.queue (env.strat s).queue).isEmpty := rfl
  have hw : (exec t (.qIsEmpty (env.strat s).queue) w).2 = w := rfl
  rw [hw]
  dsimp only
  generalize (exec t (.qIsEmpty (env.strat s).queue) w).1 = b at hb
  cases b with
  | true =>
    have hq := List.isEmpty_iff.1 hb.symm
    refine .ret hi.acc ⟨g, loc, hi, .refl, rfl, fun _ => ?_⟩
    have := hi.wait (env.strat s).queue
    rw [hq] at this
    simpa using this.symm
  | false =>
    obtain ⟨p, ps, hq⟩ := List.exists_cons_of_ne_nil (l := w.queue (env.strat s).queue) fun h => by rw [h] at hb; cases hb
    obtain ⟨e, m1, hp, hl, h1, h2, h3⟩ := inv_poll (t := t) hi hq hst hm
    refine Wp.bind (.lift hi.acc (fun n2 hn2 => ?_) fun _ => h3.acc)
    rw [h1]
    refine Wp.bind (.ret h3.acc ?_)
    refine Wp.bind (.lift h3.acc (fun n3 hn3 => ?_) fun _ => h3.acc)
    have h4 : (exec t (.getPair p) (exec t (.poll (env.strat s).queue) w).2).1 = some (e, m1) := by
      show (exec t (.poll (env.strat s).queue) w).2.pair p = _
      rw [h2, hp]
    rw [h4]
    refine Wp.bind (.ret h3.acc ?_)
    refine Wp.bind ((wp_processOne h (s := s) (cm := m) (p := p) (by omega) h3 (fset_same ..) (by
      show (exec t (.poll (env.strat s).queue) w).2.pair p = _
      rw [h2, hp]) rfl).mono fun n4 w4 r hn4 ha h5 => ?_)
    obtain ⟨g4, loc4, hi4, hs4, hk4⟩ := h5
    have hk : Keeps w loc w4 loc4 := by
      intro p' hp'
      have hne : p' ≠ p := fun e => by rw [e, hl] at hp'; cases hp'
      obtain ⟨a, b⟩ := hk4 p' (by rw [fset_ne _ _ hne]; exact hp') hne
      exact ⟨a, b.trans (by rw [h2])⟩
    cases r with
    | error x => exact ⟨g4, loc4, hi4, hk, hs4, by intro h; cases h⟩
    | ok u =>
      refine (wp_invoke_drain h (by omega) hi4 ⟨m', ev, fs, hs4.trans hst, hm⟩).mono fun n5 w5 r _ _ h6 => ?_
      obtain ⟨g5, loc5, hi5, hk5, hs5, hr⟩ := h6
      exact ⟨g5, loc5, hi5, hk.trans hk5, hs5.trans hs4, hr⟩

/-! ### `fire` -/

/-- A pair is taken from the pool, or made. -/
theorem inv_poolTake {w : World} {g : State} {loc : PairId → Loc} {s : SId} (hi : Inv env t w g loc) :
    loc (exec t (.poolTake s) w).1 ≠ .held ∧ (∀ q, loc (exec t (.poolTake s) w).1 ≠ .queue q) ∧ (exec t (.poolTake s) w).2.pair = w.pair ∧
      Inv env t (exec t (.poolTake s) w).2 g (fset loc (exec t (.poolTake s) w).1 .held) := by
  cases hp : w.pool s with
  | nil =>
    have he : exec t (.poolTake s) w = (w.nextPair, { w with nextPair := w.nextPair + 1 }) := by simp [exec, hp]
    have hl := hi.free w.nextPair (Nat.le_refl _)
    have hne : ∀ p', loc p' ≠ .free → p' ≠ w.nextPair := fun p' h e => h (e ▸ hl)
    rw [he]
    refine ⟨by rw [hl]; simp, by rw [hl]; simp, rfl, hi.run, fun q p' h => ?_, fun s' p' h => ?_, hi.qnd, hi.pnd, fun p' h => ?_, hi.wait⟩
    · have := hi.queue _ _ h
      rw [fset_ne _ _ (hne _ (by rw [this]; simp))]; exact this
    · have := hi.pool _ _ h
      rw [fset_ne _ _ (hne _ (by rw [this]; simp))]; exact this
    · have h' : w.nextPair + 1 ≤ p' := h
      rw [fset_ne _ _ (show p' ≠ w.nextPair by omega)]; exact hi.free _ (by omega)
  | cons p ps =>
    have he : exec t (.poolTake s) w = (p, { w with pool := fset w.pool s ps }) := by simp [exec, hp]
    have hl := hi.pool s p (by rw [hp]; simp)
    have hnd := hi.pnd s
    rw [hp, List.nodup_cons] at hnd
    have hne : ∀ p', loc p' ≠ .pool s → p' ≠ p := fun p' h e => h (e ▸ hl)
    rw [he]
    refine ⟨by rw [hl]; simp, by rw [hl]; simp, rfl, hi.run, fun q p' h => ?_, fun s' p' h => ?_, hi.qnd, fun s' => ?_, fun p' h => ?_, hi.wait⟩
    · have := hi.queue _ _ h
      rw [fset_ne _ _ (hne _ (by rw [this]; simp))]; exact this
    · by_cases hs : s' = s
      · subst hs
        have h' : p' ∈ ps := by simpa using h
        rw [fset_ne _ _ (show p' ≠ p from fun e => hnd.1 (by rw [← e]; exact h'))]
        exact hi.pool _ _ (by rw [hp]; simp [h'])
      · have h' : p' ∈ w.pool s' := by simpa [fset_ne _ _ hs] using h
        have := hi.pool _ _ h'
        rw [fset_ne _ _ (hne _ (by rw [this]; simp [hs]))]; exact this
    · by_cases hs : s' = s
      · subst hs; simp only [fset_same]; exact hnd.2
      · simp only [fset_ne _ _ hs]; exact hi.pnd _
    · have := hi.free _ h
      rw [fset_ne _ _ (hne _ (by rw [this]; simp))]; exact this

theorem inv_setPair {w : World} {g : State} {loc : PairId → Loc} {p : PairId} {e : Ev} {m : MId} (hi : Inv env t w g loc) (hp : loc p = .held) :
    Inv env t { w with pair := fset w.pair p (some (e, m)) } g loc :=
  ⟨hi.run, hi.queue, hi.pool, hi.qnd, hi.pnd, hi.free, fun q => by
    rw [← hi.wait q]
    refine List.map_congr_left fun p' h => ?_
    exact fset_ne _ _ (show p' ≠ p from fun e => by have := hi.queue q p' h; rw [e, hp] at this; cases this)⟩

theorem inv_offer {w : World} {g : State} {loc : PairId → Loc} {p : PairId} {e ev : Ev} {m : MId} {q : QId} {fs : List Frame}
    (hi : Inv env t w g loc) (hp : loc p = .held) (hv : w.pair p = some (e, m)) (hs : g.stack = .api (.fire m ev) false :: fs)
    (hq : queueOf env m = q) (he : Sent ev e) :
    Inv env t (exec t (.offer q p) w).2 { stack := .api (.fire m ev) true :: fs, waiting := fset g.waiting q (g.waiting q ++ [(m, e)]) }
      (fset loc p (.queue q)) := by
  have hw : (exec t (.offer q p) w).2 = ({ w with queue := fset w.queue q (w.queue q ++ [p]) }).log t (.accepted q m e) := by
    simp [exec, hv]
  rw [hw]
  have hne : ∀ p', loc p' ≠ .held → p' ≠ p := fun p' h e => h (e ▸ hp)
  refine ⟨run_log (w := { w with queue := fset w.queue q (w.queue q ++ [p]) }) hi.run (by simp [next, hs, hq, he]), fun q' p' h => ?_,
    fun s' p' h => ?_, fun q' => ?_, hi.pnd, fun p' h => ?_, fun q' => ?_⟩
  · by_cases hqq : q' = q
    · subst hqq
      have h' : p' ∈ w.queue q' ++ [p] := by simpa [World.log] using h
      rcases List.mem_append.1 h' with h' | h'
      · have := hi.queue _ p' h'
        rw [fset_ne _ _ (hne _ (by rw [this]; simp))]; exact this
      · rw [List.mem_singleton.1 h', fset_same]
    · have h' : p' ∈ w.queue q' := by simpa [World.log, fset_ne _ _ hqq] using h
      have := hi.queue _ p' h'
      rw [fset_ne _ _ (hne _ (by rw [this]; simp))]; exact this
  · have := hi.pool _ p' h
    rw [fset_ne _ _ (hne _ (by rw [this]; simp))]; exact this
  · by_cases hqq : q' = q
    · subst hqq
      have : p ∉ w.queue q' := fun h => hne p (by rw [hi.queue _ _ h]; simp) rfl
      simp only [World.log, fset_same]
      rw [List.nodup_append]
      exact ⟨hi.qnd _, by simp, by rintro a ha b hb rfl; exact this (List.mem_singleton.1 hb ▸ ha)⟩
    · simp only [World.log, fset_ne _ _ hqq]; exact hi.qnd _
  · have := hi.free p' h
    rw [fset_ne _ _ (hne _ (by rw [this]; simp))]; exact this
  · by_cases hqq : q' = q
    · subst hqq; simp only [World.log, fset_same, List.map_append, List.map_cons, List.map_nil, hv, hi.wait]
    · simp only [World.log, fset_ne _ _ hqq]; exact hi.wait _

/-- What holds when `fire` (without its entry and exit in the history) has come to its end. -/
def Fired (env : Env) (t : Tid) (w : World) (loc : PairId → Loc) (m : MId) (ev : Ev) (fs : List Frame) (w' : World) (r : Except Exc Unit) : Prop :=
  ∃ g' loc' acc, Inv env t w' g' loc' ∧ Keeps w loc w' loc' ∧ g'.stack = .api (.fire m ev) acc :: fs ∧
    (acc = true → r = .ok () → g'.waiting (queueOf env m) = [])

theorem fired_of_after {w w' : World} {g : State} {loc : PairId → Loc} {m : MId} {ev : Ev} {fs : List Frame} {r : Except Exc Unit}
    (h : After env t w g loc w') (hs : g.stack = .api (.fire m ev) false :: fs) : Fired env t w loc m ev fs w' r := by
  obtain ⟨g', loc', hi, hk, hs'⟩ := h
  exact ⟨g', loc', false, hi, hk, hs'.trans hs, by intro h; cases h⟩

theorem wp_put (h : Below env d t n) {m : MId} {ev e : Ev} {p : PairId} {n' : Nat} (hn : n' ≤ n)
    {w : World} {g : State} {loc : PairId → Loc} {fs : List Frame} (hi : Inv env t w g loc) (hp : loc p = .held) (he : Sent ev e)
    (hs : g.stack = .api (.fire m ev) false :: fs) :
    Wp env d (Acc env t) t n' ((Prog.lift (.setPair p e m)).bind fun _ => (Prog.lift (.offer (queueOf env m) p)).bind fun _ =>
      invoke (.drain (env.mach m).strat m)) w fun _ w' r =>
        ∃ g' loc' acc, Inv env t w' g' loc' ∧ (∀ p', loc p' = .held → p' ≠ p → loc' p' = .held ∧ w'.pair p' = w.pair p') ∧
          g'.stack = .api (.fire m ev) acc :: fs ∧ (acc = true → r = .ok () → g'.waiting (queueOf env m) = []) := by
  have h1 : Inv env t (exec t (.setPair p e m) w).2 g loc := inv_setPair hi hp
  refine Wp.bind (.lift hi.acc (fun n1 hn1 => ?_) fun _ => h1.acc)
  have hv : (exec t (.setPair p e m) w).2.pair p = some (e, m) := by simp [exec]
  have h2 := inv_offer (t := t) h1 hp hv hs rfl he
  refine Wp.bind (.lift h1.acc (fun n2 hn2 => ?_) fun _ => h2.acc)
  refine (wp_invoke_drain h (by omega) h2 ⟨m, ev, fs, rfl, rfl⟩).mono fun n3 w3 r _ _ h3 => ?_
  obtain ⟨g3, loc3, hi3, hk3, hs3, hr3⟩ := h3
  refine ⟨g3, loc3, true, hi3, fun p' hp' hne => ?_, hs3, fun _ => hr3⟩
  obtain ⟨a, b⟩ := hk3 p' (by rw [fset_ne _ _ hne]; exact hp')
  refine ⟨a, b.trans ?_⟩
  have : (exec t (.offer (queueOf env m) p) (exec t (.setPair p e m) w).2).2.pair p' = (exec t (.setPair p e m) w).2.pair p' := by
    simp only [exec]
    split <;> rfl
  rw [this]
  exact fset_ne _ _ hne

theorem wp_processEventDefault (h : Below env d t n) (hd : ∀ s, d (env.strat s).exec = true) {m : MId} {ev : Ev} {n' : Nat} (hn : n' ≤ n)
    {w : World} {g : State} {loc : PairId → Loc} {fs : List Frame} (hi : Inv env t w g loc) (hs : g.stack = .api (.fire m ev) false :: fs) :
    Wp env d (Acc env t) t n' (processEventDefault env d (env.mach m).strat ev m) w fun _ w' r => Fired env t w loc m ev fs w' r := by
  unfold processEventDefault
  refine Wp.bind (.lift hi.acc (fun n1 hn1 => ?_) fun _ => hi.acc)
  show Wp env d (Acc env t) t n1 _ w _
  dsimp only
  split
  · exact (bal_callback h _ rfl n1 (by omega) w g loc hi).mono fun _ _ _ _ _ h1 => fired_of_after h1 hs
  · obtain ⟨hl, hl', h2, h3⟩ := inv_poolTake (t := t) (s := (env.mach m).strat) hi
    refine Wp.bind (.lift hi.acc (fun n2 hn2 => ?_) fun _ => h3.acc)
    dsimp only
    generalize hp : (exec t (.poolTake (env.mach m).strat) w).1 = p at h3 hl hl'
    generalize hw : (exec t (.poolTake (env.mach m).strat) w).2 = w2 at h2 h3
    have fin : ∀ w3 : World, w3.pair = w2.pair → ∀ (w' : World) (r : Except Exc Unit), (∃ g' loc' acc, Inv env t w' g' loc' ∧
        (∀ p', fset loc p .held p' = .held → p' ≠ p → loc' p' = .held ∧ w'.pair p' = w3.pair p') ∧
        g'.stack = .api (.fire m ev) acc :: fs ∧ (acc = true → r = .ok () → g'.waiting (queueOf env m) = [])) →
        Fired env t w loc m ev fs w' r := by
      rintro w3 hw3 w' r ⟨g', loc', acc, a, b, c⟩
      refine ⟨g', loc', acc, a, fun p' hp' => ?_, c⟩
      have hne : p' ≠ p := fun e => hl (by rw [← e]; exact hp')
      obtain ⟨x, y⟩ := b p' (by rw [fset_ne _ _ hne]; exact hp') hne
      exact ⟨x, by rw [y, hw3, h2]⟩
    refine Wp.bind (.lift h3.acc (fun n3 hn3 => ?_) fun _ => h3.acc)
    show Wp env d (Acc env t) t n3 _ w2 _
    simp only [hd, if_true]
    split
    · have h4 := inv_quiet (o := .newCopy ev) (t := t) rfl h3
      refine Wp.bind (.lift h3.acc (fun n4 hn4 => ?_) fun _ => h4.1.acc)
      refine (wp_put h (by omega) h4.1 (fset_same ..) ?_ hs).mono fun _ w' r _ _ h5 => fin _ h4.2 w' r h5
      exact .inr ⟨rfl, _, rfl⟩
    · exact (wp_put h (by omega) h3 (fset_same ..) (.inl rfl) hs).mono fun _ w' r _ _ h5 => fin _ rfl w' r h5

theorem bal_anyEqual (ev : Ev) : ∀ ps, Bal env d t n (anyEqual ev ps)
  | [] => .ret _
  | p :: ps => by
    refine Bal.bind' (.lift rfl) fun _ => Bal.bind' (.deref _) fun x => ?_
    obtain ⟨en, m⟩ := x
    dsimp only
    split
    · exact .ret _
    · exact bal_anyEqual ev ps

theorem wp_processEvent (h : Below env d t n) (hd : ∀ s, d (env.strat s).exec = true) {m : MId} {ev : Ev} {n' : Nat} (hn : n' ≤ n)
    {w : World} {g : State} {loc : PairId → Loc} {fs : List Frame} (hi : Inv env t w g loc) (hs : g.stack = .api (.fire m ev) false :: fs) :
    Wp env d (Acc env t) t n' (processEvent env d (env.mach m).strat ev m) w fun _ w' r => Fired env t w loc m ev fs w' r := by
  unfold processEvent
  split
  · refine Wp.bind (.lift hi.acc (fun n1 hn1 => ?_) fun _ => hi.acc)
    refine Wp.bind ((bal_anyEqual (n := n) ev _ n1 (by omega) w g loc hi).mono fun n2 w2 r hn2 _ h2 => ?_)
    cases r with
    | error x => exact fired_of_after h2 hs
    | ok b =>
      obtain ⟨g2, loc2, hi2, hk2, hs2⟩ := h2
      dsimp only
      split
      · have h3 : Inv env t (w2.log t (.dropped m ev)) g2 loc2 := inv_log hi2 rfl rfl
        exact .lift hi2.acc (fun _ _ => fired_of_after ⟨g2, loc2, h3, hk2, hs2⟩ hs) fun _ => h3.acc
      · refine (wp_processEventDefault h hd (by omega) hi2 (hs2.trans hs)).mono fun _ _ _ _ _ h4 => ?_
        obtain ⟨g4, loc4, acc, a, b, c⟩ := h4
        exact ⟨g4, loc4, acc, a, hk2.trans b, c⟩
  · exact wp_processEventDefault h hd hn hi hs

theorem wp_fire (h : Below env d t n) (hd : ∀ s, d (env.strat s).exec = true) {m : MId} {ev : Ev} {n' : Nat} (hn : n' ≤ n)
    {w : World} {g : State} {loc : PairId → Loc} {fs : List Frame} (hi : Inv env t w g loc) (hs : g.stack = .api (.fire m ev) false :: fs) :
    Wp env d (Acc env t) t n' (fire env d m ev) w fun _ w' r => Fired env t w loc m ev fs w' r := by
  unfold fire
  refine Wp.bind (.lift hi.acc (fun n1 hn1 => ?_) fun _ => hi.acc)
  show Wp env d (Acc env t) t n1 _ w _
  dsimp only
  split
  · exact (bal_callback h _ rfl n1 (by omega) w g loc hi).mono fun _ _ _ _ _ h1 => fired_of_after h1 hs
  · refine Wp.bind (.lift hi.acc (fun n2 hn2 => ?_) fun _ => hi.acc)
    show Wp env d (Acc env t) t n2 _ w _
    have key : ∀ (b : Bool) n3, n3 ≤ n → Wp env d (Acc env t) t n3 (if b = true then
        callback (.flowAfter m ev) (.flowAfter (env.mach m).strat ev m) else processEvent env d (env.mach m).strat ev m) w
        fun _ w' r => Fired env t w loc m ev fs w' r := by
      intro b n3 hn3
      split
      · exact (bal_callback h _ rfl n3 hn3 w g loc hi).mono fun _ _ _ _ _ h1 => fired_of_after h1 hs
      · exact wp_processEvent h hd hn3 hi hs
    split
    · exact Wp.bind (.lift hi.acc (fun n3 hn3 => key _ n3 (by omega)) fun _ => hi.acc)
    · exact Wp.bind (.ret hi.acc (key _ n2 (by omega)))

theorem bal_fire (h : Below env d t n) (hd : ∀ s, d (env.strat s).exec = true) (m : MId) (ev : Ev) :
    Bal env d t n (api (.fire m ev) (fire env d m ev)) := by
  intro n' hn w g loc hi
  have h1 : Inv env t (w.log t (.enter (.fire m ev))) { g with stack := .api (.fire m ev) false :: g.stack } loc := inv_log hi rfl rfl
  unfold api
  refine Wp.bind (.lift hi.acc (fun n1 hn1 => ?_) fun _ => h1.acc)
  show Wp env d (Acc env t) t n1 ((fire env d m ev).attempt.bind _) (w.log t (.enter (.fire m ev))) _
  rw [attempt_bind]
  refine Wp.handle ((wp_fire h hd (by omega) h1 rfl).mono fun n2 w2 r hn2 _ h2 => ?_)
  obtain ⟨g2, loc2, acc, hi2, hk2, hs2, hr2⟩ := h2
  have h3 : Inv env t (w2.log t (.leave (.fire m ev) (outcome r))) { g2 with stack := g.stack } loc2 := by
    refine inv_log hi2 ?_ rfl
    simp only [next, hs2]
    rw [if_pos]
    refine ⟨trivial, fun ha hr => ?_⟩
    have : r = .ok () := by
      cases r with
      | ok u => rfl
      | error x => cases hr
    simp only [State.drained, List.isEmpty_iff]
    exact hr2 ha this
  refine Wp.bind (.lift hi2.acc (fun n3 hn3 => ?_) fun _ => h3.acc)
  exact .ret h3.acc ⟨_, loc2, h3, hk2, rfl⟩

theorem bal_uprog (h : Below env d t n) (hd : ∀ s, d (env.strat s).exec = true) (u : UCall) : Bal env d t n (uprog env d u) := by
  cases u <;> first
    | exact bal_fire h hd _ _
    | exact bal_api (bal_update _ _ _)
    | exact bal_api (bal_start h _)
    | exact bal_api (bal_startInState _ _)
    | exact (bal_invoke h rfl).attempt
    | exact .lift rfl
    | skip
  intro n' hn w g loc hi
  rename_i x
  have h1 : Inv env t (w.log t (.user x)) g loc := inv_log hi rfl rfl
  exact .lift hi.acc (fun _ _ => ⟨g, loc, h1, .refl, rfl⟩) fun _ => h1.acc

theorem bal_denote (h : Below env d t n) (hd : ∀ s, d (env.strat s).exec = true) (u : UProg) : Bal env d t n (denote env d u) := by
  induction u with
  | done => exact .ret _
  | thr x => exact .thr _
  | call u k ih => exact (bal_uprog h hd u).bind fun r => ih r

theorem userOk (h : Below env d t n) (hd : ∀ s, d (env.strat s).exec = true) : UserOk env d t n := by
  intro f hf
  cases f <;> first
    | (cases hf; done)
    | exact bal_denote h hd _
    | (simp only [body]
       split
       · exact bal_denote h hd _
       · exact .ret _)

theorem below (env : Env) {d : EId → Bool} (t : Tid) (hd : ∀ s, d (env.strat s).exec = true) (n : Nat) : Below env d t n := by
  induction n with
  | zero => intro k hk; omega
  | succ n ih =>
    intro k hk
    have := ih.le (n' := k) (by omega)
    exact ⟨userOk this hd, drainOk this⟩

end Verif.Direct
