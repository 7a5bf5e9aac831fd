import Verif.Model.Reuse
import Mathlib.Data.List.Nodup
/-
Two executions that differ only in which pairs are used: the programs of the threads are equal up to the names of pairs, which they treat as things that are taken, filled,
put into a queue or back into the pool, and then forgotten.
-/

namespace Verif.Reuse
open Prog

/-- A pair of the one execution, the pair of the other one in its place, and whether they have been filled. -/
abbrev Ent := PairId × PairId × Bool

/-- Operations that have nothing to do with particular pairs. -/
def free : Op → Bool
  | .qSnap _ | .offer .. | .poll _ | .poolTake _ | .poolGive .. | .setPair .. | .getPair _ => false
  | _ => true

variable {α β γ δ : Type}

/-- The two programs do the same, up to the names of pairs, if they hold the pairs `H`. -/
inductive Lin (R : List Ent → Except Exc α → Except Exc β → Prop) : List Ent → Prog α → Prog β → Prop
  | ret {H H' a b} : R H' (.ok a) (.ok b) → H'.Sublist H → Lin R H (.ret a) (.ret b)
  | thr {H H' x} : R H' (.error x) (.error x) → H'.Sublist H → Lin R H (.thr x) (.thr x)
  | call {H c k k'} : (∀ r, Lin R H (k r) (k' r)) → Lin R H (.call c k) (.call c k')
  | op {H o k k'} : free o = true → (∀ r, Lin R H (k r) (k' r)) → Lin R H (.op o k) (.op o k')
  | take {H s k k'} : (∀ p p', Lin R ((p, p', false) :: H) (k p) (k' p')) → Lin R H (.op (.poolTake s) k) (.op (.poolTake s) k')
  | set {H p p' b ev m k k'} : (p, p', b) ∈ H → Lin R ((p, p', true) :: H.erase (p, p', b)) (k ()) (k' ()) →
      Lin R H (.op (.setPair p ev m) k) (.op (.setPair p' ev m) k')
  | get {H p p' k k'} : (p, p', true) ∈ H → (∀ r, Lin R H (k r) (k' r)) → Lin R H (.op (.getPair p) k) (.op (.getPair p') k')
  | offer {H q p p' k k'} : (p, p', true) ∈ H → Lin R (H.erase (p, p', true)) (k ()) (k' ()) → Lin R H (.op (.offer q p) k) (.op (.offer q p') k')
  | give {H s p p' k k'} : (p, p', true) ∈ H → Lin R (H.erase (p, p', true)) (k ()) (k' ()) →
      Lin R H (.op (.poolGive s p) k) (.op (.poolGive s p') k')
  | poll {H q k k'} : Lin R H (k none) (k' none) → (∀ p p', Lin R ((p, p', true) :: H) (k (some p)) (k' (some p'))) →
      Lin R H (.op (.poll q) k) (.op (.poll q) k')

theorem Lin.weak {R : List Ent → Except Exc α → Except Exc β → Prop} {H H' : List Ent} {p : Prog α} {p' : Prog β} (h : Lin R H p p') (hs : H.Sublist H') :
    Lin R H' p p' := by
  induction h generalizing H' with
  | ret h h' => exact .ret h (h'.trans hs)
  | thr h h' => exact .thr h (h'.trans hs)
  | call _ ih => exact .call fun r => ih r hs
  | op h _ ih => exact .op h fun r => ih r hs
  | take _ ih => exact .take fun p p' => ih p p' (hs.cons_cons _)
  | set h _ ih => exact .set (hs.subset h) (ih ((hs.erase _).cons_cons _))
  | get h _ ih => exact .get (hs.subset h) fun r => ih r hs
  | offer h _ ih => exact .offer (hs.subset h) (ih (hs.erase _))
  | give h _ ih => exact .give (hs.subset h) (ih (hs.erase _))
  | poll _ _ ih1 ih2 => exact .poll (ih1 hs) fun p p' => ih2 p p' (hs.cons_cons _)

theorem Lin.mono {R S : List Ent → Except Exc α → Except Exc β → Prop} {H : List Ent} {p : Prog α} {p' : Prog β} (h : Lin R H p p')
    (hRS : ∀ H r r', R H r r' → S H r r') : Lin S H p p' := by
  induction h with
  | ret h h' => exact .ret (hRS _ _ _ h) h'
  | thr h h' => exact .thr (hRS _ _ _ h) h'
  | call _ ih => exact .call ih
  | op h _ ih => exact .op h ih
  | take _ ih => exact .take ih
  | set h _ ih => exact .set h ih
  | get h _ ih => exact .get h ih
  | offer h _ ih => exact .offer h ih
  | give h _ ih => exact .give h ih
  | poll _ _ ih1 ih2 => exact .poll ih1 ih2

theorem Lin.handle {R : List Ent → Except Exc α → Except Exc β → Prop} {S : List Ent → Except Exc γ → Except Exc δ → Prop} {H : List Ent} {p : Prog α}
    {p' : Prog β} {f : Except Exc α → Prog γ} {f' : Except Exc β → Prog δ} (h : Lin R H p p') (hf : ∀ H r r', R H r r' → Lin S H (f r) (f' r')) :
    Lin S H (p.handle f) (p'.handle f') := by
  induction h with
  | ret h h' => exact (hf _ _ _ h).weak h'
  | thr h h' => exact (hf _ _ _ h).weak h'
  | call _ ih => exact .call ih
  | op h _ ih => exact .op h ih
  | take _ ih => exact .take ih
  | set h _ ih => exact .set h ih
  | get h _ ih => exact .get h ih
  | offer h _ ih => exact .offer h ih
  | give h _ ih => exact .give h ih
  | poll _ _ ih1 ih2 => exact .poll ih1 ih2

/-- Same outcome, and the pairs held before are still held. -/
def Same (H : List Ent) : List Ent → Except Exc α → Except Exc α → Prop := fun H' r r' => H' = H ∧ r = r'

theorem Lin.bind {R : List Ent → Except Exc γ → Except Exc δ → Prop} {H : List Ent} {p p' : Prog α} {f : α → Prog γ} {f' : α → Prog δ}
    (h : Lin (Same H) H p p') (hf : ∀ a, Lin R H (f a) (f' a)) (he : ∀ x, R H (.error x) (.error x)) : Lin R H (p >>= f) (p' >>= f') := by
  refine h.handle ?_
  rintro _ r _ ⟨rfl, rfl⟩
  cases r with
  | ok a => exact hf a
  | error x => exact .thr (he x) (List.Sublist.refl _)

theorem Lin.attempt {H : List Ent} {p p' : Prog α} (h : Lin (Same H) H p p') : Lin (Same H) H p.attempt p'.attempt := by
  refine h.handle ?_
  rintro _ r _ ⟨rfl, rfl⟩
  exact .ret ⟨rfl, rfl⟩ (List.Sublist.refl _)

theorem lin_ret {H : List Ent} (a : α) : Lin (Same H) H (.ret a) (.ret a) := .ret ⟨rfl, rfl⟩ (List.Sublist.refl _)

theorem lin_thr {H : List Ent} (x : Exc) : Lin (α := α) (Same H) H (.thr x) (.thr x) := .thr ⟨rfl, rfl⟩ (List.Sublist.refl _)

theorem lin_ofExcept {H : List Ent} (r : Except Exc α) : Lin (Same H) H (ofExcept r) (ofExcept r) := by
  cases r
  · exact lin_thr _
  · exact lin_ret _

/-! ### Programs that have nothing to do with pairs -/

def Free : Prog α → Prop
  | .ret _ | .thr _ => True
  | .op o k => free o = true ∧ ∀ r, Free (k r)
  | .call _ k => ∀ r, Free (k r)

theorem Free.lin {H : List Ent} : ∀ {p : Prog α}, Free p → Lin (Same H) H p p
  | .ret a, _ => lin_ret a
  | .thr x, _ => lin_thr x
  | .op _ _, h => .op h.1 fun r => (h.2 r).lin
  | .call _ _, h => .call fun r => (h r).lin

theorem Free.handle {f : Except Exc α → Prog β} (hf : ∀ r, Free (f r)) : ∀ {p : Prog α}, Free p → Free (p.handle f)
  | .ret _, _ => hf _
  | .thr _, _ => hf _
  | .op _ _, h => ⟨h.1, fun r => (h.2 r).handle hf⟩
  | .call _ _, h => fun r => (h r).handle hf

theorem Free.bind {p : Prog α} {f : α → Prog β} (h : Free p) (hf : ∀ a, Free (f a)) : Free (p >>= f) :=
  h.handle fun r => by cases r with
    | ok a => exact hf a
    | error x => trivial

theorem Free.attempt {p : Prog α} (h : Free p) : Free p.attempt := Free.handle (f := Prog.ret) (fun _ => trivial) h

theorem free_lift {o : Op} (h : free o = true) : Free (lift o) := ⟨h, fun _ => trivial⟩

theorem free_ofExcept (r : Except Exc α) : Free (ofExcept r) := by cases r <;> trivial

theorem free_deref (r : Option α) : Free (deref r) := by cases r <;> trivial

theorem free_invoke (c : Call) : Free (invoke c) := fun r => free_ofExcept r

variable (env : Env)

theorem free_userCall (c : Cb) (k : Call) : Free (userCall c k) :=
  (free_invoke k).attempt.bind fun r => (free_lift rfl).bind fun _ => free_ofExcept r

theorem free_callback (c : Cb) (k : Call) : Free (callback c k) := (free_lift rfl).bind fun _ => free_userCall c k

theorem free_notify (m : MId) (b : Bool) (f : Option St) (ev : Ev) (t : Option St) : Free (notifyListener env m b f ev t) := by
  refine (free_lift rfl).bind fun l => ?_
  split
  · refine (free_lift rfl).bind fun l => ?_
    split
    · trivial
    · exact free_userCall _ _
  · trivial

theorem free_runActs (m : MId) (k : Kind) (oid : Nat) (ev : Ev) (n i : Nat) : Free (runActs m k oid ev i n) := by
  induction n generalizing i with
  | zero => trivial
  | succ n ih => exact (free_callback _ _).bind fun _ => ih _

theorem free_update (m : MId) (s : St) (b : Bool) : Free (updateCurrentState env m s b) := by
  refine (free_lift rfl).bind fun l => ?_
  split
  · exact free_lift rfl
  · trivial

theorem free_execute (s : SId) (ev : Ev) (m : MId) : Free (execute env s ev m) := by
  refine (free_lift rfl).bind fun _ => (free_deref _).bind fun row => ?_
  split
  · exact free_callback _ _
  · split
    · exact (free_lift rfl).bind fun _ => (free_notify env _ _ _ _ _).bind fun _ => (free_lift rfl).bind fun _ => free_notify env _ _ _ _ _
    · refine (free_lift rfl).bind fun _ => (free_notify env _ _ _ _ _).bind fun _ => (free_lift rfl).bind fun _ => (free_deref _).bind fun _ =>
        (free_runActs _ _ _ _ _ _).bind fun _ => (free_update env _ _ _).bind fun _ => (free_lift rfl).bind fun _ => (free_deref _).bind fun _ =>
        (free_runActs _ _ _ _ _ _).bind fun _ => (free_notify env _ _ _ _ _).bind fun _ => ?_
      split
      · exact free_update env _ _ _
      · trivial

theorem free_start (m : MId) : Free (start env m) := by
  unfold start
  dsimp only
  split
  · trivial
  · trivial
  · refine (free_lift rfl).bind fun b => ?_
    split
    · exact (free_lift rfl).bind fun _ => (free_notify env _ _ _ _ _).bind fun _ => (free_runActs _ _ _ _ _ _).bind fun _ =>
        (free_notify env _ _ _ _ _).bind fun _ => free_lift rfl
    · trivial

theorem free_startIn (m : MId) (s : Option St) : Free (startInState env m s) := by
  unfold startInState
  split
  · refine (free_lift rfl).bind fun b => ?_
    split
    · exact (free_lift rfl).bind fun _ => free_lift rfl
    · trivial
  · trivial

/-! ### The other ones -/

theorem lin_processOne {H : List Ent} (s : SId) (cm : MId) {p p' : PairId} (ev : Ev) (m : MId) :
    Lin (Same H) ((p, p', true) :: H) (processOne env s cm p ev m) (processOne env s cm p' ev m) := by
  have h1 : Free ((do if !(← lift (.getEnded cm)) then execute env s ev m : Prog Unit).attempt) := by
    refine ((free_lift rfl).bind fun b => ?_).attempt
    split
    · exact free_execute env _ _ _
    · trivial
  refine h1.lin.handle ?_
  rintro _ r _ ⟨rfl, rfl⟩
  cases r with
  | error x => exact .thr ⟨rfl, rfl⟩ (List.sublist_cons_self _ _)
  | ok r =>
    have key : ∀ r : Except Exc Unit, Lin (Same H) ((p, p', true) :: H) (lift (.poolGive s p) >>= fun _ => Prog.ofExcept r)
        (lift (.poolGive s p') >>= fun _ => Prog.ofExcept r) := by
      intro r
      refine .give List.mem_cons_self ?_
      rw [List.erase_cons_head]
      exact lin_ofExcept r
    rcases r with x | ⟨⟩
    · dsimp only
      split
      · refine (free_callback _ _).attempt.lin.handle ?_
        rintro _ r _ ⟨rfl, rfl⟩
        cases r with
        | error x => exact .thr ⟨rfl, rfl⟩ (List.sublist_cons_self _ _)
        | ok r => exact key r
      · exact key _
    · exact key _

theorem lin_drain {H : List Ent} (s : SId) (cm : MId) : Lin (Same H) H (drain env s cm) (drain env s cm) := by
  refine (free_lift (o := .qIsEmpty _) rfl).lin.bind (fun b => ?_) fun _ => ⟨rfl, rfl⟩
  dsimp only
  split
  · exact lin_ret _
  · refine .poll (lin_thr _) fun p p' => .get List.mem_cons_self fun r => ?_
    rcases r with _ | ⟨ev, m⟩
    · exact .thr ⟨rfl, rfl⟩ (List.sublist_cons_self _ _)
    · refine (lin_processOne env s cm ev m).handle ?_
      rintro _ r _ ⟨rfl, rfl⟩
      cases r with
      | error x => exact lin_thr _
      | ok a => exact (free_invoke _).lin

theorem lin_processEvent {H : List Ent} {s : SId} (hd : (env.strat s).dropDup = false) (ev : Ev) (m : MId) :
    Lin (Same H) H (processEvent env s ev m) (processEvent env s ev m) := by
  unfold processEvent
  rw [hd]
  refine (free_lift (o := .qSize _) rfl).lin.bind (fun n => ?_) fun _ => ⟨rfl, rfl⟩
  dsimp only
  split
  · exact (free_callback _ _).lin
  · refine .take fun p p' => .op rfl fun v => ?_
    have key : ∀ e, Lin (Same H) ((p, p', false) :: H) ((lift (.setPair p e m) >>= fun _ => lift (.offer (env.strat s).queue p) >>= fun _ =>
        lift (.submit (env.strat s).exec s m) >>= fun b => if !b then thr .rejected else pure ()))
        ((lift (.setPair p' e m) >>= fun _ => lift (.offer (env.strat s).queue p') >>= fun _ =>
        lift (.submit (env.strat s).exec s m) >>= fun b => if !b then thr .rejected else pure ())) := by
      intro e
      refine .set List.mem_cons_self (.offer List.mem_cons_self ?_)
      rw [List.erase_cons_head, List.erase_cons_head]
      refine .op rfl fun b => ?_
      cases b
      · exact lin_thr _
      · exact lin_ret _
    cases v with
    | none => exact key ev
    | some v => exact .op rfl fun e => key e

theorem lin_fire {H : List Ent} {m : MId} (hd : (env.strat (env.mach m).strat).dropDup = false) (ev : Ev) : Lin (Same H) H (fire env m ev) (fire env m ev) := by
  refine (free_lift (o := .getStarted _) rfl).lin.bind (fun b => ?_) fun _ => ⟨rfl, rfl⟩
  dsimp only
  split
  · exact (free_callback _ _).lin
  · have key : ∀ b : Bool, Lin (Same H) H (if b = true then callback (Cb.flowAfter m ev) (Call.flowAfter (env.mach m).strat ev m)
        else processEvent env (env.mach m).strat ev m) (if b = true then callback (Cb.flowAfter m ev) (Call.flowAfter (env.mach m).strat ev m)
        else processEvent env (env.mach m).strat ev m) := by
      intro b
      split
      · exact (free_callback _ _).lin
      · exact lin_processEvent env hd ev m
    refine (free_lift (o := .getStarted _) rfl).lin.bind (fun b => ?_) fun _ => ⟨rfl, rfl⟩
    split
    · exact (free_lift (o := .getEnded _) rfl).lin.bind key fun _ => ⟨rfl, rfl⟩
    · exact key false

theorem lin_api {H : List Ent} (c : Api) {p : Prog Unit} (h : Lin (Same H) H p p) : Lin (Same H) H (api c p) (api c p) :=
  (free_lift (o := .emit _) rfl).lin.bind (fun _ => h.attempt.bind (fun r => (free_lift (o := .emit _) rfl).lin.bind (fun _ => lin_ret r) fun _ => ⟨rfl, rfl⟩)
    fun _ => ⟨rfl, rfl⟩) fun _ => ⟨rfl, rfl⟩

/-- No strategy of a machine drops duplicates. -/
def Plainly : Prop := ∀ m, (env.strat (env.mach m).strat).dropDup = false

variable {env}

theorem lin_ucall {H : List Ent} (hd : Plainly env) (u : UCall) : Lin (Same H) H (u.prog env) (u.prog env) := by
  cases u with
  | fire m ev => exact lin_api _ (lin_fire env (hd m) ev)
  | stop m => exact lin_api _ (free_update env _ _ _).lin
  | start m => exact lin_api _ (free_start env m).lin
  | startInState m s => exact lin_api _ (free_startIn env m s).lin
  | proc i => exact (free_invoke _).lin.attempt
  | _ => exact .op rfl fun _ => lin_ret _

theorem lin_denote {H : List Ent} (hd : Plainly env) (u : UProg) : Lin (Same H) H (u.denote env) (u.denote env) := by
  induction u with
  | done => exact lin_ret _
  | thr x => exact lin_thr _
  | call u k ih => exact (lin_ucall hd u).bind ih fun _ => ⟨rfl, rfl⟩

theorem lin_body {H : List Ent} (hd : Plainly env) (c : Call) : Lin (Same H) H (body env c) (body env c) := by
  cases c with
  | action k oid i ev m =>
    simp only [body]
    split
    · exact lin_denote hd _
    · exact lin_ret _
  | drain s m => exact lin_drain env s m
  | _ => exact lin_denote hd _

/-! ### Where the pairs are -/

inductive Loc
  | free
  | queue (q : QId)
  | pool (s : SId)
  | held (t : Tid)

/-- Every pair is in one place. -/
structure SideAt (loc : PairId → Loc) (held : Tid → List PairId) (w : World) : Prop where
  q : ∀ q, ∀ p ∈ w.queue q, loc p = .queue q
  pl : ∀ s, ∀ p ∈ w.pool s, loc p = .pool s
  hd : ∀ t, ∀ p ∈ held t, loc p = .held t
  qn : ∀ q, (w.queue q).Nodup
  pn : ∀ s, (w.pool s).Nodup
  hn : ∀ t, (held t).Nodup
  fresh : ∀ p, w.nextPair ≤ p → loc p = .free

def Side (held : Tid → List PairId) (w : World) : Prop := ∃ loc, SideAt loc held w

variable {held held' : Tid → List PairId} {w w' : World} {s : SId} {q : QId} {t : Tid} {p : PairId}

theorem Side.other (h : Side held w) (h1 : w'.queue = w.queue) (h2 : w'.pool = w.pool) (h3 : w'.nextPair = w.nextPair) : Side held w' := by
  obtain ⟨loc, h⟩ := h
  exact ⟨loc, by rw [h1]; exact h.q, by rw [h2]; exact h.pl, h.hd, by rw [h1]; exact h.qn, by rw [h2]; exact h.pn, h.hn, by rw [h3]; exact h.fresh⟩

theorem Side.sub (h : Side held w) {l : List PairId} (h1 : ∀ p ∈ l, p ∈ held t) (h2 : l.Nodup) : Side (fset held t l) w := by
  obtain ⟨loc, h⟩ := h
  refine ⟨loc, h.q, h.pl, fun u p hp => ?_, h.qn, h.pn, fun u => ?_, h.fresh⟩
  · by_cases hu : u = t
    · subst hu; rw [fset_same] at hp; exact h.hd _ _ (h1 p hp)
    · rw [fset_ne _ _ hu] at hp; exact h.hd _ _ hp
  · by_cases hu : u = t
    · subst hu; rw [fset_same]; exact h2
    · rw [fset_ne _ _ hu]; exact h.hn _

theorem Side.nodup (h : Side held w) (t : Tid) : (held t).Nodup := by obtain ⟨_, h⟩ := h; exact h.hn t

/-- A pair held by one thread is not held by another, and in no queue. -/
theorem Side.apart (h : Side held w) (hp : p ∈ held t) {u : Tid} (hu : p ∈ held u) : u = t := by
  obtain ⟨loc, h⟩ := h
  have h1 := h.hd _ _ hp
  rw [h.hd _ _ hu] at h1
  cases h1; rfl

theorem Side.notQueued (h : Side held w) (hp : p ∈ held t) : p ∉ w.queue q := by
  obtain ⟨loc, h⟩ := h
  intro hq
  have h1 := h.hd _ _ hp
  rw [h.q _ _ hq] at h1
  cases h1

/-- Give `p` a new place. -/
def put (loc : PairId → Loc) (p : PairId) (l : Loc) : PairId → Loc := fset loc p l

theorem Side.waste {o : Option Nat} (h : Side held w) (ht : take s o w = some (p, w')) : Side held w' := by
  obtain ⟨loc, h⟩ := h
  cases o with
  | none =>
    cases ht
    exact ⟨loc, h.q, h.pl, h.hd, h.qn, h.pn, h.hn, fun p hp => h.fresh p (Nat.le_of_succ_le hp)⟩
  | some i =>
    obtain ⟨p', _, he⟩ := Option.map_eq_some_iff.1 ht
    cases he
    have hsub : ∀ s', (fset w.pool s ((w.pool s).eraseIdx i) s').Sublist (w.pool s') := by
      intro s'
      by_cases hs : s' = s
      · subst hs; rw [fset_same]; exact List.eraseIdx_sublist _ _
      · rw [fset_ne _ _ hs]
    exact ⟨loc, h.q, fun s' p hp => h.pl s' p ((hsub s').subset hp), h.hd, h.qn, fun s' => (h.pn s').sublist (hsub s'), h.hn, h.fresh⟩

theorem nodup_erased {l : List Nat} {i p : Nat} (h : l.Nodup) (hp : l[i]? = some p) : p ∉ l.eraseIdx i := by
  rw [List.getElem?_eq_some_iff] at hp
  obtain ⟨hi, rfl⟩ := hp
  intro hm
  rw [List.mem_eraseIdx_iff_getElem] at hm
  obtain ⟨j, hj, hne, he⟩ := hm
  exact hne ((List.Nodup.getElem_inj_iff h).1 he)

theorem Side.take {o : Option Nat} (h : Side held w) (ht : take s o w = some (p, w')) : Side (fset held t (p :: held t)) w' := by
  have hw := h.waste ht
  have hp : ∃ loc, SideAt loc held w' ∧ loc p = .held t ∧ p ∉ held t := by
    obtain ⟨loc, h⟩ := h
    cases o with
    | none =>
      cases ht
      have h0 := h.fresh _ (Nat.le_refl _)
      refine ⟨put loc w.nextPair (.held t), ⟨fun q p hp => ?_, fun s p hp => ?_, fun u p hp => ?_, h.qn, h.pn, h.hn, fun p hp => ?_⟩, by simp [put], fun hp => ?_⟩
      · have := h.q q p hp
        rw [put, fset_ne _ _ (by rintro rfl; rw [h0] at this; cases this)]; exact this
      · have := h.pl s p hp
        rw [put, fset_ne _ _ (by rintro rfl; rw [h0] at this; cases this)]; exact this
      · have := h.hd u p hp
        rw [put, fset_ne _ _ (by rintro rfl; rw [h0] at this; cases this)]; exact this
      · rw [put, fset_ne _ _ (by rintro rfl; exact Nat.not_succ_le_self _ hp)]; exact h.fresh p (Nat.le_of_succ_le hp)
      · have := h.hd t _ hp
        rw [h0] at this; cases this
    | some i =>
      obtain ⟨p', hg, he⟩ := Option.map_eq_some_iff.1 ht
      cases he
      have hm : p ∈ w.pool s := List.mem_of_getElem? hg
      have h0 := h.pl s p hm
      have hne := nodup_erased (h.pn s) hg
      refine ⟨put loc p (.held t), ⟨fun q p' hp => ?_, fun s' p' hp => ?_, fun u p' hp => ?_, h.qn, fun s' => ?_, h.hn, fun p' hp => ?_⟩, by simp [put], fun hp => ?_⟩
      · have := h.q q p' hp
        rw [put, fset_ne _ _ (by rintro rfl; rw [h0] at this; cases this)]; exact this
      · by_cases hs : s' = s
        · subst hs
          simp only [fset_same] at hp
          rw [put, fset_ne _ _ (by rintro rfl; exact hne hp)]
          exact h.pl _ _ ((List.eraseIdx_sublist _ _).subset hp)
        · simp only [fset_ne _ _ hs] at hp
          have := h.pl s' p' hp
          rw [put, fset_ne _ _ (by rintro rfl; rw [h0] at this; cases this; exact hs rfl)]; exact this
      · have := h.hd u p' hp
        rw [put, fset_ne _ _ (by rintro rfl; rw [h0] at this; cases this)]; exact this
      · by_cases hs : s' = s
        · subst hs; simp only [fset_same]; exact (h.pn _).sublist (List.eraseIdx_sublist _ _)
        · simp only [fset_ne _ _ hs]; exact h.pn s'
      · have := h.fresh p' hp
        rw [put, fset_ne _ _ (by rintro rfl; rw [h0] at this; cases this)]; exact this
      · have := h.hd t p hp
        rw [h0] at this; cases this
  obtain ⟨loc, h, h1, h2⟩ := hp
  refine ⟨loc, h.q, h.pl, fun u p' hp => ?_, h.qn, h.pn, fun u => ?_, h.fresh⟩
  · by_cases hu : u = t
    · subst hu
      rw [fset_same] at hp
      rcases List.mem_cons.1 hp with rfl | hp
      · exact h1
      · exact h.hd _ _ hp
    · rw [fset_ne _ _ hu] at hp; exact h.hd _ _ hp
  · by_cases hu : u = t
    · subst hu; rw [fset_same]; exact List.nodup_cons.2 ⟨h2, h.hn _⟩
    · rw [fset_ne _ _ hu]; exact h.hn _

/-- A held pair goes somewhere else: the others are where they were. -/
theorem SideAt.leave {loc : PairId → Loc} (h : SideAt loc held w) {l : List PairId} {x : Loc} (hp : p ∈ held t) (h1 : ∀ p' ∈ l, p' ∈ held t ∧ p' ≠ p) (h2 : l.Nodup) :
    (∀ q, ∀ p' ∈ w.queue q, put loc p x p' = .queue q) ∧ (∀ s, ∀ p' ∈ w.pool s, put loc p x p' = .pool s) ∧
    (∀ u, ∀ p' ∈ fset held t l u, put loc p x p' = .held u) ∧ (∀ u, (fset held t l u).Nodup) ∧ (∀ p', w.nextPair ≤ p' → put loc p x p' = .free) := by
  have h0 := h.hd t p hp
  refine ⟨fun q p' hq => ?_, fun s p' hs => ?_, fun u p' hu => ?_, fun u => ?_, fun p' hp' => ?_⟩
  · have := h.q q p' hq
    rw [put, fset_ne _ _ (by rintro rfl; rw [h0] at this; cases this)]; exact this
  · have := h.pl s p' hs
    rw [put, fset_ne _ _ (by rintro rfl; rw [h0] at this; cases this)]; exact this
  · by_cases hut : u = t
    · subst hut
      rw [fset_same] at hu
      rw [put, fset_ne _ _ (h1 p' hu).2]; exact h.hd _ _ (h1 p' hu).1
    · rw [fset_ne _ _ hut] at hu
      have := h.hd u p' hu
      rw [put, fset_ne _ _ (by rintro rfl; rw [h0] at this; cases this; exact hut rfl)]; exact this
  · by_cases hut : u = t
    · subst hut; rw [fset_same]; exact h2
    · rw [fset_ne _ _ hut]; exact h.hn u
  · have := h.fresh p' hp'
    rw [put, fset_ne _ _ (by rintro rfl; rw [h0] at this; cases this)]; exact this

theorem Side.give (h : Side held w) {l : List PairId} (hp : p ∈ held t) (h1 : ∀ p' ∈ l, p' ∈ held t ∧ p' ≠ p) (h2 : l.Nodup)
    (g1 : w'.queue = w.queue) (g2 : w'.pool = fset w.pool s (w.pool s ++ [p])) (g3 : w'.nextPair = w.nextPair) : Side (fset held t l) w' := by
  obtain ⟨loc, h⟩ := h
  obtain ⟨a1, a2, a3, a4, a5⟩ := h.leave (x := .pool s) hp h1 h2
  have hn : p ∉ w.pool s := fun hm => by
    have := h.pl s p hm
    rw [h.hd _ _ hp] at this; cases this
  refine ⟨put loc p (.pool s), by rw [g1]; exact a1, fun s' p' hp' => ?_, a3, by rw [g1]; exact h.qn, fun s' => ?_, a4, by rw [g3]; exact a5⟩
  · rw [g2] at hp'
    by_cases hs : s' = s
    · subst hs
      rw [fset_same, List.mem_append, List.mem_singleton] at hp'
      rcases hp' with hp' | rfl
      · exact a2 _ _ hp'
      · simp [put]
    · rw [fset_ne _ _ hs] at hp'; exact a2 _ _ hp'
  · rw [g2]
    by_cases hs : s' = s
    · subst hs; rw [fset_same]; exact List.nodup_append.2 ⟨h.pn _, List.nodup_singleton _, by simpa using fun a ha => (by rintro rfl; exact hn ha)⟩
    · rw [fset_ne _ _ hs]; exact h.pn _

theorem Side.offer (h : Side held w) {l : List PairId} (hp : p ∈ held t) (h1 : ∀ p' ∈ l, p' ∈ held t ∧ p' ≠ p) (h2 : l.Nodup)
    (g1 : w'.pool = w.pool) (g2 : w'.queue = fset w.queue q (w.queue q ++ [p])) (g3 : w'.nextPair = w.nextPair) : Side (fset held t l) w' := by
  obtain ⟨loc, h⟩ := h
  obtain ⟨a1, a2, a3, a4, a5⟩ := h.leave (x := .queue q) hp h1 h2
  have hn : p ∉ w.queue q := fun hm => by
    have := h.q q p hm
    rw [h.hd _ _ hp] at this; cases this
  refine ⟨put loc p (.queue q), fun s' p' hp' => ?_, by rw [g1]; exact a2, a3, fun s' => ?_, by rw [g1]; exact h.pn, a4, by rw [g3]; exact a5⟩
  · rw [g2] at hp'
    by_cases hs : s' = q
    · subst hs
      rw [fset_same, List.mem_append, List.mem_singleton] at hp'
      rcases hp' with hp' | rfl
      · exact a1 _ _ hp'
      · simp [put]
    · rw [fset_ne _ _ hs] at hp'; exact a1 _ _ hp'
  · rw [g2]
    by_cases hs : s' = q
    · subst hs; rw [fset_same]; exact List.nodup_append.2 ⟨h.qn _, List.nodup_singleton _, by simpa using fun a ha => (by rintro rfl; exact hn ha)⟩
    · rw [fset_ne _ _ hs]; exact h.qn _

theorem Side.poll (h : Side held w) {ps : List PairId} (hq : w.queue q = p :: ps)
    (g1 : w'.pool = w.pool) (g2 : w'.queue = fset w.queue q ps) (g3 : w'.nextPair = w.nextPair) : Side (fset held t (p :: held t)) w' := by
  obtain ⟨loc, h⟩ := h
  have h0 := h.q q p (by rw [hq]; exact List.mem_cons_self)
  have hn := h.qn q
  rw [hq] at hn
  obtain ⟨hn1, hn2⟩ := List.nodup_cons.1 hn
  refine ⟨put loc p (.held t), fun q' p' hp' => ?_, fun s p' hp' => ?_, fun u p' hp' => ?_, fun q' => ?_, by rw [g1]; exact h.pn, fun u => ?_, fun p' hp' => ?_⟩
  · rw [g2] at hp'
    by_cases hs : q' = q
    · subst hs
      rw [fset_same] at hp'
      rw [put, fset_ne _ _ (by rintro rfl; exact hn1 hp')]
      exact h.q _ _ (by rw [hq]; exact List.mem_cons_of_mem _ hp')
    · rw [fset_ne _ _ hs] at hp'
      have := h.q q' p' hp'
      rw [put, fset_ne _ _ (by rintro rfl; rw [h0] at this; cases this; exact hs rfl)]; exact this
  · rw [g1] at hp'
    have := h.pl s p' hp'
    rw [put, fset_ne _ _ (by rintro rfl; rw [h0] at this; cases this)]; exact this
  · by_cases hu : u = t
    · subst hu
      rw [fset_same] at hp'
      rcases List.mem_cons.1 hp' with rfl | hp'
      · simp [put]
      · have := h.hd _ p' hp'
        rw [put, fset_ne _ _ (by rintro rfl; rw [h0] at this; cases this)]; exact this
    · rw [fset_ne _ _ hu] at hp'
      have := h.hd _ p' hp'
      rw [put, fset_ne _ _ (by rintro rfl; rw [h0] at this; cases this)]; exact this
  · rw [g2]
    by_cases hs : q' = q
    · subst hs; rw [fset_same]; exact hn2
    · rw [fset_ne _ _ hs]; exact h.qn _
  · by_cases hu : u = t
    · subst hu
      rw [fset_same]
      exact List.nodup_cons.2 ⟨(fun hm => by have := h.hd _ _ hm; rw [h0] at this; cases this), h.hn _⟩
    · rw [fset_ne _ _ hu]; exact h.hn _
  · rw [g3] at hp'
    have := h.fresh p' hp'
    rw [put, fset_ne _ _ (by rintro rfl; rw [h0] at this; cases this)]; exact this

/-! ### The two executions -/

/-- Equal except for pairs, queues and pools; queues are equally long. -/
structure Alike (w w' : World) : Prop where
  eq : w' = { w with pair := w'.pair, nextPair := w'.nextPair, queue := w'.queue, pool := w'.pool }
  len : ∀ q, (w'.queue q).length = (w.queue q).length

/-- Pairs, queues and pools are as before. -/
structure Still (w w' : World) : Prop where
  pair : w'.pair = w.pair
  nextPair : w'.nextPair = w.nextPair
  queue : w'.queue = w.queue
  pool : w'.pool = w.pool

theorem exec_still {o : Op} (ho : free o = true) (t : Tid) (w : World) : Still w (exec t o w).2 := by
  cases o <;> simp only [free, Bool.false_eq_true] at ho <;> simp only [exec, World.log] <;> (repeat' split) <;> exact ⟨rfl, rfl, rfl, rfl⟩

theorem exec_alike {o : Op} (ho : free o = true) (t : Tid) {w w' : World} (h : Alike w w') :
    (exec t o w').1 = (exec t o w).1 ∧ Alike (exec t o w).2 (exec t o w').2 ∧ enabled t o w' = enabled t o w := by
  obtain ⟨he, hl⟩ := h
  generalize w'.pair = a at he
  generalize w'.nextPair = b at he
  generalize hc : w'.queue = c at he hl
  generalize w'.pool = d at he
  subst he
  cases o with
  | qSize q => exact ⟨hl q, ⟨rfl, hl⟩, rfl⟩
  | qIsEmpty q =>
    refine ⟨?_, ⟨rfl, hl⟩, rfl⟩
    have := hl q
    simp only [exec]
    cases h1 : w.queue q <;> cases h2 : c q <;> simp_all
  | _ => first
    | (cases ho; done)
    | exact ⟨rfl, ⟨rfl, hl⟩, rfl⟩
    | (simp only [exec]; split <;> exact ⟨rfl, ⟨rfl, hl⟩, rfl⟩)

/-- Do the threads do the same? -/
def ThrRel (H : List Ent) : Option (Prog Unit) → Option (Prog Unit) → Prop
  | none, none => H = []
  | some p, some p' => Lin (fun _ r r' => r = r') H p p'
  | _, _ => False

/-- `H`: the pairs held by threads; `Q`: the pairs in queues. -/
structure Rel (H : Tid → List Ent) (Q : QId → List Ent) (c c' : Conf) : Prop where
  thr : ∀ t, ThrRel (H t) (c.thr t) (c'.thr t)
  ql : ∀ q, c.w.queue q = (Q q).map (·.1)
  qr : ∀ q, c'.w.queue q = (Q q).map (·.2.1)
  vq : ∀ q, ∀ e ∈ Q q, c'.w.pair e.2.1 = c.w.pair e.1
  vh : ∀ t, ∀ e ∈ H t, e.2.2 = true → c'.w.pair e.2.1 = c.w.pair e.1
  left : Side (fun t => (H t).map (·.1)) c.w
  right : Side (fun t => (H t).map (·.2.1)) c'.w
  alike : Alike c.w c'.w

theorem map_fset {H : Tid → List Ent} {l : List Ent} {f : Ent → PairId} (t : Tid) :
    (fun u => (fset H t l u).map f) = fset (fun u => (H u).map f) t (l.map f) := by
  funext u
  by_cases hu : u = t
  · subst hu; simp
  · simp [fset_ne _ _ hu]

section
variable {H : Tid → List Ent} {Q : QId → List Ent} {c c' : Conf}

theorem Rel.thr_upd (h : Rel H Q c c') {l : List Ent} {a a' : Option (Prog Unit)} (ha : ThrRel l a a') :
    ∀ u, ThrRel (fset H t l u) (fset c.thr t a u) (fset c'.thr t a' u) := by
  intro u
  by_cases hu : u = t
  · subst hu; simpa using ha
  · simpa [fset_ne _ _ hu] using h.thr u

theorem Rel.vh_upd (h : Rel H Q c c') {l : List Ent} (hl : ∀ e ∈ l, e.2.2 = true → c'.w.pair e.2.1 = c.w.pair e.1) :
    ∀ u, ∀ e ∈ fset H t l u, e.2.2 = true → c'.w.pair e.2.1 = c.w.pair e.1 := by
  intro u e he
  by_cases hu : u = t
  · subst hu; rw [fset_same] at he; exact hl e he
  · rw [fset_ne _ _ hu] at he; exact h.vh u e he

/-- Nothing happens to pairs; thread `t` goes on, perhaps without some of its pairs. -/
theorem Rel.still (h : Rel H Q c c') {l : List Ent} (hl : l.Sublist (H t)) {a a' : Option (Prog Unit)} (ha : ThrRel l a a') {v v' : World}
    (g : Still c.w v) (g' : Still c'.w v') (hv : Alike v v') : Rel (fset H t l) Q ⟨v, fset c.thr t a⟩ ⟨v', fset c'.thr t a'⟩ := by
  refine ⟨h.thr_upd ha, ?_, ?_, ?_, ?_, ?_, ?_, hv⟩
  · simp only [g.queue]; exact h.ql
  · simp only [g'.queue]; exact h.qr
  · simp only [g.pair, g'.pair]; exact h.vq
  · simp only [g.pair, g'.pair]; exact h.vh_upd fun e he => h.vh t e (hl.subset he)
  · rw [map_fset]
    exact (h.left.sub (fun p hp => (hl.map _).subset hp) ((h.left.nodup t).sublist (hl.map _))).other g.queue g.pool g.nextPair
  · rw [map_fset]
    exact (h.right.sub (fun p hp => (hl.map _).subset hp) ((h.right.nodup t).sublist (hl.map _))).other g'.queue g'.pool g'.nextPair

theorem fset_eta {α β : Type} [DecidableEq α] (f : α → β) (a : α) : fset f a (f a) = f := by
  funext x
  by_cases h : x = a
  · subst h; simp
  · simp [fset_ne _ _ h]

theorem take_still {o : Option Nat} (h : take s o w = some (p, w')) : w'.pair = w.pair ∧ w'.queue = w.queue ∧ ∀ a b, { w' with nextPair := a, pool := b } =
    { w with nextPair := a, pool := b } := by
  cases o with
  | none => cases h; exact ⟨rfl, rfl, fun _ _ => rfl⟩
  | some i =>
    obtain ⟨_, _, he⟩ := Option.map_eq_some_iff.1 h
    cases he
    exact ⟨rfl, rfl, fun _ _ => rfl⟩

theorem Alike.take_left {o : Option Nat} {v v' : World} (h : Alike v v') (ht : take s o v = some (p, w)) : Alike w v' := by
  obtain ⟨h1, h2, h3⟩ := take_still ht
  refine ⟨?_, by rw [h2]; exact h.len⟩
  have := h3 v'.nextPair v'.pool
  rw [h.eq]
  cases w; cases v; simp_all

theorem Alike.take_right {o : Option Nat} {v v' : World} (h : Alike v v') (ht : take s o v' = some (p, w)) : Alike v w := by
  obtain ⟨h1, h2, h3⟩ := take_still ht
  refine ⟨?_, by rw [h2]; exact h.len⟩
  have := h3 w.nextPair w.pool
  have he := h.eq
  cases w; cases v; cases v'; simp_all

theorem Rel.waste {o : Option Nat} (h : Rel H Q c c') (ht : Reuse.take s o c.w = some (p, w)) : Rel H Q { c with w := w } c' := by
  obtain ⟨h1, h2, _⟩ := take_still ht
  refine ⟨h.thr, ?_, h.qr, ?_, ?_, h.left.waste ht, h.right, h.alike.take_left ht⟩
  · simp only [h2]; exact h.ql
  · simp only [h1]; exact h.vq
  · simp only [h1]; exact h.vh

theorem Rel.take {o o' : Option Nat} {p' : PairId} (h : Rel H Q c c') (ht : Reuse.take s o c.w = some (p, w)) (ht' : Reuse.take s o' c'.w = some (p', w'))
    {a a' : Option (Prog Unit)} (ha : ThrRel ((p, p', false) :: H t) a a') :
    Rel (fset H t ((p, p', false) :: H t)) Q ⟨w, fset c.thr t a⟩ ⟨w', fset c'.thr t a'⟩ := by
  obtain ⟨h1, h2, _⟩ := take_still ht
  obtain ⟨h1', h2', _⟩ := take_still ht'
  refine ⟨h.thr_upd ha, ?_, ?_, ?_, ?_, ?_, ?_, (h.alike.take_left ht).take_right ht'⟩
  · simp only [h2]; exact h.ql
  · simp only [h2']; exact h.qr
  · simp only [h1, h1']; exact h.vq
  · simp only [h1, h1']
    refine h.vh_upd fun e he hb => ?_
    rcases List.mem_cons.1 he with rfl | he
    · cases hb
    · exact h.vh t e he hb
  · rw [map_fset]; exact h.left.take ht
  · rw [map_fset]; exact h.right.take ht'

/-- What is left when one of several things with different names has gone. -/
theorem rest_ne {l : List Ent} {e : Ent} {f : Ent → PairId} (hn : (l.map f).Nodup) (he : e ∈ l) : ∀ p ∈ (l.erase e).map f, p ∈ l.map f ∧ p ≠ f e := by
  intro p hp
  refine ⟨((List.erase_sublist).map f).subset hp, ?_⟩
  have := (List.perm_cons_erase he).map f
  have hn' := this.nodup_iff.1 hn
  rw [List.map_cons] at hn'
  rintro rfl
  exact (List.nodup_cons.1 hn').1 hp

theorem erase_nodup {l : List Ent} {e : Ent} {f : Ent → PairId} (hn : (l.map f).Nodup) : ((l.erase e).map f).Nodup :=
  hn.sublist ((List.erase_sublist).map f)

theorem Rel.set {e : Ent} (h : Rel H Q c c') (he : e ∈ H t) {v : Ev × MId} {a a' : Option (Prog Unit)} (ha : ThrRel ((e.1, e.2.1, true) :: (H t).erase e) a a') :
    Rel (fset H t ((e.1, e.2.1, true) :: (H t).erase e)) Q ⟨{ c.w with pair := fset c.w.pair e.1 (some v) }, fset c.thr t a⟩
      ⟨{ c'.w with pair := fset c'.w.pair e.2.1 (some v) }, fset c'.thr t a'⟩ := by
  have m1 : e.1 ∈ (H t).map (·.1) := List.mem_map_of_mem he
  have m2 : e.2.1 ∈ (H t).map (·.2.1) := List.mem_map_of_mem (f := fun e : Ent => e.2.1) he
  refine ⟨h.thr_upd ha, h.ql, h.qr, fun q x hx => ?_, fun u x hx hb => ?_, ?_, ?_, ?_⟩
  · have n1 : x.1 ≠ e.1 := fun hh => h.left.notQueued (q := q) m1 (by rw [h.ql, ← hh]; exact List.mem_map_of_mem hx)
    have n2 : x.2.1 ≠ e.2.1 := fun hh => h.right.notQueued (q := q) m2 (by rw [h.qr, ← hh]; exact List.mem_map_of_mem (f := fun e : Ent => e.2.1) hx)
    simp only [fset_ne _ _ n1, fset_ne _ _ n2]
    exact h.vq q x hx
  · by_cases hu : u = t
    · subst hu
      rw [fset_same] at hx
      rcases List.mem_cons.1 hx with rfl | hx
      · simp
      · have n1 := (rest_ne (h.left.nodup u) he _ (List.mem_map_of_mem hx)).2
        have n2 := (rest_ne (f := fun e : Ent => e.2.1) (h.right.nodup u) he _ (List.mem_map_of_mem (f := fun e : Ent => e.2.1) hx)).2
        simp only [fset_ne _ _ n1, fset_ne _ _ n2]
        exact h.vh u x (List.mem_of_mem_erase hx) hb
    · rw [fset_ne _ _ hu] at hx
      have n1 : x.1 ≠ e.1 := fun hh => hu (h.left.apart m1 (u := u) (by rw [← hh]; exact List.mem_map_of_mem (f := fun e : Ent => e.1) hx))
      have n2 : x.2.1 ≠ e.2.1 := fun hh => hu (h.right.apart m2 (u := u) (by rw [← hh]; exact List.mem_map_of_mem (f := fun e : Ent => e.2.1) hx))
      simp only [fset_ne _ _ n1, fset_ne _ _ n2]
      exact h.vh u x hx hb
  · rw [map_fset]
    have hp := (List.perm_cons_erase he).map (fun e : Ent => e.1)
    exact (h.left.sub (l := (e :: (H t).erase e).map fun e : Ent => e.1) (fun p hp' => hp.mem_iff.2 hp') (hp.nodup_iff.1 (h.left.nodup t))).other rfl rfl rfl
  · rw [map_fset]
    have hp := (List.perm_cons_erase he).map (fun e : Ent => e.2.1)
    exact (h.right.sub (l := (e :: (H t).erase e).map fun e : Ent => e.2.1) (fun p hp' => hp.mem_iff.2 hp') (hp.nodup_iff.1 (h.right.nodup t))).other rfl rfl rfl
  · refine ⟨?_, h.alike.len⟩
    have := h.alike.eq
    obtain ⟨w, x⟩ := c
    obtain ⟨w', x'⟩ := c'
    cases w; cases w'; simp_all

theorem Alike.log {v v' : World} (h : Alike v v') (t : Tid) (o : Obs) : Alike (v.log t o) (v'.log t o) := by
  refine ⟨?_, h.len⟩
  have := h.eq
  cases v; cases v'; simp_all [World.log]

theorem Alike.pool {v v' : World} (h : Alike v v') (a b : SId → List PairId) : Alike { v with pool := a } { v' with pool := b } := by
  refine ⟨?_, h.len⟩
  have := h.eq
  cases v; cases v'; simp_all

theorem Alike.queue {v v' : World} (h : Alike v v') {a b : List PairId} (hl : b.length = a.length) :
    Alike { v with queue := fset v.queue q a } { v' with queue := fset v'.queue q b } := by
  refine ⟨?_, fun q' => ?_⟩
  · have := h.eq
    cases v; cases v'; simp_all
  · by_cases hq : q' = q
    · subst hq; simpa using hl
    · simpa [fset_ne _ _ hq] using h.len q'

theorem Rel.give {e : Ent} (h : Rel H Q c c') (he : e ∈ H t) (hb : e.2.2 = true) {a a' : Option (Prog Unit)} (ha : ThrRel ((H t).erase e) a a') :
    Rel (fset H t ((H t).erase e)) Q ⟨(exec t (.poolGive s e.1) c.w).2, fset c.thr t a⟩ ⟨(exec t (.poolGive s e.2.1) c'.w).2, fset c'.thr t a'⟩ := by
  have hv := h.vh t e he hb
  have m1 : e.1 ∈ (H t).map (·.1) := List.mem_map_of_mem he
  have m2 : e.2.1 ∈ (H t).map (·.2.1) := List.mem_map_of_mem (f := fun e : Ent => e.2.1) he
  have g : ∀ (w : World) (p : PairId), (exec t (.poolGive s p) w).2.queue = w.queue ∧ (exec t (.poolGive s p) w).2.pair = w.pair ∧
      (exec t (.poolGive s p) w).2.pool = fset w.pool s (w.pool s ++ [p]) ∧ (exec t (.poolGive s p) w).2.nextPair = w.nextPair := by
    intro w p
    simp only [exec]
    split <;> exact ⟨rfl, rfl, rfl, rfl⟩
  obtain ⟨a1, a2, a3, a4⟩ := g c.w e.1
  obtain ⟨b1, b2, b3, b4⟩ := g c'.w e.2.1
  refine ⟨h.thr_upd ha, ?_, ?_, ?_, ?_, ?_, ?_, ?_⟩
  · simp only [a1]; exact h.ql
  · simp only [b1]; exact h.qr
  · simp only [a2, b2]; exact h.vq
  · simp only [a2, b2]; exact h.vh_upd fun e he => h.vh t e (List.mem_of_mem_erase he)
  · rw [map_fset]; exact h.left.give m1 (rest_ne (f := fun e : Ent => e.1) (h.left.nodup t) he) (erase_nodup (h.left.nodup t)) a1 a3 a4
  · rw [map_fset]; exact h.right.give m2 (rest_ne (f := fun e : Ent => e.2.1) (h.right.nodup t) he) (erase_nodup (h.right.nodup t)) b1 b3 b4
  · simp only [exec, hv]
    cases c.w.pair e.1 with
    | none => exact h.alike.pool _ _
    | some x => exact (h.alike.pool _ _).log _ _

theorem Rel.offer {e : Ent} (h : Rel H Q c c') (he : e ∈ H t) (hb : e.2.2 = true) {a a' : Option (Prog Unit)} (ha : ThrRel ((H t).erase e) a a') :
    Rel (fset H t ((H t).erase e)) (fset Q q (Q q ++ [e])) ⟨(exec t (.offer q e.1) c.w).2, fset c.thr t a⟩
      ⟨(exec t (.offer q e.2.1) c'.w).2, fset c'.thr t a'⟩ := by
  have hv := h.vh t e he hb
  have m1 : e.1 ∈ (H t).map (·.1) := List.mem_map_of_mem he
  have m2 : e.2.1 ∈ (H t).map (·.2.1) := List.mem_map_of_mem (f := fun e : Ent => e.2.1) he
  have g : ∀ (w : World) (p : PairId), (exec t (.offer q p) w).2.pool = w.pool ∧ (exec t (.offer q p) w).2.pair = w.pair ∧
      (exec t (.offer q p) w).2.queue = fset w.queue q (w.queue q ++ [p]) ∧ (exec t (.offer q p) w).2.nextPair = w.nextPair := by
    intro w p
    simp only [exec]
    split <;> exact ⟨rfl, rfl, rfl, rfl⟩
  obtain ⟨a1, a2, a3, a4⟩ := g c.w e.1
  obtain ⟨b1, b2, b3, b4⟩ := g c'.w e.2.1
  refine ⟨h.thr_upd ha, ?_, ?_, ?_, ?_, ?_, ?_, ?_⟩
  · intro q'
    simp only [a3]
    by_cases hq : q' = q
    · subst hq; simp [h.ql]
    · simp [fset_ne _ _ hq, h.ql]
  · intro q'
    simp only [b3]
    by_cases hq : q' = q
    · subst hq; simp [h.qr]
    · simp [fset_ne _ _ hq, h.qr]
  · simp only [a2, b2]
    intro q' x hx
    by_cases hq : q' = q
    · subst hq
      rw [fset_same, List.mem_append, List.mem_singleton] at hx
      rcases hx with hx | rfl
      · exact h.vq _ _ hx
      · exact hv
    · rw [fset_ne _ _ hq] at hx; exact h.vq _ _ hx
  · simp only [a2, b2]; exact h.vh_upd fun e he => h.vh t e (List.mem_of_mem_erase he)
  · rw [map_fset]; exact h.left.offer m1 (rest_ne (f := fun e : Ent => e.1) (h.left.nodup t) he) (erase_nodup (h.left.nodup t)) a1 a3 a4
  · rw [map_fset]; exact h.right.offer m2 (rest_ne (f := fun e : Ent => e.2.1) (h.right.nodup t) he) (erase_nodup (h.right.nodup t)) b1 b3 b4
  · simp only [exec, hv]
    have hl : (c'.w.queue q ++ [e.2.1]).length = (c.w.queue q ++ [e.1]).length := by simp [h.alike.len q]
    cases c.w.pair e.1 with
    | none => exact h.alike.queue hl
    | some x => exact (h.alike.queue hl).log _ _

theorem Rel.poll {e : Ent} {es : List Ent} (h : Rel H Q c c') (he : Q q = e :: es) {a a' : Option (Prog Unit)} (ha : ThrRel ((e.1, e.2.1, true) :: H t) a a') :
    Rel (fset H t ((e.1, e.2.1, true) :: H t)) (fset Q q es) ⟨(exec t (.poll q) c.w).2, fset c.thr t a⟩ ⟨(exec t (.poll q) c'.w).2, fset c'.thr t a'⟩ := by
  have hv := h.vq q e (by rw [he]; exact List.mem_cons_self)
  have q1 : c.w.queue q = e.1 :: es.map (·.1) := by rw [h.ql, he]; rfl
  have q2 : c'.w.queue q = e.2.1 :: es.map (·.2.1) := by rw [h.qr, he]; rfl
  have g : ∀ (w : World) (p : PairId) (ps : List PairId), w.queue q = p :: ps → (exec t (.poll q) w).2.pool = w.pool ∧ (exec t (.poll q) w).2.pair = w.pair ∧
      (exec t (.poll q) w).2.queue = fset w.queue q ps ∧ (exec t (.poll q) w).2.nextPair = w.nextPair := by
    intro w p ps hw
    simp only [exec, hw]
    split <;> exact ⟨rfl, rfl, rfl, rfl⟩
  obtain ⟨a1, a2, a3, a4⟩ := g _ _ _ q1
  obtain ⟨b1, b2, b3, b4⟩ := g _ _ _ q2
  refine ⟨h.thr_upd ha, ?_, ?_, ?_, ?_, ?_, ?_, ?_⟩
  · intro q'
    simp only [a3]
    by_cases hq : q' = q
    · subst hq; simp
    · simp [fset_ne _ _ hq, h.ql]
  · intro q'
    simp only [b3]
    by_cases hq : q' = q
    · subst hq; simp
    · simp [fset_ne _ _ hq, h.qr]
  · simp only [a2, b2]
    intro q' x hx
    by_cases hq : q' = q
    · subst hq
      rw [fset_same] at hx
      exact h.vq _ _ (by rw [he]; exact List.mem_cons_of_mem _ hx)
    · rw [fset_ne _ _ hq] at hx; exact h.vq _ _ hx
  · simp only [a2, b2]
    refine h.vh_upd fun x hx hb => ?_
    rcases List.mem_cons.1 hx with rfl | hx
    · exact hv
    · exact h.vh t x hx hb
  · rw [map_fset]; exact h.left.poll q1 a1 a3 a4
  · rw [map_fset]; exact h.right.poll q2 b1 b3 b4
  · simp only [exec, q1, q2, hv]
    have hl : (es.map fun e : Ent => e.2.1).length = (es.map fun e : Ent => e.1).length := by simp
    cases c.w.pair e.1 with
    | none => exact h.alike.queue hl
    | some x => exact (h.alike.queue hl).log _ _

theorem stepBy_other {f : Pick} {x : Choice} (h : ∀ t s k, x = .run t → c.thr t ≠ some (.op (.poolTake s) k)) : stepBy env f c x = Verif.step env c x := by
  unfold stepBy
  split
  · split
    next hp => exact absurd hp (h _ _ _ rfl)
    · rfl
  · rfl

theorem exec_take (t : Tid) (s : SId) (w : World) : take s (Pick.first w s) w = some (exec t (.poolTake s) w) := by
  unfold Pick.first take
  cases h : w.pool s <;> simp [exec, h]

/-- The library's way of taking pairs. -/
theorem stepBy_first {x : Choice} : stepBy env Pick.first c x = Verif.step env c x := by
  cases x with
  | run t =>
    simp only [stepBy, Verif.step]
    split
    next s k hp => rw [exec_take t]; simp [hp, runThread, enabled]
    · rfl
  | _ => rfl

theorem take_valid {f : Pick} (hf : f.Valid) (w : World) (s : SId) : ∃ r, take s (f w s) w = some r := by
  cases h : f w s with
  | none => exact ⟨_, rfl⟩
  | some i =>
    have := hf w s i h
    exact ⟨_, by simp only [take, List.getElem?_eq_getElem this]; rfl⟩

theorem take_step {f : Pick} (hf : f.Valid) (h : Rel H Q c c') {d : Conf} {o : Option Nat} {k : PairId → Prog Unit} (hp : c.thr t = some (.op (.poolTake s) k))
    (hs : (take s o c.w).map (fun r => (⟨r.2, fset c.thr t (some (k r.1))⟩ : Conf)) = some d) :
    ∃ d' H' Q', stepBy env f c' (.run t) = some d' ∧ Rel H' Q' d d' := by
  have ht := h.thr t
  rw [hp] at ht
  obtain ⟨⟨p, w⟩, h1, rfl⟩ := Option.map_eq_some_iff.1 hs
  cases hp' : c'.thr t with
  | none => rw [hp'] at ht; cases ht
  | some x =>
    rw [hp'] at ht
    obtain ⟨⟨p', w'⟩, h2⟩ := take_valid hf c'.w s
    generalize he : Prog.op (.poolTake s) k = y at ht
    cases ht with
    | take hk =>
      cases he
      refine ⟨_, _, _, ?_, h.take (t := t) h1 h2 (a := some (k p)) (a' := some (_)) (hk p p')⟩
      simp [stepBy, hp', h2]
    | op ho hk => cases he; cases ho
    | _ => cases he

theorem Side.same {held : Tid → List PairId} {w w' : World} (h : Side held w) (g : Still w w') : Side held w' := h.other g.queue g.pool g.nextPair

/-- Nothing happens to pairs, and no thread goes on. -/
theorem Rel.world (h : Rel H Q c c') {v v' : World} (g : Still c.w v) (g' : Still c'.w v') (hv : Alike v v') : Rel H Q { c with w := v } { c' with w := v' } := by
  refine ⟨h.thr, ?_, ?_, ?_, ?_, h.left.same g, h.right.same g', hv⟩
  · simp only [g.queue]; exact h.ql
  · simp only [g'.queue]; exact h.qr
  · simp only [g.pair, g'.pair]; exact h.vq
  · simp only [g.pair, g'.pair]; exact h.vh

theorem Still.refl (w : World) : Still w w := ⟨rfl, rfl, rfl, rfl⟩

theorem lin_take {R : List Ent → Except Exc Unit → Except Exc Unit → Prop} {l : List Ent} {p : Prog Unit} {k' : PairId → Prog Unit}
    (h : Lin R l p (.op (.poolTake s) k')) : ∃ k, p = .op (.poolTake s) k := by
  generalize he : Prog.op (.poolTake s) k' = y at h
  cases h with
  | take hk => cases he; exact ⟨_, rfl⟩
  | op ho hk => cases he; cases ho
  | _ => cases he

theorem run_step {f : Pick} (hf : f.Valid) (hd : Plainly env) (h : Rel H Q c c') {d : Conf} (hs : Verif.step env c (.run t) = some d) :
    ∃ d' H' Q', stepBy env f c' (.run t) = some d' ∧ Rel H' Q' d d' := by
  have ht := h.thr t
  simp only [Verif.step] at hs
  split at hs
  · cases hs
  next p hp =>
  rw [hp] at ht
  cases hp' : c'.thr t with
  | none => rw [hp'] at ht; cases ht
  | some p' =>
    rw [hp'] at ht
    by_cases htk : ∃ s k, p = .op (.poolTake s) k
    · obtain ⟨s, k, rfl⟩ := htk
      refine take_step hf h hp (o := Pick.first c.w s) ?_
      rw [exec_take t]
      simpa [runThread, enabled] using hs
    · have hby : stepBy env f c' (.run t) = runThread env c' t p' := by
        rw [stepBy_other]
        · simp [Verif.step, hp']
        · rintro _ s k ⟨⟩ hq
          rw [hp'] at hq
          cases hq
          exact htk ⟨s, lin_take ht⟩
      rw [hby]
      cases ht with
      | ret _ _ =>
        cases hs
        exact ⟨_, _, _, rfl, h.still (List.nil_sublist _) (a := none) (a' := none) rfl (Still.refl _) (Still.refl _) h.alike⟩
      | thr _ _ =>
        cases hs
        exact ⟨_, _, _, rfl, h.still (List.nil_sublist _) (a := none) (a' := none) rfl ⟨rfl, rfl, rfl, rfl⟩ ⟨rfl, rfl, rfl, rfl⟩ (h.alike.log _ _)⟩
      | call hk =>
        cases hs
        refine ⟨_, _, _, rfl, h.still (List.Sublist.refl _) (a := some _) (a' := some _) ?_ (Still.refl _) (Still.refl _) h.alike⟩
        refine (lin_body hd _).handle ?_
        rintro _ r _ ⟨rfl, rfl⟩
        exact hk r
      | op ho hk =>
        obtain ⟨e1, e2, e3⟩ := exec_alike ho t h.alike
        simp only [runThread] at hs
        split at hs
        next hen =>
          cases hs
          refine ⟨_, _, _, by simp only [runThread, e3, hen, if_true]; rfl, h.still (List.Sublist.refl _) (a := some _) (a' := some _) ?_ (exec_still ho t _) (exec_still ho t _) e2⟩
          rw [e1]
          exact hk _
        · cases hs
      | take hk => exact absurd ⟨_, _, rfl⟩ htk
      | set he hk =>
        cases hs
        exact ⟨_, _, _, rfl, h.set he (a := some _) (a' := some _) hk⟩
      | get he hk =>
        cases hs
        refine ⟨_, _, _, rfl, h.still (List.Sublist.refl _) (a := some _) (a' := some _) ?_ (Still.refl _) (Still.refl _) h.alike⟩
        have := h.vh t _ he rfl
        dsimp only at this
        rw [this]
        exact hk _
      | offer he hk =>
        cases hs
        exact ⟨_, _, _, rfl, h.offer he rfl (a := some _) (a' := some _) hk⟩
      | give he hk =>
        cases hs
        exact ⟨_, _, _, rfl, h.give he rfl (a := some _) (a' := some _) hk⟩
      | @poll _ q k k' h0 h1 =>
        cases hs
        cases hq : Q q with
        | nil =>
          have q1 : c.w.queue q = [] := by rw [h.ql, hq]; rfl
          have q2 : c'.w.queue q = [] := by rw [h.qr, hq]; rfl
          refine ⟨_, fset H t (H t), Q, rfl, ?_⟩
          simp only [q1, q2]
          exact h.still (List.Sublist.refl _) (a := some _) (a' := some _) h0 (Still.refl _) (Still.refl _) h.alike
        | cons e es =>
          have q1 : c.w.queue q = e.1 :: es.map (·.1) := by rw [h.ql, hq]; rfl
          have q2 : c'.w.queue q = e.2.1 :: es.map (·.2.1) := by rw [h.qr, hq]; rfl
          have r1 : (exec t (.poll q) c.w).1 = some e.1 := by simp [exec, q1]
          have r2 : (exec t (.poll q) c'.w).1 = some e.2.1 := by simp [exec, q2]
          refine ⟨_, _, _, rfl, h.poll hq (a := some (k (exec t (.poll q) c.w).1)) (a' := some (k' (exec t (.poll q) c'.w).1)) ?_⟩
          rw [r1, r2]
          exact h1 _ _

theorem sched_step {f : Pick} (hf : f.Valid) (hd : Plainly env) (h : Rel H Q c c') {d : Conf} {x : Choice} (hs : Verif.step env c x = some d) :
    ∃ d' H' Q', stepBy env f c' x = some d' ∧ Rel H' Q' d d' := by
  have hT : c'.w.tasks = c.w.tasks := by rw [h.alike.eq]
  have hidle : ∀ t, c.thr t = none → c'.thr t = none := fun t ht => by
    have := h.thr t
    rw [ht] at this
    cases hp : c'.thr t with
    | none => rfl
    | some _ => rw [hp] at this; cases this
  cases x with
  | run t => exact run_step hf hd h hs
  | begin n u =>
    simp only [Verif.step] at hs
    split at hs
    · cases hs
    next hp =>
      cases hs
      refine ⟨_, _, _, by simp [stepBy, Verif.step, hidle _ hp]; rfl, h.still (List.Sublist.refl _) (a := some _) (a' := some _) ?_ (Still.refl _) (Still.refl _) h.alike⟩
      exact (lin_denote hd u).mono fun _ _ _ h => h.2
  | dispatch e i j =>
    simp only [Verif.step] at hs
    split at hs
    next hw =>
      split at hs
      next s m hp hj =>
        cases hs
        refine ⟨⟨{ c'.w with tasks := fset c'.w.tasks e ((c'.w.tasks e).eraseIdx j) }, fset c'.thr (.worker e i) (some (drain env s m))⟩, _, _,
          by simp only [stepBy, Verif.step, hw, if_true, hidle _ hp, hT, hj],
          h.still (List.Sublist.refl _) (a := some _) (a' := some _) ?_ ⟨rfl, rfl, rfl, rfl⟩ ⟨rfl, rfl, rfl, rfl⟩ ⟨?_, h.alike.len⟩⟩
        · exact (lin_drain env s m).mono fun _ _ _ h => h.2
        · have := h.alike.eq
          obtain ⟨w, x⟩ := c
          obtain ⟨w', x'⟩ := c'
          cases w; cases w'; simp_all
      · cases hs
    · cases hs
  | interrupt t =>
    cases hs
    refine ⟨_, _, _, rfl, h.world (v := { c.w with intr := fset c.w.intr t true }) ⟨rfl, rfl, rfl, rfl⟩ ⟨rfl, rfl, rfl, rfl⟩ ⟨?_, h.alike.len⟩⟩
    have := h.alike.eq
    obtain ⟨w, x⟩ := c
    obtain ⟨w', x'⟩ := c'
    cases w; cases w'; simp_all
  | shutdown e now =>
    cases hs
    have ha : Alike { c.w with shut := fset c.w.shut e true } { c'.w with shut := fset c'.w.shut e true } := by
      refine ⟨?_, h.alike.len⟩
      have := h.alike.eq
      obtain ⟨w, x⟩ := c
      obtain ⟨w', x'⟩ := c'
      cases w; cases w'; simp_all
    cases now with
    | false => exact ⟨_, _, _, rfl, h.world ⟨rfl, rfl, rfl, rfl⟩ ⟨rfl, rfl, rfl, rfl⟩ ha⟩
    | true =>
      refine ⟨_, _, _, rfl, h.world ⟨rfl, rfl, rfl, rfl⟩ ⟨rfl, rfl, rfl, rfl⟩ ⟨?_, ha.len⟩⟩
      have := h.alike.eq
      obtain ⟨w, x⟩ := c
      obtain ⟨w', x'⟩ := c'
      cases w; cases w'; simp_all [World.dropTasks]

theorem step_sim {f : Pick} (hf : f.Valid) (hd : Plainly env) (h : Rel H Q c c') {d : Conf} {x : RChoice} (hs : step env c x = some d) :
    match x.forget with
    | none => Rel H Q d c'
    | some y => ∃ d' H' Q', stepBy env f c' y = some d' ∧ Rel H' Q' d d' := by
  cases x with
  | sched x => exact sched_step hf hd h hs
  | take t o =>
    simp only [step] at hs
    split at hs
    next s k hp => exact take_step hf h hp hs
    · cases hs
  | waste s o =>
    obtain ⟨⟨p, w⟩, h1, rfl⟩ := Option.map_eq_some_iff.1 hs
    exact h.waste h1

theorem runs_sim {f : Pick} (hf : f.Valid) (hd : Plainly env) {xs : List RChoice} {d : Conf} (h : Rel H Q c c') (hs : runs env c xs = some d) :
    ∃ d' H' Q', runsBy env f c' (xs.filterMap RChoice.forget) = some d' ∧ Rel H' Q' d d' := by
  induction xs generalizing c c' H Q with
  | nil => cases hs; exact ⟨_, _, _, rfl, h⟩
  | cons x xs ih =>
    simp only [runs] at hs
    split at hs
    · cases hs
    next c1 h1 =>
      have := step_sim hf hd h h1
      cases hx : x.forget with
      | none =>
        rw [hx] at this
        obtain ⟨d', H', Q', g1, g2⟩ := ih this hs
        exact ⟨d', H', Q', by simpa [List.filterMap_cons, hx] using g1, g2⟩
      | some y =>
        rw [hx] at this
        obtain ⟨c1', H1, Q1, g0, g⟩ := this
        obtain ⟨d', H', Q', g1, g2⟩ := ih g hs
        exact ⟨d', H', Q', by simp [hx, runsBy, g0, g1], g2⟩

theorem rel_initial (hi : Initial c) : Rel (fun _ => []) (fun _ => []) c c := by
  have hs : Side (fun _ => []) c.w :=
    ⟨fun _ => .free, fun q p hp => (by rw [hi.queue] at hp; cases hp), fun s p hp => (by rw [hi.pool] at hp; cases hp), fun _ _ hp => (by cases hp),
      fun q => (by rw [hi.queue]; exact List.nodup_nil), fun s => (by rw [hi.pool]; exact List.nodup_nil), fun _ => List.nodup_nil, fun _ _ => rfl⟩
  exact ⟨fun t => (by rw [hi.idle]; rfl), fun q => hi.queue q, fun q => hi.queue q, fun _ _ h => (by cases h), fun _ _ h => (by cases h), hs, hs, ⟨rfl, fun _ => rfl⟩⟩

/-- A run with a given way of taking pairs is a run. -/
theorem runs_of_runsBy {f : Pick} {xs : List Choice} {d : Conf} (h : runsBy env f c xs = some d) :
    ∃ ys, runs env c ys = some d ∧ ys.filterMap RChoice.forget = xs := by
  induction xs generalizing c with
  | nil => cases h; exact ⟨[], rfl, rfl⟩
  | cons x xs ih =>
    simp only [runsBy] at h
    split at h
    · cases h
    next c1 h1 =>
      obtain ⟨ys, g1, g2⟩ := ih h
      have : ∃ y : RChoice, step env c y = some c1 ∧ y.forget = some x := by
        simp only [stepBy] at h1
        split at h1
        · split at h1
          next t _ s k hp => exact ⟨.take t (f c.w s), by simpa [step, hp] using h1, rfl⟩
          next t _ _ => exact ⟨.sched (.run t), h1, rfl⟩
        · exact ⟨.sched _, h1, rfl⟩
      obtain ⟨y, hy1, hy2⟩ := this
      exact ⟨y :: ys, by simp [runs, hy1, g1], by simp [hy2, g2]⟩

theorem runsBy_first {xs : List Choice} : runsBy env Pick.first c xs = Verif.runs env c xs := by
  induction xs generalizing c with
  | nil => rfl
  | cons x xs ih => 
    simp only [runsBy, Verif.runs, stepBy_first, ih]
    cases Verif.step env c x <;> rfl

theorem first_valid : Pick.first.Valid := by
  intro w s i h
  unfold Pick.first at h
  split at h
  · cases h
  next hn =>
    cases h
    cases hp : w.pool s with
    | nil => simp [hp] at hn
    | cons _ _ => simp

theorem new_valid : Pick.new.Valid := fun _ _ _ h => by cases h
end

end Verif.Reuse
