import Verif.Logic.Prod
import Verif.Logic.Frames
import Verif.Proofs.Walk2
import Verif.Spec.Course
/-
The code follows the automaton of Spec/Course.lean. First a protocol for the threads, which is the automaton with a few
more positions, and the code checked against it.
-/

namespace Verif.Course
open Prog Proto
open Spec.Course
open Spec (Desc)

def cfg (env : Env) : Cfg where
  queue := env.q
  strat := fun m => (env.mach m).strat
  exec := fun s => (env.strat s).exec
  desc := desc env
  noSt := fun m => (env.mach m).res.noSt

/-- A `Stage` with the details which do not matter in the specification. -/
inductive Loc
  | idle
  | top (s : SId) (cm : MId)                                                  -- about to look at the queue
  | seen (s : SId) (cm : MId)                                                 -- about to poll
  | quit (s : SId) (cm : MId)
  | polled (s : SId) (cm : MId) (p : PairId) (ev : Ev) (m : MId)
  | at_ (s : SId) (cm : MId) (p : PairId) (ev : Ev) (m : MId) (td : List Todo)
  | thrown (s : SId) (cm : MId) (p : PairId) (ev : Ev) (m : MId) (x : Exc)
  | flow (s : SId) (cm : MId) (p : PairId) (ev : Ev) (m : MId) (x : Exc)
  | over (s : SId) (cm : MId) (p : PairId) (ev : Ev) (m : MId) (r : Option Exc)
  | dead (x : Exc)

def Loc.stage : Loc → Stage
  | .idle => .idle
  | .top s cm | .seen s cm | .quit s cm => .loop s cm
  | .polled s cm _ ev m => .busy s cm m ev [.check, .decide]
  | .at_ s cm _ ev m td => .busy s cm m ev td
  | .thrown s cm _ ev m x => .thrown s cm m ev x
  | .flow s cm _ ev m x => .flow s cm m ev x
  | .over s cm _ ev m r => .over s cm m ev r
  | .dead x => .dead x

/-- The pair in the hands of the thread. -/
def Loc.item : Loc → Option (PairId × Ev × MId)
  | .polled _ _ p ev m | .at_ _ _ p ev m _ | .thrown _ _ p ev m _ | .flow _ _ p ev m _ | .over _ _ p ev m _ => some (p, ev, m)
  | _ => none

section
variable (env : Env)

def Loc.allowed : Loc → Op → Prop
  | .top s _, .qIsEmpty q => q = env.q s
  | .seen s _, .poll q => q = env.q s
  | .polled _ _ p _ _, .getPair p' => p' = p
  | .at_ s _ p _ _ [], .poolGive s' p' => s' = s ∧ p' = p
  | .at_ _ cm _ _ _ (.check :: _), .getEnded m' => m' = cm
  | .at_ _ _ _ _ m (.decide :: _), .getCur m' => m' = m
  | .at_ _ _ _ _ m (.say _ _ :: _), .getCur m' => m' = m
  | .at_ _ _ _ _ m (.move _ :: _), .getCur m' => m' = m
  | .at_ _ _ _ _ m (.acts _ :: _), .getCur m' => m' = m
  | .at_ _ _ _ _ m (.tell _ :: _), .getListener m' => m' = m
  | .at_ _ _ _ _ m (.told c :: _), .notify m' c' => m' = m ∧ c' = c
  | .at_ _ _ _ _ _ (.call c :: _), .emit (.cb c') => c' = c
  | .at_ _ _ _ _ _ (.ret c :: _), .emit (.cbRet c' _) => c' = c
  | .at_ _ _ _ _ m (.set s :: _), .casEnded m' s' b api => m' = m ∧ s' = s ∧ b = (s.name == resEnd) ∧ api = false
  | .at_ _ _ _ _ m (.write s :: _), .setCur m' s' api => m' = m ∧ s' = s ∧ api = false
  | .thrown _ _ _ ev m x, .emit (.cb c) => x.isException = true ∧ c = .flowEx m ev x
  | .thrown s _ p _ _ x, .poolGive s' p' => x.isException = false ∧ s' = s ∧ p' = p
  | .flow _ _ _ ev m x, .emit (.cbRet c _) => c = .flowEx m ev x
  | .over s _ p _ _ _, .poolGive s' p' => s' = s ∧ p' = p
  | _, _ => False

def Loc.nxt (l : Loc) (o : Op) (w : World) : Loc :=
  match l, o with
  | .top s cm, .qIsEmpty q => if (w.queue q).isEmpty then .quit s cm else .seen s cm
  | .seen s cm, .poll q => match w.queue q with
    | [] => .dead .npe
    | p :: _ => match w.pair p with
      | some (ev, m) => .polled s cm p ev m
      | none => .dead .npe
  | .polled s cm p ev m, .getPair _ => .at_ s cm p ev m [.check, .decide]
  | .at_ s cm _ _ _ [], .poolGive .. => .top s cm
  | .at_ s cm p ev m (.check :: td), .getEnded _ => .at_ s cm p ev m (if (w.mach cm).ended then [] else td)
  | .at_ s cm p ev m (.decide :: td), .getCur _ => match choice (desc env s m) (w.mach m).cur ev with
    | some l => .at_ s cm p ev m (l ++ td)
    | none => .thrown s cm p ev m .npe
  | .at_ s cm p ev m (.say b to :: td), .getCur _ =>
    .at_ s cm p ev m (.tell (note m b ((w.mach m).cur.getD (env.mach m).res.noSt) ev to) :: td)
  | .at_ s cm p ev m (.move to :: td), .getCur _ =>
    .at_ s cm p ev m (steps (desc env s m) ((w.mach m).cur.getD (env.mach m).res.noSt) ev to ++ td)
  | .at_ s cm p ev m (.acts k :: td), .getCur _ => match (w.mach m).cur with
    | some a => .at_ s cm p ev m (calls (desc env s m) k a ev ++ td)
    | none => .thrown s cm p ev m .npe
  | .at_ s cm p ev m (.tell c :: td), .getListener _ =>
    .at_ s cm p ev m (if (w.mach m).listener.isSome then .told c :: td else td)
  | .at_ s cm p ev m (.told c :: td), .notify .. =>
    if (w.mach m).listener.isSome then .at_ s cm p ev m (.ret c :: td) else .thrown s cm p ev m .npe
  | .at_ s cm p ev m (.call c :: td), .emit (.cb _) => .at_ s cm p ev m (.ret c :: td)
  | .at_ s cm p ev m (.ret _ :: td), .emit (.cbRet _ r) => match r with
    | none => .at_ s cm p ev m td
    | some x => .thrown s cm p ev m x
  | .at_ s cm p ev m (.set a :: td), .casEnded .. =>
    .at_ s cm p ev m (if (w.mach m).ended then td else .write a :: td)
  | .at_ s cm p ev m (.write _ :: td), .setCur .. => .at_ s cm p ev m td
  | .thrown s cm p ev m x, .emit (.cb _) => .flow s cm p ev m x
  | .thrown _ _ _ _ _ x, .poolGive .. => .dead x
  | .flow s cm p ev m _, .emit (.cbRet _ r) => .over s cm p ev m r
  | .over s cm _ _ _ r, .poolGive .. => match r with
    | none => .top s cm
    | some x => .dead x
  | l, _ => l

/-- Number of API calls in progress, position in the drain task. -/
abbrev Pos := Nat × Loc

def callable (l : Pos) : Prop := l.2.stage.calling = true

def allowed (l : Pos) : Op → Prop
  | .emit (.enter _) => callable l
  | .emit (.leave ..) => 0 < l.1
  | o => 0 < l.1 ∨ (callable l ∧ userOp o) ∨ l.2.allowed env o

def nxt (l : Pos) (o : Op) (w : World) : Pos :=
  match o with
  | .emit (.enter _) => (l.1 + 1, l.2)
  | .emit (.leave ..) => (l.1 - 1, l.2)
  | o => match l with
    | (0, l) => (0, l.nxt env o w)
    | l => l

def know (l : Pos) (w : World) : Prop :=
  (∀ q p, p ∈ w.queue q → (w.pair p).isSome = true) ∧ ∀ p ev m, l.2.item = some (p, ev, m) → w.pair p = some (ev, m)

def pre : Call → Pos → Prop
  | .drain s cm, l => l = (0, .top s cm)
  | _, l => callable l

def post : Call → Pos → Except Exc Unit → Pos → Prop
  | .drain s cm, _, r, l' => match r with
    | .ok _ => l' = (0, .quit s cm)
    | .error x => l' = (0, .dead x)
  | _, l, _, l' => l' = l

def proto : Proto Pos where
  allowed := allowed env
  know := know
  nxt := nxt env
  pre := pre
  post := post

def task (s : SId) (m : MId) : Pos := (0, .top s m)

def fin (t : Tid) (r : Except Exc Unit) (l : Pos) : Prop :=
  (l = (0, .idle) ∧ ∃ n, t = .client n) ∨ match r with
    | .ok _ => ∃ s cm, l = (0, .quit s cm)
    | .error x => l = (0, .dead x)

end

variable {env : Env} {t : Tid}

/-! ### User code -/

theorem userOp_plain {o : Op} (h : userOp o) : (∀ c, o ≠ .emit (.enter c)) ∧ ∀ c r, o ≠ .emit (.leave c r) := by
  constructor <;> (intros; rintro rfl; exact h)

theorem nxt_user {l : Pos} {o : Op} {w : World} (hc : callable l) (h : userOp o) : nxt env l o w = l := by
  obtain ⟨d, l⟩ := l
  have : nxt env (d, l) o w = match ((d, l) : Pos) with | (0, l) => (0, l.nxt env o w) | l => l := by
    unfold nxt
    split
    · exact h.elim
    · exact h.elim
    · rfl
  rw [this]
  cases d with
  | succ d => rfl
  | zero =>
    simp only
    congr 1
    unfold callable at hc
    cases l with
    | idle => rfl
    | flow => cases o <;> first | rfl | exact h.elim | (rename_i x; cases x <;> first | rfl | exact h.elim)
    | at_ s cm p ev m td =>
      cases td with
      | nil => cases hc
      | cons a td => cases a <;> first | exact Bool.noConfusion hc | (cases o <;> first | rfl | exact h.elim | (rename_i x; cases x <;> first | rfl | exact h.elim))
    | _ => cases hc

theorem ok_user {o : Op} {l : Pos} {Q : Except Exc o.Res → Pos → Prop} (hc : callable l) (h : userOp o)
    (hq : ∀ r, Q (.ok r) l) : (proto env).Ok t (lift o) l Q := by
  rw [ok_lift]
  refine ⟨?_, fun w _ => ?_⟩
  · show allowed env l o
    unfold allowed
    split
    · exact h.elim
    · exact h.elim
    · exact Or.inr (Or.inl ⟨hc, h⟩)
  · show Q _ (nxt env l o w)
    rw [nxt_user hc h]; exact hq _

/-- Programs without calls and returns of API methods and without drain tasks. -/
def Tame {α : Type} : Prog α → Prop
  | .ret _ => True
  | .thr _ => True
  | .op o k => (∀ c, o ≠ .emit (.enter c)) ∧ (∀ c r, o ≠ .emit (.leave c r)) ∧ ∀ r, Tame (k r)
  | .call c k => (∀ s m, c ≠ .drain s m) ∧ ∀ r, Tame (k r)

theorem Tame.handle {α β : Type} {p : Prog α} {f : Except Exc α → Prog β} (hp : Tame p) (hf : ∀ r, Tame (f r)) : Tame (p.handle f) := by
  induction p with
  | ret a => exact hf _
  | thr x => exact hf _
  | op o k ih => exact ⟨hp.1, hp.2.1, fun r => ih r (hp.2.2 r)⟩
  | call c k ih => exact ⟨hp.1, fun r => ih r (hp.2 r)⟩

theorem Tame.bind {α β : Type} {p : Prog α} {f : α → Prog β} (hp : Tame p) (hf : ∀ r, Tame (f r)) : Tame (p >>= f) :=
  hp.handle fun r => by cases r <;> first | exact hf _ | exact trivial

theorem pre_of {c : Call} {l : Pos} (h : ∀ s m, c ≠ .drain s m) (hc : callable l) : pre c l := by
  cases c with
  | drain s m => exact absurd rfl (h s m)
  | _ => exact hc

theorem post_of {c : Call} {l l' : Pos} {r : Except Exc Unit} (h : ∀ s m, c ≠ .drain s m) (hp : post c l r l') : l' = l := by
  cases c with
  | drain s m => exact absurd rfl (h s m)
  | _ => exact hp

/-- Inside an API call. -/
theorem ok_tame {α : Type} {p : Prog α} {d : Nat} {l : Loc} (hp : Tame p) (hc : l.stage.calling = true) :
    (proto env).Ok t p (d + 1, l) (fun _ l' => l' = (d + 1, l)) := by
  induction p with
  | ret a => rfl
  | thr x => rfl
  | op o k ih =>
    obtain ⟨h1, h2, h3⟩ := hp
    refine ⟨?_, fun w _ => ?_⟩
    · show allowed env _ o
      unfold allowed
      split
      · exact absurd rfl (h1 _)
      · exact absurd rfl (h2 _ _)
      · exact Or.inl (Nat.succ_pos d)
    · have : (proto env).nxt (d + 1, l) o w = (d + 1, l) := by
        show nxt env (d + 1, l) o w = _
        unfold nxt
        split
        · exact absurd rfl (h1 _)
        · exact absurd rfl (h2 _ _)
        · rfl
      rw [this]
      exact ih _ (h3 _)
  | call c k ih =>
    refine ⟨pre_of hp.1 hc, fun r l' hl => ?_⟩
    have := post_of hp.1 hl
    subst this
    exact ih r (hp.2 r)

macro "tame" : tactic => `(tactic| (intros; first | trivial | (intro; intros; simp)))

theorem tame_lift {o : Op} (h1 : ∀ c, o ≠ .emit (.enter c)) (h2 : ∀ c r, o ≠ .emit (.leave c r)) : Tame (lift o) :=
  ⟨h1, h2, fun _ => trivial⟩

theorem tame_userCall {c : Cb} {call : Call} (h : ∀ s m, call ≠ .drain s m) : Tame (userCall c call) := by
  refine Tame.bind (Tame.handle ⟨h, fun r => by cases r <;> trivial⟩ fun _ => trivial) fun r => ?_
  exact Tame.bind (tame_lift (by simp) (by simp)) fun _ => by cases r <;> trivial

theorem tame_callback {c : Cb} {call : Call} (h : ∀ s m, call ≠ .drain s m) : Tame (callback c call) :=
  Tame.bind (tame_lift (by simp) (by simp)) fun _ => tame_userCall h

theorem tame_notify {m : MId} {b : Bool} {f : Option St} {ev : Ev} {to : Option St} : Tame (notifyListener env m b f ev to) := by
  refine Tame.bind (tame_lift (by simp) (by simp)) fun l => ?_
  split
  · refine Tame.bind (tame_lift (by simp) (by simp)) fun l => ?_
    cases l with
    | none => trivial
    | some l => exact tame_userCall (by simp)
  · trivial

theorem tame_runActs {m : MId} {k : Kind} {oid : Nat} {ev : Ev} {i n : Nat} : Tame (runActs m k oid ev i n) := by
  induction n generalizing i with
  | zero => trivial
  | succ n ih => exact Tame.bind (tame_callback (by simp)) fun _ => ih

theorem tame_update {m : MId} {s : St} {b : Bool} : Tame (updateCurrentState env m s b) := by
  refine Tame.bind (tame_lift (by simp) (by simp)) fun r => ?_
  split
  · exact tame_lift (by simp) (by simp)
  · trivial

theorem tame_anyEqual {ev : Ev} {ps : List PairId} : Tame (anyEqual ev ps) := by
  induction ps with
  | nil => trivial
  | cons p ps ih =>
    refine Tame.bind (tame_lift (by simp) (by simp)) fun r => ?_
    refine Tame.bind (by cases r <;> trivial) fun r => ?_
    split
    split
    · trivial
    · exact ih

theorem tame_default {s : SId} {ev : Ev} {m : MId} : Tame (processEventDefault env s ev m) := by
  refine Tame.bind (tame_lift (by simp) (by simp)) fun r => ?_
  split
  · exact tame_callback (by simp)
  · refine Tame.bind (tame_lift (by simp) (by simp)) fun p => ?_
    refine Tame.bind (tame_lift (by simp) (by simp)) fun pl => ?_
    have hend : Tame (do
        lift (.offer (env.strat s).queue p)
        if !(← lift (.submit (env.strat s).exec s m)) then thr .rejected) := by
      refine Tame.bind (tame_lift (by simp) (by simp)) fun _ => ?_
      refine Tame.bind (tame_lift (by simp) (by simp)) fun r => ?_
      split <;> trivial
    split
    · refine Tame.bind (tame_lift (by simp) (by simp)) fun e => ?_
      exact Tame.bind (tame_lift (by simp) (by simp)) fun _ => hend
    · exact Tame.bind (tame_lift (by simp) (by simp)) fun _ => hend

theorem tame_process {s : SId} {ev : Ev} {m : MId} : Tame (processEvent env s ev m) := by
  unfold processEvent
  split
  · refine Tame.bind (tame_lift (by simp) (by simp)) fun ps => ?_
    refine Tame.bind tame_anyEqual fun r => ?_
    split
    · exact tame_lift (by simp) (by simp)
    · exact tame_default
  · exact tame_default

theorem tame_fire {m : MId} {ev : Ev} : Tame (fire env m ev) := by
  refine Tame.bind (tame_lift (by simp) (by simp)) fun r => ?_
  split
  · exact tame_callback (by simp)
  · refine Tame.bind (tame_lift (by simp) (by simp)) fun r => ?_
    have hend : ∀ e : Bool, Tame (if e = true then callback (.flowAfter m ev) (.flowAfter (env.mach m).strat ev m)
        else processEvent env (env.mach m).strat ev m) := by
      intro e
      split
      · exact tame_callback (by simp)
      · exact tame_process
    split
    · exact Tame.bind (tame_lift (by simp) (by simp)) hend
    · exact hend false

theorem tame_start {m : MId} : Tame (start env m) := by
  unfold start
  simp only
  split
  · trivial
  · trivial
  · refine Tame.bind (tame_lift (by simp) (by simp)) fun r => ?_
    split
    · refine Tame.bind (tame_lift (by simp) (by simp)) fun _ => ?_
      refine Tame.bind tame_notify fun _ => ?_
      refine Tame.bind tame_runActs fun _ => ?_
      refine Tame.bind tame_notify fun _ => ?_
      exact tame_lift (by simp) (by simp)
    · trivial

theorem tame_startIn {m : MId} {s : Option St} : Tame (startInState env m s) := by
  unfold startInState
  split
  · refine Tame.bind (tame_lift (by simp) (by simp)) fun r => ?_
    split
    · refine Tame.bind (tame_lift (by simp) (by simp)) fun _ => ?_
      exact tame_lift (by simp) (by simp)
    · trivial
  · trivial

/-- An API call of user code. -/
theorem ok_api {c : Api} {p : Prog Unit} {l : Pos} (hp : Tame p) (hc : callable l) :
    (proto env).Ok t (api c p) l (fun r l' => l' = l ∧ ∃ a, r = .ok a) := by
  obtain ⟨d, l⟩ := l
  unfold api
  rw [ok_bind, ok_lift]
  refine ⟨hc, fun w _ => ?_⟩
  show (proto env).Ok t _ (d + 1, l) _
  rw [ok_bind, ok_attempt]
  refine (ok_tame hp hc).mono ?_
  rintro r l' rfl
  show (proto env).Ok t _ (d + 1, l) _
  rw [ok_bind, ok_lift]
  exact ⟨Nat.succ_pos d, fun w _ => ⟨rfl, _, rfl⟩⟩

theorem ok_ucall {u : UCall} {l : Pos} (hc : callable l) :
    (proto env).Ok t (u.prog env) l (fun r l' => l' = l ∧ ∃ a, r = .ok a) := by
  cases u with
  | fire m ev => exact ok_api tame_fire hc
  | stop m => exact ok_api tame_update hc
  | start m => exact ok_api tame_start hc
  | startInState m s => exact ok_api tame_startIn hc
  | proc i =>
    simp only [UCall.prog]
    rw [ok_attempt, ok_invoke]
    exact ⟨hc, fun r l' hp => ⟨hp, r, rfl⟩⟩
  | _ => exact ok_user hc trivial fun r => ⟨rfl, r, rfl⟩

theorem ok_denote {u : UProg} {l : Pos} (hc : callable l) :
    (proto env).Ok t (u.denote env) l (fun _ l' => l' = l) := by
  induction u with
  | done => rfl
  | thr x => rfl
  | call u k ih =>
    simp only [UProg.denote]
    rw [ok_bind']
    refine (ok_ucall hc).mono ?_
    rintro r l' ⟨rfl, a, rfl⟩
    exact ih a

/-! ### Event processing -/

section
variable {s : SId} {cm : MId} {p : PairId} {ev : Ev} {m : MId}

/-- The first thing to do has been done. -/
def Then (s : SId) (cm : MId) (p : PairId) (ev : Ev) (m : MId) (td : List Todo) (r : Except Exc Unit) (l : Pos) : Prop :=
  match r with
  | .ok _ => l = (0, .at_ s cm p ev m td)
  | .error x => l = (0, .thrown s cm p ev m x)

theorem allowed_loc {l : Loc} {o : Op} (h : l.allowed env o) (h1 : ∀ c, o ≠ .emit (.enter c))
    (h2 : ∀ c r, o ≠ .emit (.leave c r)) : allowed env (0, l) o := by
  unfold allowed
  split
  · exact absurd rfl (h1 _)
  · exact absurd rfl (h2 _ _)
  · exact Or.inr (Or.inr h)

/-- One operation at a position. -/
theorem ok_at {o : Op} {l : Loc} {Q : Except Exc o.Res → Pos → Prop} (h : l.allowed env o) (h1 : ∀ c, o ≠ .emit (.enter c))
    (h2 : ∀ c r, o ≠ .emit (.leave c r))
    (hq : ∀ w, know (0, l) w → Q (.ok (exec t o w).1) (0, l.nxt env o w)) : (proto env).Ok t (lift o) (0, l) Q := by
  rw [ok_lift]
  refine ⟨allowed_loc h h1 h2, fun w hw => ?_⟩
  have : (proto env).nxt (0, l) o w = (0, l.nxt env o w) := by
    show nxt env (0, l) o w = _
    unfold nxt
    split
    · exact absurd rfl (h1 _)
    · exact absurd rfl (h2 _ _)
    · rfl
  rw [this]
  exact hq w hw

theorem ok_userCall {c : Cb} {call : Call} {l : Loc} {Q : Except Exc Unit → Pos → Prop} (hc : ∀ s m, call ≠ .drain s m)
    (hl : l.stage.calling = true) (ha : ∀ r, l.allowed env (.emit (.cbRet c r)))
    (hq : ∀ (r : Except Exc Unit) w, Q r (0, l.nxt env (.emit (.cbRet c (outcome r))) w)) :
    (proto env).Ok t (userCall c call) (0, l) Q := by
  unfold userCall
  rw [ok_bind, ok_attempt, ok_invoke]
  refine ⟨pre_of hc hl, fun r l' hp => ?_⟩
  have := post_of hc hp
  subst this
  rw [cont_ok, ok_bind]
  refine ok_at (ha _) (by simp) (by simp) fun w _ => ?_
  rw [cont_ok, ok_ofExcept]
  exact hq r w

theorem ok_ret {c : Cb} {call : Call} {td : List Todo} (hc : ∀ s m, call ≠ .drain s m) :
    (proto env).Ok t (userCall c call) (0, .at_ s cm p ev m (.ret c :: td)) (Then s cm p ev m td) := by
  refine ok_userCall hc rfl (fun _ => rfl) fun r w => ?_
  cases r <;> rfl

theorem ok_callback {c : Cb} {call : Call} {td : List Todo} (hc : ∀ s m, call ≠ .drain s m) :
    (proto env).Ok t (callback c call) (0, .at_ s cm p ev m (.call c :: td)) (Then s cm p ev m td) := by
  unfold callback
  rw [ok_bind]
  exact ok_at rfl (by simp) (by simp) fun w _ => ok_ret hc

theorem ok_notify {b : Bool} {f : Option St} {to : St} {td : List Todo} :
    (proto env).Ok t (notifyListener env m b f ev (some to))
      (0, .at_ s cm p ev m (.tell (note m b (f.getD (env.mach m).res.noSt) ev to) :: td)) (Then s cm p ev m td) := by
  unfold notifyListener
  rw [ok_bind]
  refine ok_at rfl (by simp) (by simp) fun w _ => ?_
  rw [cont_ok]
  show (proto env).Ok t (if (w.mach m).listener.isSome = true then _ else _) (0, Loc.at_ s cm p ev m
    (if (w.mach m).listener.isSome = true then _ else _)) _
  split
  · rw [ok_bind]
    refine ok_at ⟨rfl, rfl⟩ (by simp) (by simp) fun w _ => ?_
    rw [cont_ok]
    simp only [exec, Loc.nxt]
    cases h : (w.mach m).listener with
    | none => rfl
    | some l => exact ok_ret (by simp)
  · rfl

theorem ok_seq {a : Prog Unit} {f : Unit → Prog Unit} {l : Pos} {td : List Todo} {Q : Except Exc Unit → Pos → Prop}
    (h1 : (proto env).Ok t a l (Then s cm p ev m td))
    (h2 : (proto env).Ok t (f ()) (0, .at_ s cm p ev m td) Q) (h3 : ∀ x, Q (.error x) (0, .thrown s cm p ev m x)) :
    (proto env).Ok t (a >>= f) l Q := by
  rw [ok_bind]
  refine h1.mono ?_
  intro r l h
  cases r with
  | ok u => cases h; exact h2
  | error x => cases h; exact h3 x

theorem ok_runActs {k : Kind} {oid i n : Nat} {td : List Todo} :
    (proto env).Ok t (runActs m k oid ev i n)
      (0, .at_ s cm p ev m ((List.range' i n).map (fun j => Todo.call (.action m k oid j ev)) ++ td)) (Then s cm p ev m td) := by
  induction n generalizing i with
  | zero => rfl
  | succ n ih =>
    unfold runActs
    rw [List.range'_succ, List.map_cons, List.cons_append]
    exact ok_seq (ok_callback (by simp)) ih fun _ => rfl

theorem ok_onState {k : Kind} {a : St} {td : List Todo} :
    (proto env).Ok t (onState env k a ev m) (0, .at_ s cm p ev m (calls (desc env s m) k a ev ++ td)) (Then s cm p ev m td) := by
  have := ok_runActs (env := env) (t := t) (s := s) (cm := cm) (p := p) (ev := ev) (m := m) (k := k) (oid := a.oid) (i := 0)
    (n := (env.acts k a.oid).length) (td := td)
  rw [← List.range_eq_range'] at this
  exact this

theorem ok_update {a : St} {td : List Todo} :
    (proto env).Ok t (updateCurrentState env m a false) (0, .at_ s cm p ev m (.set a :: td)) (Then s cm p ev m td) := by
  unfold updateCurrentState
  rw [ok_bind]
  refine ok_at ⟨rfl, rfl, rfl, rfl⟩ (by simp) (by simp) fun w _ => ?_
  rw [cont_ok]
  simp only [exec, Loc.nxt]
  cases h : (w.mach m).ended with
  | true => rfl
  | false => exact ok_at ⟨rfl, rfl, rfl⟩ (by simp) (by simp) fun w _ => rfl

theorem ok_acts {k : Kind} {td td' : List Todo} {f : Unit → Prog Unit} 
    (h : (proto env).Ok t (f ()) (0, .at_ s cm p ev m td) (Then s cm p ev m td')) :
    (proto env).Ok t (do
      let a ← lift (.getCur m)
      let a ← deref a
      let u ← onState env k a ev m
      f u) (0, .at_ s cm p ev m (.acts k :: td)) (Then s cm p ev m td') := by
  rw [ok_bind]
  refine ok_at rfl (by simp) (by simp) fun w _ => ?_
  rw [cont_ok]
  simp only [exec, Loc.nxt]
  cases (w.mach m).cur with
  | none => rfl
  | some a => exact ok_seq ok_onState h fun _ => rfl

theorem ok_execute : (proto env).Ok t (execute env s ev m) (0, .at_ s cm p ev m [.decide]) (Then s cm p ev m []) := by
  unfold execute
  rw [ok_bind]
  refine ok_at rfl (by simp) (by simp) fun w _ => ?_
  rw [cont_ok]
  simp only [exec, Loc.nxt, choice]
  rw [show (desc env s m).table = (env.strat s).table from rfl]
  cases (env.strat s).table.row? (w.mach m).cur with
  | none => rfl
  | some row =>
    simp only [deref, Option.map_some]
    show (proto env).Ok t (match row.target (some ev.key) with | none => _ | some _ => _) _ _
    cases row.target (some ev.key) with
    | none => exact ok_callback (by simp)
    | some b =>
      simp only
      by_cases hn : b.name = resNoop
      · have hn' : (env.mach m).res.noopSt.eqv b = true := by simp [St.eqv, Reserved.noopSt, hn]
        rw [if_pos hn, if_pos hn', ok_bind]
        refine ok_at rfl (by simp) (by simp) fun w _ => ?_
        rw [cont_ok]
        refine ok_seq ok_notify ?_ fun _ => rfl
        rw [ok_bind]
        exact ok_at rfl (by simp) (by simp) fun w _ => ok_notify
      · have hn' : ¬(env.mach m).res.noopSt.eqv b = true := by
          intro h; apply hn; simp only [St.eqv, Reserved.noopSt] at h; grind
        rw [if_neg hn, if_neg hn', ok_bind]
        refine ok_at rfl (by simp) (by simp) fun w _ => ?_
        rw [cont_ok]
        refine ok_seq ok_notify ?_ fun _ => rfl
        refine ok_acts ?_
        refine ok_seq ok_update ?_ fun _ => rfl
        refine ok_acts ?_
        refine ok_seq ok_notify ?_ fun _ => rfl
        rw [isFinal_desc]
        cases (desc env s m).final b with
        | true => exact ok_update
        | false => rfl

/-- The end of the processing of an event. -/
def Next (s : SId) (cm : MId) (r : Except Exc Unit) (l : Pos) : Prop :=
  match r with
  | .ok _ => l = (0, .top s cm)
  | .error x => l = (0, .dead x)

theorem ok_processOne : (proto env).Ok t (processOne env s cm p ev m) (0, .at_ s cm p ev m [.check, .decide]) (Next s cm) := by
  unfold processOne
  rw [ok_bind, ok_attempt]
  have h1 : (proto env).Ok t (do
      if !(← lift (.getEnded cm)) then
        execute env s ev m) (0, .at_ s cm p ev m [.check, .decide]) (Then s cm p ev m []) := by
    rw [ok_bind]
    refine ok_at rfl (by simp) (by simp) fun w _ => ?_
    rw [cont_ok]
    have hw : ∀ b : Bool, (proto env).Ok t (if (!b) = true then execute env s ev m else pure ())
        (0, .at_ s cm p ev m (if b then [] else [.decide])) (Then s cm p ev m []) := by
      intro b
      cases b with
      | true => rfl
      | false => exact ok_execute
    exact hw (w.mach cm).ended
  refine h1.mono ?_
  intro r l hl
  rw [cont_ok]
  cases r with
  | ok u =>
    cases hl
    show (proto env).Ok t (lift (.poolGive s p) >>= fun _ => ofExcept (.ok ())) _ _
    rw [ok_bind]
    exact ok_at ⟨rfl, rfl⟩ (by simp) (by simp) fun w _ => rfl
  | error x =>
    cases hl
    simp only
    cases hx : x.isException with
    | true =>
      rw [if_pos rfl, ok_bind, ok_attempt]
      unfold callback
      rw [ok_bind]
      refine ok_at ⟨hx, rfl⟩ (by simp) (by simp) fun w _ => ?_
      refine ok_userCall (by simp) rfl (fun _ => rfl) fun r w => ?_
      rw [cont_ok, ok_bind]
      refine ok_at ⟨rfl, rfl⟩ (by simp) (by simp) fun w _ => ?_
      rw [cont_ok, ok_ofExcept]
      cases r <;> rfl
    | false =>
      rw [if_neg (by simp)]
      show (proto env).Ok t (lift (.poolGive s p) >>= fun _ => ofExcept (.error x)) _ _
      rw [ok_bind]
      exact ok_at ⟨hx, rfl, rfl⟩ (by simp) (by simp) fun w _ => rfl

theorem ok_drain : (proto env).Ok t (drain env s cm) (0, .top s cm) (post (.drain s cm) (0, .top s cm)) := by
  unfold drain
  rw [ok_bind]
  refine ok_at rfl (by simp) (by simp) fun w _ => ?_
  rw [cont_ok]
  show (proto env).Ok t (if (w.queue (env.strat s).queue).isEmpty = true then _ else _)
    (0, if (w.queue (env.strat s).queue).isEmpty = true then _ else _) _
  split
  · rfl
  · rw [ok_bind]
    refine ok_at rfl (by simp) (by simp) fun w hw => ?_
    rw [cont_ok]
    simp only [exec, Loc.nxt]
    cases hq : w.queue (env.strat s).queue with
    | nil => rfl
    | cons p ps =>
      have := hw.1 (env.strat s).queue p (by rw [hq]; exact List.mem_cons_self)
      cases hp : w.pair p with
      | none => rw [hp] at this; cases this
      | some e =>
        obtain ⟨ev, m⟩ := e
        simp only [hp]
        show (proto env).Ok t (lift (.getPair p) >>= _) (0, .polled s cm p ev m) _
        rw [ok_bind]
        refine ok_at rfl (by simp) (by simp) fun w hw => ?_
        rw [cont_ok]
        have := hw.2 p ev m rfl
        simp only [exec, Loc.nxt, this]
        show (proto env).Ok t (processOne env s cm p ev m >>= fun _ => invoke (.drain s cm))
          (0, .at_ s cm p ev m [.check, .decide]) _
        rw [ok_bind]
        refine ok_processOne.mono ?_
        intro r l hl
        cases r with
        | error x => exact hl
        | ok u =>
          cases hl
          rw [cont_ok, ok_invoke]
          exact ⟨rfl, fun r l' hp => hp⟩

end

theorem checked : Checked env (proto env) (0, .idle) task fin where
  body := fun t c l hp => by
    have hu : ∀ {u : UProg} {c : Call}, (∀ s m, c ≠ .drain s m) → callable l →
        (proto env).Ok t (u.denote env) l (post c l) := by
      intro u c hc hl
      refine (ok_denote hl).mono ?_
      rintro r l' rfl
      cases c <;> first | rfl | exact absurd rfl (hc _ _)
    cases c with
    | drain s cm => cases hp; exact ok_drain
    | proc i => exact hu (c := .proc i) (by simp) hp
    | action k oid i ev m =>
      simp only [body]
      split
      · exact hu (c := .action k oid i ev m) (by simp) hp
      · rfl
    | listener l b a ev to => exact hu (c := .listener l b a ev to) (by simp) hp
    | unmapped s ev m => exact hu (c := .unmapped s ev m) (by simp) hp
    | flowEx s ev m x => exact hu (c := .flowEx s ev m x) (by simp) hp
    | flowAfter s ev m => exact hu (c := .flowAfter s ev m) (by simp) hp
    | flowBefore s ev m => exact hu (c := .flowBefore s ev m) (by simp) hp
  client := fun n u => (ok_denote (l := (0, .idle)) rfl).mono fun r l h => Or.inl ⟨h, n, rfl⟩
  drain := fun t s m => ok_drain.mono fun r l h => by
    cases r with
    | ok u => exact Or.inr ⟨s, m, h⟩
    | error x => exact Or.inr h

end Verif.Course
