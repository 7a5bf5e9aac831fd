import Verif.Logic.Own
import Verif.Spec.App
import Verif.Proofs.Mem
/-
The protocol of the threads of a program with an app: which of the app's own operations may be done when.
-/

namespace Verif
open Prog Spec.App

namespace Svc

/-- Where a call of a method of the app is. `s`, `n`: the current state that was read, and when; `n2`: when `isStarted` was. -/
inductive Ph
  | begin
  | read (s : Option St) (n : Nat)
  | known (s : Option St) (n : Nat) (b : Bool) (n2 : Nat)
  | firing (ev : Ev) (s : Option St) (n : Nat) (n2 : Nat)
  | fired (ev : Ev) (s : Option St) (n : Nat) (n2 : Nat) (r : Option Exc)
  | starting (s : Option St) (n : Nat) (n2 : Nat)
  | noStart (s : Option St) (n : Nat) (n2 : Nat) (x : Exc)
  | started (s : Option St) (n : Nat) (n2 : Nat)
  | firing1 (s : Option St) (n : Nat) (n2 : Nat)
  | noFire (s : Option St) (n : Nat) (n2 : Nat) (x : Exc)
  | waiting (s : Option St) (n : Nat) (n2 : Nat)
  | awake (s : Option St) (n : Nat) (n2 : Nat)
  | finish (s : Option St) (n : Nat) (n2 : Nat) (i : Bool)
  | toStop (s : Option St) (n : Nat) (n2 : Nat) (i : Bool)
  | inStop (s : Option St) (n : Nat) (n2 : Nat) (i : Bool)
  | clean (s : Option St) (n : Nat) (n2 : Nat) (i : Bool)
  | over (s : Option St) (n : Nat) (n2 : Nat) (i : Bool) (r : Option Exc)
deriving DecidableEq, Repr

structure Frame where
  c : AppCall
  pos : Nat
  ph : Ph
deriving DecidableEq, Repr

/-- Control state of a thread: the entry action it runs, the method calls it is in. -/
structure Ctl where
  act : Option (Cb × Act)
  meths : List Frame
deriving DecidableEq, Repr

def l0 : Ctl := ⟨none, []⟩

def nm (s : Option St) : Option String := s.map (·.name)

def isOpen (l : Ctl) : Prop :=
  match l.meths with
  | [] => ∀ p, l.act = some p → p.2.isInSub = true
  | f :: _ => ∃ s n n2, f.ph = .starting s n n2

/-- Reads do not matter. -/
def still (l : Ctl) : Prop :=
  match l.meths with
  | [] => True
  | f :: _ => f.ph ≠ .begin ∧ (∀ s n, f.ph ≠ .read s n) ∧ ∀ s n n2 i, f.ph ≠ .finish s n n2 i

theorem still_of_open {l : Ctl} (h : isOpen l) : still l := by
  cases l with
  | mk act ms =>
    cases ms with
    | nil => trivial
    | cons f ms =>
      obtain ⟨s, n, n2, h⟩ := h
      simp only [still, h]
      refine ⟨?_, ?_, ?_⟩ <;> intros <;> intro h <;> cases h

variable (a : App)

def privObs : Obs → Bool
  | .user (.sub i ..) | .user (.subRet i ..) | .user (.app i _) | .user (.appRet i ..) | .user (.intr i) => i == a.id
  | .enter (.fire m _) | .leave (.fire m _) _ | .enter (.stop m) | .leave (.stop m) _ | .enter (.start m) | .leave (.start m) _
  | .enter (.startInState m _) | .leave (.startInState m _) _ => m == a.m
  | .cb (.action _ .entry oid _ _) | .cbRet (.action _ .entry oid _ _) _ => watched a oid
  | .latch n => n == a.latch
  | _ => false

def priv : Op → Bool
  | .emit x => privObs a x
  | .await n | .countDown n => n == a.latch
  | _ => false

/-- Operations that user code and library do not do. -/
def opOk : Op → Bool
  | .emit x => neutral x
  | .notify _ (.begin ..) | .notify _ (.end_ ..) => true
  | .notify .. => false
  | _ => true

/-- Reads advance the method that is being executed. -/
def readFrame (f : Frame) (o : Op) (w : World) : Frame :=
  match o, f.ph with
  | .getCur m, .begin => if m = a.m then { f with ph := .read (w.mach m).cur w.trace.length } else f
  | .getStarted m, .read s n =>
    if m = a.m ∧ f.c = .start then { f with ph := .known s n (w.mach m).started w.trace.length } else f
  | .getEnded m, .finish s n n2 i =>
    if m = a.m then { f with ph := if (w.mach m).ended then .clean s n n2 i else .toStop s n n2 i } else f
  | _, _ => f

/-- May method call `f` return `r` now? -/
def mayReturn (f : Frame) (r : Option Exc) : Prop :=
  match f.c, f.ph with
  | .stop, .read s _ => (onStop a.exitOnStop (nm s) = .ignore ∧ r = none) ∨ (onStop a.exitOnStop (nm s) = .refuse ∧ r = some (.ise .appState))
  | .start, .known s _ true _ => onStart a.exitOnStop (nm s) = .refuse ∧ r = some (.ise .appState)
  | _, .fired _ _ _ _ r' => r = r'
  | _, .noStart _ _ _ x => r = some x
  | _, .noFire _ _ _ x => r = some x
  | _, .clean .. => r = none
  | _, .over _ _ _ _ r' => r = r'
  | _, _ => False

instance (f : Frame) (r : Option Exc) : Decidable (mayReturn a f r) := by unfold mayReturn; split <;> infer_instance

def pop (ms : List Frame) (r : Option Exc) : List Frame :=
  match ms with
  | ⟨c, p, .inStop s n n2 i⟩ :: ms => ⟨c, p, .over s n n2 i r⟩ :: ms
  | ms => ms

/-- The API calls on the app's machine that a method may make now. -/
def enterFire (f : Frame) (ev : Ev) : Option Ph :=
  match f.c, f.ph with
  | .stop, .read s n => if onStop a.exitOnStop (nm s) = .fire ∧ ev = evtStop then some (.firing ev s n n) else none
  | .error, .begin => if ev = evtError then some (.firing ev none 0 0) else none
  | .start, .known s n true n2 => if onStart a.exitOnStop (nm s) = .fire ∧ ev = evtStart then some (.firing ev s n n2) else none
  | .start, .started s n n2 => if ev = evtStart then some (.firing1 s n n2) else none
  | _, _ => none

def methStep (t : Tid) (f : Frame) (ms : List Frame) (o : Op) (w : World) : Option (List Frame) :=
  match o, f.ph with
  | .emit (.enter (.fire _ ev)), _ => (enterFire a f ev).map fun ph => { f with ph := ph } :: ms
  | .emit (.leave (.fire _ ev) r), .firing ev' s n n2 => if ev = ev' then some ({ f with ph := .fired ev s n n2 r } :: ms) else none
  | .emit (.leave (.fire _ ev) r), .firing1 s n n2 =>
    if ev = evtStart then some ({ f with ph := match r with | none => .waiting s n n2 | some x => .noFire s n n2 x } :: ms) else none
  | .emit (.enter (.start _)), .known s n false n2 => if f.c = .start then some ({ f with ph := .starting s n n2 } :: ms) else none
  | .emit (.leave (.start _) r), .starting s n n2 =>
    some ({ f with ph := match r with | none => .started s n n2 | some x => .noStart s n n2 x } :: ms)
  | .await _, .waiting s n n2 => some ({ f with ph := if w.intr t then .awake s n n2 else .finish s n n2 false } :: ms)
  | .emit (.user (.intr _)), .awake s n n2 => some ({ f with ph := .finish s n n2 true } :: ms)
  | .emit (.user (.app _ c)), .starting .. => some (⟨c, w.trace.length, .begin⟩ :: f :: ms)
  | .emit (.user (.app _ c)), .toStop s n n2 i =>
    if c = .stop then some (⟨c, w.trace.length, .begin⟩ :: { f with ph := .inStop s n n2 i } :: ms) else none
  | .emit (.user (.appRet _ c r)), _ => if c = f.c ∧ mayReturn a f r then some (pop ms r) else none
  | _, _ => none

/-- The entry an operation of the app's entry actions leaves in the history. -/
def obsOf : Op → Option Obs
  | .emit x => some x
  | .countDown n => some (.latch n)
  | _ => none

def privStep (t : Tid) (l : Ctl) (o : Op) (w : World) : Option Ctl :=
  match l.meths with
  | [] =>
    match o with
    | .emit (.user (.app _ c)) => if isOpen' l then some { l with meths := [⟨c, w.trace.length, .begin⟩] } else none
    | o => match obsOf o with
      | none => none
      | some x => if relevant a l.act x then (Spec.App.step a l.act x).map fun s => { l with act := s } else none
  | f :: ms => (methStep a t f ms o w).map fun ms => { l with meths := ms }
where
  isOpen' (l : Ctl) : Bool := l.act.elim true fun p => p.2.isInSub

def nxt (t : Tid) (l : Ctl) (o : Op) (w : World) : Ctl :=
  if priv a o then (privStep a t l o w).getD l
  else match l.meths with
    | [] => l
    | f :: ms => { l with meths := readFrame a f o w :: ms }

def allowed (l : Ctl) (o : Op) : Prop :=
  opOk o = true ∧ (priv a o = true → ∀ t w, (privStep a t l o w).isSome = true)

def pre (env : Env) : Call → Ctl → Prop
  | .action k oid i ev m, l =>
    if k = .entry ∧ watched a oid = true then i = 0 ∧ l = ⟨some (.action m .entry oid 0 ev, entryAct a oid), []⟩ else isOpen l
  | .listener .., l | .unmapped .., l | .proc _, l => isOpen l
  | .flowEx s .., l | .flowAfter s .., l | .flowBefore s .., l => s = (env.mach a.m).strat ∨ isOpen l
  | .drain .., l => l = l0

def post : Call → Ctl → Except Exc Unit → Ctl → Prop
  | .action k oid _ ev m, l, r, l' =>
    if k = .entry ∧ watched a oid = true then
      ∃ act, l' = ⟨some (.action m .entry oid 0 ev, act), []⟩ ∧ mayEnd a act (outcome r) = true
    else l' = l
  | _, l, _, l' => l' = l

def proto (env : Env) : OProto Ctl := ⟨allowed a, nxt a, pre a env, post a⟩

end Svc
end Verif
