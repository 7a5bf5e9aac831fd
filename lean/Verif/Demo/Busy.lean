import Verif.Demo.Races
import Verif.Proofs.LiveDone
import Verif.Spec.Exec
/-
An executor thread that is kept busy for ever: a machine whose entry action fires the next event.
-/

namespace Verif
open Prog Spec

/-- One step of a thread, seen by the thread. -/
def adv1 (env : Env) (t : Tid) : World × Option (Prog Unit) → World × Option (Prog Unit)
  | (w, none) => (w, none)
  | (w, some (.ret _)) => (w, none)
  | (w, some (.thr x)) => (w.log t (.uncaught x), none)
  | (w, some (.op o k)) => if enabled t o w then ((exec t o w).2, some (k (exec t o w).1)) else (w, some (.op o k))
  | (w, some (.call f k)) => (w, some ((body env f).handle k))

/-- A number of steps of a thread, seen by the thread. -/
def adv (env : Env) (t : Tid) : Nat → World × Option (Prog Unit) → World × Option (Prog Unit)
  | 0, x => x
  | n + 1, x => adv env t n (adv1 env t x)

theorem adv_op {env : Env} {t : Tid} {n : Nat} {w : World} {o : Op} {k : o.Res → Prog Unit} (h : enabled t o w = true) :
    adv env t (n + 1) (w, some (.op o k)) = adv env t n ((exec t o w).2, some (k (exec t o w).1)) := by
  simp [adv, adv1, h]

theorem next {env : Env} {t : Tid} {n : Nat} {w : World} {o : Op} {k : o.Res → Prog Unit} {X} (h : adv env t (n + 1) (w, some (.op o k)) = X)
    (v : o.Res) (w' : World) (e : exec t o w = (v, w')) (he : enabled t o w = true) : adv env t n (w', some (k v)) = X := by
  rw [adv_op he, e] at h; exact h

theorem nextCall {env : Env} {t : Tid} {n : Nat} {w : World} {f : Call} {k : Except Exc Unit → Prog Unit} {X}
    (h : adv env t (n + 1) (w, some (.call f k)) = X) : adv env t n (w, some ((body env f).handle k)) = X := h

theorem handle_ofExcept {α : Type} (p : Prog α) : p.handle ofExcept = p := by
  induction p with
  | ret a => rfl
  | thr x => rfl
  | op o k ih => exact congrArg (Prog.op o) (funext ih)
  | call f k ih => exact congrArg (Prog.call f) (funext ih)

namespace Demo

/-- The configurations along an infinite schedule; impossible steps are skipped. -/
def follow (env : Env) (c0 : Conf) (f : Nat → Choice) : Nat → Conf
  | 0 => c0
  | i + 1 => tryStep env (follow env c0 f i) (f i)

/-- The execution along an infinite schedule. -/
def runBy (env : Env) (c0 : Conf) (hi : Initial c0) (f : Nat → Choice) : Run env where
  conf := follow env c0 f
  pick := fun i => if (step env (follow env c0 f i) (f i)).isSome then some (f i) else none
  init := hi
  next := fun i => by
    show match if _ then _ else _ with | none => tryStep env (follow env c0 f i) (f i) = _ | some x => step env (follow env c0 f i) x = some (tryStep env (follow env c0 f i) (f i))
    unfold tryStep
    cases hs : step env (follow env c0 f i) (f i) with
    | none => simp
    | some c => simp [hs]

/-- A schedule, and then steps of thread `t` for ever. -/
def thenFor (xs : List Choice) (t : Tid) (i : Nat) : Choice := xs[i]?.getD (.run t)

theorem follow_take (env : Env) (c0 : Conf) (xs : List Choice) (t : Tid) : ∀ i, i ≤ xs.length →
    follow env c0 (thenFor xs t) i = drive env c0 (xs.take i)
  | 0, _ => rfl
  | i + 1, h => by
    have ht : xs.take (i + 1) = xs.take i ++ [xs[i]] := by rw [List.take_add_one, List.getElem?_eq_getElem (by omega)]; rfl
    have hx : thenFor xs t i = xs[i] := by rw [thenFor, List.getElem?_eq_getElem (by omega)]; rfl
    show tryStep env (follow env c0 _ i) _ = _
    rw [follow_take env c0 xs t i (by omega), ht, hx]
    unfold drive
    rw [List.foldl_append]; rfl

theorem thenFor_end {xs : List Choice} {t : Tid} {i : Nat} (h : xs.length ≤ i) : thenFor xs t i = .run t := by
  rw [thenFor, List.getElem?_eq_none_iff.2 h]; rfl

theorem tryStep_adv (env : Env) (c : Conf) (t : Tid) :
    ((tryStep env c (.run t)).w, (tryStep env c (.run t)).thr t) = adv1 env t (c.w, c.thr t) ∧
      ∀ u, u ≠ t → (tryStep env c (.run t)).thr u = c.thr u := by
  cases h : c.thr t with
  | none => simp [tryStep, step, h, adv1]
  | some p =>
    cases p with
    | ret => simp +contextual [tryStep, step, h, adv1, runThread, fset]
    | thr => simp +contextual [tryStep, step, h, adv1, runThread, fset]
    | call => simp +contextual [tryStep, step, h, adv1, runThread, fset]
    | op o k =>
      by_cases he : enabled t o c.w = true
      · simp +contextual [tryStep, step, h, adv1, runThread, fset, he]
      · simp +contextual [tryStep, step, h, adv1, runThread, fset, he]

theorem adv_succ (env : Env) (t : Tid) : ∀ n x, adv env t (n + 1) x = adv1 env t (adv env t n x)
  | 0, _ => rfl
  | n + 1, x => adv_succ env t n (adv1 env t x)

/-- After the schedule only thread `t` moves. -/
theorem follow_adv {env : Env} {c0 : Conf} {xs : List Choice} {t : Tid} {i : Nat} (h : xs.length ≤ i) : ∀ n,
    ((follow env c0 (thenFor xs t) (i + n)).w, (follow env c0 (thenFor xs t) (i + n)).thr t) =
      adv env t n ((follow env c0 (thenFor xs t) i).w, (follow env c0 (thenFor xs t) i).thr t) ∧
    ∀ u, u ≠ t → (follow env c0 (thenFor xs t) (i + n)).thr u = (follow env c0 (thenFor xs t) i).thr u
  | 0 => ⟨rfl, fun _ _ => rfl⟩
  | n + 1 => by
    have ih := follow_adv (env := env) (c0 := c0) (t := t) h n
    have h1 := tryStep_adv env (follow env c0 (thenFor xs t) (i + n)) t
    rw [adv_succ, ← ih.1]
    show ((tryStep env _ (thenFor xs t (i + n))).w, (tryStep env _ (thenFor xs t (i + n))).thr t) = _ ∧ ∀ u, u ≠ t → (tryStep env _ (thenFor xs t (i + n))).thr u = _
    rw [thenFor_end (by omega)]
    exact ⟨h1.1, fun u hu => (h1.2 u hu).trans (ih.2 u hu)⟩

theorem follow_succ (env : Env) (c0 : Conf) (f : Nat → Choice) (i : Nat) : follow env c0 f (i + 1) = tryStep env (follow env c0 f i) (f i) := rfl

attribute [irreducible] follow

def tick : Ev := ⟨0, "tick", .client 5⟩

/-- A --tick--> A -/
def busyTable : Table := (cfgRun rs [.initialSate (some A), .receives (some tick), .itTransitionsTo (some A)] .empty).table

/-- B --go--> C -/
def quietTable : Table := (cfgRun rs [.initialSate (some B), .receives (some go), .itTransitionsTo (some C)] .empty).table

/-- Machine 0 fires its next event whenever it enters its state; the others do nothing special. Each machine has its own strategy and
its own queue for at most one event, and all strategies have the same single-threaded executor. -/
def busyEnv : Env where
  mach := fun m => if m = 0 then ⟨0, busyTable, some A, rs⟩ else ⟨m, quietTable, some B, rs⟩
  strat := fun s => if s = 0 then ⟨0, 0, 1, false, busyTable⟩ else ⟨s, 0, 1, false, quietTable⟩
  width := fun _ => 1
  acts := fun k oid => if k = .entry ∧ oid = 1 then [fun _ m => .call (.fire m tick) fun _ => .done] else []
  listener := fun _ _ _ _ _ => .done
  unmapped := fun _ _ _ => .done
  flowEx := fun _ _ _ _ => .done
  flowAfter := fun _ _ _ => .done
  flowBefore := fun _ _ _ => .done
  proc := fun _ => .done

/-- Machine 0 is in its state, and its next event waits. -/
structure Busy (w : World) (p p' : PairId) : Prop where
  mach : w.mach 0 = ⟨true, false, some A, none⟩
  queue : w.queue 0 = [p]
  pair : w.pair p = some (tick, 0)
  pool : w.pool 0 = [p'] ∨ (w.pool 0 = [] ∧ w.nextPair = p')
  ne : p ≠ p'
  payload : w.payload tick.oid = none
  shut : w.shut 0 = false

abbrev w0' : Tid := .worker 0 0

/-- What the history gains in a lap. -/
def lapTrace : List (Tid × Obs) := [Obs.taken 0 0 tick, .upd 0 A false false, .cur 0 A false, .cb (.action 0 .entry 1 0 tick), .enter (.fire 0 tick),
  .accepted 0 0 tick, .submitted 0 0, .leave (.fire 0 tick) none, .cbRet (.action 0 .entry 1 0 tick) none, .done 0 tick].map fun x => (w0', x)

set_option linter.unusedSimpArgs false in
/-- One lap: the machine takes its event, the entry action fires the next one, and the event is done. -/
theorem lap {w : World} {p p' : PairId} (h : Busy w p p') (k : Except Exc Unit → Prog Unit) :
    ∃ w' k', adv busyEnv w0' 28 (w, some ((drain busyEnv 0 0).handle k)) = (w', some ((drain busyEnv 0 0).handle k')) ∧ Busy w' p' p ∧
      w'.trace = w.trace ++ lapTrace ∧ w'.tasks 0 = w.tasks 0 ++ [(0, 0)] := by
  have hpay : w.payload (.client 5) = none := h.payload
  rcases h.pool with hp | ⟨hp, rfl⟩
  · generalize hx : adv busyEnv w0' 28 (w, some ((drain busyEnv 0 0).handle k)) = X
    have hx := next (o := .qIsEmpty 0) hx false _ (by simp [exec, World.log, fset, h.queue, h.pair, h.mach, hp, h.payload, h.shut, h.ne, Ne.symm h.ne]; rfl) rfl
    have hx := next (o := .poll 0) hx (some p) _ (by simp [exec, World.log, fset, h.queue, h.pair, h.mach, hp, h.payload, h.shut, h.ne, Ne.symm h.ne]; rfl) rfl
    have hx := next (o := .getPair p) hx (some (tick, 0)) _ (by simp [exec, World.log, fset, h.queue, h.pair, h.mach, hp, h.payload, h.shut, h.ne, Ne.symm h.ne]; rfl) rfl
    have hx := next (o := .getEnded 0) hx false _ (by simp [exec, World.log, fset, h.queue, h.pair, h.mach, hp, h.payload, h.shut, h.ne, Ne.symm h.ne]; rfl) rfl
    have hx := next (o := .getCur 0) hx (some A) _ (by simp [exec, World.log, fset, h.queue, h.pair, h.mach, hp, h.payload, h.shut, h.ne, Ne.symm h.ne]; rfl) rfl
    have hx := next (o := .getCur 0) hx (some A) _ (by simp [exec, World.log, fset, h.queue, h.pair, h.mach, hp, h.payload, h.shut, h.ne, Ne.symm h.ne]; rfl) rfl
    have hx := next (o := .getListener 0) hx none _ (by simp [exec, World.log, fset, h.queue, h.pair, h.mach, hp, h.payload, h.shut, h.ne, Ne.symm h.ne]; rfl) rfl
    have hx := next (o := .getCur 0) hx (some A) _ (by simp [exec, World.log, fset, h.queue, h.pair, h.mach, hp, h.payload, h.shut, h.ne, Ne.symm h.ne]; rfl) rfl
    have hx := next (o := .casEnded 0 A false false) hx true _ (by simp [exec, World.log, fset, h.queue, h.pair, h.mach, hp, h.payload, h.shut, h.ne, Ne.symm h.ne]; rfl) rfl
    have hx := next (o := .setCur 0 A false) hx () _ (by simp [exec, World.log, fset, h.queue, h.pair, h.mach, hp, h.payload, h.shut, h.ne, Ne.symm h.ne]; rfl) rfl
    have hx := next (o := .getCur 0) hx (some A) _ (by simp [exec, World.log, fset, h.queue, h.pair, h.mach, hp, h.payload, h.shut, h.ne, Ne.symm h.ne]; rfl) rfl
    have hx := next (o := .emit (.cb (.action 0 .entry 1 0 tick))) hx () _ (by simp [exec, World.log, fset, h.queue, h.pair, h.mach, hp, h.payload, h.shut, h.ne, Ne.symm h.ne]; rfl) rfl
    have hx := nextCall (f := .action .entry 1 0 tick 0) hx
    have hx := next (o := .emit (.enter (.fire 0 tick))) hx () _ (by simp [exec, World.log, fset, h.queue, h.pair, h.mach, hp, h.payload, h.shut, h.ne, Ne.symm h.ne]; rfl) rfl
    have hx := next (o := .getStarted 0) hx true _ (by simp [exec, World.log, fset, h.queue, h.pair, h.mach, hp, h.payload, h.shut, h.ne, Ne.symm h.ne]; rfl) rfl
    have hx := next (o := .getStarted 0) hx true _ (by simp [exec, World.log, fset, h.queue, h.pair, h.mach, hp, h.payload, h.shut, h.ne, Ne.symm h.ne]; rfl) rfl
    have hx := next (o := .getEnded 0) hx false _ (by simp [exec, World.log, fset, h.queue, h.pair, h.mach, hp, h.payload, h.shut, h.ne, Ne.symm h.ne]; rfl) rfl
    have hx := next (o := .qSize 0) hx 0 _ (by simp [exec, World.log, fset, h.queue, h.pair, h.mach, hp, h.payload, h.shut, h.ne, Ne.symm h.ne]; rfl) rfl
    have hx := next (o := .poolTake 0) hx p' _ (by simp [exec, World.log, fset, h.queue, h.pair, h.mach, hp, h.payload, h.shut, h.ne, Ne.symm h.ne]; rfl) rfl
    have hx := next (o := .getPayload tick.oid) hx none _ (by simp [exec, World.log, fset, h.queue, h.pair, h.mach, hp, h.payload, h.shut, h.ne, Ne.symm h.ne]; rfl) rfl
    have hx := next (o := .setPair p' tick 0) hx () _ (by simp [exec, World.log, fset, h.queue, h.pair, h.mach, hp, h.payload, h.shut, h.ne, Ne.symm h.ne]; rfl) rfl
    have hx := next (o := .offer 0 p') hx () _ (by simp [exec, World.log, fset, h.queue, h.pair, h.mach, hp, h.payload, h.shut, h.ne, Ne.symm h.ne]; rfl) rfl
    have hx := next (o := .submit 0 0 0) hx true _ (by simp [exec, World.log, fset, h.queue, h.pair, h.mach, hp, h.payload, h.shut, h.ne, Ne.symm h.ne]; rfl) rfl
    have hx := next (o := .emit (.leave (.fire 0 tick) none)) hx () _ (by simp [exec, World.log, fset, h.queue, h.pair, h.mach, hp, h.payload, h.shut, h.ne, Ne.symm h.ne]; rfl) rfl
    have hx := next (o := .emit (.cbRet (.action 0 .entry 1 0 tick) none)) hx () _ (by simp [exec, World.log, fset, h.queue, h.pair, h.mach, hp, h.payload, h.shut, h.ne, Ne.symm h.ne]; rfl) rfl
    have hx := next (o := .getListener 0) hx none _ (by simp [exec, World.log, fset, h.queue, h.pair, h.mach, hp, h.payload, h.shut, h.ne, Ne.symm h.ne]; rfl) rfl
    have hx := next (o := .poolGive 0 p) hx () _ (by simp [exec, World.log, fset, h.queue, h.pair, h.mach, hp, h.payload, h.shut, h.ne, Ne.symm h.ne]; rfl) rfl
    have hx := nextCall (f := .drain 0 0) hx
    refine ⟨_, _, hx.symm, ⟨?_, ?_, ?_, ?_, ?_, ?_, ?_⟩, ?_, ?_⟩
    all_goals simp [World.log, fset, h.queue, h.pair, h.mach, hp, hpay, h.shut, h.ne, Ne.symm h.ne, lapTrace, tick]
  · generalize hx : adv busyEnv w0' 28 (w, some ((drain busyEnv 0 0).handle k)) = X
    have hx := next (o := .qIsEmpty 0) hx false _ (by simp [exec, World.log, fset, h.queue, h.pair, h.mach, hp, h.payload, h.shut, h.ne, Ne.symm h.ne]; rfl) rfl
    have hx := next (o := .poll 0) hx (some p) _ (by simp [exec, World.log, fset, h.queue, h.pair, h.mach, hp, h.payload, h.shut, h.ne, Ne.symm h.ne]; rfl) rfl
    have hx := next (o := .getPair p) hx (some (tick, 0)) _ (by simp [exec, World.log, fset, h.queue, h.pair, h.mach, hp, h.payload, h.shut, h.ne, Ne.symm h.ne]; rfl) rfl
    have hx := next (o := .getEnded 0) hx false _ (by simp [exec, World.log, fset, h.queue, h.pair, h.mach, hp, h.payload, h.shut, h.ne, Ne.symm h.ne]; rfl) rfl
    have hx := next (o := .getCur 0) hx (some A) _ (by simp [exec, World.log, fset, h.queue, h.pair, h.mach, hp, h.payload, h.shut, h.ne, Ne.symm h.ne]; rfl) rfl
    have hx := next (o := .getCur 0) hx (some A) _ (by simp [exec, World.log, fset, h.queue, h.pair, h.mach, hp, h.payload, h.shut, h.ne, Ne.symm h.ne]; rfl) rfl
    have hx := next (o := .getListener 0) hx none _ (by simp [exec, World.log, fset, h.queue, h.pair, h.mach, hp, h.payload, h.shut, h.ne, Ne.symm h.ne]; rfl) rfl
    have hx := next (o := .getCur 0) hx (some A) _ (by simp [exec, World.log, fset, h.queue, h.pair, h.mach, hp, h.payload, h.shut, h.ne, Ne.symm h.ne]; rfl) rfl
    have hx := next (o := .casEnded 0 A false false) hx true _ (by simp [exec, World.log, fset, h.queue, h.pair, h.mach, hp, h.payload, h.shut, h.ne, Ne.symm h.ne]; rfl) rfl
    have hx := next (o := .setCur 0 A false) hx () _ (by simp [exec, World.log, fset, h.queue, h.pair, h.mach, hp, h.payload, h.shut, h.ne, Ne.symm h.ne]; rfl) rfl
    have hx := next (o := .getCur 0) hx (some A) _ (by simp [exec, World.log, fset, h.queue, h.pair, h.mach, hp, h.payload, h.shut, h.ne, Ne.symm h.ne]; rfl) rfl
    have hx := next (o := .emit (.cb (.action 0 .entry 1 0 tick))) hx () _ (by simp [exec, World.log, fset, h.queue, h.pair, h.mach, hp, h.payload, h.shut, h.ne, Ne.symm h.ne]; rfl) rfl
    have hx := nextCall (f := .action .entry 1 0 tick 0) hx
    have hx := next (o := .emit (.enter (.fire 0 tick))) hx () _ (by simp [exec, World.log, fset, h.queue, h.pair, h.mach, hp, h.payload, h.shut, h.ne, Ne.symm h.ne]; rfl) rfl
    have hx := next (o := .getStarted 0) hx true _ (by simp [exec, World.log, fset, h.queue, h.pair, h.mach, hp, h.payload, h.shut, h.ne, Ne.symm h.ne]; rfl) rfl
    have hx := next (o := .getStarted 0) hx true _ (by simp [exec, World.log, fset, h.queue, h.pair, h.mach, hp, h.payload, h.shut, h.ne, Ne.symm h.ne]; rfl) rfl
    have hx := next (o := .getEnded 0) hx false _ (by simp [exec, World.log, fset, h.queue, h.pair, h.mach, hp, h.payload, h.shut, h.ne, Ne.symm h.ne]; rfl) rfl
    have hx := next (o := .qSize 0) hx 0 _ (by simp [exec, World.log, fset, h.queue, h.pair, h.mach, hp, h.payload, h.shut, h.ne, Ne.symm h.ne]; rfl) rfl
    have hx := next (o := .poolTake 0) hx w.nextPair _ (by simp [exec, World.log, fset, h.queue, h.pair, h.mach, hp, h.payload, h.shut, h.ne, Ne.symm h.ne]; rfl) rfl
    have hx := next (o := .getPayload tick.oid) hx none _ (by simp [exec, World.log, fset, h.queue, h.pair, h.mach, hp, h.payload, h.shut, h.ne, Ne.symm h.ne]; rfl) rfl
    have hx := next (o := .setPair w.nextPair tick 0) hx () _ (by simp [exec, World.log, fset, h.queue, h.pair, h.mach, hp, h.payload, h.shut, h.ne, Ne.symm h.ne]; rfl) rfl
    have hx := next (o := .offer 0 w.nextPair) hx () _ (by simp [exec, World.log, fset, h.queue, h.pair, h.mach, hp, h.payload, h.shut, h.ne, Ne.symm h.ne]; rfl) rfl
    have hx := next (o := .submit 0 0 0) hx true _ (by simp [exec, World.log, fset, h.queue, h.pair, h.mach, hp, h.payload, h.shut, h.ne, Ne.symm h.ne]; rfl) rfl
    have hx := next (o := .emit (.leave (.fire 0 tick) none)) hx () _ (by simp [exec, World.log, fset, h.queue, h.pair, h.mach, hp, h.payload, h.shut, h.ne, Ne.symm h.ne]; rfl) rfl
    have hx := next (o := .emit (.cbRet (.action 0 .entry 1 0 tick) none)) hx () _ (by simp [exec, World.log, fset, h.queue, h.pair, h.mach, hp, h.payload, h.shut, h.ne, Ne.symm h.ne]; rfl) rfl
    have hx := next (o := .getListener 0) hx none _ (by simp [exec, World.log, fset, h.queue, h.pair, h.mach, hp, h.payload, h.shut, h.ne, Ne.symm h.ne]; rfl) rfl
    have hx := next (o := .poolGive 0 p) hx () _ (by simp [exec, World.log, fset, h.queue, h.pair, h.mach, hp, h.payload, h.shut, h.ne, Ne.symm h.ne]; rfl) rfl
    have hx := nextCall (f := .drain 0 0) hx
    refine ⟨_, _, hx.symm, ⟨?_, ?_, ?_, ?_, ?_, ?_, ?_⟩, ?_, ?_⟩
    all_goals simp [World.log, fset, h.queue, h.pair, h.mach, hp, hpay, h.shut, h.ne, Ne.symm h.ne, lapTrace, tick]


theorem adv_none (env : Env) (t : Tid) (w : World) : ∀ n, adv env t n (w, none) = (w, none)
  | 0 => rfl
  | n + 1 => adv_none env t w n

/-- Machines 0 and 1 are started, an event is fired at machine 1. -/
def busyPre : List Choice :=
  [.begin 0 (client 0 [])] ++ runN (.client 0) 60 ++ [.begin 0 (client 1 [go])] ++ runN (.client 0) 60

def busyXs : List Choice := busyPre ++ [.dispatch 0 0 0]

def busyRun : Run busyEnv := runBy busyEnv (conf false) (conf_initial false) (thenFor busyXs w0')

def busy0 : Conf := drive busyEnv (conf false) busyPre

theorem busyXs_length : busyXs.length = 123 := by decide

theorem busy_start : busyRun.conf 122 = busy0 := by
  show follow _ _ (thenFor busyXs w0') 122 = _
  have h : List.take 122 busyXs = busyPre := by
    have : busyPre.length = 122 := by decide +kernel
    rw [← this]; exact List.take_left
  rw [follow_take _ _ _ _ _ (by rw [busyXs_length]; omega), h]; rfl

theorem busy0_thr : ∀ u, busy0.thr u = none := by
  unfold busy0
  exact idle_of (fun _ => rfl) [.client 0] (by decide +kernel) (by decide +kernel)

/-- The first task of the executor is begun. -/
theorem busy_begin : (busyRun.conf 123).thr = fset busy0.thr w0' (some (drain busyEnv 0 0)) ∧ (busyRun.conf 123).w = { busy0.w with tasks := fset busy0.w.tasks 0 [(1, 1)] } := by
  have h1 : busyRun.conf 123 = tryStep busyEnv (busyRun.conf 122) (.dispatch 0 0 0) := follow_succ _ _ _ _
  have h2 : busy0.thr (.worker 0 0) = none := busy0_thr _
  have h3 : busy0.w.tasks 0 = [(0, 0), (1, 1)] := by decide +kernel
  rw [h1, busy_start]
  have h4 : step busyEnv busy0 (.dispatch 0 0 0) = some { w := { busy0.w with tasks := fset busy0.w.tasks 0 [(1, 1)] }, thr := fset busy0.thr w0' (some (drain busyEnv 0 0)) } := by
    unfold step
    simp only [h2, h3]
    rfl
  unfold tryStep
  rw [h4]
  exact ⟨rfl, rfl⟩

/-- After `n` laps. -/
structure Laps (n : Nat) : Prop where
  prog : ∃ k, (busyRun.conf (123 + 28 * n)).thr w0' = some ((drain busyEnv 0 0).handle k)
  busy : ∃ p p', Busy (busyRun.conf (123 + 28 * n)).w p p'
  trace : (busyRun.conf (123 + 28 * n)).w.trace = busy0.w.trace ++ (List.replicate n lapTrace).flatten
  tasks : ((busyRun.conf (123 + 28 * n)).w.tasks 0).length = n + 1

theorem laps : ∀ n, Laps n
  | 0 => by
    obtain ⟨h1, h2⟩ := busy_begin
    refine ⟨⟨Prog.ofExcept, ?_⟩, ⟨0, 2, ?_⟩, ?_, ?_⟩
    · show (busyRun.conf 123).thr w0' = _
      rw [h1, fset_same, handle_ofExcept]
    · show Busy (busyRun.conf 123).w 0 2
      rw [h2]
      exact ⟨by decide +kernel, by decide +kernel, by decide +kernel, .inr (by decide +kernel), by decide, by decide +kernel, by decide +kernel⟩
    · show (busyRun.conf 123).w.trace = _
      rw [h2]; simp
    · show ((busyRun.conf 123).w.tasks 0).length = _
      rw [h2]; simp [fset]
  | n + 1 => by
    obtain ⟨⟨k, h1⟩, ⟨p, p', h2⟩, h3, h4⟩ := laps n
    obtain ⟨w', k', h5, h6, h7, h8⟩ := lap h2 k
    have h := (follow_adv (env := busyEnv) (c0 := conf false) (xs := busyXs) (t := w0') (i := 123 + 28 * n) (by rw [busyXs_length]; omega) 28).1
    have e1 : (follow busyEnv (conf false) (thenFor busyXs w0') (123 + 28 * n)).thr w0' = some ((drain busyEnv 0 0).handle k) := h1
    rw [e1] at h
    have h9 := h.trans h5
    have e2 : 123 + 28 * n + 28 = 123 + 28 * (n + 1) := by omega
    rw [e2] at h9
    obtain ⟨h10, h11⟩ := Prod.mk.inj h9
    have h12 : (busyRun.conf (123 + 28 * (n + 1))).w = w' := h10
    refine ⟨⟨k', h11⟩, ⟨p', p, by rw [h12]; exact h6⟩, ?_, ?_⟩
    · rw [h12, h7, h3, List.replicate_succ', List.flatten_append]; simp
    · rw [h12, h8]; simp [h4]

theorem laps_others {j : Nat} (h : 123 ≤ j) {u : Tid} (hu : u ≠ w0') : (busyRun.conf j).thr u = none := by
  obtain ⟨n, rfl⟩ := Nat.exists_eq_add_of_le h
  have := (follow_adv (env := busyEnv) (c0 := conf false) (xs := busyXs) (t := w0') (i := 123) (Nat.le_of_eq busyXs_length) n).2 u hu
  refine this.trans ?_
  show (busyRun.conf 123).thr u = none
  rw [busy_begin.1, fset, if_neg hu]
  exact busy0_thr u

theorem laps_some {j : Nat} (h : 123 ≤ j) : (busyRun.conf j).thr w0' ≠ none := by
  intro hn
  obtain ⟨k, h1⟩ := (laps j).prog
  have h2 := (follow_adv (env := busyEnv) (c0 := conf false) (xs := busyXs) (t := w0') (i := j) (by rw [busyXs_length]; omega) (123 + 28 * j - j)).1
  have e1 : (follow busyEnv (conf false) (thenFor busyXs w0') j).thr w0' = none := hn
  rw [e1, adv_none, show j + (123 + 28 * j - j) = 123 + 28 * j by omega] at h2
  have h3 := (Prod.mk.inj h2).2
  have h4 : (follow busyEnv (conf false) (thenFor busyXs w0') (123 + 28 * j)).thr w0' = _ := h1
  rw [h4] at h3
  cases h3

theorem busyRun_fair (t : Tid) : busyRun.fair t := by
  intro i hc
  by_cases ht : t = w0'
  · subst ht
    refine ⟨max i 123, Nat.le_max_left _ _, ?_⟩
    have h1 := hc (max i 123) (Nat.le_max_left _ _)
    show (if (step busyEnv (busyRun.conf (max i 123)) (thenFor busyXs w0' (max i 123))).isSome then some (thenFor busyXs w0' (max i 123)) else none) = _
    rw [thenFor_end (by rw [busyXs_length]; exact Nat.le_max_right _ _), if_pos h1]
  · have h1 := hc (max i 123) (Nat.le_max_left _ _)
    simp [step, laps_others (Nat.le_max_right i 123) ht] at h1

theorem busyRun_executes : busyRun.executes 0 := by
  intro i hc
  obtain ⟨k, n, h⟩ := hc (max i 123) (Nat.le_max_left _ _)
  have h0 := laps_some (Nat.le_max_right i 123)
  simp only [step] at h
  split at h
  next hk =>
    obtain rfl : k = 0 := Nat.lt_one_iff.1 hk
    split at h
    next h1 _ => exact absurd h1 h0
    · cases h
  · cases h

theorem busyRun_picks {i : Nat} {x : Choice} (h : busyRun.pick i = some x) : x ∈ busyXs ∨ x = .run w0' := by
  have h1 : (if (step busyEnv (busyRun.conf i) (thenFor busyXs w0' i)).isSome then some (thenFor busyXs w0' i) else none) = some x := h
  split at h1
  · cases h1
    unfold thenFor
    cases hx : busyXs[i]? with
    | none => exact .inr rfl
    | some y => exact .inl (List.mem_of_getElem? hx)
  · cases h1

theorem busyRun_inOrder : busyRun.inOrder 0 := by
  intro i k n h
  rcases busyRun_picks h with h | h
  · simp [busyXs, busyPre, runN] at h
    exact h.2
  · cases h

theorem busyRun_trace {i : Nat} {x : Tid × Obs} (h : x ∈ (busyRun.conf i).w.trace) : x ∈ busy0.w.trace ∨ x ∈ lapTrace := by
  have h1 := (Course.grows_le busyRun (show i ≤ 123 + 28 * i by omega)).subset h
  rw [(laps i).trace] at h1
  rcases List.mem_append.1 h1 with h1 | h1
  · exact .inl h1
  · obtain ⟨l, h2, h3⟩ := List.mem_flatten.1 h1
    rw [List.eq_of_mem_replicate h2] at h3
    exact .inr h3

theorem user_skip {t : Tid} {tr : List (Tid × Obs)} (h : ∀ x ∈ tr, x.1 ≠ t) (s : Nat × Bool) : tr.foldl (userStep t) s = s := by
  induction tr generalizing s with
  | nil => rfl
  | cons x tr ih =>
    rw [List.foldl_cons, show userStep t s x = s from if_neg (h x (by simp)), ih fun y hy => h y (by simp [hy])]

theorem user_flatten {t : Tid} {tr : List (Tid × Obs)} (h : tr.foldl (userStep t) (0, false) = (0, false)) : ∀ n,
    (List.replicate n tr).flatten.foldl (userStep t) (0, false) = (0, false)
  | 0 => rfl
  | n + 1 => by rw [List.replicate_succ, List.flatten_cons, List.foldl_append, h, user_flatten h n]

theorem busyRun_returns (t : Tid) : busyRun.returns t := by
  intro i
  refine ⟨123 + 28 * i, by omega, ?_⟩
  unfold inUser
  rw [(laps i).trace, List.foldl_append]
  have h1 : busy0.w.trace.foldl (userStep t) (0, false) = (0, false) := by
    by_cases ht : t = .client 0
    · subst ht; decide +kernel
    · refine user_skip (fun x hx => ?_) _
      have : x.1 = .client 0 := of_decide_eq_true (List.all_eq_true.1 (show (busy0.w.trace.all fun x => decide (x.1 = .client 0)) = true by decide +kernel) x hx)
      rw [this]; exact Ne.symm ht
  have h2 : lapTrace.foldl (userStep t) (0, false) = (0, false) := by
    by_cases ht : t = w0'
    · subst ht; decide +kernel
    · refine user_skip (fun x hx => ?_) _
      have : x.1 = w0' := of_decide_eq_true (List.all_eq_true.1 (show (lapTrace.all fun x => decide (x.1 = w0')) = true by decide +kernel) x hx)
      rw [this]; exact Ne.symm ht
  rw [h1, user_flatten h2]

theorem accepted_append (q : QId) (a b : List (Tid × Obs)) : accepted q (a ++ b) = accepted q a ++ accepted q b := List.filterMap_append ..
theorem taken_append (q : QId) (a b : List (Tid × Obs)) : taken q (a ++ b) = taken q a ++ taken q b := List.filterMap_append ..

/-- After `n` laps one event has been accepted more than taken, and in between never more. -/
theorem laps_balance : ∀ n, (accepted 0 (busy0.w.trace ++ (List.replicate n lapTrace).flatten)).length =
      (taken 0 (busy0.w.trace ++ (List.replicate n lapTrace).flatten)).length + 1 ∧
    ∀ p, p <+: busy0.w.trace ++ (List.replicate n lapTrace).flatten → (accepted 0 p).length ≤ (taken 0 p).length + 1
  | 0 => by
    simp only [List.replicate_zero, List.flatten_nil, List.append_nil]
    refine ⟨by decide +kernel, fun p hp => ?_⟩
    have h1 : busy0.w.trace.length = 20 := by decide +kernel
    have h2 : ∀ n < 21, (accepted 0 (busy0.w.trace.take n)).length ≤ (taken 0 (busy0.w.trace.take n)).length + 1 := by decide +kernel
    rw [List.prefix_iff_eq_take.1 hp]
    exact h2 _ (by have := hp.length_le; omega)
  | n + 1 => by
    obtain ⟨ih1, ih2⟩ := laps_balance n
    rw [List.replicate_succ', List.flatten_append, ← List.append_assoc, List.flatten_singleton]
    generalize busy0.w.trace ++ (List.replicate n lapTrace).flatten = a at ih1 ih2
    have h0 : (accepted 0 lapTrace).length = 1 ∧ (taken 0 lapTrace).length = 1 := by decide +kernel
    refine ⟨by rw [accepted_append, taken_append]; simp only [List.length_append]; omega, fun p hp => ?_⟩
    by_cases hl : p.length ≤ a.length
    · exact ih2 p (List.prefix_of_prefix_length_le hp (List.prefix_append _ _) hl)
    · have h1 := List.prefix_iff_eq_take.1 hp
      obtain ⟨z, rfl⟩ := List.prefix_of_prefix_length_le (List.prefix_append a lapTrace) hp (by omega)
      have hz := List.prefix_iff_eq_take.1 ((List.prefix_append_right_inj a).1 hp)
      rw [accepted_append, taken_append, List.length_append, List.length_append]
      have h2 : lapTrace.length = 10 := by decide +kernel
      have h3 : ∀ n < 11, (accepted 0 (lapTrace.take n)).length ≤ (taken 0 (lapTrace.take n)).length := by decide +kernel
      have h4 := h3 z.length (by have := ((List.prefix_append_right_inj a).1 hp).length_le; omega)
      rw [← hz] at h4
      omega

/-- Never more than one event of the busy machine waits. -/
theorem busyRun_waiting (i : Nat) : (waiting 0 (busyRun.conf i).w.trace).length ≤ 1 := by
  have h1 := Course.grows_le busyRun (show i ≤ 123 + 28 * i by omega)
  rw [(laps i).trace] at h1
  have := (laps_balance i).2 _ h1
  unfold waiting
  simp only [List.length_drop]
  omega

/-- The event of the other machine waits, and nobody takes it. -/
theorem busyRun_starved : (Tid.client 0, Obs.accepted 1 1 go) ∈ (busyRun.conf 123).w.trace ∧ ∀ i, taken 1 (busyRun.conf i).w.trace = [] := by
  constructor
  · rw [(show (busyRun.conf 123).w.trace = busy0.w.trace by rw [busy_begin.2])]
    decide +kernel
  · intro i
    unfold taken
    rw [List.filterMap_eq_nil_iff]
    intro x hx
    have : ∀ x ∈ busy0.w.trace ++ lapTrace, (match x.2 with
        | .taken q' m ev => if q' = 1 then some (ev, m) else none
        | _ => none : Option (Ev × MId)) = none := by decide +kernel
    exact this x (List.mem_append.2 (busyRun_trace hx))

/-- No task is refused or thrown away. -/
theorem busyRun_kept {i : Nat} {x : Tid × Obs} (hx : x ∈ (busyRun.conf i).w.trace) (s : SId) (m : MId) : x.2 ≠ .rejected s m ∧ x.2 ≠ .taskDropped s m := by
  have : ∀ x ∈ busy0.w.trace ++ lapTrace, (match x.2 with
        | .rejected .. | .taskDropped .. => false
        | _ => true) = true := by decide +kernel
  have := this x (List.mem_append.2 (busyRun_trace hx))
  constructor <;> (intro h; rw [h] at this; cases this)

end Demo
end Verif
