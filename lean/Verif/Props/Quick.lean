import Verif.Demo.Base
/-
C67: the quick start example of the README (README.md:51-86).
-/

namespace Verif
namespace Quick

/-- README.md:53 -/
def first : St := ⟨"FIRST-STATE", 1⟩
/-- README.md:54 -/
def second : St := ⟨"SECOND-STATE", 2⟩
/-- README.md:57 -/
def continueEvt : Ev := ⟨0, "continue", .client 1⟩

/-- NamedState.java:77-80 `toString`. -/
def showSt : Option St → String
  | none => "null"
  | some s => "NamedState[" ++ s.name ++ "]"

/-- NamedStateEvent.java:66-69 `toString`. -/
def showEv (e : Ev) : String := "NamedStateEvent[" ++ e.name ++ "]"

/-- README.md:72-74 -/
def calls : List CfgCall :=
  [.initialSate (some first), .receives (some continueEvt), .itTransitionsTo (some second), .when_ (some second), .itEnds]

def cfg : CfgSt := cfgRun ⟨100, 101, 102⟩ calls .empty

/-- `System.out.println` -/
def println (s : String) (k : UProg) : UProg := .call (.note (.log s)) fun _ => k

/-- README.md:60-69 -/
def acts : Kind → Nat → List (Ev → MId → UProg)
  | .entry, 1 => [fun _ m => .call (.getCurrentState m) fun s => println ("Start in " ++ showSt s) (.call (.fire m continueEvt) fun
      | .ok () => .done
      | .error x => .thr x)]
  | .exit, 1 => [fun e m => .call (.getCurrentState m) fun s => println (showEv e ++ " caused transition away from " ++ showSt s) .done]
  | .entry, 2 => [fun e m => .call (.getCurrentState m) fun s => println (showEv e ++ " caused transition to " ++ showSt s) .done]
  | _, _ => []

/-- README.md:72: the strategy of the default builder: an executor with one daemon thread, an unbounded queue. -/
def env : Env where
  mach := fun _ => ⟨0, cfg.table, cfg.init, ⟨100, 101, 102⟩⟩
  strat := fun _ => ⟨0, 0, -1, false, cfg.table⟩
  width := fun _ => 1
  acts := acts
  listener := fun _ _ _ _ _ => .done
  unmapped := fun _ _ _ => .done
  flowEx := fun _ _ _ _ => .done
  flowAfter := fun _ _ _ => .done
  flowBefore := fun _ _ _ => .done
  proc := fun _ => .done

/-- README.md:77 -/
def main : UProg := .call (.start 0) fun
  | .ok () => .done
  | .error x => .thr x

/-- What was printed. -/
def printed (tr : List (Tid × Obs)) : List String := tr.filterMap fun
  | (_, .user (.log s)) => some s
  | _ => none

/-- README.md:83-85 -/
def documented : List String :=
  ["Start in NamedState[FIRST-STATE]",
   "NamedStateEvent[continue] caused transition away from NamedState[FIRST-STATE]",
   "NamedStateEvent[continue] caused transition to NamedState[SECOND-STATE]"]

/-- The program begins. -/
def begun : Conf := drive env Demo.conf [.begin 0 main]

/-- What can happen: the main thread and the worker run. (There are no other threads, and nobody else knows the executor.) -/
def possible : Choice → Prop
  | .run _ | .dispatch .. | .interrupt _ => True
  | _ => False

/-- The main thread after `i` steps. -/
def cpos (i : Nat) : Option (Prog Unit) := (drive env begun (Demo.runN (.client 0) i)).thr (.client 0)

/-- The worker after `j - 1` steps of its task; it has not got its task yet if `j = 0`. -/
def wpos : Nat → Option (Prog Unit)
  | 0 => none
  | j + 1 => (drive env begun (Demo.runN (.client 0) 24 ++ [.dispatch 0 0 0] ++ Demo.runN (.worker 0 0) j)).thr (.worker 0 0)

/-- The shared memory when the main thread has done `i` steps and the worker `j`. -/
structure Facts (i j : Nat) (w : World) : Prop where
  started : (w.mach 0).started = decide (2 ≤ i)
  cur : (w.mach 0).cur = if 25 ≤ j then some ⟨"_END_", 100⟩ else if 16 ≤ j then some second else if 3 ≤ i then some first else none
  lst : (w.mach 0).listener = none
  ended : j < 24 → (w.mach 0).ended = false
  ended' : i < 22 → 24 ≤ j → (w.mach 0).ended = true
  queue : w.queue 0 = if 17 ≤ i ∧ j < 3 then [0] else []
  tasks : w.tasks 0 = if 18 ≤ i ∧ j = 0 then [(0, 0)] else []
  tasks' : ∀ e, e ≠ 0 → w.tasks e = []
  pair : w.pair 0 = if 16 ≤ i then some (continueEvt, 0) else none
  pool : w.pool 0 = if 26 ≤ j then [0] else []
  next : w.nextPair = if 14 ≤ i then 1 else 0
  shut : w.shut 0 = false
  payload : w.payload (.client 1) = none
  out : printed w.trace = documented.take (if 21 ≤ j then 3 else if 13 ≤ j then 2 else if 8 ≤ i then 1 else 0)

/-- The main thread has done `i` steps and the worker `j`. -/
structure At (i j : Nat) (c : Conf) : Prop where
  main : c.thr (.client 0) = cpos i
  work : c.thr (.worker 0 0) = wpos j
  others : ∀ t, t ≠ .client 0 → t ≠ .worker 0 0 → c.thr t = none
  hi : i ≤ 24
  hj : j ≤ 29
  order : 0 < j → 18 ≤ i
  facts : Facts i j c.w

set_option maxRecDepth 100000
set_option linter.unusedSimpArgs false

/-- The `i`-th step of a thread is `o`; if its result is `r`, it goes on as expected. -/
def Next (pos : Nat → Option (Prog Unit)) (i : Nat) (o : Op) (r : o.Res) : Prop :=
  ∃ k, pos i = some (.op o k) ∧ some (k r) = pos (i + 1)

theorem op_step {c c' : Conf} {t : Tid} {o : Op} {k : o.Res → Prog Unit} (h : c.thr t = some (.op o k))
    (hs : step env c (.run t) = some c') : c' = ⟨(exec t o c.w).2, fset c.thr t (some (k (exec t o c.w).1))⟩ := by
  simp only [step, h, runThread] at hs
  split at hs
  · cases hs; rfl
  · cases hs

theorem main_step {c c' : Conf} {i j : Nat} (h : At i j c) {o : Op} {r : o.Res} (hn : Next cpos i o r)
    (hr : (exec (.client 0) o c.w).1 = r) (hl : i < 24) (hf : Facts (i + 1) j (exec (.client 0) o c.w).2) (hs : step env c (.run (.client 0)) = some c') :
    At (i + 1) j c' := by
  obtain ⟨k, h1, h2⟩ := hn
  obtain rfl := op_step (h.main.trans h1) hs
  refine ⟨by simp only [fset_same, hr]; exact h2, ?_, ?_, hl, h.hj, fun h' => by have := h.order h'; omega, hf⟩
  · simp [fset, h.work]
  · intro t h3 h4; exact (fset_ne _ _ h3).trans (h.others t h3 h4)

theorem work_step {c c' : Conf} {i j : Nat} (h : At i j c) {o : Op} {r : o.Res} (hn : Next wpos j o r)
    (hr : (exec (.worker 0 0) o c.w).1 = r) (hl : j < 29) (hj0 : 0 < j) (hf : Facts i (j + 1) (exec (.worker 0 0) o c.w).2)
    (hs : step env c (.run (.worker 0 0)) = some c') : At i (j + 1) c' := by
  obtain ⟨k, h1, h2⟩ := hn
  obtain rfl := op_step (h.work.trans h1) hs
  refine ⟨?_, by simp only [fset_same, hr]; exact h2, ?_, h.hi, hl, fun _ => h.order hj0, hf⟩
  · simp [fset, h.main]
  · intro t h3 h4; exact (fset_ne _ _ h4).trans (h.others t h3 h4)

theorem call_step {c c' : Conf} {t : Tid} {f : Call} {k : Except Exc Unit → Prog Unit} (h : c.thr t = some (.call f k))
    (hs : step env c (.run t) = some c') : c' = ⟨c.w, fset c.thr t (some ((body env f).handle k))⟩ := by
  simp only [step, h, runThread] at hs
  cases hs; rfl

theorem main_call {c c' : Conf} {i j : Nat} (h : At i j c) (hn : ∃ f k, cpos i = some (.call f k) ∧ some ((body env f).handle k) = cpos (i + 1))
    (hl : i < 24) (hf : Facts (i + 1) j c.w) (hs : step env c (.run (.client 0)) = some c') : At (i + 1) j c' := by
  obtain ⟨f, k, h1, h2⟩ := hn
  obtain rfl := call_step (h.main.trans h1) hs
  refine ⟨by simp only [fset_same]; exact h2, ?_, ?_, hl, h.hj, fun h' => by have := h.order h'; omega, hf⟩
  · simp [fset, h.work]
  · intro t h3 h4; exact (fset_ne _ _ h3).trans (h.others t h3 h4)

theorem work_call {c c' : Conf} {i j : Nat} (h : At i j c) (hn : ∃ f k, wpos j = some (.call f k) ∧ some ((body env f).handle k) = wpos (j + 1))
    (hl : j < 29) (hj0 : 0 < j) (hf : Facts i (j + 1) c.w) (hs : step env c (.run (.worker 0 0)) = some c') : At i (j + 1) c' := by
  obtain ⟨f, k, h1, h2⟩ := hn
  obtain rfl := call_step (h.work.trans h1) hs
  refine ⟨?_, by simp only [fset_same]; exact h2, ?_, h.hi, hl, fun _ => h.order hj0, hf⟩
  · simp [fset, h.main]
  · intro t h3 h4; exact (fset_ne _ _ h4).trans (h.others t h3 h4)

theorem main_ret {c c' : Conf} {i j : Nat} (h : At i j c) (h1 : cpos i = some (.ret ())) (h2 : cpos (i + 1) = none)
    (hl : i < 24) (hf : Facts (i + 1) j c.w) (hs : step env c (.run (.client 0)) = some c') : At (i + 1) j c' := by
  simp only [step, h.main, h1, runThread] at hs
  cases hs
  refine ⟨by simp only [fset_same]; exact h2.symm, ?_, ?_, hl, h.hj, fun h' => by have := h.order h'; omega, hf⟩
  · simp [fset, h.work]
  · intro t h3 h4; exact (fset_ne _ _ h3).trans (h.others t h3 h4)

theorem work_ret {c c' : Conf} {i j : Nat} (h : At i j c) (h1 : wpos j = some (.ret ())) (h2 : wpos (j + 1) = none)
    (hl : j < 29) (hj0 : 0 < j) (hf : Facts i (j + 1) c.w) (hs : step env c (.run (.worker 0 0)) = some c') : At i (j + 1) c' := by
  simp only [step, h.work, h1, runThread] at hs
  cases hs
  refine ⟨?_, by simp only [fset_same]; exact h2.symm, ?_, h.hi, hl, fun _ => h.order hj0, hf⟩
  · simp [fset, h.main]
  · intro t h3 h4; exact (fset_ne _ _ h4).trans (h.others t h3 h4)

theorem printed_append (a b : List (Tid × Obs)) : printed (a ++ b) = printed a ++ printed b := List.filterMap_append


@[simp] theorem printed_one (t : Tid) (o : Obs) : printed [(t, o)] = match o with | .user (.log s) => [s] | _ => [] := by
  cases o with
  | user m => cases m <;> rfl
  | _ => rfl

set_option maxHeartbeats 4000000 in
theorem main_any {c c' : Conf} {i j : Nat} (h : At i j c) (hs : step env c (.run (.client 0)) = some c') : At (i + 1) j c' := by
  have hi := h.hi
  have ho := h.order
  have hj0 : i < 18 → j = 0 := by omega
  have : i = 0 ∨ i = 1 ∨ i = 2 ∨ i = 3 ∨ i = 4 ∨ i = 5 ∨ i = 6 ∨ i = 7 ∨ i = 8 ∨ i = 9 ∨ i = 10 ∨ i = 11 ∨ i = 12 ∨ i = 13 ∨ i = 14 ∨
    i = 15 ∨ i = 16 ∨ i = 17 ∨ i = 18 ∨ i = 19 ∨ i = 20 ∨ i = 21 ∨ i = 22 ∨ i = 23 ∨ i = 24 := by omega
  obtain ⟨f1, f2, f3, f4, f5, f6, f7, f8, f9, f10, f11, f12, f13, f14⟩ := h.facts
  rcases this with rfl | rfl | rfl | rfl | rfl | rfl | rfl | rfl | rfl | rfl | rfl | rfl | rfl | rfl | rfl | rfl | rfl | rfl | rfl | rfl | rfl |
    rfl | rfl | rfl | rfl
  · exact main_step h (o := .emit (.enter (.start 0))) (r := ()) ⟨_, rfl, rfl⟩ (by simp_all [exec]) (by omega) (by
      constructor <;> simp_all [exec, World.log, printed_append, documented]) hs
  · exact main_step h (o := .casStarted 0) (r := true) ⟨_, rfl, rfl⟩ (by simp_all [exec]) (by omega) (by
      constructor <;> simp_all [exec, World.log, printed_append, documented]) hs
  · exact main_step h (o := .setCur 0 first true) (r := ()) ⟨_, rfl, rfl⟩ (by simp_all [exec]) (by omega) (by
      constructor <;> simp_all [exec, World.log, printed_append, documented]) hs
  · exact main_step h (o := .getListener 0) (r := none) ⟨_, rfl, rfl⟩ (by simp_all [exec]) (by omega) (by
      constructor <;> simp_all [exec, World.log, printed_append, documented]) hs
  · exact main_step h (o := .emit (.cb (.action 0 .entry 1 0 immEv))) (r := ()) ⟨_, rfl, rfl⟩ (by simp_all [exec]) (by omega) (by
      constructor <;> simp_all [exec, World.log, printed_append, documented]) hs
  · exact main_call h ⟨_, _, rfl, rfl⟩ (by omega) (by constructor <;> simp_all) hs
  · exact main_step h (o := .getCur 0) (r := some first) ⟨_, rfl, rfl⟩ (by simp_all [exec]) (by omega) (by
      constructor <;> simp_all [exec, World.log, printed_append, documented]) hs
  · exact main_step h (o := .emit (.user (.log "Start in NamedState[FIRST-STATE]"))) (r := ()) ⟨_, rfl, rfl⟩ (by simp_all [exec]) (by omega) (by
      constructor <;> simp_all [exec, World.log, printed_append, documented]) hs
  · exact main_step h (o := .emit (.enter (.fire 0 continueEvt))) (r := ()) ⟨_, rfl, rfl⟩ (by simp_all [exec]) (by omega) (by
      constructor <;> simp_all [exec, World.log, printed_append, documented]) hs
  · exact main_step h (o := .getStarted 0) (r := true) ⟨_, rfl, rfl⟩ (by simp_all [exec]) (by omega) (by
      constructor <;> simp_all [exec, World.log, printed_append, documented]) hs
  · exact main_step h (o := .getStarted 0) (r := true) ⟨_, rfl, rfl⟩ (by simp_all [exec]) (by omega) (by
      constructor <;> simp_all [exec, World.log, printed_append, documented]) hs
  · exact main_step h (o := .getEnded 0) (r := false) ⟨_, rfl, rfl⟩ (by simp_all [exec]) (by omega) (by
      constructor <;> simp_all [exec, World.log, printed_append, documented]) hs
  · exact main_step h (o := .qSize 0) (r := (0 : Nat)) ⟨_, rfl, rfl⟩ (by simp_all [exec]) (by omega) (by
      constructor <;> simp_all [exec, World.log, printed_append, documented]) hs
  · exact main_step h (o := .poolTake 0) (r := (0 : Nat)) ⟨_, rfl, rfl⟩ (by simp_all [exec]) (by omega) (by
      constructor <;> simp_all [exec, World.log, printed_append, documented]) hs
  · exact main_step h (o := .getPayload (.client 1)) (r := none) ⟨_, rfl, rfl⟩ (by simp_all [exec]) (by omega) (by
      constructor <;> simp_all [exec, World.log, printed_append, documented]) hs
  · exact main_step h (o := .setPair 0 continueEvt 0) (r := ()) ⟨_, rfl, rfl⟩ (by simp_all [exec]) (by omega) (by
      constructor <;> simp_all [exec, World.log, printed_append, documented]) hs
  · exact main_step h (o := .offer 0 0) (r := ()) ⟨_, rfl, rfl⟩ (by simp_all [exec]) (by omega) (by
      constructor <;> simp_all [exec, World.log, printed_append, documented]) hs
  · exact main_step h (o := .submit 0 0 0) (r := true) ⟨_, rfl, rfl⟩ (by simp_all [exec]) (by omega) (by
      constructor <;> simp_all [exec, fset, World.log, printed_append, documented]) hs
  · exact main_step h (o := .emit (.leave (.fire 0 continueEvt) none)) (r := ()) ⟨_, rfl, rfl⟩ (by simp_all [exec]) (by omega) (by
      constructor <;> simp_all [exec, World.log, printed_append, documented]) hs
  · exact main_step h (o := .emit (.cbRet (.action 0 .entry 1 0 immEv) none)) (r := ()) ⟨_, rfl, rfl⟩ (by simp_all [exec]) (by omega) (by
      constructor <;> simp_all [exec, World.log, printed_append, documented]) hs
  · exact main_step h (o := .getListener 0) (r := none) ⟨_, rfl, rfl⟩ (by simp_all [exec]) (by omega) (by
      constructor <;> simp_all [exec, World.log, printed_append, documented]) hs
  · exact main_step h (o := .clearEnded 0) (r := ()) ⟨_, rfl, rfl⟩ (by simp_all [exec]) (by omega) (by
      constructor <;> simp_all [exec, World.log, printed_append, documented]) hs
  · exact main_step h (o := .emit (.leave (.start 0) none)) (r := ()) ⟨_, rfl, rfl⟩ (by simp_all [exec]) (by omega) (by
      constructor <;> simp_all [exec, World.log, printed_append, documented]) hs
  · exact main_ret h rfl rfl (by omega) (by constructor <;> simp_all) hs
  · simp only [step, h.main] at hs; exact nomatch hs

set_option maxHeartbeats 4000000 in
theorem work_any {c c' : Conf} {i j : Nat} (h : At i j c) (hs : step env c (.run (.worker 0 0)) = some c') : At i (j + 1) c' := by
  have hj := h.hj
  have : j = 0 ∨ j = 1 ∨ j = 2 ∨ j = 3 ∨ j = 4 ∨ j = 5 ∨ j = 6 ∨ j = 7 ∨ j = 8 ∨ j = 9 ∨ j = 10 ∨ j = 11 ∨ j = 12 ∨ j = 13 ∨ j = 14 ∨ j = 15 ∨ j = 16 ∨ j = 17 ∨ j = 18 ∨ j = 19 ∨ j = 20 ∨ j = 21 ∨ j = 22 ∨ j = 23 ∨ j = 24 ∨ j = 25 ∨ j = 26 ∨ j = 27 ∨ j = 28 ∨ j = 29 := by omega
  obtain ⟨f1, f2, f3, f4, f5, f6, f7, f8, f9, f10, f11, f12, f13, f14⟩ := h.facts
  by_cases hj0 : j = 0
  · subst hj0; simp only [step, h.work] at hs; exact nomatch hs
  have h18 := h.order (by omega)
  have a1 : 2 ≤ i := by omega
  have a2 : 3 ≤ i := by omega
  have a3 : 17 ≤ i := by omega
  have a4 : 16 ≤ i := by omega
  have a5 : 14 ≤ i := by omega
  have a6 : 8 ≤ i := by omega
  rcases this with rfl | rfl | rfl | rfl | rfl | rfl | rfl | rfl | rfl | rfl | rfl | rfl | rfl | rfl | rfl | rfl | rfl | rfl | rfl | rfl | rfl | rfl | rfl | rfl | rfl | rfl | rfl | rfl | rfl | rfl
  · exact absurd rfl hj0
  · exact work_step h (o := .qIsEmpty 0) (r := false) ⟨_, rfl, rfl⟩ (by simp_all [exec]) (by omega) (by omega) (by
      constructor <;> simp_all [exec, World.log, printed_append, documented]) hs
  · exact work_step h (o := .poll 0) (r := some (0 : Nat)) ⟨_, rfl, rfl⟩ (by simp_all [exec]) (by omega) (by omega) (by
      constructor <;> simp_all [exec, World.log, printed_append, documented]) hs
  · exact work_step h (o := .getPair 0) (r := some (continueEvt, (0 : Nat))) ⟨_, rfl, rfl⟩ (by simp_all [exec]) (by omega) (by omega) (by
      constructor <;> simp_all [exec, World.log, printed_append, documented]) hs
  · exact work_step h (o := .getEnded 0) (r := false) ⟨_, rfl, rfl⟩ (by simp_all [exec]) (by omega) (by omega) (by
      constructor <;> simp_all [exec, World.log, printed_append, documented]) hs
  · exact work_step h (o := .getCur 0) (r := some first) ⟨_, rfl, rfl⟩ (by simp_all [exec]) (by omega) (by omega) (by
      constructor <;> simp_all [exec, World.log, printed_append, documented]) hs
  · exact work_step h (o := .getCur 0) (r := some first) ⟨_, rfl, rfl⟩ (by simp_all [exec]) (by omega) (by omega) (by
      constructor <;> simp_all [exec, World.log, printed_append, documented]) hs
  · exact work_step h (o := .getListener 0) (r := none) ⟨_, rfl, rfl⟩ (by simp_all [exec]) (by omega) (by omega) (by
      constructor <;> simp_all [exec, World.log, printed_append, documented]) hs
  · exact work_step h (o := .getCur 0) (r := some first) ⟨_, rfl, rfl⟩ (by simp_all [exec]) (by omega) (by omega) (by
      constructor <;> simp_all [exec, World.log, printed_append, documented]) hs
  · exact work_step h (o := .emit (.cb (.action 0 .exit 1 0 continueEvt))) (r := ()) ⟨_, rfl, rfl⟩ (by simp_all [exec]) (by omega) (by omega) (by
      constructor <;> simp_all [exec, World.log, printed_append, documented]) hs
  · exact work_call h ⟨_, _, rfl, rfl⟩ (by omega) (by omega) (by constructor <;> simp_all) hs
  · exact work_step h (o := .getCur 0) (r := some first) ⟨_, rfl, rfl⟩ (by simp_all [exec]) (by omega) (by omega) (by
      constructor <;> simp_all [exec, World.log, printed_append, documented]) hs
  · exact work_step h (o := .emit (.user (.log "NamedStateEvent[continue] caused transition away from NamedState[FIRST-STATE]"))) (r := ()) ⟨_, rfl, rfl⟩ (by simp_all [exec]) (by omega) (by omega) (by
      constructor <;> simp_all [exec, World.log, printed_append, documented]) hs
  · exact work_step h (o := .emit (.cbRet (.action 0 .exit 1 0 continueEvt) none)) (r := ()) ⟨_, rfl, rfl⟩ (by simp_all [exec]) (by omega) (by omega) (by
      constructor <;> simp_all [exec, World.log, printed_append, documented]) hs
  · exact work_step h (o := .casEnded 0 second false false) (r := true) ⟨_, rfl, rfl⟩ (by simp_all [exec]) (by omega) (by omega) (by
      constructor <;> simp_all [exec, World.log, printed_append, documented]) hs
  · exact work_step h (o := .setCur 0 second false) (r := ()) ⟨_, rfl, rfl⟩ (by simp_all [exec]) (by omega) (by omega) (by
      constructor <;> simp_all [exec, World.log, printed_append, documented]) hs
  · exact work_step h (o := .getCur 0) (r := some second) ⟨_, rfl, rfl⟩ (by simp_all [exec]) (by omega) (by omega) (by
      constructor <;> simp_all [exec, World.log, printed_append, documented]) hs
  · exact work_step h (o := .emit (.cb (.action 0 .entry 2 0 continueEvt))) (r := ()) ⟨_, rfl, rfl⟩ (by simp_all [exec]) (by omega) (by omega) (by
      constructor <;> simp_all [exec, World.log, printed_append, documented]) hs
  · exact work_call h ⟨_, _, rfl, rfl⟩ (by omega) (by omega) (by constructor <;> simp_all) hs
  · exact work_step h (o := .getCur 0) (r := some second) ⟨_, rfl, rfl⟩ (by simp_all [exec]) (by omega) (by omega) (by
      constructor <;> simp_all [exec, World.log, printed_append, documented]) hs
  · exact work_step h (o := .emit (.user (.log "NamedStateEvent[continue] caused transition to NamedState[SECOND-STATE]"))) (r := ()) ⟨_, rfl, rfl⟩ (by simp_all [exec]) (by omega) (by omega) (by
      constructor <;> simp_all [exec, World.log, printed_append, documented]) hs
  · exact work_step h (o := .emit (.cbRet (.action 0 .entry 2 0 continueEvt) none)) (r := ()) ⟨_, rfl, rfl⟩ (by simp_all [exec]) (by omega) (by omega) (by
      constructor <;> simp_all [exec, World.log, printed_append, documented]) hs
  · exact work_step h (o := .getListener 0) (r := none) ⟨_, rfl, rfl⟩ (by simp_all [exec]) (by omega) (by omega) (by
      constructor <;> simp_all [exec, World.log, printed_append, documented]) hs
  · exact work_step h (o := .casEnded 0 ⟨"_END_", 100⟩ true false) (r := true) ⟨_, rfl, rfl⟩ (by simp_all [exec]) (by omega) (by omega) (by
      constructor <;> simp_all [exec, World.log, printed_append, documented]) hs
  · exact work_step h (o := .setCur 0 ⟨"_END_", 100⟩ false) (r := ()) ⟨_, rfl, rfl⟩ (by simp_all [exec]) (by omega) (by omega) (by
      constructor <;> simp_all [exec, World.log, printed_append, documented]) hs
  · exact work_step h (o := .poolGive 0 0) (r := ()) ⟨_, rfl, rfl⟩ (by simp_all [exec]) (by omega) (by omega) (by
      constructor <;> simp_all [exec, World.log, printed_append, documented]) hs
  · exact work_call h ⟨_, _, rfl, rfl⟩ (by omega) (by omega) (by constructor <;> simp_all) hs
  · exact work_step h (o := .qIsEmpty 0) (r := true) ⟨_, rfl, rfl⟩ (by simp_all [exec]) (by omega) (by omega) (by
      constructor <;> simp_all [exec, World.log, printed_append, documented]) hs
  · exact work_ret h rfl rfl (by omega) (by omega) (by constructor <;> simp_all) hs
  · simp only [step, h.work] at hs; exact nomatch hs

theorem begun_at : At 0 0 begun :=
  ⟨rfl, rfl, fun t h1 h2 => by simp [begun, drive, tryStep, step, Demo.conf, fset, h1], by omega, by omega, by omega, by
    constructor <;> simp [begun, drive, tryStep, step, Demo.conf, printed]⟩

/-- Steps of the two threads. -/
def steps (xs : List Choice) : Nat := xs.countP fun
  | .interrupt _ => false
  | _ => true

/-- Every configuration is one of those. -/
theorem at_any {c : Conf} {xs : List Choice} (hx : ∀ x ∈ xs, possible x) (hr : runs env begun xs = some c) :
    ∃ i j, At i j c ∧ i + j = steps xs := by
  suffices ∀ (xs : List Choice) (c0 : Conf) (i j : Nat), (∀ x ∈ xs, possible x) → At i j c0 → runs env c0 xs = some c →
      ∃ i' j', At i' j' c ∧ i' + j' = i + j + steps xs by
    obtain ⟨i, j, h, e⟩ := this xs begun 0 0 hx begun_at hr
    exact ⟨i, j, h, by omega⟩
  clear hx hr xs
  intro xs
  induction xs with
  | nil => intro c0 i j _ h hr; cases hr; exact ⟨i, j, h, rfl⟩
  | cons x xs ih =>
    intro c0 i j hx h hr
    simp only [runs] at hr
    split at hr
    · cases hr
    rename_i c1 hs
    have hx' : ∀ x ∈ xs, possible x := fun y hy => hx y (List.mem_cons_of_mem _ hy)
    have hx1 := hx x (List.mem_cons_self ..)
    cases x with
    | begin n u => exact hx1.elim
    | shutdown e now => exact hx1.elim
    | interrupt t =>
      cases hs
      obtain ⟨a1, a2, a3, a4, a5, a6, f⟩ := h
      refine Exists.imp (fun i' => Exists.imp fun j' h => ⟨h.1, ?_⟩) (ih _ i j hx' (?_ : At i j _) hr)
      · rw [h.2]; simp [steps]
      · exact ⟨a1, a2, a3, a4, a5, a6, by obtain ⟨⟩ := f; constructor <;> assumption⟩
    | run t =>
      by_cases h1 : t = .client 0
      · subst h1
        refine Exists.imp (fun i' => Exists.imp fun j' h => ⟨h.1, ?_⟩) (ih _ _ _ hx' (main_any h hs) hr)
        rw [h.2]; simp only [steps, List.countP_cons, if_true]; omega
      by_cases h2 : t = .worker 0 0
      · subst h2
        refine Exists.imp (fun i' => Exists.imp fun j' h => ⟨h.1, ?_⟩) (ih _ _ _ hx' (work_any h hs) hr)
        rw [h.2]; simp only [steps, List.countP_cons, if_true]; omega
      simp only [step, h.others t h1 h2] at hs
      cases hs
    | dispatch e a b =>
      simp only [step] at hs
      split at hs
      · rename_i ha
        have ha : a = 0 := by have : a < 1 := ha; omega
        subst ha
        split at hs
        · rename_i s m h1 h2
          cases hs
          by_cases he : e = 0
          · subst he
            rw [h.facts.tasks] at h2
            split at h2
            · rename_i h3
              obtain ⟨h3, rfl⟩ := h3
              cases b with
              | succ b => cases h2
              | zero =>
                cases h2
                refine Exists.imp (fun i' => Exists.imp fun j' h => ⟨h.1, ?_⟩) (ih _ i 1 hx' ⟨?_, ?_, ?_, h.hi, by omega, fun _ => h3, ?_⟩ hr)
                · rw [h.2]; simp only [steps, List.countP_cons, if_true]; omega
                · simp [fset, h.main]
                · simp only [fset_same]; rfl
                · intro t h4 h5; simp [fset, h5, h.others t h4 h5]
                · obtain ⟨f1, f2, f3, f4, f5, f6, f7, f8, f9, f10, f11, f12, f13, f14⟩ := h.facts
                  constructor <;> simp_all [fset]
            · cases h2
          · rw [h.facts.tasks' e he] at h2; cases h2
        · cases hs
      · cases hs

/-- C67: whatever the scheduler does, the quick start example prints a beginning of the documented output. -/
theorem C67_prints {c : Conf} {xs : List Choice} (hx : ∀ x ∈ xs, possible x) (hr : runs env begun xs = some c) :
    printed c.w.trace <+: documented := by
  obtain ⟨i, j, h, -⟩ := at_any hx hr
  rw [h.facts.out]
  exact List.take_prefix _ _

/-- C67: it takes at most 53 steps. -/
theorem C67_terminates {c : Conf} {xs : List Choice} (hx : ∀ x ∈ xs, possible x) (hr : runs env begun xs = some c) : steps xs ≤ 53 := by
  obtain ⟨i, j, h, e⟩ := at_any hx hr
  have := h.hi
  have := h.hj
  omega

/-- Has the thread got something to do, without waiting? -/
def busy : Option (Prog Unit) → Bool
  | none => false
  | some (.op (.await _) _) => false
  | some _ => true

theorem busy_step {c : Conf} {t : Tid} (h : step env c (.run t) = none) : busy (c.thr t) = false := by
  cases hp : c.thr t with
  | none => rfl
  | some p =>
    simp only [step, hp] at h
    cases p with
    | ret a => cases h
    | thr x => cases h
    | call f k => cases h
    | op o k =>
      simp only [runThread] at h
      split at h
      · cases h
      · rename_i he
        cases o <;> first | rfl | exact absurd rfl he

/-- C67: when nothing remains to be done, it has printed all of it, and the machine is in its end state. -/
theorem C67_finished {c : Conf} {xs : List Choice} (hx : ∀ x ∈ xs, possible x) (hr : runs env begun xs = some c)
    (hn : ∀ x, possible x → (∀ t, x ≠ .interrupt t) → step env c x = none) :
    printed c.w.trace = documented ∧ (c.w.mach 0).cur.map (·.name) = some "_END_" := by
  obtain ⟨i, j, h, -⟩ := at_any hx hr
  have h1 := busy_step (hn (.run (.client 0)) trivial (by intro t h; cases h))
  have h2 := busy_step (hn (.run (.worker 0 0)) trivial (by intro t h; cases h))
  rw [h.main] at h1
  rw [h.work] at h2
  have hi : i = 24 := by
    have h3 : ∀ i, i < 24 → busy (cpos i) = true := by decide +kernel
    have := h.hi
    by_cases h4 : i < 24
    · rw [h3 i h4] at h1; cases h1
    · omega
  subst hi
  have hj : j = 0 ∨ j = 29 := by
    have h3 : ∀ j, j < 28 → busy (wpos (j + 1)) = true := by decide +kernel
    have := h.hj
    cases j with
    | zero => exact .inl rfl
    | succ j =>
      by_cases h4 : j < 28
      · rw [h3 j h4] at h2; cases h2
      · omega
  rcases hj with rfl | rfl
  · have h3 := hn (.dispatch 0 0 0) trivial (by intro t h; cases h)
    have h4 : c.w.tasks 0 = [(0, 0)] := h.facts.tasks
    have h5 : c.thr (.worker 0 0) = none := h.work
    simp [step, h4, h5, env] at h3
  · exact ⟨h.facts.out, by rw [h.facts.cur]; rfl⟩

theorem runs_drive {env : Env} {c : Conf} {xs : List Choice} (h : (runs env c xs).isSome = true) : runs env c xs = some (drive env c xs) := by
  induction xs generalizing c with
  | nil => rfl
  | cons x xs ih =>
    simp only [runs, drive, List.foldl_cons, tryStep] at h ⊢
    cases hs : step env c x with
    | none => rw [hs] at h; cases h
    | some c1 => rw [hs] at h; exact ih h

theorem possible_all {xs : List Choice} (h : (xs.all fun | .run _ | .dispatch .. | .interrupt _ => true | _ => false) = true) :
    ∀ x ∈ xs, possible x := by
  intro x hx
  have := List.all_eq_true.1 h x hx
  cases x <;> first | trivial | cases this

/-- The main thread does everything it has to do; the worker does nothing. -/
def shortXs : List Choice := Demo.runN (.client 0) 24
/-- Then the worker does what it has to do. -/
def longXs : List Choice := shortXs ++ [.dispatch 0 0 0] ++ Demo.runN (.worker 0 0) 28
/-- The worker processes the event before `start()` has come to its last statement. -/
def raceXs : List Choice := Demo.runN (.client 0) 18 ++ [.dispatch 0 0 0] ++ Demo.runN (.worker 0 0) 28 ++ Demo.runN (.client 0) 6

theorem short_runs : runs env begun shortXs = some (drive env begun shortXs) := runs_drive (by decide +kernel)
theorem long_runs : runs env begun longXs = some (drive env begun longXs) := runs_drive (by decide +kernel)
theorem race_runs : runs env begun raceXs = some (drive env begun raceXs) := runs_drive (by decide +kernel)

example : printed (drive env begun shortXs).w.trace <+: documented := C67_prints (possible_all (by decide +kernel)) short_runs
example : steps longXs ≤ 53 := C67_terminates (possible_all (by decide +kernel)) long_runs
example : steps longXs = 53 := by decide +kernel

/-- Nothing is left to be done if the two threads are idle and there are no tasks. -/
theorem over {c : Conf} {i j : Nat} (h : At i j c) (h1 : c.thr (.client 0) = none) (h2 : c.thr (.worker 0 0) = none) (h3 : c.w.tasks 0 = []) :
    ∀ x, possible x → (∀ t, x ≠ .interrupt t) → step env c x = none := by
  have h4 : ∀ t, c.thr t = none := by
    intro t
    by_cases ht : t = .client 0
    · rw [ht]; exact h1
    by_cases ht' : t = .worker 0 0
    · rw [ht']; exact h2
    exact h.others t ht ht'
  have h5 : ∀ e, c.w.tasks e = [] := by
    intro e
    by_cases he : e = 0
    · rw [he]; exact h3
    · exact h.facts.tasks' e he
  intro x hx hx'
  cases x with
  | begin => exact hx.elim
  | shutdown => exact hx.elim
  | interrupt t => exact absurd rfl (hx' t)
  | run t => simp [step, h4]
  | dispatch e a b => simp [step, h4, h5]

theorem isNone_eq {α : Type} {o : Option α} (h : o.isNone = true) : o = none := by cases o <;> first | rfl | cases h

theorem long_over : ∀ x, possible x → (∀ t, x ≠ .interrupt t) → step env (drive env begun longXs) x = none := by
  obtain ⟨i, j, h, -⟩ := at_any (possible_all (by decide +kernel)) long_runs
  exact over h (isNone_eq (by decide +kernel)) (isNone_eq (by decide +kernel)) (by decide +kernel)

example : printed (drive env begun longXs).w.trace = documented ∧ ((drive env begun longXs).w.mach 0).cur.map (·.name) = some "_END_" :=
  C67_finished (possible_all (by decide +kernel)) long_runs long_over

/-- C67: the output of the quick start example is not what the README promises, if the Java virtual machine ends as soon as only daemon
threads are left (the worker is one: EventProcessingStrategyFactory.java:117-119, Threads.java:47-50): `start()` has returned and the main
thread has finished when only one of the three lines has been printed. -/
theorem C67_negation_documentation : ¬ ∀ xs c, (∀ x ∈ xs, possible x) → runs env begun xs = some c → (∀ n, c.thr (.client n) = none) →
    printed c.w.trace = documented := by
  intro h
  obtain ⟨i, j, h0, -⟩ := at_any (possible_all (by decide +kernel)) short_runs
  have := h shortXs _ (possible_all (by decide +kernel)) short_runs fun n => by
    by_cases hn : n = 0
    · subst hn; exact isNone_eq (by decide +kernel)
    · exact h0.others _ (by intro h; cases h; exact hn rfl) (by intro h; cases h)
  revert this
  decide +kernel

/-- C67: when everything is over, the machine is in its end state, but `isEnded()` may be false for ever: `start()` resets the flag after
the event has been processed (GenericStateMachine.java:237). -/
theorem C67_negation_ended : ¬ ∀ xs c, (∀ x ∈ xs, possible x) → runs env begun xs = some c →
    (∀ x, possible x → (∀ t, x ≠ .interrupt t) → step env c x = none) → (c.w.mach 0).ended = true := by
  intro h
  obtain ⟨i, j, h0, -⟩ := at_any (possible_all (by decide +kernel)) race_runs
  have := h raceXs _ (possible_all (by decide +kernel)) race_runs
    (over h0 (isNone_eq (by decide +kernel)) (isNone_eq (by decide +kernel)) (by decide +kernel))
  revert this
  decide +kernel

end Quick
end Verif
