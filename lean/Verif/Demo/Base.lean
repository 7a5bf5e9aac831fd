import Verif.Model.Config
import Verif.Model.Sem
/-
A concrete environment and concrete schedules, used for examples that show that hypotheses of theorems can be met,
and for witnesses of executions.
-/

namespace Verif

/-- Do a step if it is possible. -/
def tryStep (env : Env) (c : Conf) (x : Choice) : Conf := (step env c x).getD c

/-- Follow a schedule, skipping impossible steps. -/
def drive (env : Env) (c : Conf) (xs : List Choice) : Conf := xs.foldl (tryStep env) c

theorem runs_append (env : Env) (c : Conf) (xs ys : List Choice) :
    runs env c (xs ++ ys) = match runs env c xs with | none => none | some c' => runs env c' ys := by
  induction xs generalizing c with
  | nil => rfl
  | cons x xs ih =>
    simp only [List.cons_append, runs]
    split
    · rfl
    · rw [ih]

theorem ReachFrom.trans {env : Env} {c0 c1 c2 : Conf} (h1 : ReachFrom env c0 c1) (h2 : ReachFrom env c1 c2) :
    ReachFrom env c0 c2 := by
  obtain ⟨xs, h1⟩ := h1
  obtain ⟨ys, h2⟩ := h2
  exact ⟨xs ++ ys, by rw [runs_append, h1]; exact h2⟩

theorem drive_reach (env : Env) (c : Conf) (xs : List Choice) : ReachFrom env c (drive env c xs) := by
  induction xs generalizing c with
  | nil => exact ⟨[], rfl⟩
  | cons x xs ih =>
    refine ReachFrom.trans (c1 := tryStep env c x) ?_ (ih _)
    unfold tryStep
    cases h : step env c x with
    | none => exact ⟨[], rfl⟩
    | some c' => exact ⟨[x], by simp [runs, h]⟩

theorem Initial.reach {env : Env} {c0 : Conf} (h : Initial c0) (xs : List Choice) : Reach env (drive env c0 xs) :=
  ⟨c0, h, drive_reach env c0 xs⟩

namespace Demo

def rs : Reserved := ⟨100, 101, 102⟩
def A : St := ⟨"A", 1⟩
def B : St := ⟨"B", 2⟩
def C : St := ⟨"C", 3⟩
def go : Ev := ⟨0, "go", .client 1⟩
def stay : Ev := ⟨0, "stay", .client 2⟩
def quit : Ev := ⟨0, "quit", .client 3⟩
def back : Ev := ⟨0, "back", .client 4⟩

/-- A --go--> B, B --stay--> B (no transition), B --back--> A, B --quit--> end, C never configured: A --quit--> C -/
def calls : List CfgCall :=
  [.initialSate (some A), .receives (some go), .itTransitionsTo (some B),
   .when_ (some B), .receives (some stay), .itDoesNotTransition,
   .when_ (some B), .receives (some back), .itTransitionsTo (some A),
   .when_ (some B), .receives (some quit), .itEnds,
   .when_ (some A), .receives (some quit), .itTransitionsTo (some C)]

def cfg : CfgSt := cfgRun rs calls .empty

/-- User code which records `n`. -/
def noteP (n : Nat) : UProg := .call (.note (.num n)) fun _ => .done

/-- Machine `m` has strategy, queue and executor `m`. Actions and callbacks are configurable. -/
def env (acts : Kind → Nat → List (Ev → MId → UProg)) (maxQ : Int := 0) (dropDup : Bool := false) (width : Nat := 1) :
    Env where
  mach := fun m => ⟨m, cfg.table, cfg.init, rs⟩
  strat := fun s => ⟨s, s, maxQ, dropDup, cfg.table⟩
  width := fun _ => width
  acts := acts
  listener := fun _ _ _ _ _ => .done
  unmapped := fun _ _ _ => .done
  flowEx := fun _ _ _ _ => .done
  flowAfter := fun _ _ _ => .done
  flowBefore := fun _ _ _ => .done
  proc := fun _ => .done

/-- Entering B and leaving A each run two actions. -/
def acts : Kind → Nat → List (Ev → MId → UProg)
  | .entry, 2 => [fun _ _ => noteP 20, fun _ _ => noteP 21]
  | .exit, 1 => [fun _ _ => noteP 10, fun _ _ => noteP 11]
  | _, _ => []

/-- Everything empty; listener 0 installed iff `lst`. -/
def conf (lst : Bool := false) : Conf where
  thr := fun _ => none
  w := {
    mach := fun _ => ⟨false, false, none, if lst then some 0 else none⟩
    payload := fun _ => none
    pair := fun _ => none
    nextPair := 0
    nextCopy := 0
    queue := fun _ => []
    pool := fun _ => []
    tasks := fun _ => []
    shut := fun _ => false
    latch := fun _ => 0
    intr := fun _ => false
    mem := fun _ => 0
    trace := [] }

theorem conf_initial (lst : Bool) : Initial (conf lst) :=
  ⟨fun _ => rfl, fun _ => ⟨rfl, rfl, rfl⟩, fun _ => rfl, rfl, rfl, fun _ => rfl, fun _ => rfl, fun _ => rfl, rfl⟩

/-- `start()`, then fire the events. -/
def client (m : MId) : List Ev → UProg
  | evs => .call (.start m) fun _ => fires evs
where
  fires : List Ev → UProg
    | [] => .done
    | e :: es => .call (.fire m e) fun _ => fires es

def runN (t : Tid) (n : Nat) : List Choice := List.replicate n (.run t)

end Demo
end Verif
