import Verif.Demo.Events
import Verif.Model.Factory
/-
Executions in which things go wrong.
-/

namespace Verif.Demo

/-- The same environment with other configurations of machines. -/
def tabled (env : Env) (f : MId → CfgSt) : Env :=
  { env with
    mach := fun m => ⟨(env.mach m).strat, (f m).table, (f m).init, rs⟩
    strat := fun s => { env.strat s with table := (f s).table } }

def D : St := ⟨"D", 4⟩
/-- A --go--> D, D --back--> A -/
def cfgD : CfgSt := cfgRun rs [.initialSate (some A), .receives (some go), .itTransitionsTo (some D),
  .when_ (some D), .receives (some back), .itTransitionsTo (some A)] .empty
/-- The initial state is final. -/
def cfgEnd : CfgSt := cfgRun rs [.initialSate (some A), .itEnds] .empty

/-- Two machines, built with default builders. -/
def defaults : List SetupCmd := [.newBuilder, .build 0, .newBuilder, .build 1]
/-- Two machines, whose strategies were made from different configs. -/
def separate : List SetupCmd :=
  [.newConfig, .createDefault 1, .newBuilder, .setStrategy 0 0, .build 0,
   .newConfig, .createDropDuplicate 2, .newBuilder, .setStrategy 1 1, .build 1]

/-- Machine 0 has the demo table, machine 1 the table `cfgD`. -/
def twoTables : Env := tabled (env fun _ _ => []) fun m => if m = 1 then cfgD else cfg
def sharing : Env := (Setup.run defaults).wire twoTables

/-- Start both machines, fire `e0` at machine 0 and `e1` at machine 1. -/
def bothP (e0 e1 : Ev) : UProg :=
  .call (.start 0) fun _ => .call (.start 1) fun _ => .call (.fire 0 e0) fun _ => .call (.fire 1 e1) fun _ => .done

/-- The first drain task does everything. -/
def both (e0 e1 : Ev) : Conf :=
  drive sharing conf ([.begin 0 (bothP e0 e1)] ++ runN (.client 0) 100 ++ [.dispatch 0 0 0] ++ runN (.worker 0 0) 200)

theorem both_reach (e0 e1 : Ev) : ReachFrom sharing conf (both e0 e1) := drive_reach _ _ _

/-- Two workers, two events: both workers see the second event, one gets it. -/
def pool2 : Env := env (fun _ _ => []) 0 false 2
def starved (n : Nat) : Conf :=
  drive pool2 conf ([.begin 0 (client 0 [go, stay])] ++ runN (.client 0) 100 ++ [.dispatch 0 0 0, .dispatch 0 1 0] ++
    runN (.worker 0 0) n ++ runN (.worker 0 1) 2 ++ runN (.worker 0 0) 60 ++ runN (.worker 0 1) 10)

theorem starved_reach (n : Nat) : ReachFrom pool2 conf (starved n) := drive_reach _ _ _

/-- `stop()` by client 1 after the worker has done `n` steps with the event `go`. -/
def stopRace (a : Kind → Nat → List (Ev → MId → UProg)) (n : Nat) : Conf :=
  drive (env a) conf ([.begin 0 (client 0 [go])] ++ runN (.client 0) 100 ++ [.dispatch 0 0 0] ++ runN (.worker 0 0) n ++
    [.begin 1 (.call (.stop 0) fun _ => .done)] ++ runN (.client 1) 20 ++ runN (.worker 0 0) 100)

theorem stopRace_reach (a : Kind → Nat → List (Ev → MId → UProg)) (n : Nat) : ReachFrom (env a) conf (stopRace a n) := drive_reach _ _ _

/-- Start, `go`, then `stop()`. -/
def stopAfter : Conf :=
  drive (env acts) (worked (env acts) [go] 200 false) ([.begin 1 (.call (.stop 0) fun _ => .done)] ++ runN (.client 1) 20)

theorem stopAfter_reach : ReachFrom (env acts) conf stopAfter := (worked_reach _ _ _ _).trans (drive_reach _ _ _)

/-- `stop()`, then `start()`, whose entry action throws. -/
def throwing : Kind → Nat → List (Ev → MId → UProg)
  | .entry, 1 => [fun _ _ => .thr (.user 5)]
  | _, _ => []
def stopStart : Conf := solo (env throwing) (.call (.stop 0) fun _ => .call (.start 0) fun _ => .done)

theorem stopStart_reach : ReachFrom (env throwing) conf stopStart := solo_reach _ _ _ _

/-- The thread a step belongs to. -/
def tidOf : Choice → Option Tid
  | .begin n _ => some (.client n)
  | .run t => some t
  | .dispatch e i _ => some (.worker e i)
  | .interrupt _ | .shutdown .. => none

theorem step_other (env : Env) {t : Tid} {x : Choice} (h : tidOf x ≠ some t) (c : Conf) : (tryStep env c x).thr t = c.thr t := by
  cases x with
  | begin n u =>
    have : t ≠ .client n := fun h' => h (by rw [h']; rfl)
    simp only [tryStep, step]
    split
    · rfl
    · simp [fset_ne _ _ this]
  | run u =>
    have : t ≠ u := fun h' => h (by rw [h']; rfl)
    simp only [tryStep, step]
    split
    · rfl
    · rename_i p _
      cases p <;> simp only [runThread, Option.getD_some, fset_ne _ _ this]
      split <;> simp [fset_ne _ _ this]
  | dispatch e i j =>
    have : t ≠ .worker e i := fun h' => h (by rw [h']; rfl)
    simp only [tryStep, step]
    split
    · split <;> simp [fset_ne _ _ this]
    · rfl
  | interrupt _ => rfl
  | shutdown _ _ => rfl

theorem drive_other (env : Env) {t : Tid} (xs : List Choice) (h : ∀ x ∈ xs, tidOf x ≠ some t) (c : Conf) :
    (drive env c xs).thr t = c.thr t := by
  induction xs generalizing c with
  | nil => rfl
  | cons x xs ih =>
    rw [show drive env c (x :: xs) = drive env (tryStep env c x) xs from rfl, ih fun y hy => h y (by simp [hy])]
    exact step_other env (h x (by simp)) c

/-- All threads are idle after a schedule that concerns only the threads `T`, if those are. -/
theorem idle_of {env : Env} {c0 : Conf} (h0 : ∀ t, c0.thr t = none) {xs : List Choice} (T : List Tid)
    (hx : xs.all (fun x => match tidOf x with | some t => T.contains t | none => true) = true)
    (ht : T.all (fun t => ((drive env c0 xs).thr t).isNone) = true) (t : Tid) : (drive env c0 xs).thr t = none := by
  by_cases h : t ∈ T
  · exact isNone_eq (List.all_eq_true.1 ht t h)
  · rw [drive_other env xs (fun x hm => ?_), h0]
    intro he
    have := List.all_eq_true.1 hx x hm
    rw [he] at this
    exact h (by simpa using this)

theorem stopRace_idle : ∀ t, (stopRace (fun _ _ => []) 9).thr t = none := by
  unfold stopRace
  exact idle_of (fun _ => rfl) [.client 0, .client 1, .worker 0 0] (by decide +kernel) (by decide +kernel)

theorem stopStart_idle : ∀ t, stopStart.thr t = none := by
  unfold stopStart solo
  exact idle_of (fun _ => rfl) [.client 0] (by decide +kernel) (by decide +kernel)

/-- A machine whose initial state is final is started and receives an event. -/
def neverEnds : Conf := worked (tabled (env fun _ _ => []) fun _ => cfgEnd) [go] 200 false

theorem neverEnds_reach : ReachFrom (tabled (env fun _ _ => []) fun _ => cfgEnd) conf neverEnds := worked_reach _ _ _ _

theorem neverEnds_idle : ∀ t, neverEnds.thr t = none := by
  unfold neverEnds worked
  exact idle_of (fun _ => rfl) [.client 0, .worker 0 0] (by decide +kernel) (by decide +kernel)

theorem cast_trace {P : List (Tid × Obs) → Prop} {a b : List (Tid × Obs)} (h : P a) (e : a = b) : P b := e ▸ h

/-- Client 0 starts machine 0; while it is in the `begin` callback, client 1 fires `go` and the worker processes it. -/
def overlap : Conf :=
  drive (env acts) (conf true) ([.begin 0 (client 0 [])] ++ runN (.client 0) 6 ++ [.begin 1 (.call (.fire 0 go) fun _ => .done)] ++
    runN (.client 1) 100 ++ [.dispatch 0 0 0] ++ runN (.worker 0 0) 100 ++ runN (.client 0) 100)

theorem overlap_reach : ReachFrom (env acts) (conf true) overlap := drive_reach _ _ _

theorem overlap_idle : ∀ t, overlap.thr t = none := by
  unfold overlap
  exact idle_of (fun _ => rfl) [.client 0, .client 1, .worker 0 0] (by decide +kernel) (by decide +kernel)

/-- Machine 0 has a listener and receives `go`; when the worker has done `n` steps, client 1 calls `stop()`. -/
def torn (n : Nat) : Conf :=
  drive (env acts) (conf true) ([.begin 0 (client 0 [go])] ++ runN (.client 0) 100 ++ [.dispatch 0 0 0] ++ runN (.worker 0 0) n ++
    [.begin 1 (.call (.stop 0) fun _ => .done)] ++ runN (.client 1) 20 ++ runN (.worker 0 0) 150)

theorem torn_reach (n : Nat) : ReachFrom (env acts) (conf true) (torn n) := drive_reach _ _ _

theorem torn_idle5 : ∀ t, (torn 5).thr t = none := by
  unfold torn
  exact idle_of (fun _ => rfl) [.client 0, .client 1, .worker 0 0] (by decide +kernel) (by decide +kernel)

theorem torn_idle6 : ∀ t, (torn 6).thr t = none := by
  unfold torn
  exact idle_of (fun _ => rfl) [.client 0, .client 1, .worker 0 0] (by decide +kernel) (by decide +kernel)

/-- Machine 0 has a listener and receives `go` and `stay`; while the worker is at `stay`, client 1 calls `stop()`. -/
def stayed : Conf :=
  drive (env acts) (conf true) ([.begin 0 (client 0 [go, stay])] ++ runN (.client 0) 150 ++ [.dispatch 0 0 0] ++ runN (.worker 0 0) 45 ++
    [.begin 1 (.call (.stop 0) fun _ => .done)] ++ runN (.client 1) 20 ++ runN (.worker 0 0) 100)

theorem stayed_reach : ReachFrom (env acts) (conf true) stayed := drive_reach _ _ _

theorem stayed_idle : ∀ t, stayed.thr t = none := by
  unfold stayed
  exact idle_of (fun _ => rfl) [.client 0, .client 1, .worker 0 0] (by decide +kernel) (by decide +kernel)

end Verif.Demo
