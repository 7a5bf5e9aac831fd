import Verif.Demo.Events
import Verif.Proofs.AppInv
/-
A concrete app with two subsystems, and executions of it.
-/

namespace Verif.Demo
open Svc

theorem drive_execution {a : App} {env : Env} {c : Conf} {xs : List Choice} (h : ∀ x ∈ xs, x.within a.Outside) :
    Execution a env c (drive env c xs) := by
  induction xs generalizing c with
  | nil => exact ⟨[], by simp, rfl⟩
  | cons x xs ih =>
    obtain ⟨ys, h1, h2⟩ := ih (c := tryStep env c x) fun y hy => h y (List.mem_cons_of_mem _ hy)
    unfold tryStep at h2
    cases hs : step env c x with
    | none =>
      rw [hs] at h2
      exact ⟨ys, h1, by simpa [drive, tryStep, hs] using h2⟩
    | some c' =>
      rw [hs] at h2
      refine ⟨x :: ys, ?_, by simpa [runs, drive, tryStep, hs] using h2⟩
      intro y hy
      rcases List.mem_cons.1 hy with rfl | hy
      · exact h _ (List.mem_cons_self ..)
      · exact h1 y hy

/-- The app; `sub` are its subsystems. -/
def app (exit : Bool) (sub : Nat → Bool → UProg) : App where
  id := 0
  m := 0
  latch := 0
  exitOnStop := exit
  nsubs := 2
  sub := sub
  uninit := ⟨STATE_UNINITIALISED, 11⟩
  starting := ⟨STATE_STARTING, 12⟩
  started := ⟨STATE_STARTED, 13⟩
  stopping := ⟨STATE_STOPPING, 14⟩
  stopped := ⟨STATE_STOPPED, 15⟩

def appCfg (a : App) : CfgSt := cfgRun rs (lifecycleCalls a.uninit a.starting a.started a.stopping a.stopped) .empty

def appActs (a : App) : Kind → Nat → List (Ev → MId → UProg)
  | .entry, 12 => [fun _ _ => a.startingAction]
  | .entry, 13 => [fun _ _ => a.startedAction]
  | .entry, 14 => [fun _ _ => a.stoppingAction]
  | .entry, 15 => [fun _ _ => a.stoppedAction]
  | _, _ => []

/-- The program: nothing but the app. -/
def appEnv (a : App) : Env where
  mach := fun m => ⟨m, (appCfg a).table, (appCfg a).init, rs⟩
  strat := fun s => ⟨s, s, 0, false, (appCfg a).table⟩
  width := fun _ => 1
  acts := appActs a
  listener := fun _ _ _ _ _ => .done
  unmapped := fun _ _ _ => .done
  flowEx := fun _ _ _ _ => .done
  flowAfter := fun _ _ _ => .done
  flowBefore := fun _ _ _ => .done
  proc := fun _ => .done

/-- Subsystems that just take note. -/
def calmSub : Nat → Bool → UProg := fun k up => noteP (if up then k else 10 + k)

theorem app_init (exit : Bool) (sub : Nat → Bool → UProg) : (appCfg (app exit sub)).init = some ⟨STATE_UNINITIALISED, 11⟩ := by
  show (appCfg (app false calmSub)).init = _
  decide +kernel

theorem app_table (exit : Bool) (sub : Nat → Bool → UProg) : ((appEnv (app exit sub)).mach (app exit sub).m).table =
    (cfgRun ((appEnv (app exit sub)).mach (app exit sub).m).res (lifecycleCalls (app exit sub).uninit (app exit sub).starting (app exit sub).started (app exit sub).stopping
      (app exit sub).stopped) .empty).table := by simp only [appEnv, appCfg]

theorem app_wired (exit : Bool) (sub : Nat → Bool → UProg) (hs : ∀ k up, (app exit sub).Outside (sub k up)) :
    (app exit sub).Wired (appEnv (app exit sub)) where
  names := ⟨rfl, rfl, rfl, rfl, rfl⟩
  oids := by show [11, 12, 13, 14, 15].Nodup; decide
  entry oid p h := by
    unfold App.action at h
    split at h
    next h1 => cases h; subst h1; rfl
    · split at h
      next h1 => cases h; subst h1; rfl
      · split at h
        next h1 => cases h; subst h1; rfl
        · cases h
  entryStarted := rfl
  entryUninit := rfl
  exit s hs := by
    simp only [List.mem_cons, List.not_mem_nil, or_false] at hs
    rcases hs with rfl | rfl | rfl | rfl | rfl <;> rfl
  other k oid f hf h ev m := by
    simp only [appEnv, appActs] at hf
    split at hf
    · exact absurd (h rfl) (by simp [App.action, app])
    · rw [List.mem_singleton] at hf; subst hf; exact .done
    · exact absurd (h rfl) (by simp [App.action, app])
    · exact absurd (h rfl) (by simp [App.action, app])
    · cases hf
  init := by simp only [appEnv]; rw [app_init]; rfl
  table := app_table exit sub
  otherInit m s h := by
    have : s = ⟨STATE_UNINITIALISED, 11⟩ := by
      have h2 := app_init exit sub
      simp only [appEnv] at h
      rw [h2] at h; exact (Option.some.inj h).symm
    subst this; rfl
  unmapped _ _ _ := .done
  flowEx _ _ _ _ := .done
  flowAfter _ _ _ := .done
  flowBefore _ _ _ := .done
  flowOwn _ _ _ := ⟨rfl, rfl, rfl⟩
  listener _ _ _ _ _ := .done
  proc _ := .done
  sub := hs

def appConf : Conf := { conf with w := { conf.w with latch := fun _ => 1 } }

theorem appConf_initial : Initial appConf :=
  ⟨fun _ => rfl, fun _ => ⟨rfl, rfl, rfl⟩, fun _ => rfl, rfl, rfl, fun _ => rfl, fun _ => rfl, fun _ => rfl, rfl⟩

/-- A client that calls a method of the app. -/
def callApp (a : App) (c : AppCall) : UProg := (a.method c).handle fun _ => .done

theorem callApp_outside (a : App) (c : AppCall) : a.Outside (callApp a c) := .method c _ fun _ => .done

theorem calm_outside (exit : Bool) (k : Nat) (up : Bool) : (app exit calmSub).Outside (calmSub k up) :=
  .call _ _ rfl fun _ => .done

/-- Subsystem 1 cannot be started. -/
def badSub : Nat → Bool → UProg := fun k up => if k = 1 ∧ up = true then .thr (.user 7) else noteP (if up then k else 10 + k)

theorem bad_outside (exit : Bool) (k : Nat) (up : Bool) : (app exit badSub).Outside (badSub k up) := by
  unfold badSub
  split
  · exact .thr _
  · exact .call _ _ rfl fun _ => .done

/-- `start()` by client 0; the worker handles the events `start` and `complete`; `stop()` by client 1; the worker handles the
events `stop` and `complete` and, `n` steps later, client 0 goes on. -/
def appTour (a : App) (xs : List Choice) : List Choice :=
  [.begin 0 (callApp a .start)] ++ runN (.client 0) 60 ++ [.dispatch 0 0 0] ++ runN (.worker 0 0) 120 ++
  [.dispatch 0 0 0] ++ runN (.worker 0 0) 20 ++
  [.begin 1 (callApp a .stop)] ++ runN (.client 1) 60 ++ [.dispatch 0 0 0] ++ runN (.worker 0 0) 60 ++
  xs

theorem appTour_within {a : App} {xs : List Choice} (h : ∀ x ∈ xs, x.within a.Outside) : ∀ x ∈ appTour a xs, x.within a.Outside := by
  have hn : ∀ t n, ∀ x ∈ runN t n, x.within a.Outside := by
    intro t n x hx; rw [List.eq_of_mem_replicate hx]; trivial
  intro x hx
  simp only [appTour, List.mem_append, List.mem_singleton] at hx
  rcases hx with ((((((((((rfl | hx) | rfl) | hx) | rfl) | hx) | rfl) | hx) | rfl) | hx) | hx)
  all_goals first | exact callApp_outside _ _ | exact hn _ _ _ hx | exact h _ hx | trivial

theorem runN_within {a : App} (t : Tid) (n : Nat) : ∀ x ∈ runN t n, x.within a.Outside := by
  intro x hx; rw [List.eq_of_mem_replicate hx]; trivial

theorem app_alone (a : App) : Alone (appEnv a) 0 where
  priv := ⟨fun _ h => h, fun _ h => h⟩
  single := Nat.le_refl 1
  wired := rfl

theorem latchesOne : appConf.w.latch 0 ≠ 0 := by decide

/-- Client `n` calls a method, then the worker handles what there is. -/
def thenCall (a : App) (n : Nat) (k : AppCall) : List Choice :=
  [.begin n (callApp a k)] ++ runN (.client n) 25 ++ [.dispatch 0 0 0] ++ runN (.worker 0 0) 80 ++ [.dispatch 0 0 0] ++
  runN (.worker 0 0) 15

theorem thenCall_within {a : App} (n : Nat) (k : AppCall) : ∀ x ∈ thenCall a n k, x.within a.Outside := by
  intro x hx
  simp only [thenCall, List.mem_append, List.mem_singleton] at hx
  rcases hx with ((((rfl | hx) | rfl) | hx) | rfl) | hx
  all_goals first | exact callApp_outside _ _ | exact runN_within _ _ _ hx | trivial

/-- An exit-on-stop app is started and stopped. -/
def served : Conf := drive (appEnv (app true calmSub)) appConf
  (thenCall (app true calmSub) 0 .start ++ thenCall (app true calmSub) 1 .stop ++ runN (.client 0) 25)

theorem served_exec : Execution (app true calmSub) (appEnv (app true calmSub)) appConf served :=
  drive_execution fun x hx => by
    simp only [List.mem_append] at hx
    rcases hx with (hx | hx) | hx
    all_goals first | exact thenCall_within _ _ _ hx | exact runN_within _ _ _ hx | trivial

/-- One of its subsystems cannot be started. -/
def faulty : Conf := drive (appEnv (app true badSub)) appConf
  (thenCall (app true badSub) 0 .start ++ thenCall (app true badSub) 1 .stop ++ runN (.client 0) 25)

theorem faulty_exec : Execution (app true badSub) (appEnv (app true badSub)) appConf faulty :=
  drive_execution fun x hx => by
    simp only [List.mem_append] at hx
    rcases hx with (hx | hx) | hx
    all_goals first | exact thenCall_within _ _ _ hx | exact runN_within _ _ _ hx | trivial

/-- A restartable app is started, stopped, told of an error, and stopped again (which ends its machine). -/
def idle : Conf := drive (appEnv (app false calmSub)) appConf
  (thenCall (app false calmSub) 0 .start ++ thenCall (app false calmSub) 1 .stop ++ thenCall (app false calmSub) 2 .error ++
   thenCall (app false calmSub) 3 .stop ++ runN (.client 0) 25)

theorem idle_exec : Execution (app false calmSub) (appEnv (app false calmSub)) appConf idle :=
  drive_execution fun x hx => by
    simp only [List.mem_append] at hx
    rcases hx with (((hx | hx) | hx) | hx) | hx
    all_goals first | exact thenCall_within _ _ _ hx | exact runN_within _ _ _ hx | trivial

/-- The same, but the main thread is interrupted after the first stop. -/
def woken : Conf := drive (appEnv (app false calmSub)) appConf
  (thenCall (app false calmSub) 0 .start ++ thenCall (app false calmSub) 1 .stop ++ [.interrupt (.client 0)] ++ runN (.client 0) 25)

theorem woken_exec : Execution (app false calmSub) (appEnv (app false calmSub)) appConf woken :=
  drive_execution fun x hx => by
    simp only [List.mem_append, List.mem_singleton] at hx
    rcases hx with ((hx | hx) | rfl) | hx
    all_goals first | exact thenCall_within _ _ _ hx | exact runN_within _ _ _ hx | trivial

/-- The exit-on-stop app again; the machine ends while the main thread is between the test whether it has ended and `stop()`. -/
def raced : Conf := drive (appEnv (app true calmSub)) appConf
  (appTour (app true calmSub) (runN (.client 0) 2 ++ runN (.worker 0 0) 120 ++ runN (.client 0) 25))

theorem raced_exec : Execution (app true calmSub) (appEnv (app true calmSub)) appConf raced :=
  drive_execution <| appTour_within fun x hx => by
    simp only [List.mem_append] at hx
    rcases hx with (hx | hx) | hx
    all_goals exact runN_within _ _ _ hx

/-- An app is stopped before it has been started. -/
def tooEarly : Conf := drive (appEnv (app true calmSub)) appConf ([.begin 1 (callApp (app true calmSub) .stop)] ++ runN (.client 1) 25)

theorem tooEarly_exec : Execution (app true calmSub) (appEnv (app true calmSub)) appConf tooEarly :=
  drive_execution fun x hx => by
    simp only [List.mem_append, List.mem_singleton] at hx
    rcases hx with rfl | hx
    · exact callApp_outside _ _
    · exact runN_within _ _ _ hx

end Verif.Demo
