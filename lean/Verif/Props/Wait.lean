import Verif.Proofs.Wait
import Verif.Props.Live
/-
C63: API calls do not wait for other threads.
-/

namespace Verif
open Spec

/-- C63: whenever a thread is in one of the methods `fire`, `start`, `startInState`, `stop`, and not in user code called by it, the
thread can go on: it waits for nobody. In every reachable configuration of any program. -/
theorem C63_never_waits {env : Env} {c0 c : Conf} (hi : Initial c0) (hr : ReachFrom env c0 c) {t : Tid} (ht : t ≠ .env)
    (h : (nest t c.w.trace).head? = some true) : (step env c (.run t)).isSome = true := by
  have ho := Wait.open_reach hi hr t ht
  split at ho
  · rw [ho] at h; cases h
  next p hp =>
    simp only [step, hp]
    cases p with
    | ret a => rfl
    | thr x => rfl
    | call f k => rfl
    | op o k =>
      simp only [runThread]
      have : enabled t o c.w = true := by
        cases o with
        | await n => exact absurd h (ho.1 n rfl)
        | _ => rfl
      rw [this]
      rfl

/-- C63: every call of `fire`, `start`, `startInState` or `stop` returns, unless it hangs for ever in user code that it has called
itself. Only the calling thread must not be neglected; all other threads may hang, and the executor may be idle. -/
theorem C63_returns {env : Env} (r : Run env) {i : Nat} {t : Tid} {k : Api} {pre post : List (Tid × Obs)}
    (h : (r.conf i).w.trace = pre ++ (t, .enter k) :: post) (hf : r.fair t) :
    (∃ j o, Returned t k pre o (r.conf j).w.trace) ∨ r.hangs t pre := Wait.returns r h hf

namespace Demo

/-- The handler for events before the start waits for a latch that nobody opens. -/
def deaf : Env := { Demo.env acts with flowBefore := fun _ _ _ => .call (.await 0) fun _ => .done }

def deafConf : Conf := { conf false with w := { (conf false).w with latch := fun _ => 1 } }

theorem deafConf_initial : Initial deafConf :=
  ⟨fun _ => rfl, fun _ => ⟨rfl, rfl, rfl⟩, fun _ => rfl, rfl, rfl, fun _ => rfl, fun _ => rfl, fun _ => rfl, rfl⟩

/-- Thread 0 fires too early. Thread 1 starts the machine and fires an event; no worker ever begins. -/
def deafXs : List Choice :=
  [.begin 0 (.call (.fire 0 go) fun _ => .done)] ++ runN (.client 0) 20 ++ [.begin 1 (client 0 [go])] ++ runN (.client 1) 60

/-- Thread 0 is in the handler. -/
example : (drive deaf deafConf deafXs).w.trace.take 2 =
    [(.client 0, .enter (.fire 0 go)), (.client 0, .cb (.flowBefore 0 go))] ∧ nest (.client 0) (drive deaf deafConf deafXs).w.trace = [false, true] ∧
    (step deaf (drive deaf deafConf deafXs) (.run (.client 0))).isNone = true := by decide +kernel

def deafRun : Run deaf := runOf _ _ deafConf_initial deafXs

theorem deaf_fair {n : Nat} (h : n = 0 ∨ n = 1) : deafRun.fair (.client n) := by
  intro i hc
  have h1 := hc (max i deafXs.length) (Nat.le_max_left _ _)
  rw [show deafRun.conf (max i deafXs.length) = drive deaf deafConf deafXs from runOf_end (Nat.le_max_right _ _)] at h1
  have h2 : (step deaf (drive deaf deafConf deafXs) (.run (.client 0))).isSome = false ∧
      (step deaf (drive deaf deafConf deafXs) (.run (.client 1))).isSome = false := by decide +kernel
  rcases h with rfl | rfl
  · rw [h2.1] at h1; cases h1
  · rw [h2.2] at h1; cases h1

/-- Thread 1 is not held up: its call of `fire` returns. (It is the seventh entry of the history.) -/
example : (∃ j o, Returned (.client 1) (.fire 0 go) ((drive deaf deafConf deafXs).w.trace.take 7) o (deafRun.conf j).w.trace) ∨
    deafRun.hangs (.client 1) ((drive deaf deafConf deafXs).w.trace.take 7) :=
  C63_returns deafRun (i := deafXs.length) (post := (drive deaf deafConf deafXs).w.trace.drop 8)
    (by rw [show deafRun.conf deafXs.length = drive deaf deafConf deafXs from runOf_end (Nat.le_refl _)]; decide +kernel) (deaf_fair (.inr rfl))

/-- Thread 0 hangs in the handler. -/
example : deafRun.hangs (.client 0) [] :=
  ⟨deafXs.length, fun j hj => by
    rw [show deafRun.conf j = drive deaf deafConf deafXs from runOf_end hj]; decide +kernel⟩

/-- In the middle of a call of `fire`. -/
example : ∃ c, Reach deaf c ∧ (nest (.client 1) c.w.trace).head? = some true ∧ (.client 1, .accepted 0 0 go) ∈ c.w.trace :=
  ⟨_, deafConf_initial.reach (deafXs.take 38), by decide +kernel⟩

end Demo
end Verif
