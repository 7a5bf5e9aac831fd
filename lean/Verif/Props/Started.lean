import Verif.Props.Config
import Verif.Props.Calls
/-
C06, for calls of start(): configuration and execution together.
-/

namespace Verif
open Verif.Spec.Calls

section
variable {env : Env} {c0 c : Conf} {t : Tid} {m : MId} {pre mid : List (Tid × Obs)} {os : List Obs} {r : Option Exc} {rs : Reserved} {ks : List CfgCall}

/-- C06. A call of `start()` on a machine that was configured by the calls `ks`: if there is no initial state, or some `receives(e)` was left without an outcome, it throws
an `IllegalStateException` and does nothing. Otherwise it starts the machine in its initial state, or somebody has started the machine before. -/
theorem C06_start (hi : Initial c0) (hr : ReachFrom env c0 c) (h1 : (env.mach m).init = (hist rs ks).init) (h2 : (env.mach m).table = (hist rs ks).table)
    (hc : IsCall c.w.trace t (.start m) pre mid os r) :
    (¬(initAccepted rs ks CfgSt.empty ∧ ¬someDangling ks) → os = [] ∧ ∃ i, r = some (.ise i)) ∧
    (initAccepted rs ks CfgSt.empty ∧ ¬someDangling ks →
      (os = [] ∧ r = some (.ise .alreadyStarted) ∧ (memAt (after c0 pre) mid).started m = true) ∨
      ((after c0 pre).started m = false ∧ ∃ s rest, (hist rs ks).init = some s ∧ os = .started m :: .cur m s true :: rest)) := by
  obtain ⟨ha, hb⟩ := C06_start_accepts_complete rs ks
  have hf : (callsCfg env).fail (.start m) = env.startFail m := rfl
  have hne : ∀ s rest, os = .started m :: .cur m s true :: rest → (after c0 pre).started m = false := by
    intro s rest he
    refine Classical.byContradiction fun hs => ?_
    have := (C09_second_start_throws hi hr (k := .start m) (m := m) (by simp [Api.starts]) hc (by simpa using hs)).1
    rw [this] at he
    cases he
  have hg : env.startFail m = none → startChecks (hist rs ks).init (hist rs ks).table = none := by
    rw [← h1, ← h2]
    unfold Env.startFail
    split <;> simp_all
  have hg' : ∀ x, env.startFail m = some x → startChecks (hist rs ks).init (hist rs ks).table = some x := by
    intro x
    rw [← h1, ← h2]
    unfold Env.startFail
    split
    · next hs => intro h; rw [hs, ← h]
    · next hs hn => simp [startChecks, hn] at hs
    · intro h; cases h
  refine ⟨fun hn => ?_, fun hy => ?_⟩
  · cases C49_start_protocol hi hr hc
    case failed x hx => exact ⟨rfl, (hb x (hg' x hx)).imp fun _ h => by rw [h]⟩
    all_goals exact absurd (ha.1 (hg ‹_›)) hn
  · have hs := ha.2 hy
    cases C49_start_protocol hi hr hc
    case failed x hx => rw [hg' x hx] at hs; cases hs
    case already h => exact .inl ⟨rfl, rfl, started_end h⟩
    all_goals exact .inr ⟨hne _ _ rfl, _, _, h1.symm.trans ‹_›, rfl⟩

end

namespace Demo

/-- Two calls of `start()`, the first of which starts the machine. -/
example : (hist rs calls).init = some A ∧ initAccepted rs calls CfgSt.empty ∧ ¬someDangling calls ∧
    ((env acts).mach 0).init = (hist rs calls).init ∧ ((env acts).mach 0).table = (hist rs calls).table ∧
    IsCall twice.w.trace (.client 0) (.start 0) (twice.w.trace.take 0) ((twice.w.trace.drop 1).take 7)
      [.started 0, .cur 0 A true, .cb (.begin 0 rs.noSt immEv A), .cbRet (.begin 0 rs.noSt immEv A) none,
        .cb (.end_ 0 rs.noSt immEv A), .cbRet (.end_ 0 rs.noSt immEv A) none, .cleared 0] none ∧
    IsCall twice.w.trace (.client 0) (.start 0) (twice.w.trace.take 9) ((twice.w.trace.drop 10).take 0) []
      (some (.ise .alreadyStarted)) := by
  have h := (C06_start_accepts_complete rs calls).1.1 (by decide +kernel)
  exact ⟨by decide +kernel, h.1, h.2, rfl, rfl, isCall_of (by decide +kernel), isCall_of (by decide +kernel)⟩

/-- The outcome of the last `receives(stay)` is missing. -/
def unfinishedCalls : List CfgCall :=
  [.initialSate (some A), .receives (some go), .itTransitionsTo (some B), .when_ (some B), .receives (some stay)]

def unfinishedEnv : Env :=
  { env acts with mach := fun m => ⟨m, (hist rs unfinishedCalls).table, (hist rs unfinishedCalls).init, rs⟩ }

def unfinishedStart : Conf := solo unfinishedEnv (.call (.start 0) fun _ => .done) 80 (conf true)

example : someDangling unfinishedCalls ∧
    (unfinishedEnv.mach 0).init = (hist rs unfinishedCalls).init ∧ (unfinishedEnv.mach 0).table = (hist rs unfinishedCalls).table ∧
    IsCall unfinishedStart.w.trace (.client 0) (.start 0) (unfinishedStart.w.trace.take 0) ((unfinishedStart.w.trace.drop 1).take 0) []
      (some (.ise .dangling)) := by
  refine ⟨?_, rfl, rfl, isCall_of (by decide +kernel)⟩
  refine Classical.byContradiction fun hd => ?_
  have ha : initAccepted rs unfinishedCalls CfgSt.empty := .inl ⟨_, rfl, by decide +kernel⟩
  have h := (C06_start_accepts_complete rs unfinishedCalls).1.2 ⟨ha, hd⟩
  revert h
  decide +kernel

end Demo
end Verif
