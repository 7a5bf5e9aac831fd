import Verif.Spec.Fate
import Verif.Demo.Base
/-
Concrete executions with API calls, for examples.
-/

namespace Verif
open Spec.Calls

/-- The call that begins at position `i` of the history and during which `n` entries are made. -/
theorem isCall_of {tr : List (Tid × Obs)} {t : Tid} {k : Api} {os : List Obs} {r : Option Exc} {i n : Nat}
    (h : tr = tr.take i ++ (t, .enter k) :: ((tr.drop (i + 1)).take n ++ (t, .leave k r) :: tr.drop (i + n + 2)) ∧
      own t 0 ((tr.drop (i + 1)).take n) = some os) :
    IsCall tr t k (tr.take i) ((tr.drop (i + 1)).take n) os r :=
  ⟨⟨_, h.1⟩, h.2⟩

/-- Moments of a call, enumerated. -/
theorem forall_prefix {mid : List (Tid × Obs)} {P : List (Tid × Obs) → Prop} (h : ∀ n, n ≤ mid.length → P (mid.take n)) :
    ∀ a, a <+: mid → P a := by
  intro a ha
  rw [List.prefix_iff_eq_take.1 ha]
  exact h _ ha.length_le

namespace Demo

def fires (es : List Ev) : UProg := client.fires 0 es

/-- Client 0 runs `u`, alone. -/
def solo (env : Env) (u : UProg) (n : Nat := 80) (c : Conf := conf) : Conf := drive env c ([.begin 0 u] ++ runN (.client 0) n)

theorem solo_reach (env : Env) (u : UProg) (n : Nat := 80) (c : Conf := conf) : ReachFrom env c (solo env u n c) :=
  drive_reach _ _ _

theorem isNone_eq {α : Type} {o : Option α} (h : o.isNone = true) : o = none := by simpa using h

/-- Only client 0 does anything. -/
theorem drive_thr (env : Env) {t : Tid} (h : t ≠ .client 0) (xs : List Choice)
    (hx : ∀ x ∈ xs, x = .run (.client 0) ∨ ∃ u, x = .begin 0 u) (c : Conf) : (drive env c xs).thr t = c.thr t := by
  induction xs generalizing c with
  | nil => rfl
  | cons x xs ih =>
    rw [show drive env c (x :: xs) = drive env (tryStep env c x) xs from rfl, ih fun y hy => hx y (by simp [hy])]
    rcases hx x (by simp) with rfl | ⟨u, rfl⟩
    · simp only [tryStep, step]
      split
      · rfl
      · rename_i p _
        cases p with
        | ret a => simp [runThread, fset_ne _ _ h]
        | thr x => simp [runThread, fset_ne _ _ h]
        | op o k => simp only [runThread]; split <;> simp [fset_ne _ _ h]
        | call f k => simp [runThread, fset_ne _ _ h]
    · simp only [tryStep, step]; split <;> simp [fset_ne _ _ h]

theorem solo_thr (env : Env) (u : UProg) (n : Nat) {t : Tid} (h : t ≠ .client 0) (lst : Bool := false) :
    (solo env u n (conf lst)).thr t = none := by
  unfold solo
  rw [drive_thr env h]
  · rfl
  · intro x hx
    simp only [List.cons_append, List.nil_append, List.mem_cons, runN, List.mem_replicate] at hx
    rcases hx with rfl | ⟨_, rfl⟩
    · exact .inr ⟨_, rfl⟩
    · exact .inl rfl

/-- Fired before start. -/
def early : Conf := solo (env acts) (fires [go])
/-- Started, stopped twice, then fired. -/
def late : Conf :=
  solo (env acts) (.call (.start 0) fun _ => .call (.stop 0) fun _ => .call (.stop 0) fun _ => fires [go])
/-- Two events, room for one. -/
def full : Conf := solo (env acts 1) (client 0 [go, stay])
/-- One event, room for two. -/
def roomy : Conf := solo (env acts 2) (client 0 [go])
/-- The same event twice, duplicates are dropped. -/
def dup : Conf := solo (env acts 0 true) (client 0 [go, go])
/-- An event with payload 7, and the client sets another payload after it has fired it. -/
def paid : Conf :=
  solo (env acts) (.call (.setPayload go.oid (some 7)) fun _ => .call (.start 0) fun _ => .call (.fire 0 go) fun _ =>
    .call (.setPayload go.oid (some 8)) fun _ => .done)
/-- An event without payload, and the client sets a payload after it has fired it. -/
def unpaid : Conf :=
  solo (env acts) (.call (.start 0) fun _ => .call (.fire 0 go) fun _ => .call (.setPayload go.oid (some 8)) fun _ => .done)
/-- `startInState` three times: unconfigured state, configured state, again. -/
def inState : Conf :=
  solo (env acts) (.call (.startInState 0 (some C)) fun _ => .call (.startInState 0 (some B)) fun _ =>
    .call (.startInState 0 (some B)) fun _ => .done)
/-- `start()` with a listener, twice. -/
def twice : Conf := solo (env acts) (.call (.start 0) fun _ => .call (.start 0) fun _ => .done) 80 (conf true)
/-- `stop()`, then `start()`. -/
def stopped : Conf := solo (env acts) (.call (.stop 0) fun _ => .done)
def restarted : Conf := solo (env acts) (.call (.start 0) fun _ => .done) 80 stopped
/-- The entry action of the initial state calls `stop()`. -/
def stopAct : Kind → Nat → List (Ev → MId → UProg)
  | .entry, 1 => [fun _ m => .call (.stop m) fun _ => .done]
  | _, _ => []
def midStart : Conf := solo (env stopAct) (.call (.start 0) fun _ => .done) 11
def zombie : Conf := drive (env stopAct) midStart (runN (.client 0) 80)

theorem early_reach : ReachFrom (env acts) conf early := drive_reach _ _ _
theorem late_reach : ReachFrom (env acts) conf late := drive_reach _ _ _
theorem full_reach : ReachFrom (env acts 1) conf full := drive_reach _ _ _
theorem dup_reach : ReachFrom (env acts 0 true) conf dup := drive_reach _ _ _
theorem paid_reach : ReachFrom (env acts) conf paid := drive_reach _ _ _
theorem inState_reach : ReachFrom (env acts) conf inState := drive_reach _ _ _
theorem twice_reach : ReachFrom (env acts) (conf true) twice := drive_reach _ _ _

theorem roomy_reach : ReachFrom (env acts 2) conf roomy := drive_reach _ _ _
theorem unpaid_reach : ReachFrom (env acts) conf unpaid := drive_reach _ _ _
theorem stopped_reach : ReachFrom (env acts) conf stopped := drive_reach _ _ _
theorem restarted_reach : ReachFrom (env acts) stopped restarted := drive_reach _ _ _
theorem midStart_reach : ReachFrom (env stopAct) conf midStart := drive_reach _ _ _
theorem zombie_reach : ReachFrom (env stopAct) midStart zombie := drive_reach _ _ _
theorem stopped_thr {t : Tid} (h : t ≠ .client 0) : stopped.thr t = none := by
  unfold stopped; exact solo_thr _ _ _ h

end Demo
end Verif
