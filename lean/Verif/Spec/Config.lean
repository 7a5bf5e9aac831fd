import Verif.Model.Config
/-
Specification of the configuration DSL, written without looking at how the code stores things:
a phase, and what every (state name, event) pair leads to.
-/

namespace Verif.Spec

/-- What a configured pair leads to. `pending`: `receives(e)` was called, the outcome is not given yet. -/
inductive Outcome
  | pending
  | goesTo (s : St)
  | ends
  | stays
deriving DecidableEq, Repr

/-- Where in the fluent grammar we are. -/
inductive Phase
  | fresh                         -- no initial state yet
  | closed                        -- between clauses
  | on (s : String)               -- `when(s)` (or `initialSate(s)`) just called
  | onEv (s : String) (e : EvKey) -- `when(s).receives(e)`
deriving DecidableEq, Repr

/-- `none` as event: an outcome given without `receives`. `_immediate_` as event: the state ends by itself. -/
structure Dsl where
  phase : Phase
  trans : String → Option EvKey → Option Outcome

def Dsl.empty : Dsl := ⟨.fresh, fun _ _ => none⟩

def Dsl.set (d : Dsl) (p : Phase) (s : String) (k : Option EvKey) (o : Outcome) : Dsl :=
  ⟨p, fun s' k' => if s' = s ∧ k' = k then some o else d.trans s' k'⟩

def usableState (s : St) : Prop := s.name ≠ "_END_" ∧ s.name ≠ "_UNINITIALISED_" ∧ s.name ≠ "_NOOP_"
def usableEvent (e : Ev) : Prop := e.name ≠ "_immediate_"

instance (s : St) : Decidable (usableState s) := by unfold usableState; infer_instance
instance (e : Ev) : Decidable (usableEvent e) := by unfold usableEvent; infer_instance

/-- Giving an outcome. -/
def Dsl.outcome (d : Dsl) (o : Outcome) : Option Dsl :=
  match d.phase with
  | .onEv s e => some (d.set .closed s (some e) o)
  | .on s => if d.trans s none = none then some (d.set .closed s none o) else none
  | _ => none

open Classical in
/-- Which call is accepted, and what it does. `none`: rejected. -/
noncomputable def Dsl.step (d : Dsl) : CfgCall → Option Dsl
  | .initialSate (some s) => if d.phase = .fresh ∧ usableState s then some { d with phase := .on s.name } else none
  | .when_ (some s) => if d.phase = .closed ∧ usableState s then some { d with phase := .on s.name } else none
  | .receives (some e) =>
    if usableEvent e then
      match d.phase with
      | .on s => some (d.set (.onEv s e.key) s (some e.key) .pending)
      | .onEv s _ => some (d.set (.onEv s e.key) s (some e.key) .pending)
      | _ => none
    else none
  | .itTransitionsTo (some t) => if usableState t then d.outcome (.goesTo t) else none
  | .itDoesNotTransition => d.outcome .stays
  | .itEnds =>
    match d.phase with
    | .onEv s e => some (d.set .closed s (some e) .ends)
    | .on s => if ∀ k, d.trans s k = none then some (d.set .closed s (some ⟨0, "_immediate_"⟩) .ends) else none
    | _ => none
  | _ => none

/-- Rejected calls change nothing. -/
noncomputable def Dsl.run (d : Dsl) (ks : List CfgCall) : Dsl :=
  ks.foldl (fun d k => (d.step k).getD d) d

end Verif.Spec
