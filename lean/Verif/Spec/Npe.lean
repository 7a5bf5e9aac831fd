import Verif.Spec.Course
/-
Specification: where a `NullPointerException` that event processing reports can come from.
-/

namespace Verif.Spec.Course
open Mon (Mem)

/-- Causes of a `NullPointerException` while thread `t` processes event `ev` of machine `m`, which it took after `pre`; `mid` happened
since. -/
inductive NpeCause (cfg : Cfg) (t : Tid) (hv : MId → List (Tid × Obs) → Mem) (pre mid : List (Tid × Obs)) (s : SId) (m : MId) (ev : Ev) :
    Prop
  | user {c} : (t, .cbRet c (some .npe)) ∈ mid → NpeCause cfg t hv pre mid s m ev          -- user code threw it
  | removed {u} : (u, .listener m none) ∈ mid → NpeCause cfg t hv pre mid s m ev           -- the listener was removed meanwhile
  | early : (∀ u a b, (u, .cur m a b) ∉ pre) → NpeCause cfg t hv pre mid s m ev            -- the machine had no state yet
  | norow {a} : Was cfg t hv pre mid s m ev (fun mem => mem.cur = some a) → (cfg.desc s m).table.row? (some a) = none →
      NpeCause cfg t hv pre mid s m ev                                                     -- nothing is configured for its state

/-- Every state machine `m` can get into has a row in table `T`; `i`: its initial state, `e`: its end state, `T0`: the table that
`startInState` looks at. -/
structure Covers (T T0 : Table) (i : Option St) (e : St) : Prop where
  init : ∀ a, i = some a → T.row? (some a) ≠ none
  last : T.row? (some e) ≠ none
  given : ∀ a, T0.row? (some a) ≠ none → T.row? (some a) ≠ none
  closed : ∀ a row k b, T.row? a = some row → row.target k = some b → T.row? (some b) ≠ none

end Verif.Spec.Course
