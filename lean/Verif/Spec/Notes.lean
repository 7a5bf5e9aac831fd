import Verif.Spec.Event
/-
Specification: what the listener of a machine sees.
-/

namespace Verif.Spec

/-- Is the entry a call of the listener of machine `m`? -/
def note? (m : MId) : Obs → Option Cb
  | .cb (.begin m' f ev t) => if m' = m then some (.begin m f ev t) else none
  | .cb (.end_ m' f ev t) => if m' = m then some (.end_ m f ev t) else none
  | _ => none

/-- The calls of the listener of machine `m` in a piece of history, made by any thread, in order. -/
def notes (m : MId) (tr : List (Tid × Obs)) : List Cb := tr.filterMap fun e => note? m e.2

/-- Every `end` directly follows its `begin`. If `cut`, there may be a `begin` without `end`. -/
inductive Bracketed (m : MId) (cut : Bool) : List Cb → Prop
  | nil : Bracketed m cut []
  | pair {f ev t l} : Bracketed m cut l → Bracketed m cut (.begin m f ev t :: .end_ m f ev t :: l)
  | lone {f ev t l} : cut = true → Bracketed m cut l → Bracketed m cut (.begin m f ev t :: l)

end Verif.Spec

namespace Verif.Spec
open Mon (Mem)

/-- A callback fits the machine. `start`: the machine when the event was taken, `now`: the machine when the callback is made. -/
def Fits (d : Desc) (ev : Ev) (start now : Mem) : Cb → Prop
  | .begin m a e b => m = d.m ∧ e = ev ∧ start.cur = some a ∧ now.cur = some a ∧
      (d.reaction (some a) ev = .goes b ∨ d.reaction (some a) ev = .stays b)
  | .end_ m a e b => m = d.m ∧ e = ev ∧ start.cur = some a ∧
      ((d.reaction (some a) ev = .goes b ∧ now.cur = some b) ∨ (d.reaction (some a) ev = .stays b ∧ now.cur = some a))
  | .action m .exit o i e => m = d.m ∧ e = ev ∧ ∃ a b, start.cur = some a ∧ d.reaction (some a) ev = .goes b ∧
      now.cur = some a ∧ o = a.oid ∧ i < d.nacts .exit a.oid
  | .action m .entry o i e => m = d.m ∧ e = ev ∧ ∃ a b, start.cur = some a ∧ d.reaction (some a) ev = .goes b ∧
      now.cur = some b ∧ o = b.oid ∧ i < d.nacts .entry b.oid
  | .unmapped m e => m = d.m ∧ e = ev ∧ d.reaction start.cur ev = .unmapped ∧ now.cur = start.cur
  | .flowEx m e _ => m = d.m ∧ e = ev
  | _ => False

end Verif.Spec
