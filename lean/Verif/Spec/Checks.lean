import Verif.Spec.Plain
/-
Specification: reads of pooled pairs. A thread that removes a pair from a queue reads it at once; with the drop-duplicate strategy, threads read pairs which are in
the queue, or have been.
-/

namespace Verif.Spec.Checks
open Verif.Plain Verif.Spec.HB Verif.Spec.Plain

/-- The thread of action `i` has removed pair `p` from a queue immediately before. -/
def Taken (H : List Did) (i : Nat) (p : PairId) : Prop := ∃ k < i, ∃ t q d, H[k]? = some (.op t (.poll q) (some p)) ∧ H[i]? = some d ∧ d.tid = t ∧
  ∀ (j : Nat) d', k < j → j < i → H[j]? = some d' → d'.tid ≠ t

/-- `v` is what has been written to the pair last before action `i`. -/
def Newest (H : List Act) (i : Nat) (p : PairId) (v : Content) : Prop :=
  ∃ j < i, Puts H (.pair p) j v ∧ ∀ k u, Puts H (.pair p) k u → k < i → k ≤ j

/-- Thread `t` sees pair `p` in a queue, in action `s`. -/
def Looks (H : List Did) (s : Nat) (t : Tid) (q : QId) (p : PairId) : Prop := ∃ l, H[s]? = some (.op t (.qSnap q) l) ∧ p ∈ l

/-- Event `ev` is written to pair `p` by action `j`; it is what the pair contains at the time of action `s`, or it is written later. -/
def Since (H : List Act) (s j : Nat) (p : PairId) (ev : Ev) : Prop :=
  (∃ m, Puts H (.pair p) j (.pair (some ev) (some m))) ∧ ∀ k u, Puts H (.pair p) k u → k < s → k ≤ j

/-- Reads of pairs: they never fail; the event is one that has been written to the pair, and it is not older than what the pair contained when the thread saw it in
a queue; a thread that has removed the pair from a queue gets what has been written last. -/
def GoodReads (H : List Act) : Prop := ∀ (i : Nat) t p r v, H[i]? = some (.op t (.getPair p) r, some (.pair p, v)) →
  (∃ ev m, r = some (ev, m) ∧ v = .pair (some ev) (some m) ∧ ∃ j < i, Since H 0 j p ev ∧ ∀ s q, s < i → Looks (dids H) s t q p → Since H s j p ev) ∧
  (Taken (dids H) i p → Newest H i p v)

/-- An event is dropped as a duplicate only if the same thread has looked into the queue of the machine's strategy, and an equal event was in one of the pairs it
saw there, or has been written to it later. -/
def GoodDrops (env : Env) (H : List Act) : Prop := ∀ (i : Nat) t m ev, (dids H)[i]? = some (.op t (.emit (.dropped m ev)) ()) →
  ∃ s p en j, s < i ∧ j < i ∧ Looks (dids H) s t (env.strat (env.mach m).strat).queue p ∧ Since H s j p en ∧ en.eqv ev = true

/-- An event that is stored for the queue of a strategy that drops duplicates has been fired by this thread, in its last call, action `c`; since then the thread has
looked into the queue, and in each pair that it saw was then, or has been written later, an event that is not equal to the one that has been fired. -/
def GoodPasses (env : Env) (H : List Act) : Prop := ∀ (i : Nat) t p e m, (dids H)[i]? = some (.op t (.setPair p e m) ()) →
  (env.strat (env.mach m).strat).dropDup = true →
  ∃ c s ev l, c < s ∧ s < i ∧ (dids H)[c]? = some (.op t (.emit (.enter (.fire m ev))) ()) ∧
    (∀ (k : Nat) o r, c < k → k < i → (dids H)[k]? = some (.op t o r) → (∀ a, o ≠ .emit (.enter a)) ∧ ∀ p e m', o ≠ .setPair p e m') ∧
    (dids H)[s]? = some (.op t (.qSnap (env.strat (env.mach m).strat).queue) l) ∧ e.name = ev.name ∧
    ∀ p' ∈ l, ∃ j en, j < i ∧ Since H s j p' en ∧ en.eqv ev = false

end Verif.Spec.Checks
