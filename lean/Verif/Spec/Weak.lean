import Verif.Spec.HB
import Verif.Model.Weak
/-
Specification: what a read of a plain field may return (JLS 17.4.5, happens-before consistency): a write `j` to the field such that the read does not happen
before `j`, and no other write to the field comes between `j` and the read, in the sense of happens-before. The Java memory model excludes some of these
executions (JLS 17.4.8, causality), so what holds here holds there.
-/

namespace Verif.Spec.Weak
open Verif.Weak Verif.Spec.HB

/-- What a thread does. -/
def did (c : Conf) : WChoice → Option Did
  | .sched x => HB.did c x
  | .read t v => match c.thr t with
    | some (.op (.getCur m) _) => some (.op t (.getCur m) v)
    | _ => none

def history (env : Env) (M : MId → Prop) [DecidablePred M] (c : Conf) : List WChoice → List Did
  | [] => []
  | x :: xs => match Weak.step env M c x with
    | none => []
    | some c' => (did c x).toList ++ history env M c' xs

/-- Action `k` writes `s` to `currentState` of `m`. -/
def Writes (H : List Did) (m : MId) (k : Nat) (s : St) : Prop := ∃ t api, H[k]? = some (.op t (.setCur m s api) ())

/-- Action `i` may see what action `j` writes to `currentState` of `m`. -/
def Sees (wide : Bool) (H : List Did) (m : MId) (i j : Nat) : Prop :=
  ¬HB wide H i j ∧ ∀ k s, Writes H m k s → HB wide H j k → ¬HB wide H k i

/-- Action `i` may see the initial value: the write of default values happens before everything else (JLS 17.4.4). -/
def SeesNull (wide : Bool) (H : List Did) (m : MId) (i : Nat) : Prop := ∀ k s, Writes H m k s → ¬HB wide H k i

/-- Every value read from `currentState` of `m` has been (or will be) written there. If `past`: has been. -/
def Justified (wide past : Bool) (m : MId) (H : List Did) : Prop :=
  ∀ (i : Nat) t v, H[i]? = some (.op t (.getCur m) v) →
    (v = none ∧ SeesNull wide H m i) ∨ ∃ j s, v = some s ∧ Writes H m j s ∧ Sees wide H m i j ∧ (past = true → j < i)

/-- Machine `m` is started by the actions `a` (it gets its state) and `b` (`start()` or `startInState()` is about to return), of the same thread;
nobody tries to change its state before that, and afterwards only thread `W` does. -/
structure Tidy (W : Tid) (m : MId) (H : List Did) (a b : Nat) : Prop where
  order : a < b
  start : ∃ t s, H[a]? = some (.op t (.setCur m s true) ()) ∧ H[b]? = some (.op t (.clearEnded m) ())
  changes : ∀ (k : Nat) t s e api, H[k]? = some (.op t (.casEnded m s e api) true) → t = W ∧ b < k

end Verif.Spec.Weak
