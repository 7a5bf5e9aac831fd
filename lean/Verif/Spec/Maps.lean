import Verif.Model.Maps
/-
Vocabulary for C86: the contract of `equals` and `hashCode`, and maps as functions. `Model/Maps` is imported for its operations only.
-/

namespace Verif.Spec.Maps
open Verif.Maps (Ref MOp Res Keys)

/-- The contract of java.lang.Object for `equals` and `hashCode`. -/
structure Contract (ks : Keys) : Prop where
  refl : ∀ a, ks.equals a (some a) = true
  symm : ∀ a b, ks.equals a (some b) = true → ks.equals b (some a) = true
  trans : ∀ a b c, ks.equals a (some b) = true → ks.equals b (some c) = true → ks.equals a (some c) = true
  null : ∀ a, ks.equals a none = false
  hash : ∀ a b, ks.equals a (some b) = true → ks.hash a = ks.hash b

/-- Equality of keys, null included. -/
def same (ks : Keys) : Option Ref → Option Ref → Bool
  | none, none => true
  | some a, some b => ks.equals a (some b)
  | _, _ => false

/-- What a map should do: a function from keys to values that respects equality; an absent key is `none`, null is `some none`. -/
def after {V : Type} (ks : Keys) (f : Option Ref → Option (Option V)) : MOp V → Option Ref → Option (Option V)
  | .put k v, k' => if same ks k k' then some v else f k'
  | .putIfAbsent k v, k' => if (f k).join = none ∧ same ks k k' then some v else f k'
  | _, k' => f k'

/-- The answer a map should give. -/
def Answer {V : Type} (f : Option Ref → Option (Option V)) : MOp V → Res V → Prop
  | .get k, r => r = .val (f k).join
  | .containsKey k, r => ∃ b, r = .bool b ∧ (b = true ↔ f k ≠ none)
  | .isEmpty, r => ∃ b, r = .bool b ∧ (b = true ↔ ∀ k, f k = none)
  | .hasNull, r => ∃ b, r = .bool b ∧ (b = true ↔ ∃ k, f k = some none)
  | .put .., r | .putIfAbsent .., r | .resize _, r => r = .unit

/-- The answers to a sequence of operations. -/
def Answers {V : Type} (ks : Keys) : (Option Ref → Option (Option V)) → List (MOp V) → List (Res V) → Prop
  | _, [], rs => rs = []
  | f, o :: os, rs => ∃ r rs', rs = r :: rs' ∧ Answer f o r ∧ Answers ks (after ks f o) os rs'

end Verif.Spec.Maps
