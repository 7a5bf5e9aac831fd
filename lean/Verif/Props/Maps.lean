import Verif.Proofs.Maps
/-
C86: `equals` and `hashCode` of states and events, and the hash maps keyed by them.
-/

namespace Verif.Maps
open Spec.Maps

variable {V : Type}

/-! ### The contract -/

/-- States and events keep the contract of `equals` and `hashCode`, whatever their names, null included. -/
theorem C86_contract (strHash : String → Nat) (heap : Ref → Fields) : Contract (named strHash heap) :=
  contract_named strHash heap

/-- Two of them are equal if and only if they have the same class and the same name. -/
theorem C86_equal (heap : Ref → Fields) (strHash : String → Nat) (a b : Ref) :
    (named strHash heap).equals a (some b) = true ↔ (heap a).cls = (heap b).cls ∧ (heap a).name = (heap b).name := by
  show equals heap a (some b) = true ↔ _
  rw [equals_iff]
  constructor
  · intro h; rw [h]; exact ⟨rfl, rfl⟩
  · rintro ⟨h1, h2⟩
    cases ha : heap a; cases hb : heap b
    rw [ha, hb] at h1 h2
    simp_all

/-! ### Maps -/

/-- A hash map whose keys keep the contract behaves as a function on equivalence classes of keys: what is found under a key is what was last put under an equal
key. No number of collisions, no order of the bins and no resizing changes an answer. -/
theorem C86_hash {ks : Keys} (hc : Contract ks) {idx : Nat → Nat → Nat} (hidx : ∀ cap h, 0 < cap → idx cap h < cap) {cap : Nat} (hcap : 0 < cap)
    (ops : List (MOp V)) : Answers ks (fun _ => none) ops ((HMap.new cap).results ks idx ops) :=
  hresults hc hidx (rel_new hcap) ops

/-- So does an association list, when the keys are filed under something that is the same exactly for equal keys. -/
theorem C86_list {ks : Keys} {N : Type} [DecidableEq N] {name : Option Ref → N} (hname : ∀ k k', name k = name k' ↔ same ks k k' = true)
    (ops : List (MOp V)) : Answers ks (fun _ => none) ops (aResults name [] ops) :=
  aresults (a := []) (f := fun _ => none) hname ⟨fun _ => rfl, by simp [AMap.Keyed], fun _ h => by cases h⟩ ops

/-- There is only one list of right answers. -/
theorem C86_answers {ks : Keys} {f : Option Ref → Option (Option V)} {ops : List (MOp V)} {rs rs' : List (Res V)} (h : Answers ks f ops rs) (h' : Answers ks f ops rs') :
    rs = rs' :=
  answers_unique h h'

/-- So the association lists keyed by class and name that the rest of the model uses cannot be told from the hash maps of the code. -/
theorem C86_agree (strHash : String → Nat) (heap : Ref → Fields) {idx : Nat → Nat → Nat} (hidx : ∀ cap h, 0 < cap → idx cap h < cap) {cap : Nat} (hcap : 0 < cap)
    (ops : List (MOp V)) :
    (HMap.new cap).results (named strHash heap) idx ops = aResults (fun k => k.map fun r => ((heap r).cls, (heap r).name)) [] ops := by
  refine answers_unique (C86_hash (contract_named strHash heap) hidx hcap ops) (C86_list (fun k k' => ?_) ops)
  cases k <;> cases k' <;> simp only [Option.map_none, Option.map_some, same, Bool.false_eq_true, reduceCtorEq, Option.some.injEq, Prod.mk.injEq]
  exact (C86_equal heap strHash _ _).symm

/-- And by name alone, as for the states, if all keys are of the same class. -/
theorem C86_states (strHash : String → Nat) (heap : Ref → Fields) (hcls : ∀ r r', (heap r).cls = (heap r').cls) {idx : Nat → Nat → Nat}
    (hidx : ∀ cap h, 0 < cap → idx cap h < cap) {cap : Nat} (hcap : 0 < cap) (ops : List (MOp V)) :
    (HMap.new cap).results (named strHash heap) idx ops = aResults (fun k => k.map fun r => (heap r).name) [] ops := by
  refine answers_unique (C86_hash (contract_named strHash heap) hidx hcap ops) (C86_list (fun k k' => ?_) ops)
  cases k <;> cases k' <;> simp only [Option.map_none, Option.map_some, same, Bool.false_eq_true, reduceCtorEq, Option.some.injEq]
  rw [C86_equal]
  exact ⟨fun h => ⟨hcls _ _, h⟩, fun h => h.2⟩

/-! ### Events of other classes -/

/-- Events of a class that defines `equals` but not `hashCode`: even references are equal to each other, and every object has a hash code of its own. -/
def careless : Keys := ⟨fun a b => match b with | none => false | some b => a % 2 == b % 2, fun a => a⟩

/-- Then an event that is equal to one that was mapped is not found: the map does not behave as it should, although `equals` does. -/
theorem C86_negation_hash :
    (∀ a, careless.equals a (some a) = true) ∧ (∀ a b, careless.equals a (some b) = true → careless.equals b (some a) = true) ∧
      (∀ a b c, careless.equals a (some b) = true → careless.equals b (some c) = true → careless.equals a (some c) = true) ∧
      ∃ (idx : Nat → Nat → Nat), (∀ cap h, 0 < cap → idx cap h < cap) ∧
        ¬ Answers careless (fun _ => none) [.put (some 0) (some 7), .get (some 2)]
          ((HMap.new 16).results careless idx [.put (some 0) (some 7), .get (some 2)]) := by
  refine ⟨fun a => by simp [careless], fun a b => by simp only [careless, beq_iff_eq]; exact Eq.symm, fun a b c => by simp only [careless, beq_iff_eq]; exact Eq.trans,
    fun cap h => h % cap, fun _ _ h => Nat.mod_lt _ h, ?_⟩
  rintro ⟨r, rs, h1, -, r', rs', h2, h3, -⟩
  have hr : r' = Res.val none := by
    have h4 := (List.cons.inj h1).2
    rw [h2] at h4
    exact (List.cons.inj h4).1.symm
  rw [hr] at h3
  have h4 : (Res.val none : Res Nat) = Res.val (some 7) := h3
  cases h4

/-! ### Examples -/

/-- Two events with the same name, one with another name, one without a name, and one of another class; all strings have the same hash. -/
def heapEx : Ref → Fields
  | 0 => ⟨0, some "e"⟩
  | 1 => ⟨0, some "e"⟩
  | 2 => ⟨0, some "d"⟩
  | 3 => ⟨0, none⟩
  | _ => ⟨1, some "e"⟩

example : (named (fun _ => 0) heapEx).equals 0 (some 1) = true ∧ (named (fun _ => 0) heapEx).equals 0 (some 2) = false ∧
    (named (fun _ => 0) heapEx).equals 3 (some 3) = true ∧ (named (fun _ => 0) heapEx).equals 0 (some 4) = false := by decide +kernel

def opsEx : List (MOp Nat) :=
  [.put (some 0) (some 1), .put (some 2) (some 2), .resize 4, .put (some 3) none, .put (some 1) (some 3), .get (some 0), .get (some 2), .get (some 3), .get (some 4), .get none,
    .hasNull, .isEmpty, .containsKey (some 3)]

/-- What this map answers: all keys in one bin, then rehashed. -/
example : ((HMap.new 1).results (named (fun _ => 0) heapEx) (fun cap h => h % cap) opsEx).map (fun | .val v => some v | _ => none) =
    [none, none, none, none, none, some (some 3), some (some 2), some none, some none, some none, none, none, none] := by decide +kernel

example : (HMap.new 1).results (named (fun _ => 0) heapEx) (fun cap h => h % cap) opsEx = aResults (fun k => k.map fun r => ((heapEx r).cls, (heapEx r).name)) [] opsEx :=
  C86_agree _ _ (fun _ _ h => Nat.mod_lt _ h) (by omega) _

example : ∃ (heap : Ref → Fields), (∀ r r', (heap r).cls = (heap r').cls) ∧ heap 0 = heap 2 ∧ heap 0 ≠ heap 1 ∧
    (HMap.new 1).results (named (fun s => s.length) heap) (fun cap h => h % cap) opsEx = aResults (fun k => k.map fun r => (heap r).name) [] opsEx :=
  ⟨fun r => ⟨0, if r % 2 = 0 then some "even" else none⟩, fun _ _ => rfl, rfl, by decide, C86_states _ _ (fun _ _ => rfl) (fun _ _ h => Nat.mod_lt _ h) (by omega) _⟩

end Verif.Maps
