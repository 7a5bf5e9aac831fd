/-
Basic vocabulary of the model: states, events, exceptions, transition tables.
All Java paths below are relative to /repo/src/main/java/com/webotech/statemachine/.
-/

namespace Verif

/-- Identifiers of Java objects that the model keeps by reference. -/
abbrev MId := Nat      -- GenericStateMachine instances
abbrev SId := Nat      -- EventProcessingStrategy instances
abbrev QId := Nat      -- event queues
abbrev EId := Nat      -- executors
abbrev LId := Nat      -- StateMachineListener instances
abbrev PairId := Nat   -- EventMachinePair instances
abbrev Val := Nat      -- payload values (type parameter S); `none : Option Val` is Java `null`

/-- GenericStateMachine.java:23 -/
def resEnd : String := "_END_"
/-- GenericStateMachine.java:24 -/
def resUninit : String := "_UNINITIALISED_"
/-- GenericStateMachine.java:25 -/
def resNoop : String := "_NOOP_"
/-- GenericStateMachine.java:26 -/
def resImmediate : String := "_immediate_"
/-- GenericStateMachine.java:27-28 -/
def reservedStateNames : List String := [resUninit, resEnd, resNoop]

/-- A `NamedState` object (NamedState.java:20-30): its name and its object identity. The two action lists
live in the environment, indexed by the object identity, because two equal states can have different actions. -/
structure St where
  name : String
  oid : Nat
deriving DecidableEq, Repr

/-- NamedState.java:60-69 `equals`: by name only. -/
def St.eqv (a b : St) : Bool := a.name == b.name

/-- Object identity of an event: an object of the client, or a safe copy made by the library
(DefaultEventStrategy.java:82). -/
inductive EvOid
  | client (n : Nat)
  | copy (n : Nat)
deriving DecidableEq, Repr

/-- What `equals`/`hashCode` of events looks at: class and name (NamedStateEvent.java:49-63). Class 0 is
`NamedStateEvent`; other numbers are other implementations of `StateEvent`, assumed to compare by class and
name as well. -/
structure EvKey where
  cls : Nat
  name : String
deriving DecidableEq, Repr

/-- A reference to a `StateEvent` object (NamedStateEvent.java:14-30). The payload is mutable and lives in the world. -/
structure Ev where
  cls : Nat
  name : String
  oid : EvOid
deriving DecidableEq, Repr

def Ev.key (e : Ev) : EvKey := ⟨e.cls, e.name⟩

/-- NamedStateEvent.java:49-58 `equals`. -/
def Ev.eqv (a b : Ev) : Bool := a.key == b.key

/-- Which `IllegalStateException` of the library (the message texts are not modelled). -/
inductive Ise
  | reservedState | reservedEvent | alreadyMapped | mappingsExist
  | noMarked | marked | noInit | initExists
  | noTransitions | dangling | alreadyStarted | notConfigured | queueFull | appState
deriving DecidableEq, Repr

/-- Java throwables. `err` stands for `java.lang.Error`s, which `catch (Exception e)` does not catch. -/
inductive Exc
  | ise (i : Ise)          -- IllegalStateException thrown by the library
  | npe                    -- NullPointerException thrown by the library code itself
  | uoe                    -- UnsupportedOperationException (write to Collections.emptyMap())
  | rejected               -- RejectedExecutionException
  | interrupted            -- InterruptedException
  | user (n : Nat)         -- any Exception thrown by user code
  | err (n : Nat)          -- any Error thrown by user code
deriving DecidableEq, Repr

/-- Caught by `catch (Exception e)`? -/
def Exc.isException : Exc → Bool
  | .err _ => false
  | _ => true

/-! ### Maps -/

/-- Association lists with the interface of `java.util.HashMap` that the code uses. The order of entries is
not observable in the modelled code. -/
abbrev AMap (α β : Type) := List (α × β)

namespace AMap
variable {α β : Type} [DecidableEq α]

/-- `Map.get` (Java `null` is `none`). -/
def get? : AMap α β → α → Option β
  | [], _ => none
  | (a, b) :: l, x => if a = x then some b else get? l x

/-- `Map.put`. -/
def put : AMap α β → α → β → AMap α β
  | [], x, v => [(x, v)]
  | (a, b) :: l, x, v => if a = x then (a, v) :: l else (a, b) :: put l x v

/-- `Map.putIfAbsent`. -/
def putIfAbsent (l : AMap α β) (x : α) (v : β) : AMap α β :=
  match get? l x with
  | some _ => l
  | none => put l x v

@[simp] theorem get?_nil (x : α) : get? ([] : AMap α β) x = none := rfl

@[simp] theorem get?_put_self (l : AMap α β) (x : α) (v : β) : get? (put l x v) x = some v := by
  induction l with
  | nil => simp [put, get?]
  | cons p l ih => obtain ⟨a, b⟩ := p; by_cases h : a = x <;> simp [put, get?, h, ih]

theorem get?_put_ne (l : AMap α β) {x y : α} (v : β) (h : x ≠ y) : get? (put l x v) y = get? l y := by
  induction l with
  | nil => simp [put, get?, h]
  | cons p l ih =>
    obtain ⟨a, b⟩ := p
    by_cases h1 : a = x
    · subst h1; simp [put, get?, h]
    · by_cases h2 : a = y
      · subst h2; simp [put, get?, h1]
      · simp [put, get?, h1, h2, ih]

theorem get?_put (l : AMap α β) (x y : α) (v : β) :
    get? (put l x v) y = if x = y then some v else get? l y := by
  by_cases h : x = y
  · subst h; simp
  · simp [h, get?_put_ne]

theorem get?_putIfAbsent (l : AMap α β) (x y : α) (v : β) :
    get? (putIfAbsent l x v) y = if x = y then some ((get? l x).getD v) else get? l y := by
  unfold putIfAbsent
  cases hx : get? l x with
  | none => simp [get?_put]
  | some b => by_cases h : x = y <;> simp_all

theorem get?_eq_none_of_forall {l : AMap α β} {x : α} (h : ∀ p ∈ l, p.1 ≠ x) : get? l x = none := by
  induction l with
  | nil => rfl
  | cons p l ih =>
    obtain ⟨a, b⟩ := p
    have h1 : a ≠ x := h (a, b) (by simp)
    simp [get?, h1]
    exact ih (fun p hp => h p (by simp [hp]))

theorem get?_some_mem {l : AMap α β} {x : α} {b : β} (h : get? l x = some b) : (x, b) ∈ l := by
  induction l with
  | nil => simp at h
  | cons p l ih =>
    obtain ⟨a, c⟩ := p
    by_cases h1 : a = x
    · subst h1; simp [get?] at h; simp [h]
    · simp [get?, h1] at h; simp [ih h]

theorem put_ne_nil (l : AMap α β) (x : α) (v : β) : put l x v ≠ [] := by
  cases l with
  | nil => simp [put]
  | cons p l => obtain ⟨a, b⟩ := p; by_cases h : a = x <;> simp [put, h]

theorem eq_nil_iff_get? (l : AMap α β) : l = [] ↔ ∀ x, get? l x = none := by
  constructor
  · rintro rfl; simp
  · intro h
    cases l with
    | nil => rfl
    | cons p l => obtain ⟨a, b⟩ := p; have := h a; simp [get?] at this

/-- Keys are pairwise different. -/
def Keyed (l : AMap α β) : Prop := (l.map Prod.fst).Nodup

theorem mem_put_keys {l : AMap α β} {x y : α} {v : β} (h : y ∈ (put l x v).map Prod.fst) :
    y = x ∨ y ∈ l.map Prod.fst := by
  induction l with
  | nil => simp [put] at h; simp [h]
  | cons p l ih =>
    obtain ⟨a, b⟩ := p
    by_cases h1 : a = x
    · simp [put, h1] at h ⊢; rcases h with h | h
      · simp [h]
      · exact Or.inr h
    · simp only [put, h1, if_false, List.map_cons, List.mem_cons] at h ⊢
      rcases h with h | h
      · simp [h]
      · rcases ih h with h | h <;> simp [h]

theorem Keyed.put {l : AMap α β} (h : Keyed l) (x : α) (v : β) : Keyed (put l x v) := by
  induction l with
  | nil => simp [AMap.put, Keyed]
  | cons p l ih =>
    obtain ⟨a, b⟩ := p
    simp only [Keyed, List.map_cons, List.nodup_cons] at h
    by_cases h1 : a = x
    · simp [AMap.put, h1, Keyed]; subst h1; simpa using h
    · simp only [AMap.put, h1, if_false, Keyed, List.map_cons, List.nodup_cons]
      refine ⟨fun hm => ?_, ih h.2⟩
      rcases mem_put_keys hm with hm | hm
      · exact h1 hm
      · exact h.1 hm

theorem Keyed.get?_of_mem {l : AMap α β} (h : Keyed l) {x : α} {v : β} (hm : (x, v) ∈ l) :
    get? l x = some v := by
  induction l with
  | nil => simp at hm
  | cons p l ih =>
    obtain ⟨a, b⟩ := p
    simp only [Keyed, List.map_cons, List.nodup_cons] at h
    rcases List.mem_cons.1 hm with hm | hm
    · cases hm; simp [get?]
    · have : a ≠ x := by
        rintro rfl; exact h.1 (List.mem_map.2 ⟨(a, v), hm, rfl⟩)
      simp [get?, this, ih h.2 hm]

end AMap

/-! ### Transition tables -/

/-- `Map<StateEvent, State>`: the transitions of one state. The key `none` is Java's `null` key (it can be
put by `itTransitionsTo` without `receives`), the value `none` is Java's `null` value (put by `receives`).
`ro` says that the map is `Collections.emptyMap()` (GenericStateMachine.java:54, 71-73). -/
structure Row where
  ro : Bool
  ents : AMap (Option EvKey) (Option St)
deriving Repr, DecidableEq

/-- `Map<State, Map<StateEvent, State>>` (GenericStateMachine.java:36), keyed by state name because
`NamedState.equals` is by name. -/
abbrev Table := AMap String Row

/-- The reserved event `_immediate_` (GenericStateMachine.java:50) as a map key. -/
def immKey : EvKey := ⟨0, resImmediate⟩

/-- `states.get(state)`; a `null` state is looked up as a `null` key, which is never present. -/
def Table.row? (t : Table) (s : Option St) : Option Row :=
  match s with
  | none => none
  | some s => AMap.get? t s.name

/-- `row.get(event)`, with absent and `null` identified, as `HashMap.get` does. -/
def Row.target (r : Row) (k : Option EvKey) : Option St := (AMap.get? r.ents k).join

/-- Object identities of the three reserved states of one machine (GenericStateMachine.java:51-53). -/
structure Reserved where
  endOid : Nat
  noOid : Nat
  noopOid : Nat
deriving Repr, DecidableEq

def Reserved.endSt (r : Reserved) : St := ⟨resEnd, r.endOid⟩
def Reserved.noSt (r : Reserved) : St := ⟨resUninit, r.noOid⟩
def Reserved.noopSt (r : Reserved) : St := ⟨resNoop, r.noopOid⟩

/-- `this.immediateEvent` (GenericStateMachine.java:50). Its object identity plays no role. -/
def immEv : Ev := ⟨0, resImmediate, .client 0⟩

end Verif
