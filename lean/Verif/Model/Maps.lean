import Verif.Model.Basic
/-
`equals` and `hashCode` of states and events (NamedState.java:59-74, NamedStateEvent.java:47-63), and the `java.util.HashMap`s of states and transitions
(GenericStateMachine.java:36, 70-73, 83, 94-131, and TransitionTask.java:27, 44-45, where they are looked up), with bins. The rest of the model uses association lists keyed by name
(`AMap`); C86 says that nobody can tell.
Simplified: bins are lists (java.util.HashMap turns long ones into trees); when the table is resized and which bin a hash value belongs to is left open. `hashCode` of
strings is any function.
Java paths are relative to /repo/src/main/java/com/webotech/statemachine/.
-/

namespace Verif.Maps

abbrev Ref := Nat

/-- The objects: class and name, both of which never change (NamedState.java:22, NamedStateEvent.java:16). A name may be null. -/
structure Fields where
  cls : Nat
  name : Option String
deriving DecidableEq, Repr

/-- `java.util.Objects.equals`. -/
def objectsEquals (a b : Option String) : Bool :=
  match a, b with
  | none, none => true
  | some x, some y => x == y
  | _, _ => false

/-- NamedState.java:60-69, NamedStateEvent.java:49-58. -/
def equals (heap : Ref → Fields) (this : Ref) (o : Option Ref) : Bool :=
  match o with
  | none => false
  | some o =>
    if this = o then true
    else if (heap this).cls ≠ (heap o).cls then false
    else objectsEquals (heap this).name (heap o).name

/-- NamedState.java:72-74, NamedStateEvent.java:61-63 with `java.util.Objects.hashCode`. -/
def hashCode (strHash : String → Nat) (heap : Ref → Fields) (this : Ref) : Nat :=
  match (heap this).name with
  | none => 0
  | some s => strHash s

/-- Objects that can be keys of maps. -/
structure Keys where
  equals : Ref → Option Ref → Bool
  hash : Ref → Nat

/-- The states and events of the library. -/
def named (strHash : String → Nat) (heap : Ref → Fields) : Keys := ⟨equals heap, hashCode strHash heap⟩

/-! ### HashMap -/

/-- A node: java.util.HashMap.Node. Keys and values may be null. -/
structure Node (V : Type) where
  hash : Nat
  key : Option Ref
  val : Option V

/-- A table of bins. -/
structure HMap (V : Type) where
  cap : Nat
  bin : Nat → List (Node V)

variable {V : Type}

/-- `HashMap.hash` (without the bits it mixes: `idx` is arbitrary). -/
def Keys.hashOf (ks : Keys) : Option Ref → Nat
  | none => 0
  | some k => ks.hash k

/-- The test made for every node of a bin: same hash, and same or equal key. -/
def Keys.hits (ks : Keys) (key : Option Ref) (n : Node V) : Bool :=
  n.hash = ks.hashOf key && (n.key = key || match key with | none => false | some k => ks.equals k n.key)

/-- `HashMap.getNode`. -/
def HMap.node (ks : Keys) (idx : Nat → Nat → Nat) (m : HMap V) (key : Option Ref) : Option (Node V) :=
  (m.bin (idx m.cap (ks.hashOf key))).find? (ks.hits key)

/-- `HashMap.putVal` within a bin: the value of the first node that is hit, or a new node at the end. -/
def putBin (ks : Keys) (key : Option Ref) (v : Option V) : List (Node V) → List (Node V)
  | [] => [⟨ks.hashOf key, key, v⟩]
  | n :: ns => if ks.hits key n then { n with val := v } :: ns else n :: putBin ks key v ns

def HMap.put (ks : Keys) (idx : Nat → Nat → Nat) (m : HMap V) (key : Option Ref) (v : Option V) : HMap V :=
  let i := idx m.cap (ks.hashOf key)
  { m with bin := fun j => if j = i then putBin ks key v (m.bin j) else m.bin j }

/-- All nodes, in the order in which they are iterated. -/
def HMap.nodes (m : HMap V) : List (Node V) := (List.range m.cap).flatMap m.bin

/-- `HashMap.resize`: all nodes into new bins. -/
def HMap.resize (idx : Nat → Nat → Nat) (m : HMap V) (cap : Nat) : HMap V :=
  ⟨cap, fun i => m.nodes.filter fun n => idx cap n.hash = i⟩

/-- What the code does with its maps. -/
inductive MOp (V : Type)
  | get (k : Option Ref)                                             -- GenericStateMachine.java:94-131, 152; TransitionTask.java:27, 44-45
  | containsKey (k : Option Ref)                                     -- GenericStateMachine.java:258
  | put (k : Option Ref) (v : Option V)                              -- GenericStateMachine.java:70-73, 94, 104, 107, 120, 131
  | putIfAbsent (k : Option Ref) (v : Option V)                      -- GenericStateMachine.java:83
  | isEmpty                                                          -- GenericStateMachine.java:161, 218
  | hasNull                                                          -- GenericStateMachine.java:222-231: is there an entry whose value is null?
  | resize (cap : Nat)                                               -- at any time

inductive Res (V : Type)
  | val (v : Option V)
  | bool (b : Bool)
  | unit

def HMap.step (ks : Keys) (idx : Nat → Nat → Nat) (m : HMap V) : MOp V → HMap V × Res V
  | .get k => (m, .val ((m.node ks idx k).bind (·.val)))
  | .containsKey k => (m, .bool (m.node ks idx k).isSome)
  | .put k v => (m.put ks idx k v, .unit)
  | .putIfAbsent k v => match (m.node ks idx k).bind (·.val) with
    | some _ => (m, .unit)
    | none => (m.put ks idx k v, .unit)
  | .isEmpty => (m, .bool m.nodes.isEmpty)
  | .hasNull => (m, .bool (m.nodes.any fun n => n.val.isNone))
  | .resize cap => (if m.cap ≤ cap then m.resize idx cap else m, .unit)

/-- The results of a sequence of operations on a new map. -/
def HMap.results (ks : Keys) (idx : Nat → Nat → Nat) : HMap V → List (MOp V) → List (Res V)
  | _, [] => []
  | m, o :: os => (m.step ks idx o).2 :: HMap.results ks idx (m.step ks idx o).1 os

/-- `new HashMap<>()`; its first table is made by the first put, which is left out here. -/
def HMap.new (cap : Nat) : HMap V := ⟨cap, fun _ => []⟩

/-! ### The maps of the model -/

/-- The same operations on an association list, where `name` says what a key is filed under. -/
def aStep {N : Type} [DecidableEq N] (name : Option Ref → N) (m : AMap N (Option V)) : MOp V → AMap N (Option V) × Res V
  | .get k => (m, .val (AMap.get? m (name k)).join)
  | .containsKey k => (m, .bool (AMap.get? m (name k)).isSome)
  | .put k v => (AMap.put m (name k) v, .unit)
  | .putIfAbsent k v => match (AMap.get? m (name k)).join with
    | some _ => (m, .unit)
    | none => (AMap.put m (name k) v, .unit)
  | .isEmpty => (m, .bool (List.isEmpty m))
  | .hasNull => (m, .bool (List.any m fun e => e.2.isNone))
  | .resize _ => (m, .unit)

def aResults {N : Type} [DecidableEq N] (name : Option Ref → N) : AMap N (Option V) → List (MOp V) → List (Res V)
  | _, [] => []
  | m, o :: os => (aStep name m o).2 :: aResults name (aStep name m o).1 os

end Verif.Maps
