import Verif.Model.Basic
/-
The action lists of states (NamedState.java), with actions that append actions to states or run the actions of states themselves.
One thread; the rest of the library is left out. Java paths are relative to /repo/src/main/java/com/webotech/statemachine/.
-/

namespace Verif.Actions

/-- A `StateAction` object. -/
abbrev AId := Nat

/-- The entry or the exit actions of a state object (NamedState.java:23-24). -/
structure LRef where
  oid : Nat
  entry : Bool
deriving DecidableEq, Repr

/-- What can be thrown. -/
inductive Err
  | npe
  | cme                 -- ConcurrentModificationException
  | user (x : Exc)
deriving DecidableEq, Repr

abbrev Res := Except Err Unit

/-- What the code of an action does with states, depending on how that turns out. Other things it does play no role here. -/
inductive Code
  | done
  | thr (e : Err)
  | append (l : LRef) (as : Option (List (Option AId))) (k : Res → Code)   -- appendEntryActions / appendExitActions; `none` is null
  | run (l : LRef) (k : Res → Code)                                      -- onEntry / onExit

/-- An `ArrayList` with its `modCount`, per action list. -/
structure Heap where
  items : LRef → List AId
  mod : LRef → Nat

/-- `ArrayList.add`. -/
def Heap.add (h : Heap) (l : LRef) (a : AId) : Heap where
  items := fun x => if x = l then h.items l ++ [a] else h.items x
  mod := fun x => if x = l then h.mod l + 1 else h.mod x

/-- NamedState.java:42-52: `Stream.of(actions).filter(Objects::nonNull).forEach(list::add)`. -/
def append (h : Heap) (l : LRef) : Option (List (Option AId)) → Heap × Res
  | none => (h, .error .npe)
  | some as => ((as.filter (·.isSome)).foldl (fun h a => match a with | some a => h.add l a | none => h) h, .ok ())

/-- What remains to be done: code, or the loop of `ArrayList.forEach` from index `i` with the array, its size (the length of `es`) and the
`modCount` found at the beginning. -/
inductive Job
  | code (c : Code)
  | loop (l : LRef) (es : List AId) (expected : Nat) (i : Nat)

/-- Finished executions: `Exec code j h h' r`: doing `j` takes the heap `h` to `h'`, with outcome `r`.
NamedState.java:34, 39 and the source of `java.util.ArrayList.forEach`:
`for (int i = 0; modCount == expectedModCount && i < size; i++) action.accept(elementAt(es, i));`
`if (modCount != expectedModCount) throw new ConcurrentModificationException();` -/
inductive Exec (code : AId → Code) : Job → Heap → Heap → Res → Prop
  | done {h} : Exec code (.code .done) h h (.ok ())
  | thr {h e} : Exec code (.code (.thr e)) h h (.error e)
  | append {h l as k h' r} : Exec code (.code (k (Actions.append h l as).2)) (Actions.append h l as).1 h' r →
      Exec code (.code (.append l as k)) h h' r
  | run {h l k h1 r1 h' r} : Exec code (.loop l (h.items l) (h.mod l) 0) h h1 r1 → Exec code (.code (k r1)) h1 h' r →
      Exec code (.code (.run l k)) h h' r
  | changed {h l es m i} : h.mod l ≠ m → Exec code (.loop l es m i) h h (.error .cme)
  | finished {h l es m i} : h.mod l = m → es.length ≤ i → Exec code (.loop l es m i) h h (.ok ())
  | next {h l es m i a h1 h' r} : h.mod l = m → es[i]? = some a → Exec code (.code (code a)) h h1 (.ok ()) →
      Exec code (.loop l es m (i + 1)) h1 h' r → Exec code (.loop l es m i) h h' r
  | failed {h l es m i a h1 e} : h.mod l = m → es[i]? = some a → Exec code (.code (code a)) h h1 (.error e) →
      Exec code (.loop l es m i) h h1 (.error e)

/-- NamedState.java:33-40 `onEntry` / `onExit`. -/
def Calls (code : AId → Code) (l : LRef) (h h' : Heap) (r : Res) : Prop := Exec code (.loop l (h.items l) (h.mod l) 0) h h' r

/-- NamedState.java:26-30: no actions. -/
def Heap.new : Heap := ⟨fun _ => [], fun _ => 0⟩

end Verif.Actions
