import Verif.Model.User
/-
The small helpers of the library: MultiConsumerStateMachineListener, LoggingStateMachineListener, Threads.
(HandleExceptionAction is `handleException` in Model/User.lean.) Java paths are relative to
/repo/src/main/java/com/webotech/statemachine/.
-/

namespace Verif

/-! ### MultiConsumerStateMachineListener -/

namespace Multi

/-- The iteration of a `ConcurrentHashMap`, as documented by java.util.concurrent: an iterator shows each element at most
once, it shows the elements that stay in the map from its creation on, and only elements that have been in the map
since its creation. -/
structure Iter where
  must : List LId          -- in the map ever since the iteration began, not shown yet
  may : List LId           -- in the map at some moment since the iteration began
  seen : List LId          -- shown
deriving DecidableEq, Repr

/-- `consumers` (MultiConsumerStateMachineListener.java:22) and one call of `onStateChangeBegin` or `onStateChangeEnd`
(lines 47-58): not running, iterating, in the call of a consumer, or leaving with the exception of a consumer. Other
notifications going on at the same time do not change the map. -/
inductive Notif
  | none
  | iter (i : Iter)
  | inCall (i : Iter) (l : LId)
  | raising (x : Exc)
deriving DecidableEq, Repr

structure State where
  consumers : List LId
  notif : Notif
deriving DecidableEq, Repr

/-- Observable steps. -/
inductive Ev
  | add (l : LId) (b : Bool)            -- add(l) returned b
  | remove (l : LId) (b : Bool)         -- remove(l) returned b
  | begin                               -- the notification starts: consumers.values().iterator()
  | call (l : LId)                      -- the callback of l is called
  | ret (l : LId) (r : Option Exc)      -- it returned, or threw
  | end_ (r : Option Exc)               -- the notification returned, or threw
deriving DecidableEq, Repr

/-- What an addition means to a running iteration. -/
def Notif.added (l : LId) : Notif → Notif
  | .iter i => .iter { i with may := l :: i.may }
  | .inCall i k => .inCall { i with may := l :: i.may } k
  | n => n

/-- What a removal means to a running iteration. -/
def Notif.removed (l : LId) : Notif → Notif
  | .iter i => .iter { i with must := i.must.filter (· ≠ l) }
  | .inCall i k => .inCall { i with must := i.must.filter (· ≠ l) } k
  | n => n

inductive Step : State → Ev → State → Prop
  /-- `putIfAbsent(l, l) == null`, MultiConsumerStateMachineListener.java:35 -/
  | addNew {s l} : l ∉ s.consumers → Step s (.add l true) ⟨l :: s.consumers, s.notif.added l⟩
  | addOld {s l} : l ∈ s.consumers → Step s (.add l false) s
  /-- `remove(l) != null`, MultiConsumerStateMachineListener.java:43 -/
  | removeOld {s l} : l ∈ s.consumers → Step s (.remove l true) ⟨s.consumers.filter (· ≠ l), s.notif.removed l⟩
  | removeNew {s l} : l ∉ s.consumers → Step s (.remove l false) s
  /-- MultiConsumerStateMachineListener.java:48, 55 -/
  | begin {cs} : Step ⟨cs, .none⟩ .begin ⟨cs, .iter ⟨cs, cs, []⟩⟩
  | next {cs i l} : l ∈ i.may → l ∉ i.seen →
      Step ⟨cs, .iter i⟩ (.call l) ⟨cs, .inCall ⟨i.must.filter (· ≠ l), i.may, l :: i.seen⟩ l⟩
  | back {cs i l} : Step ⟨cs, .inCall i l⟩ (.ret l none) ⟨cs, .iter i⟩
  /-- an exception of a consumer leaves the loop -/
  | throws {cs i l x} : Step ⟨cs, .inCall i l⟩ (.ret l (some x)) ⟨cs, .raising x⟩
  | finish {cs i} : i.must = [] → Step ⟨cs, .iter i⟩ (.end_ none) ⟨cs, .none⟩
  | raise {cs x} : Step ⟨cs, .raising x⟩ (.end_ (some x)) ⟨cs, .none⟩

/-- Histories of a listener. -/
inductive Runs : State → List Ev → State → Prop
  | nil {s} : Runs s [] s
  | snoc {s h s1 e s2} : Runs s h s1 → Step s1 e s2 → Runs s (h ++ [e]) s2

/-- `new MultiConsumerStateMachineListener<>()`, MultiConsumerStateMachineListener.java:25-28; the initial listeners are
added one by one by the constructor, like any others. -/
def State.new : State := ⟨[], .none⟩

end Multi

/-! ### LoggingStateMachineListener -/

namespace Logging

/-- Substitution of the placeholders `{}` of a log4j message, left to right. -/
def fmt : List Char → List (List Char) → List Char
  | '{' :: '}' :: t, a :: as => a ++ fmt t as
  | c :: t, as => c :: fmt t as
  | [], _ => []

/-- LoggingStateMachineListener.java:16-19 -/
def beginNamed : String := "Begin {} transition: {} + {} = {}"
def beginPlain : String := "Begin transition: {} + {} = {}"
def endNamed : String := "{} transitioned to {}"
def endPlain : String := "Transitioned to {}"

def line (t : String) (as : List String) : String := String.ofList (fmt t.toList (as.map String.toList))

/-- LoggingStateMachineListener.java:43-60 `logChange`. -/
def logChange (name : Option String) (complete : Bool) (old : St) (ev : Ev) (new : St) : UProg :=
  match name with
  | some n =>
    if n ≠ "" then
      if complete then .note (.log (line endNamed [n, new.name])) .done
      else .note (.log (line beginNamed [n, old.name, ev.name, new.name])) .done
    else
      if complete then .note (.log (line endPlain [new.name])) .done
      else .note (.log (line beginPlain [old.name, ev.name, new.name])) .done
  | none =>
    if complete then .note (.log (line endPlain [new.name])) .done
    else .note (.log (line beginPlain [old.name, ev.name, new.name])) .done

end Logging

/-! ### Threads -/

namespace Threads

/-- Decimal digits, as printed by `%s` of an Integer ≥ 0. -/
def digits (n : Nat) : List Char :=
  if n < 10 then [Char.ofNat (48 + n)] else digits (n / 10) ++ [Char.ofNat (48 + n % 10)]
termination_by n
decreasing_by omega

/-- `%s` of an Integer. -/
def showInt (z : Int) : List Char := if z < 0 then '-' :: digits z.natAbs else digits z.natAbs

/-- Value of the `int` counter after `n` increments from 0 (it wraps around). -/
def asInt (n : Nat) : Int := (BitVec.ofNat 32 n).toInt

structure Thread where
  name : List Char
  daemon : Bool
deriving DecidableEq, Repr

/-- `threadNumber` (Threads.java:29, static: shared by all factories) as its number of increments; the calls of `newThread`
that have got their number; the threads handed out. -/
structure State where
  count : Nat
  inside : List (List Char × Int)
  threads : List Thread
deriving DecidableEq, Repr

inductive Step
  | take (base : List Char)     -- threadNumber.getAndIncrement() in a call of newThread of a factory with that name
  | finish (i : Nat)            -- the i-th such call sets name and daemon flag and returns
deriving DecidableEq, Repr

/-- Threads.java:44-50; `String.format("%s-%s", name, number)`. -/
def step (s : State) : Step → State
  | .take b => { s with count := s.count + 1, inside := s.inside ++ [(b, asInt s.count)] }
  | .finish i => match s.inside[i]? with
    | none => s
    | some (b, z) => { s with inside := s.inside.eraseIdx i, threads := s.threads ++ [⟨b ++ '-' :: showInt z, true⟩] }

def run (s : State) (xs : List Step) : State := xs.foldl step s

end Threads

end Verif
