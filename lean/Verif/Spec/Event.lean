import Verif.Spec.Monitor
/-
Specification of the processing of one event, as a statement about the history between the moment the event is taken
from the queue and the moment its pair is given back.
-/

namespace Verif.Spec
open Calls (userObs)

/-- What thread `t` does itself in a piece of history: without the API calls made by user code (`d`: how many of them are
open at the beginning) and without what user code does otherwise. -/
def bare (t : Tid) : Nat → List (Tid × Obs) → List Obs
  | _, [] => []
  | d, (u, o) :: tr =>
    if u ≠ t then bare t d tr
    else match o with
      | .enter _ => bare t (d + 1) tr
      | .leave .. => bare t (d - 1) tr
      | .taskDropped .. => bare t d tr
      | o => if d > 0 ∨ userObs o then bare t d tr else o :: bare t d tr

/-- Changes made to machine `m` by calls of `start`, `startInState`, `stop` and `setStateMachineListener`. -/
def meddles (m : MId) : Obs → Bool
  | .upd m' _ _ api | .cur m' _ api => m' = m && api
  | .cleared m' => m' = m
  | .listener m' _ => m' = m
  | _ => false

/-- What the history shows when a plan is carried out. `e`: has the machine ended? -/
def shows (m : MId) : Bool → List Item → List Obs
  | _, [] => []
  | e, .cb c :: pl => .cb c :: .cbRet c none :: shows m e pl
  | _, .upd s b :: pl => .upd m s b false :: shows m b pl
  | e, .cur s :: pl => .cur m s false :: shows m e pl
  | e, .halt s :: pl => if e then [] else .upd m s true false :: shows m true pl
  | _, .thr _ :: _ => []

/-- How the processing of an event can go: everything as planned, until user code throws. The last argument is the
exception that ends the drain, if any. -/
inductive Behaves (m : MId) (ev : Ev) (pl : List Item) : List Obs → Option Exc → Prop
  /-- Everything happened. -/
  | completed : (∀ x, Item.thr x ∉ pl) → Behaves m ev pl (shows m false pl) none
  /-- User code threw an `Exception`, which was reported to the flow listener. -/
  | failed {a b c x r} : shows m false pl = a ++ .cb c :: .cbRet c none :: b → x.isException = true →
      Behaves m ev pl (a ++ [.cb c, .cbRet c (some x), .cb (.flowEx m ev x), .cbRet (.flowEx m ev x) r]) r
  /-- User code threw something else, an `Error`. -/
  | killed {a b c x} : shows m false pl = a ++ .cb c :: .cbRet c none :: b → x.isException = false →
      Behaves m ev pl (a ++ [.cb c, .cbRet c (some x)]) (some x)
  /-- The current state is not configured: there is nothing to do, a `NullPointerException` is reported. -/
  | lost {r} : pl = [.thr .npe] → Behaves m ev pl [.cb (.flowEx m ev .npe), .cbRet (.flowEx m ev .npe) r] r

/-- The state of machine `m` after a history. -/
def Mon.Mem.after (m : MId) (mem : Mon.Mem) (tr : List (Tid × Obs)) : Mon.Mem := tr.foldl (fun mem e => mem.step m e.2) mem

/-- State of a machine: current state, ended. -/
structure MSt where
  cur : Option St
  ended : Bool
deriving DecidableEq

/-- The transition table as a function. -/
def Desc.next (d : Desc) (x : MSt) (ev : Ev) : MSt :=
  if x.ended then x else
  match x.cur with
  | none => x
  | some a => match d.table.row? (some a) with
    | none => x
    | some row => match row.target (some ev.key) with
      | none => x
      | some b =>
        if b.name = resNoop then x
        else if b.name = resEnd then ⟨some b, true⟩
        else if d.final b then ⟨some d.endSt, true⟩
        else ⟨some b, false⟩

end Verif.Spec

namespace Verif.Spec

/-- How an entry changes the event of machine `m` that is in processing in thread `t`. -/
def openStep (t : Tid) (m : MId) (r : Option Ev) (e : Tid × Obs) : Option Ev :=
  match e.2 with
  | .taken _ m' ev => if e.1 = t ∧ m' = m then some ev else r
  | .done m' _ => if e.1 = t ∧ m' = m then none else r
  | _ => r

/-- The event of machine `m` which thread `t` is processing after a history. -/
def openEv (t : Tid) (m : MId) (tr : List (Tid × Obs)) : Option Ev := tr.foldl (openStep t m) none

def depthStep (t : Tid) (d : Nat) (e : Tid × Obs) : Nat :=
  match e.2 with
  | .enter _ => if e.1 = t then d + 1 else d
  | .leave .. => if e.1 = t then d - 1 else d
  | _ => d

/-- Number of API calls that are open in thread `t` after a history. -/
def apiDepth (t : Tid) (tr : List (Tid × Obs)) : Nat := tr.foldl (depthStep t) 0

/-- Events of machine `m` taken in a piece of history, in order. -/
def takenOf (m : MId) (tr : List (Tid × Obs)) : List Ev :=
  tr.filterMap fun e => match e.2 with
    | .taken _ m' ev => if m' = m then some ev else none
    | _ => none

/-- The state of a machine, from its memory. -/
def Mon.Mem.st (mem : Mon.Mem) : MSt := ⟨mem.cur, mem.ended⟩

end Verif.Spec

namespace Verif.Spec

/-- Thread `t` takes event `ev` of machine `m` after the history `pre` and gives its pair back later; `mid` is everything
that happens meanwhile, in all threads; `post` is what follows. -/
structure IsEvent (tr : List (Tid × Obs)) (t : Tid) (m : MId) (ev : Ev) (pre mid post : List (Tid × Obs)) : Prop where
  split : ∃ q m' ev', tr = pre ++ (t, .taken q m ev) :: (mid ++ (t, .done m' ev') :: post)
  first : ∀ m' ev', (t, .done m' ev') ∉ mid

/-- Memory of a machine before anything has happened. -/
def Mon.Mem.init (lst : Option LId) : Mon.Mem := ⟨none, false, lst⟩

end Verif.Spec

namespace Verif.Spec

/-- User code is called and returns normally. -/
def shown (cs : List Cb) : List Obs := cs.flatMap fun c => [.cb c, .cbRet c none]

/-- An exception in user code: `Exception`s are reported to the flow listener, which returns or throws itself (`r`);
everything else is not reported. The result says what ends the drain. -/
inductive Report (m : MId) (ev : Ev) (x : Exc) : List Obs → Option Exc → Prop
  | told {r} : x.isException = true → Report m ev x [.cb (.flowEx m ev x), .cbRet (.flowEx m ev x) r] r
  | untold : x.isException = false → Report m ev x [] (some x)

section
variable (d : Desc) (lst : Bool) (a : St) (ev : Ev) (b : St)

/-- Callbacks before the state changes from `a` to `b`. -/
def Desc.before : List Cb :=
  (if lst then [.begin d.m a ev b] else []) ++ (List.range (d.nacts .exit a.oid)).map fun i => .action d.m .exit a.oid i ev

/-- Callbacks after the state change. -/
def Desc.afterwards : List Cb :=
  ((List.range (d.nacts .entry b.oid)).map fun i => .action d.m .entry b.oid i ev) ++
    (if lst then [.end_ d.m a ev b] else [])

/-- The state change itself. -/
def Desc.change : List Obs := [.upd d.m b (b.name == resEnd) false, .cur d.m b false]

/-- The end of the machine, after a transition into a final state. -/
def Desc.ending : List Obs :=
  if d.final b = true ∧ b.name ≠ resEnd then [.upd d.m d.endSt true false, .cur d.m d.endSt false] else []

/-- A transition from `a` to `b`: everything that can happen. The last argument is the exception that ends the drain. -/
inductive Transition : List Obs → Option Exc → Prop
  /-- Everything as planned. -/
  | completed : Transition
      (shown (d.before lst a ev b) ++ d.change b ++ shown (d.afterwards lst a ev b) ++ d.ending b) none
  /-- User code threw before the state change. -/
  | failedBefore {cs c cs' x os r} : d.before lst a ev b = cs ++ c :: cs' → Report d.m ev x os r →
      Transition (shown cs ++ [.cb c, .cbRet c (some x)] ++ os) r
  /-- User code threw after the state change. -/
  | failedAfter {cs c cs' x os r} : d.afterwards lst a ev b = cs ++ c :: cs' → Report d.m ev x os r →
      Transition (shown (d.before lst a ev b) ++ d.change b ++ shown cs ++ [.cb c, .cbRet c (some x)] ++ os) r

/-- An event that only calls `cs`: no transition, or unmapped. -/
inductive Notify (m : MId) (ev : Ev) (cs : List Cb) : List Obs → Option Exc → Prop
  | completed : Notify m ev cs (shown cs) none
  | failed {cs1 c cs2 x os r} : cs = cs1 ++ c :: cs2 → Report m ev x os r →
      Notify m ev cs (shown cs1 ++ [.cb c, .cbRet c (some x)] ++ os) r

end
end Verif.Spec

namespace Verif.Spec
open Mon (Mem concerns)

/-- What the transition table says about an event in a state. -/
inductive Reaction
  | goes (b : St)       -- a transition to `b`
  | stays (b : St)      -- configured with `itDoesNotTransition`; `b` is the _NOOP_ state
  | unmapped            -- the state has transitions, but not for this event
  | nowhere             -- the state has never been configured
deriving DecidableEq

def Desc.reaction (d : Desc) (cur : Option St) (ev : Ev) : Reaction :=
  match cur, d.table.row? cur with
  | some _, some row =>
    match row.target (some ev.key) with
    | none => .unmapped
    | some b => if b.name = resNoop then .stays b else .goes b
  | _, _ => .nowhere

/-- Everything that can happen when an event is processed, from the moment it is taken to the moment it is given back.
The last argument is the exception that ends the drain. -/
inductive Handles (d : Desc) (mem : Mem) (ev : Ev) : List Obs → Option Exc → Prop
  /-- The machine has ended: nothing at all. -/
  | over : mem.ended = true → Handles d mem ev [] none
  | moves {a b os r} : mem.ended = false → mem.cur = some a → d.reaction (some a) ev = .goes b →
      Transition d mem.lst.isSome a ev b os r → Handles d mem ev os r
  | stays {a b os r} : mem.ended = false → mem.cur = some a → d.reaction (some a) ev = .stays b →
      Notify d.m ev (if mem.lst.isSome then [.begin d.m a ev b, .end_ d.m a ev b] else []) os r → Handles d mem ev os r
  | unmapped {a os r} : mem.ended = false → mem.cur = some a → d.reaction (some a) ev = .unmapped →
      Notify d.m ev [.unmapped d.m ev] os r → Handles d mem ev os r
  | nowhere {r} : mem.ended = false → d.reaction mem.cur ev = .nowhere →
      Handles d mem ev [.cb (.flowEx d.m ev .npe), .cbRet (.flowEx d.m ev .npe) r] r

/-- Is the entry the beginning of an event of `m`? -/
def begins (m : MId) : Obs → Bool
  | .taken _ m' _ => m' = m
  | _ => false

/-- What a worker does for machine `d.m` in a piece of history, between two moments when it is not processing an event of
this machine: complete events, one after the other, each handled as it should be, and in between things which do not
concern the machine. The state of the machine is given before and after. -/
inductive Events (d : Desc) (q : QId) : Mem → List Obs → Mem → Prop
  | nil {mem} : Events d q mem [] mem
  | other {mem x os mem'} : concerns d.m x = false → begins d.m x = false → Events d q mem os mem' → Events d q mem (x :: os) mem'
  | event {mem ev os r rest mem'} : Handles d mem ev os r → Events d q (os.foldl (Mem.step d.m) mem) rest mem' →
      Events d q mem (.taken q d.m ev :: (os ++ .done d.m ev :: rest)) mem'

end Verif.Spec

namespace Verif.Spec

/-- Does the entry change the current state of machine `m`, or whether it has ended? -/
def changes (m : MId) : Obs → Bool
  | .upd m' .. | .cleared m' | .cur m' .. => m' = m
  | _ => false

/-- If the machine has ended, its current state is _END_. -/
def Mon.Mem.proper (mem : Mon.Mem) : Prop := mem.ended = true → ∃ s, mem.cur = some s ∧ s.name = "_END_"

end Verif.Spec
