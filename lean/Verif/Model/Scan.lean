import Verif.Model.Prog
/-
The drop-duplicate strategy (strategy/DropDuplicateEventStrategy.java:43-50) with the iteration over the queue in small steps: the stream of a
ConcurrentLinkedQueue goes from node to node while other threads add and take elements, and what it finds in a node is a pair that may have left the queue,
gone back to the pool and been filled with another event before it is read. Any number of threads fire events, any number of workers take them.
Simplified: each call of `fire` has a number of its own, which stands for the event it puts into the queue; `eqv t' t`: the event queued by `t'` is equal to the
event fired by `t` (which need not be symmetric); a worker may take an event at any time; what is done with an event is not modelled; the queue is
unbounded; the machines are started and not ended; nothing else throws.
Java paths are relative to /repo/src/main/java/com/webotech/statemachine/strategy/; DES is DefaultEventStrategy.java.
-/

namespace Verif.Scan

/-- Number of a call of `fire`. -/
abbrev Tok := Nat

/-- Entries of the history. -/
inductive Entry
  | fire (p : Nat) (t : Tok)
  | drop (p : Nat) (t : Tok)                                         -- dropped as a duplicate
  | npe (p : Nat) (t : Tok)                                          -- NullPointerException, from a pair without an event
  | accept (t : Tok)
  | ret (p : Nat) (t : Tok)
  | take (k : Nat) (t : Tok)                                         -- a worker takes a pair, which then contains `t`
  | process (k : Nat) (t : Tok)                                      -- the event it reads from the pair
  | done (k : Nat) (t : Tok)
deriving DecidableEq, Repr

/-- A thread that fires. -/
inductive PC
  | idle
  | scan (t : Tok) (pos : Nat)                                       -- has passed all nodes before `pos`
  | seen (t : Tok) (pos : Nat) (x : Nat)                             -- has got the pair `x` out of the node before `pos`
  | passed (t : Tok)
  | got (t : Tok) (x : Nat)                                          -- has got `x` from the pool
  | written (t : Tok) (x : Nat)
  | offered (t : Tok)
  | over (t : Tok)
deriving DecidableEq, Repr

/-- A worker (DES:88-101). -/
inductive KC
  | idle
  | got (x : Nat)
  | busy (x : Nat) (t : Tok)
deriving DecidableEq, Repr

structure W where
  fresh : Tok
  nodes : List Nat                                                   -- the pairs of all nodes there ever were
  head : Nat                                                         -- how many of them have been taken
  held : Nat → Option Tok                                            -- field `stateEvent` of a pair, EventMachinePair.java:17
  pool : List Nat
  newPair : Nat
  prod : Nat → PC
  work : Nat → KC
  log : List Entry

def W.init : W := ⟨0, [], 0, fun _ => none, [], 0, fun _ => .idle, fun _ => .idle, []⟩

inductive Act
  | fire (p : Nat)
  | look (p : Nat)
  | compare (p : Nat)
  | pair (p : Nat)
  | write (p : Nat)
  | offer (p : Nat)
  | ret (p : Nat)
  | poll (k : Nat)
  | read (k : Nat)
  | give (k : Nat)
deriving DecidableEq, Repr

def step (eqv : Tok → Tok → Bool) (w : W) : Act → Option W
  | .fire p => match w.prod p with                                   -- DropDuplicateEventStrategy.java:43-45
    | .idle => some { w with fresh := w.fresh + 1, prod := fset w.prod p (.scan w.fresh 0), log := w.log ++ [.fire p w.fresh] }
    | _ => none
  | .look p => match w.prod p with                                   -- line 45: the next node that is still in the queue, if any
    | .scan t pos => match w.nodes[Nat.max pos w.head]? with
      | some x => some { w with prod := fset w.prod p (.seen t (Nat.max pos w.head + 1) x) }
      | none => some { w with prod := fset w.prod p (.passed t) }
    | _ => none
  | .compare p => match w.prod p with                                -- line 45: en.getStateEvent().equals(stateEvent); lines 46-47
    | .seen t pos x => match w.held x with
      | none => some { w with prod := fset w.prod p .idle, log := w.log ++ [.npe p t] }
      | some t' =>
        if eqv t' t then some { w with prod := fset w.prod p (.over t), log := w.log ++ [.drop p t] }
        else some { w with prod := fset w.prod p (.scan t pos) }
    | _ => none
  | .pair p => match w.prod p with                                   -- DES:78, EventMachinePairPool.java:20-26
    | .passed t => match w.pool with
      | [] => some { w with newPair := w.newPair + 1, prod := fset w.prod p (.got t w.newPair) }
      | x :: xs => some { w with pool := xs, prod := fset w.prod p (.got t x) }
    | _ => none
  | .write p => match w.prod p with                                  -- DES:79-85
    | .got t x => some { w with held := fset w.held x (some t), prod := fset w.prod p (.written t x) }
    | _ => none
  | .offer p => match w.prod p with                                  -- DES:86
    | .written t x => some { w with nodes := w.nodes ++ [x], prod := fset w.prod p (.offered t), log := w.log ++ [.accept t] }
    | _ => none
  | .ret p => match w.prod p with
    | .offered t | .over t => some { w with prod := fset w.prod p .idle, log := w.log ++ [.ret p t] }
    | _ => none
  | .poll k => match w.work k with                                   -- DES:89
    | .idle => match w.nodes[w.head]? with
      | some x => match w.held x with
        | some t => some { w with head := w.head + 1, work := fset w.work k (.got x), log := w.log ++ [.take k t] }
        | none => none
      | none => none
    | _ => none
  | .read k => match w.work k with                                   -- DES:90
    | .got x => match w.held x with
      | some t => some { w with work := fset w.work k (.busy x t), log := w.log ++ [.process k t] }
      | none => none
    | _ => none
  | .give k => match w.work k with                                   -- DES:99-101
    | .busy x t => some { w with pool := w.pool ++ [x], work := fset w.work k .idle, log := w.log ++ [.done k t] }
    | _ => none

def runs (eqv : Tok → Tok → Bool) (w : W) : List Act → Option W
  | [] => some w
  | x :: xs => match step eqv w x with
    | none => none
    | some w' => runs eqv w' xs

def Reach (eqv : Tok → Tok → Bool) (w : W) : Prop := ∃ xs, runs eqv .init xs = some w

end Verif.Scan
