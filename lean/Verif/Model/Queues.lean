import Verif.Model.Prog
/-
The default strategy with an event queue of another kind (EventProcessingStrategyFactory.java, withEventQueue, lines 92-95): which element `poll()` returns is
up to the queue, `offer()` may refuse an element, and `size()` need not be atomic: while it counts, elements may come and go (that of
ConcurrentLinkedQueue is like this). Any number of threads fire events, any number of workers drain the queue.
Simplified: what is done with an event is not modelled; each call of `fire` has a number of its own, which stands for the pair it puts into the queue;
the machines are started and not ended; nothing throws except `poll()` when it finds the queue empty; the executor is never shut down.
Java lines are those of /repo/src/main/java/com/webotech/statemachine/strategy/DefaultEventStrategy.java.
-/

namespace Verif.Qs

/-- Number of a call of `fire`. -/
abbrev Tok := Nat

/-- What there is to choose: the constructor arguments (lines 52-62). A queue is the list of its elements in order of arrival; `offerOk xs b`: `offer` may
return `b`; `pickOk xs i`: `poll` may return the element at `i`. -/
structure Cfg where
  max : Int
  workers : Nat
  offerOk : List Tok → Bool → Bool
  pickOk : List Tok → Nat → Bool

/-- Entries of the history. -/
inductive Entry
  | fire (p : Nat) (t : Tok)
  | rejected (p : Nat) (t : Tok)                                     -- reported: the queue is full
  | accept (t : Tok)
  | refuse (t : Tok)                                                 -- `offer` returned false
  | ret (p : Nat) (t : Tok)                                          -- `fire` returns
  | take (k : Nat) (t : Tok)                                         -- a worker takes an event
  | done (k : Nat) (t : Tok)
  | died (k : Nat)                                                   -- NullPointerException
deriving DecidableEq, Repr

/-- A thread that fires (lines 70-104). `sizing`: the elements when `size()` was called, and the number of elements accepted until then. -/
inductive PC
  | idle
  | sizing (t : Tok) (at0 : List Tok) (n0 : Nat)
  | passed (t : Tok)
  | offered (t : Tok)
  | full (t : Tok)
  | over (t : Tok)
deriving DecidableEq, Repr

/-- A worker (lines 87-103). -/
inductive KC
  | idle
  | loop
  | polling
  | busy (t : Tok)
deriving DecidableEq, Repr

structure W where
  fresh : Tok
  q : List Tok
  offers : Nat                                                       -- elements accepted so far
  prod : Nat → PC
  pending : Nat                                                      -- tasks handed over and not yet begun
  work : Nat → KC
  log : List Entry

def W.init : W := ⟨0, [], 0, fun _ => .idle, 0, fun _ => .idle, []⟩

/-- Elements that were there when `size()` was called and still are. -/
def W.stayed (w : W) (at0 : List Tok) : Nat := (at0.filter (· ∈ w.q)).length

inductive Act
  | fire (p : Nat)
  | size (p : Nat) (r : Nat)
  | report (p : Nat)
  | ret (p : Nat)
  | offer (p : Nat) (ok : Bool)
  | execute (p : Nat)
  | begin (k : Nat)
  | check (k : Nat)
  | poll (k : Nat) (i : Nat)
  | done (k : Nat)
deriving DecidableEq, Repr

def step (c : Cfg) (w : W) : Act → Option W
  | .fire p => match w.prod p with                                   -- line 71: size() is called
    | .idle => some { w with fresh := w.fresh + 1, prod := fset w.prod p (.sizing w.fresh w.q w.offers), log := w.log ++ [.fire p w.fresh] }
    | _ => none
  | .size p r => match w.prod p with                                 -- lines 71-72
    | .sizing t at0 n0 =>
      if w.stayed at0 ≤ r ∧ r ≤ at0.length + (w.offers - n0) then
        if c.max > 0 ∧ (r : Int) ≥ c.max then some { w with prod := fset w.prod p (.full t) }
        else some { w with prod := fset w.prod p (.passed t) }
      else none
    | _ => none
  | .report p => match w.prod p with                                 -- lines 73-75
    | .full t => some { w with prod := fset w.prod p (.over t), log := w.log ++ [.rejected p t] }
    | _ => none
  | .ret p => match w.prod p with                                    -- line 76
    | .over t => some { w with prod := fset w.prod p .idle, log := w.log ++ [.ret p t] }
    | _ => none
  | .offer p ok => match w.prod p with                               -- line 86
    | .passed t =>
      if c.offerOk w.q ok then
        if ok then some { w with q := w.q ++ [t], offers := w.offers + 1, prod := fset w.prod p (.offered t), log := w.log ++ [.accept t] }
        else some { w with prod := fset w.prod p (.offered t), log := w.log ++ [.refuse t] }
      else none
    | _ => none
  | .execute p => match w.prod p with                                -- line 87
    | .offered t => some { w with pending := w.pending + 1, prod := fset w.prod p .idle, log := w.log ++ [.ret p t] }
    | _ => none
  | .begin k => match w.work k with
    | .idle => if 0 < w.pending ∧ k < c.workers then some { w with pending := w.pending - 1, work := fset w.work k .loop } else none
    | _ => none
  | .check k => match w.work k with                                  -- line 88
    | .loop => some { w with work := fset w.work k (if w.q = [] then .idle else .polling) }
    | _ => none
  | .poll k i => match w.work k with                                 -- lines 89-90
    | .polling => match w.q with
      | [] => some { w with work := fset w.work k .idle, log := w.log ++ [.died k] }
      | x :: q => if c.pickOk w.q i then match (x :: q)[i]? with
        | some t => some { w with q := (x :: q).eraseIdx i, work := fset w.work k (.busy t), log := w.log ++ [.take k t] }
        | none => none
        else none
    | _ => none
  | .done k => match w.work k with                                   -- lines 92-101
    | .busy t => some { w with work := fset w.work k .loop, log := w.log ++ [.done k t] }
    | _ => none

def runs (c : Cfg) (w : W) : List Act → Option W
  | [] => some w
  | x :: xs => match step c w x with
    | none => none
    | some w' => runs c w' xs

def Reach (c : Cfg) (w : W) : Prop := ∃ xs, runs c .init xs = some w

/-- Nobody is doing anything. -/
def W.Rest (w : W) : Prop := w.pending = 0 ∧ (∀ p, w.prod p = .idle) ∧ ∀ k, w.work k = .idle

end Verif.Qs
