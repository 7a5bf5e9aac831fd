import Verif.Spec.Machine
import Verif.Spec.Monitor
import Verif.Spec.Calls
/-
Specification: what a thread that processes events does, whoever interferes. A small automaton that follows one thread
through the history. Between two entries it may look at the state of a machine (which the history determines) at any moment.
Nothing is assumed about the other threads, so this also covers machines that share a queue or a strategy, executors with
several threads, and calls of `stop()`, `startInState()` or `setStateMachineListener()` at any time.
-/

namespace Verif.Spec.Course
open Mon (Mem)

structure Cfg where
  queue : SId → QId                        -- queue of a strategy
  strat : MId → SId                        -- strategy of a machine
  exec : SId → EId                         -- executor of a strategy
  desc : SId → MId → Desc                  -- machine, with the table of the strategy
  noSt : MId → St                          -- the state reported if there is none

/-- Things to be done for an event. -/
inductive Todo
  | check                                  -- has the machine that submitted the task ended?
  | decide                                 -- look up current state and event in the table
  | say (done : Bool) (to : St)            -- tell the listener: from the current state to `to`
  | move (to : St)                         -- do the transition to `to`
  | tell (c : Cb)                          -- call the listener, if there is one
  | told (c : Cb)                          -- there is one: call it
  | acts (k : Kind)                        -- run the actions of the current state
  | call (c : Cb)                          -- call user code
  | ret (c : Cb)                           -- user code is running
  | set (s : St)                           -- enter `s`, unless the machine has ended
  | write (s : St)                         -- decided to enter `s`, write it
deriving DecidableEq

/-- The listener call for a transition. -/
def note (m : MId) (done : Bool) (a : St) (ev : Ev) (b : St) : Cb := if done then .end_ m a ev b else .begin m a ev b

/-- Calls of the actions of a state. -/
def calls (d : Desc) (k : Kind) (s : St) (ev : Ev) : List Todo :=
  (List.range (d.nacts k s.oid)).map fun i => .call (.action d.m k s.oid i ev)

/-- What the transition from `a` to `b` consists of. -/
def steps (d : Desc) (a : St) (ev : Ev) (b : St) : List Todo :=
  [.tell (note d.m false a ev b), .acts .exit, .set b, .acts .entry, .tell (note d.m true a ev b)] ++
    if d.final b then [.set d.endSt] else []

/-- What the table says about event `ev` in state `a`. `none`: there is no entry at all for `a`. -/
def choice (d : Desc) (a : Option St) (ev : Ev) : Option (List Todo) :=
  (d.table.row? a).map fun row => match row.target (some ev.key) with
    | none => [.call (.unmapped d.m ev)]
    | some b => if b.name = resNoop then [.say false b, .say true b] else [.move b]

/-- Where the thread is. `s`, `cm`: the strategy and the machine of the drain task. -/
inductive Stage
  | idle                                                             -- no drain task
  | loop (s : SId) (cm : MId)                                        -- between two events
  | busy (s : SId) (cm m : MId) (ev : Ev) (todo : List Todo)         -- processing event `ev` of machine `m`
  | thrown (s : SId) (cm m : MId) (ev : Ev) (x : Exc)                -- `x` was thrown
  | flow (s : SId) (cm m : MId) (ev : Ev) (x : Exc)                  -- `x` is being reported
  | over (s : SId) (cm m : MId) (ev : Ev) (r : Option Exc)           -- .. has been, with outcome `r`
  | dead (x : Exc)                                                   -- the drain task dies of `x`
deriving DecidableEq

/-- User code may be running. -/
def Stage.calling : Stage → Bool
  | .idle | .flow .. | .busy _ _ _ _ (.ret _ :: _) => true
  | _ => false

/-- Moments at which the thread does something that does not show in the history. `v`: the machines at that moment. -/
inductive Look (cfg : Cfg) (t : Tid) (v : MId → Mem) : Stage → Stage → Prop
  | begin {s cm i} : t = .worker (cfg.exec s) i → cfg.strat cm = s → Look cfg t v .idle (.loop s cm)
  | quit {s cm} : Look cfg t v (.loop s cm) .idle
  | robbed {s cm} : Look cfg t v (.loop s cm) (.dead .npe)          -- somebody else took the last event
  | skip {s cm m ev td} : (v cm).ended = true → Look cfg t v (.busy s cm m ev (.check :: td)) (.busy s cm m ev [])
  | check {s cm m ev td} : (v cm).ended = false → Look cfg t v (.busy s cm m ev (.check :: td)) (.busy s cm m ev td)
  | decide {s cm m ev td l} : choice (cfg.desc s m) (v m).cur ev = some l →
      Look cfg t v (.busy s cm m ev (.decide :: td)) (.busy s cm m ev (l ++ td))
  | norow {s cm m ev td} : choice (cfg.desc s m) (v m).cur ev = none →
      Look cfg t v (.busy s cm m ev (.decide :: td)) (.thrown s cm m ev .npe)
  | say {s cm m ev td b to} : Look cfg t v (.busy s cm m ev (.say b to :: td))
      (.busy s cm m ev (.tell (note m b ((v m).cur.getD (cfg.noSt m)) ev to) :: td))
  | move {s cm m ev td to} : Look cfg t v (.busy s cm m ev (.move to :: td))
      (.busy s cm m ev (steps (cfg.desc s m) ((v m).cur.getD (cfg.noSt m)) ev to ++ td))
  | silent {s cm m ev td c} : (v m).lst = none → Look cfg t v (.busy s cm m ev (.tell c :: td)) (.busy s cm m ev td)
  | listens {s cm m ev td c} : (v m).lst.isSome = true →
      Look cfg t v (.busy s cm m ev (.tell c :: td)) (.busy s cm m ev (.told c :: td))
  | gone {s cm m ev td c} : (v m).lst = none →                       -- the listener was removed in the meantime
      Look cfg t v (.busy s cm m ev (.told c :: td)) (.thrown s cm m ev .npe)
  | acts {s cm m ev td k a} : (v m).cur = some a →
      Look cfg t v (.busy s cm m ev (.acts k :: td)) (.busy s cm m ev (calls (cfg.desc s m) k a ev ++ td))
  | noState {s cm m ev td k} : (v m).cur = none →
      Look cfg t v (.busy s cm m ev (.acts k :: td)) (.thrown s cm m ev .npe)
  | ended {s cm m ev td a} : (v m).ended = true → Look cfg t v (.busy s cm m ev (.set a :: td)) (.busy s cm m ev td)

/-- Entries the thread makes itself, outside API calls of user code. -/
inductive Act (cfg : Cfg) (t : Tid) (v : MId → Mem) : Stage → Obs → Stage → Prop
  | taken {s cm m ev} : Act cfg t v (.loop s cm) (.taken (cfg.queue s) m ev) (.busy s cm m ev [.check, .decide])
  | told {s cm m ev td c} : (v m).lst.isSome = true →
      Act cfg t v (.busy s cm m ev (.told c :: td)) (.cb c) (.busy s cm m ev (.ret c :: td))
  | call {s cm m ev td c} : Act cfg t v (.busy s cm m ev (.call c :: td)) (.cb c) (.busy s cm m ev (.ret c :: td))
  | ret {s cm m ev td c} : Act cfg t v (.busy s cm m ev (.ret c :: td)) (.cbRet c none) (.busy s cm m ev td)
  | throws {s cm m ev td c x} : Act cfg t v (.busy s cm m ev (.ret c :: td)) (.cbRet c (some x)) (.thrown s cm m ev x)
  | set {s cm m ev td a} : (v m).ended = false →
      Act cfg t v (.busy s cm m ev (.set a :: td)) (.upd m a (a.name == resEnd) false) (.busy s cm m ev (.write a :: td))
  | write {s cm m ev td a} : Act cfg t v (.busy s cm m ev (.write a :: td)) (.cur m a false) (.busy s cm m ev td)
  | done {s cm m ev} : Act cfg t v (.busy s cm m ev []) (.done m ev) (.loop s cm)
  | report {s cm m ev x} : x.isException = true → Act cfg t v (.thrown s cm m ev x) (.cb (.flowEx m ev x)) (.flow s cm m ev x)
  | error {s cm m ev x} : x.isException = false → Act cfg t v (.thrown s cm m ev x) (.done m ev) (.dead x)
  | reported {s cm m ev x r} : Act cfg t v (.flow s cm m ev x) (.cbRet (.flowEx m ev x) r) (.over s cm m ev r)
  | over {s cm m ev} : Act cfg t v (.over s cm m ev none) (.done m ev) (.loop s cm)
  | overErr {s cm m ev x} : Act cfg t v (.over s cm m ev (some x)) (.done m ev) (.dead x)
  | dies {x} : Act cfg t v (.dead x) (.uncaught x) .idle
  | client {n x} : t = .client n → Act cfg t v .idle (.uncaught x) .idle

/-- Entries that event processing makes, and API calls of user code never make. -/
def bare : Obs → Bool
  | .taken .. | .done .. | .uncaught _ | .upd _ _ _ false | .cur _ _ false => true
  | _ => false

/-- The machines after an entry. -/
def after (v : MId → Mem) (x : Obs) : MId → Mem := fun m => (v m).step m x

/-- A thread's way through a piece of history. `d`: number of API calls of user code it is in. -/
inductive Way (cfg : Cfg) (t : Tid) : (MId → Mem) → Nat → Stage → List (Tid × Obs) → (MId → Mem) → Nat → Stage → Prop
  | nil {v d st} : Way cfg t v d st [] v d st
  | look {v st st' tr v' d' st''} : Look cfg t v st st' → Way cfg t v 0 st' tr v' d' st'' → Way cfg t v 0 st tr v' d' st''
  | other {v d st u x tr v' d' st'} : u ≠ t → Way cfg t (after v x) d st tr v' d' st' → Way cfg t v d st ((u, x) :: tr) v' d' st'
  | enter {v d st k tr v' d' st'} : st.calling = true → Way cfg t (after v (.enter k)) (d + 1) st tr v' d' st' →
      Way cfg t v d st ((t, .enter k) :: tr) v' d' st'
  | leave {v d st k r tr v' d' st'} : Way cfg t (after v (.leave k r)) d st tr v' d' st' →
      Way cfg t v (d + 1) st ((t, .leave k r) :: tr) v' d' st'
  | user {v d st x tr v' d' st'} : st.calling = true → Calls.userObs x = true → Way cfg t (after v x) d st tr v' d' st' →
      Way cfg t v d st ((t, x) :: tr) v' d' st'
  | inner {v d st x tr v' d' st'} : (∀ k, x ≠ .enter k) → (∀ k r, x ≠ .leave k r) → bare x = false →
      Way cfg t (after v x) (d + 1) st tr v' d' st' → Way cfg t v (d + 1) st ((t, x) :: tr) v' d' st'
  | act {v st x st' tr v' d' st''} : Act cfg t v st x st' → Way cfg t (after v x) 0 st' tr v' d' st'' →
      Way cfg t v 0 st ((t, x) :: tr) v' d' st''

/-! ### What a thread does, entry by entry

A weaker, more readable form: every entry has a reason. -/

/-- API calls of thread `t` in progress. -/
def callStep (t : Tid) (d : Nat) (e : Tid × Obs) : Nat :=
  if e.1 = t then (match e.2 with | .enter _ => d + 1 | .leave .. => d - 1 | _ => d) else d

/-- Number of API calls thread `t` is in. -/
def inCalls (t : Tid) (tr : List (Tid × Obs)) : Nat := tr.foldl (callStep t) 0

/-- Thread `t` is processing event `ev` of machine `m` for strategy `s`: it took it from the queue, then `mid` happened. -/
structure Open (cfg : Cfg) (t : Tid) (past pre mid : List (Tid × Obs)) (s : SId) (m : MId) (ev : Ev) : Prop where
  split : past = pre ++ (t, .taken (cfg.queue s) m ev) :: mid
  last : ∀ q m' ev', (t, .taken q m' ev') ∉ mid
  undone : ∀ m' ev', (t, .done m' ev') ∉ mid

section
variable (cfg : Cfg) (t : Tid) (hv : MId → List (Tid × Obs) → Mem)   -- `hv m tr`: machine `m` after `tr`

/-- At some moment since the event was taken the machine was such that `P`. -/
def Was (pre mid : List (Tid × Obs)) (s : SId) (m : MId) (ev : Ev) (P : Mem → Prop) : Prop :=
  ∃ a b, mid = a ++ b ∧ P (hv m (pre ++ (t, .taken (cfg.queue s) m ev) :: a))

/-- The table leads from the machine's state to `b`. -/
def leads (s : SId) (m : MId) (ev : Ev) (b : St) (mem : Mem) : Prop :=
  ∃ row, (cfg.desc s m).table.row? mem.cur = some row ∧ row.target (some ev.key) = some b

/-- Reasons for entries during the processing of an event. -/
inductive Why (past pre mid : List (Tid × Obs)) (s : SId) (m : MId) (ev : Ev) : Obs → Prop
  | note {b a to} : Was cfg t hv pre mid s m ev (fun mem => mem.cur.getD (cfg.noSt m) = a) →
      Was cfg t hv pre mid s m ev (leads cfg s m ev to) → (hv m past).lst.isSome = true →
      Why past pre mid s m ev (.cb (note m b a ev to))
  | action {k a i to} : Was cfg t hv pre mid s m ev (fun mem => mem.cur = some a) → i < (cfg.desc s m).nacts k a.oid →
      Was cfg t hv pre mid s m ev (leads cfg s m ev to) → to.name ≠ resNoop →
      Why past pre mid s m ev (.cb (.action m k a.oid i ev))
  | unmapped : Was cfg t hv pre mid s m ev
        (fun mem => ∃ row, (cfg.desc s m).table.row? mem.cur = some row ∧ row.target (some ev.key) = none) →
      Why past pre mid s m ev (.cb (.unmapped m ev))
  | ret {c r} : (t, .cb c) ∈ mid → Why past pre mid s m ev (.cbRet c r)
  | threw {c x} : x.isException = true → (t, .cbRet c (some x)) ∈ mid → Why past pre mid s m ev (.cb (.flowEx m ev x))
  | norow : Was cfg t hv pre mid s m ev (fun mem => (cfg.desc s m).table.row? mem.cur = none) →
      Why past pre mid s m ev (.cb (.flowEx m ev .npe))
  | removed {u} : (u, .listener m none) ∈ mid → Why past pre mid s m ev (.cb (.flowEx m ev .npe))
  | enter {b} : Was cfg t hv pre mid s m ev (leads cfg s m ev b) → b.name ≠ resNoop → (hv m past).ended = false →
      Why past pre mid s m ev (.upd m b (b.name == resEnd) false)
  | halt {to} : Was cfg t hv pre mid s m ev (leads cfg s m ev to) → to.name ≠ resNoop → (cfg.desc s m).final to = true →
      (hv m past).ended = false →
      Why past pre mid s m ev (.upd m (cfg.desc s m).endSt ((cfg.desc s m).endSt.name == resEnd) false)
  | write {b e} : (t, .upd m b e false) ∈ mid → Why past pre mid s m ev (.cur m b false)
  | done : Why past pre mid s m ev (.done m ev)

/-- Reasons for an entry of thread `t` after `past`. -/
inductive Reason (past : List (Tid × Obs)) : Obs → Prop
  | enter {k} : Reason past (.enter k)
  | inner {x} : 0 < inCalls t past → bare x = false → Reason past x
  | user {x} : Calls.userObs x = true → Reason past x
  | taken {s cm i m ev} : inCalls t past = 0 → t = .worker (cfg.exec s) i → cfg.strat cm = s → Reason past (.taken (cfg.queue s) m ev)
  | event {s cm i pre mid m ev x} : inCalls t past = 0 → t = .worker (cfg.exec s) i → cfg.strat cm = s →
      Open cfg t past pre mid s m ev → Why cfg t hv past pre mid s m ev x → Reason past x
  | uncaught {x} : inCalls t past = 0 → ((∃ n, t = .client n) ∨ x = .npe ∨ ∃ c, (t, .cbRet c (some x)) ∈ past) → Reason past (.uncaught x)
end

end Verif.Spec.Course
