import Verif.Model.Service
/-
Specification of the application service: what a thread may show while it runs an entry action of STARTING, STOPPING or STOPPED,
and what a call of `start()` or `stop()` has to do.
-/

namespace Verif.Spec.App

/-- Where the entry action of a lifecycle state is. -/
inductive Act
  | phase (up : Bool) (i : Nat)     -- `i` subsystems have been started (stopped) so far
  | inSub (up : Bool) (i : Nat)     -- the next one is being started (stopped)
  | failed (x : Exc)                -- exception `x` has to be reported
  | completing                      -- firing `complete`
  | erring                          -- firing `error`
  | fresh                           -- STOPPED has just been entered
  | ending                          -- firing `stop`
  | counting                        -- about to release the main thread
  | over (r : Option Exc)           -- nothing left to do
deriving DecidableEq, Repr

/-- The i-th subsystem to be started (in order) or stopped (in reverse order). -/
def order (n : Nat) (up : Bool) (i : Nat) : Nat := if up then i else n - 1 - i

/-- `Exception`s are reported, `Error`s are passed on. -/
def afterFail (x : Exc) : Act := if x.isException then .failed x else .over (some x)

def actStep (a : App) : Act → Obs → Option Act
  | .phase up i, .user (.sub _ k up') => if i < a.nsubs ∧ k = order a.nsubs up i ∧ up' = up then some (.inSub up i) else none
  | .inSub up i, .user (.subRet _ k up' r) =>
    if k = order a.nsubs up i ∧ up' = up then
      match r with
      | none => some (.phase up (i + 1))
      | some x => some (afterFail x)
    else none
  | .phase _ i, .enter (.fire _ ev) => if i = a.nsubs ∧ ev = evtComplete then some .completing else none
  | .completing, .leave (.fire _ ev) r =>
    if ev = evtComplete then
      match r with
      | none => some (.over none)
      | some x => some (afterFail x)
    else none
  | .failed _, .enter (.fire _ ev) => if ev = evtError then some .erring else none
  | .erring, .leave (.fire _ ev) r => if ev = evtError then some (.over r) else none
  | .fresh, .enter (.fire _ ev) => if a.exitOnStop = true ∧ ev = evtStop then some .ending else none
  | .ending, .leave (.fire _ ev) r =>
    if ev = evtStop then
      match r with
      | none => some .counting
      | some x => some (.over (some x))
    else none
  | .counting, .latch _ => some (.over none)
  | _, _ => none

/-- How the entry action of a state begins. -/
def entryAct (a : App) (oid : Nat) : Act :=
  if oid = a.starting.oid then .phase true 0 else if oid = a.stopping.oid then .phase false 0 else .fresh

/-- The state objects whose entry actions are of interest. -/
def watched (a : App) (oid : Nat) : Bool := oid == a.starting.oid || oid == a.stopping.oid || oid == a.stopped.oid

def Act.isInSub : Act → Bool
  | .inSub .. => true
  | _ => false

/-- Which entries of the history matter. Within a subsystem (and outside of actions), events are fired only by calls of the app's
methods. -/
def relevant (a : App) (s : Option (Cb × Act)) : Obs → Bool
  | .user (.sub i ..) | .user (.subRet i ..) => i == a.id
  | .latch n => n == a.latch
  | .enter (.fire m _) | .leave (.fire m _) _ => m == a.m && s.elim false (fun p => !p.2.isInSub)
  | .cb (.action _ .entry oid _ _) | .cbRet (.action _ .entry oid _ _) _ => watched a oid
  | _ => false

/-- May the action return `r` now? -/
def mayEnd (a : App) (act : Act) (r : Option Exc) : Bool :=
  act == .over r || (act == .fresh && !a.exitOnStop && r == none)

/-- One entry of the history of a thread; `none`: not allowed. -/
def step (a : App) (s : Option (Cb × Act)) (o : Obs) : Option (Option (Cb × Act)) :=
  if relevant a s o then
    match s, o with
    | none, .cb (.action m k oid i ev) => some (some (.action m k oid i ev, entryAct a oid))
    | some (c, act), .cbRet c' r => if c' = c ∧ mayEnd a act r then some none else none
    | some (c, act), o => (actStep a act o).map fun act' => some (c, act')
    | none, _ => none
  else some s

def run (a : App) (s : Option (Cb × Act)) : List Obs → Option (Option (Cb × Act))
  | [] => some s
  | o :: os => match step a s o with
    | none => none
    | some s' => run a s' os

/-- The entries of thread `t`. -/
def ofThread (t : Tid) (tr : List (Tid × Obs)) : List Obs := tr.filterMap fun e => if e.1 = t then some e.2 else none

/-- What an entry action shows: calls of subsystems, its own events (but not those of subsystems while they run; `b`: is one
running?), and the release of the main thread. -/
def visible (a : App) : Bool → List Obs → List Obs
  | _, [] => []
  | b, x :: xs => match x with
    | .user (.sub i _ _) => if i = a.id then x :: visible a true xs else visible a b xs
    | .user (.subRet i _ _ _) => if i = a.id then x :: visible a false xs else visible a b xs
    | .enter (.fire m _) | .leave (.fire m _) _ => if m = a.m ∧ b = false then x :: visible a b xs else visible a b xs
    | .latch n => if n = a.latch then x :: visible a b xs else visible a b xs
    | _ => visible a b xs

/-- `j` subsystems are started (stopped), one after the other. -/
def phased (a : App) (up : Bool) (j : Nat) : List Obs :=
  (List.range j).flatMap fun i => [.user (.sub a.id (order a.nsubs up i) up), .user (.subRet a.id (order a.nsubs up i) up none)]

/-- An event is fired by the action; `r` is the exception thrown by `fire`. -/
def fires (a : App) (ev : Ev) (r : Option Exc) : List Obs := [.enter (.fire a.m ev), .leave (.fire a.m ev) r]

/-- What has to be visible of the entry action of STARTING (`up`) or STOPPING on the whole, if it returns `r`. -/
inductive Script (a : App) (up : Bool) : Option Exc → List Obs → Prop
  /-- All subsystems are started (stopped), then `complete` is fired. -/
  | complete : Script a up none (phased a up a.nsubs ++ fires a evtComplete none)
  /-- The same, but `fire` throws an `Exception`: `error` is fired. -/
  | unheard {x r} : x.isException = true →
      Script a up r (phased a up a.nsubs ++ fires a evtComplete (some x) ++ fires a evtError r)
  | dead {x} : x.isException = false → Script a up (some x) (phased a up a.nsubs ++ fires a evtComplete (some x))
  /-- The j-th subsystem throws an `Exception`: `error` is fired. -/
  | failed {j x r} : j < a.nsubs → x.isException = true → Script a up r (phased a up j ++
      [.user (.sub a.id (order a.nsubs up j) up), .user (.subRet a.id (order a.nsubs up j) up (some x))] ++ fires a evtError r)
  | killed {j x} : j < a.nsubs → x.isException = false → Script a up (some x) (phased a up j ++
      [.user (.sub a.id (order a.nsubs up j) up), .user (.subRet a.id (order a.nsubs up j) up (some x))])

/-- The same for the entry action of STOPPED. -/
inductive StopScript (a : App) : Option Exc → List Obs → Prop
  | exits : a.exitOnStop = true → StopScript a none (fires a evtStop none ++ [.latch a.latch])
  | dead {x} : a.exitOnStop = true → StopScript a (some x) (fires a evtStop (some x))
  | stays : a.exitOnStop = false → StopScript a none []

/-- The current state and the started flag of machine `m` after a history. -/
def curOf (m : MId) (tr : List (Tid × Obs)) : Option St :=
  tr.foldl (fun s e => match e.2 with
    | .cur m' s' _ => if m' = m then some s' else s
    | _ => s) none

/-- The ended flag. -/
def endedOf (m : MId) (tr : List (Tid × Obs)) : Bool :=
  tr.foldl (fun b e => match e.2 with
    | .cleared m' => if m' = m then false else b
    | .upd m' _ b' _ => if m' = m then b' else b
    | _ => b) false

def startedOf (m : MId) (tr : List (Tid × Obs)) : Bool := tr.any fun e => e.2 == .started m

/-- What a method has to do. -/
inductive Verdict
  | fire | ignore | refuse
deriving DecidableEq, Repr

/-- `stop()`, by the name of the current state. -/
def onStop (exitOnStop : Bool) (s : Option String) : Verdict :=
  if s = some "STARTED" then .fire
  else if s = some "STOPPED" then (if exitOnStop then .ignore else .fire)
  else .refuse

/-- `start()` of an app whose machine has been started. -/
def onStart (exitOnStop : Bool) (s : Option String) : Verdict :=
  if s = some "STOPPED" ∧ exitOnStop = false then .fire else .refuse

/-- Open calls after one more entry, at position `n`. -/
def callsStep (a : App) (n : Nat) (x : Obs) (l : List (Nat × AppCall)) : List (Nat × AppCall) :=
  match x with
  | .user (.app i c) => if i = a.id then (n, c) :: l else l
  | .user (.appRet i _ _) => if i = a.id then l.tail else l
  | _ => l

def callsFrom (a : App) (t : Tid) (n : Nat) (l : List (Nat × AppCall)) : List (Tid × Obs) → List (Nat × AppCall)
  | [] => l
  | e :: tr => callsFrom a t (n + 1) (if e.1 = t then callsStep a n e.2 l else l) tr

/-- The calls of the app's methods that thread `t` has not returned from: innermost first, with the position of the call in the
history. -/
def openCalls (a : App) (t : Tid) (tr : List (Tid × Obs)) : List (Nat × AppCall) := callsFrom a t 0 [] tr

/-- The entries that show what a method call does: its API calls on the app's machine and nested calls of the app's methods. -/
def ownEntries (a : App) (t : Tid) (tr : List (Tid × Obs)) : List Obs := (ofThread t tr).filter fun
  | .enter (.fire m _) | .leave (.fire m _) _ | .enter (.start m) | .leave (.start m) _ => m == a.m
  | .user (.app i _) | .user (.appRet i _ _) | .user (.intr i) => i == a.id
  | _ => false

/-- The first call of `start()`: the machine is started, then `start` is fired, then it waits for the latch or an interrupt; then
`stop()` is called, unless the machine has ended by then (after `n` entries of the history). `own` is what it has done on the whole. -/
def FirstStart (a : App) (t : Tid) (tr : List (Tid × Obs)) (pos : Nat) (own : List Obs) (r : Option Exc) : Prop :=
  ∃ nested,
    (∃ x, r = some x ∧ own = .enter (.start a.m) :: nested ++ [.leave (.start a.m) (some x)]) ∨
    (∃ x, r = some x ∧ own = .enter (.start a.m) :: nested ++
      [.leave (.start a.m) none, .enter (.fire a.m evtStart), .leave (.fire a.m evtStart) (some x)]) ∨
    (∃ (interrupted : Bool) (before stopped : List Obs) (n : Nat), own = before ++ stopped ∧
      before = .enter (.start a.m) :: nested ++
        [.leave (.start a.m) none, .enter (.fire a.m evtStart), .leave (.fire a.m evtStart) none] ++
        (if interrupted then [.user (.intr a.id)] else []) ∧
      (interrupted = false → ∃ u, (u, Obs.latch a.latch) ∈ tr) ∧
      n ≤ tr.length ∧ ownEntries a t ((tr.take n).drop (pos + 1)) = before ∧
      if endedOf a.m (tr.take n) = true then stopped = [] ∧ r = none
      else ∃ k, stopped = .user (.app a.id .stop) :: k ++ [.user (.appRet a.id .stop r)])

/-- What a call of a method by thread `t` has done when it returns `r`; `tr` is the history up to the return, `pos` the position
of the call. -/
def CallDone (a : App) (t : Tid) (tr : List (Tid × Obs)) (pos : Nat) (r : Option Exc) (c : AppCall) : Prop :=
  let own := ownEntries a t (tr.drop (pos + 1))
  match c with
  | .error => own = [.enter (.fire a.m evtError), .leave (.fire a.m evtError) r]
  | .stop => ∃ n, pos < n ∧ n ≤ tr.length ∧
    match onStop a.exitOnStop ((curOf a.m (tr.take n)).map (·.name)) with
    | .fire => own = [.enter (.fire a.m evtStop), .leave (.fire a.m evtStop) r]
    | .ignore => own = [] ∧ r = none
    | .refuse => own = [] ∧ r = some (.ise .appState)
  | .start => ∃ n n2, pos < n ∧ n ≤ n2 ∧ n2 ≤ tr.length ∧
    if startedOf a.m (tr.take n2) = true then
      match onStart a.exitOnStop ((curOf a.m (tr.take n)).map (·.name)) with
      | .fire => own = [.enter (.fire a.m evtStart), .leave (.fire a.m evtStart) r]
      | _ => own = [] ∧ r = some (.ise .appState)
    else FirstStart a t tr pos own r

end Verif.Spec.App
