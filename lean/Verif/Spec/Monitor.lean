import Verif.Spec.Calls
/-
Specification of event processing: an automaton which reads the history and checks what one thread does with the events
of one machine.

It computes the plan of an event (`Desc.plan`) when the event is taken from the queue, and then insists that exactly the
steps of the plan happen, in order, until user code throws. If somebody interferes with the machine while the event is
in processing (`stop()`, `start()`, a replaced listener, another thread processing an event of the same machine) less is
promised: callbacks still concern this machine and this event, a state that was decided on is still entered, an
exception is still reported, and the event is still finished.
-/

namespace Verif.Spec.Mon
open Spec.Calls (userObs cbMach)

/-- The machine `d.m` and its queue. -/
structure Cfg where
  q : QId
  d : Desc

/-- The state of the machine, as far as the history tells. -/
structure Mem where
  cur : Option St
  ended : Bool
  lst : Option LId

def Mem.step (m : MId) (mem : Mem) : Obs → Mem
  | .upd m' _ b _ => if m' = m then { mem with ended := b } else mem
  | .cleared m' => if m' = m then { mem with ended := false } else mem
  | .cur m' s _ => if m' = m then { mem with cur := some s } else mem
  | .listener m' l => if m' = m then { mem with lst := l } else mem
  | _ => mem

/-- Does the entry change the state of the machine? -/
def touches (m : MId) : Obs → Bool
  | .upd m' .. | .cleared m' | .cur m' .. | .listener m' _ => m' = m
  | _ => false

/-- What the thread is doing with events of the machine. `off`: somebody has interfered. -/
inductive Mode
  | idle
  | busy (ev : Ev) (pl : List Item) (off : Bool)         -- what remains to be done for `ev`
  | inCb (ev : Ev) (c : Cb) (pl : List Item) (off : Bool) -- user code is running
  | thrown (ev : Ev) (x : Exc)                           -- user code threw `x`
  | flow (ev : Ev) (x : Exc)                             -- `x` is being reported to the flow listener
  | over (ev : Ev) (r : Option Exc)                      -- the flow listener has returned
  | dying (x : Exc)                                      -- `x` is about to kill the thread's task
deriving DecidableEq

def Mode.callable : Mode → Bool
  | .idle | .inCb .. | .flow .. => true
  | _ => false

/-- What is left of a plan after an interference: a state that was decided on is still entered. -/
def trim : List Item → List Item
  | .cur s :: _ => [.cur s]
  | _ => []

def Mode.disturb : Mode → Mode
  | .busy ev pl _ => .busy ev (trim pl) true
  | .inCb ev c _ _ => .inCb ev c [] true
  | md => md

/-- The event of a callback that belongs to a transition. -/
def cbEv : Cb → Option Ev
  | .begin _ _ ev _ | .end_ _ _ ev _ | .action _ _ _ _ ev | .unmapped _ ev => some ev
  | _ => none

/-- The plan for an event that is taken now. -/
def planNow (d : Desc) (mem : Mem) (ev : Ev) : List Item :=
  if mem.ended then [] else d.plan mem.lst.isSome mem.cur ev

/-- Nothing is left to be done: a machine that has ended already does not have to be ended. -/
def finished (mem : Mem) : List Item → Bool
  | [] => true
  | [.halt _, .cur _] => mem.ended
  | _ => false

/-- Does the entry concern the processing of events of machine `m`? -/
def concerns (m : MId) : Obs → Bool
  | .cb (.flowEx m' _ _) | .done m' _ | .upd m' .. | .cur m' .. => m' = m
  | .cb c => cbMach c = some m
  | _ => false

/-- Steps of event processing itself. -/
def own (cfg : Cfg) (mem : Mem) (md : Mode) (o : Obs) : Option Mode :=
  let m := cfg.d.m
  match md, o with
  | .idle, .taken q m' ev =>
    if q = cfg.q ∧ m' = m then some (.busy ev (planNow cfg.d mem ev) false)
    else if q = cfg.q ∨ m' = m then none
    else some .idle
  | .idle, o => if concerns m o then none else some .idle
  | .busy ev pl off, .cb (.flowEx m' ev' x) =>
    if m' = m ∧ ev' = ev ∧ x = .npe ∧ (pl = [.thr .npe] ∨ (off ∧ pl = [])) then some (.flow ev x) else none
  | .busy ev pl off, .cb c =>
    if pl.head? = some (.cb c) ∨ (off ∧ pl = [] ∧ cbMach c = some m ∧ cbEv c = some ev) then some (.inCb ev c pl.tail off)
    else none
  | .busy ev pl off, .upd m' s b api =>
    if m' = m ∧ api = false ∧ mem.ended = false ∧ (pl.head? = some (.upd s b) ∨ (b ∧ pl.head? = some (.halt s))) then
      some (.busy ev pl.tail off)
    else if m' = m ∧ api = false ∧ mem.ended = false ∧ off ∧ pl = [] then some (.busy ev [.cur s] true)
    else none
  | .busy ev pl off, .cur m' s api =>
    if m' = m ∧ api = false ∧ pl.head? = some (.cur s) then some (.busy ev pl.tail off) else none
  | .busy ev pl _, .done m' ev' => if m' = m ∧ ev' = ev ∧ finished mem pl then some .idle else none
  | .inCb ev c pl off, .cbRet c' r =>
    if c' = c then
      match r with
      | none => some (.busy ev pl off)
      | some x => some (.thrown ev x)
    else none
  | .thrown ev x, .cb (.flowEx m' ev' x') =>
    if m' = m ∧ ev' = ev ∧ x' = x ∧ x.isException then some (.flow ev x) else none
  | .thrown ev x, .done m' ev' => if m' = m ∧ ev' = ev ∧ x.isException = false then some (.dying x) else none
  | .flow ev x, .cbRet c r => if c = .flowEx m ev x then some (.over ev r) else none
  | .over ev r, .done m' ev' =>
    if m' = m ∧ ev' = ev then
      match r with
      | none => some .idle
      | some x => some (.dying x)
    else none
  | .dying x, .uncaught x' => if x' = x then some .idle else none
  | _, _ => none

structure G where
  mem : Mem
  depth : Nat              -- number of API calls that are open in the thread
  mode : Mode

/-- Entries that API calls and the user code in them cannot make. -/
def onlyDrain : Obs → Bool
  | .taken .. | .done .. | .uncaught _ => true
  | .upd _ _ _ api | .cur _ _ api => !api
  | _ => false

def disturbIf (b : Bool) (md : Mode) : Mode := if b then md.disturb else md

/-- Watch thread `t0`. -/
def step (cfg : Cfg) (t0 : Tid) (g : G) (e : Tid × Obs) : Option G :=
  let mem := g.mem.step cfg.d.m e.2
  if e.1 ≠ t0 then some ⟨mem, g.depth, disturbIf (touches cfg.d.m e.2) g.mode⟩
  else match e.2 with
    | .taskDropped .. => some g
    | .enter _ => if g.depth > 0 ∨ g.mode.callable then some ⟨mem, g.depth + 1, g.mode⟩ else none
    | .leave .. => if g.depth > 0 then some ⟨mem, g.depth - 1, g.mode⟩ else none
    | o =>
      if g.depth > 0 then
        if onlyDrain o then none else some ⟨mem, g.depth, disturbIf (touches cfg.d.m o) g.mode⟩
      else if userObs o then
        if g.mode.callable then some ⟨mem, 0, disturbIf (touches cfg.d.m o) g.mode⟩ else none
      else (own cfg g.mem g.mode o).map fun md => ⟨mem, 0, md⟩

/-- Read a history. `none`: the thread did something it should not have done. -/
def run (cfg : Cfg) (t0 : Tid) : G → List (Tid × Obs) → Option G
  | g, [] => some g
  | g, e :: tr => match step cfg t0 g e with
    | none => none
    | some g' => run cfg t0 g' tr

/-- In the beginning. -/
def G.init (lst : Option LId) : G := ⟨⟨none, false, lst⟩, 0, .idle⟩

end Verif.Spec.Mon
