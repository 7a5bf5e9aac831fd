import Verif.Spec.Machine
/-
Specification of the API calls `fire`, `stop`, `start`, `startInState`: an automaton which reads the history of the
whole program, keeps track of the calls that are open in every thread, and accepts a history only if every call does
exactly what it is documented to do.

The automaton sees only the history. What it knows about the memory (`Mem`) is reconstructed from the history.
Because a call is not atomic, its decisions are judged by what was true *at some moment while it was open* (`Seen`).
-/

namespace Verif.Spec.Calls

/-- The fixed parts of the program that matter for API calls. -/
structure Cfg where
  queue : MId → QId
  strat : MId → SId
  maxQ : MId → Int                         -- 0 or negative: no bound
  dropDup : MId → Bool
  endSt : MId → St
  init : MId → Option St                   -- the initial state
  fail : Api → Option Exc                  -- how `start`/`startInState` reject configuration or argument
  plan : MId → Bool → St → List Item       -- what `start()` does after it has entered the initial state

/-- The memory, as far as the history tells. -/
structure Mem where
  started : MId → Bool
  ended : MId → Bool
  lst : MId → Bool                         -- is a listener installed?
  pay : EvOid → Option Val
  acc : QId → List Ev                      -- everything accepted
  tk : QId → Nat                           -- number of events taken
  copies : Nat

/-- The events waiting in a queue. -/
def Mem.waiting (mem : Mem) (q : QId) : List Ev := (mem.acc q).drop (mem.tk q)

/-- Effect of a history entry. -/
def Mem.step (mem : Mem) : Obs → Mem
  | .started m => { mem with started := fset mem.started m true }
  | .cleared m => { mem with ended := fset mem.ended m false }
  | .upd m _ b _ => { mem with ended := fset mem.ended m b }
  | .listener m l => { mem with lst := fset mem.lst m l.isSome }
  | .accepted q _ ev => { mem with acc := fset mem.acc q (mem.acc q ++ [ev]) }
  | .taken q _ _ => { mem with tk := fset mem.tk q (mem.tk q + 1) }
  | .copied n _ v => { mem with pay := fset mem.pay (.copy n) v, copies := mem.copies + 1 }
  | .payload o v => { mem with pay := fset mem.pay o v }
  | _ => mem

/-- A machine is started once; a machine that has ended is not updated; events are taken in order. -/
def Mem.legal (mem : Mem) : Obs → Bool
  | .started m => !mem.started m
  | .upd m _ _ _ => !mem.ended m
  | .taken q _ ev => (mem.waiting q).head? = some ev
  | _ => true

/-- What has been true at some moment of a call. -/
structure Seen where
  unstarted : Bool := false
  started : Bool := false
  ended : Bool := false
  alive : Bool := false
  null : Bool := false                     -- the event had no payload
  value : Bool := false                    -- the event had a payload
  full : Bool := false
  room : Bool := false
  swapped : Bool := false                  -- the listener was replaced
deriving DecidableEq

def apiMach : Api → MId
  | .fire m _ | .stop m | .start m | .startInState m _ => m

/-- Is the queue of machine `m` full? -/
def isFull (cfg : Cfg) (mem : Mem) (m : MId) : Bool :=
  cfg.maxQ m > 0 && ((mem.waiting (cfg.queue m)).length : Int) ≥ cfg.maxQ m

/-- Look at the memory. -/
def Seen.look (cfg : Cfg) (mem : Mem) (k : Api) (s : Seen) : Seen :=
  let m := apiMach k
  let p := match k with
    | .fire _ ev => mem.pay ev.oid
    | _ => none
  { unstarted := s.unstarted || !mem.started m
    started := s.started || mem.started m
    ended := s.ended || mem.ended m
    alive := s.alive || !mem.ended m
    null := s.null || p.isNone
    value := s.value || p.isSome
    full := s.full || isFull cfg mem m
    room := s.room || !isFull cfg mem m
    swapped := s.swapped }

/-- How far a call has come. -/
inductive Stage
  | called
  | copied (e : Ev)                        -- `fire`: safe copy made
  | queued                                 -- `fire`: event accepted, drain task not yet submitted
  | inCb (c : Cb) (pl : List Item)         -- user code is running; what remains to be done after it
  | won                                    -- `start`: this call has started the machine
  | entered (pl : List Item)               -- `start`: state entered; what remains to be done
  | thrown (x : Exc)                       -- `start`: user code threw
  | ending                                 -- `stop`: machine marked as ended
  | done (r : Option Exc)                  -- nothing left but to return with this outcome
deriving DecidableEq

def Stage.calling : Stage → Bool
  | .inCb .. => true
  | _ => false

structure Call where
  api : Api
  st : Stage
  seen : Seen
  since : Nat                              -- number of events accepted into the machine's queue before the call
deriving DecidableEq

/-- With the drop-duplicates strategy: no event that was waiting when `fire` was called and is still waiting is equal
to `ev`. -/
def noDup (cfg : Cfg) (mem : Mem) (c : Call) (m : MId) (ev : Ev) : Bool :=
  !cfg.dropDup m || (((mem.acc (cfg.queue m)).take c.since).drop (mem.tk (cfg.queue m))).all fun e => !e.eqv ev

/-- The event may be put into the queue: the machine has been started and not ended, the queue had room, and there is no
duplicate. -/
def admissible (cfg : Cfg) (mem : Mem) (c : Call) (m : MId) (ev : Ev) : Bool :=
  c.seen.started && c.seen.alive && c.seen.room && noDup cfg mem c m ev

/-- The machine of a callback that belongs to a transition. -/
def cbMach : Cb → Option MId
  | .begin m .. | .end_ m .. | .action m .. | .unmapped m _ => some m
  | _ => none

/-- What a call may do next. -/
def next (cfg : Cfg) (mem : Mem) (c : Call) (o : Obs) : Option Stage :=
  match c.api, c.st, o with
  -- fire
  | .fire m ev, .called, .cb (.flowBefore m' ev') =>
    if m' = m ∧ ev' = ev ∧ c.seen.unstarted then some (.inCb (.flowBefore m ev) []) else none
  | .fire m ev, .called, .cb (.flowAfter m' ev') =>
    if m' = m ∧ ev' = ev ∧ c.seen.started ∧ c.seen.ended then some (.inCb (.flowAfter m ev) []) else none
  | .fire m ev, .called, .cb (.flowFull m' ev') =>
    if m' = m ∧ ev' = ev ∧ c.seen.started ∧ c.seen.alive ∧ c.seen.full ∧ noDup cfg mem c m ev then
      some (.inCb (.flowFull m ev) [])
    else none
  | .fire m ev, .called, .dropped m' ev' =>
    if m' = m ∧ ev' = ev ∧ c.seen.started ∧ c.seen.alive ∧ cfg.dropDup m then some (.done none) else none
  | .fire _ ev, .called, .copied n src v =>
    if src = ev ∧ n = mem.copies ∧ v = mem.pay ev.oid ∧ c.seen.value then some (.copied ⟨0, ev.name, .copy n⟩) else none
  | .fire m ev, .called, .accepted q m' e =>
    if m' = m ∧ q = cfg.queue m ∧ e = ev ∧ c.seen.null ∧ admissible cfg mem c m ev then some .queued else none
  | .fire m ev, .copied e', .accepted q m' e =>
    if m' = m ∧ q = cfg.queue m ∧ e = e' ∧ admissible cfg mem c m ev then some .queued else none
  | .fire m _, .queued, .submitted s m' => if m' = m ∧ s = cfg.strat m then some (.done none) else none
  | .fire m _, .queued, .rejected s m' => if m' = m ∧ s = cfg.strat m then some (.done (some .rejected)) else none
  | .fire _ _, .inCb c' _, .cbRet c'' r => if c'' = c' then some (.done r) else none
  -- stop
  | .stop m, .called, .upd m' s b api => if m' = m ∧ s = cfg.endSt m ∧ b ∧ api then some .ending else none
  | .stop m, .ending, .cur m' s api => if m' = m ∧ s = cfg.endSt m ∧ api then some (.done none) else none
  -- start
  | .start m, .called, .started m' => if m' = m ∧ cfg.fail (.start m) = none then some .won else none
  | .start m, .won, .cur m' s api =>
    if m' = m ∧ cfg.init m = some s ∧ api then some (.entered (cfg.plan m (mem.lst m) s)) else none
  | .start m, .entered pl, .cb c' =>
    if pl.head? = some (.cb c') ∨ (c.seen.swapped ∧ cbMach c' = some m) then some (.inCb c' pl.tail) else none
  | .start _, .inCb c' pl, .cbRet c'' r =>
    if c'' = c' then
      match r with
      | none => some (.entered pl)
      | some x => some (.thrown x)
    else none
  | .start m, .entered pl, .cleared m' => if m' = m ∧ (pl = [] ∨ c.seen.swapped) then some (.done none) else none
  -- startInState
  | .startInState m s, .called, .started m' => if m' = m ∧ cfg.fail (.startInState m s) = none then some .won else none
  | .startInState m s, .won, .cur m' s' api => if m' = m ∧ s = some s' ∧ api then some (.entered []) else none
  | .startInState m _, .entered _, .cleared m' => if m' = m then some (.done none) else none
  | _, _, _ => none

/-- May the call return with outcome `r`? -/
def returns (cfg : Cfg) (c : Call) (r : Option Exc) : Bool :=
  match c.api, c.st with
  | _, .done r' => r = r'
  | .stop _, .called => c.seen.ended && r = none
  | .start _, .called | .startInState _ _, .called =>
    match cfg.fail c.api with
    | some x => r = some x
    | none => c.seen.started && r = some (.ise .alreadyStarted)
  | .start _, .thrown x => r = some x
  | .start _, .entered _ => c.seen.swapped && r = some .npe
  | _, _ => false

/-- What user code does besides calling the API methods above. -/
def userObs : Obs → Bool
  | .listener .. | .payload .. | .user _ | .latch _ => true
  | _ => false

/-- What happens outside API calls: user code, event processing, uncaught exceptions. -/
def background : Obs → Bool
  | .cb (.flowBefore ..) | .cb (.flowAfter ..) | .cb (.flowFull ..) => false
  | .cb _ | .cbRet .. | .taken .. | .done .. | .uncaught _ => true
  | .upd _ _ _ api | .cur _ _ api => !api
  | o => userObs o

structure G where
  mem : Mem
  calls : Tid → List Call

/-- The open calls of the thread that caused the entry. -/
def stack (cfg : Cfg) (mem : Mem) (cs : List Call) (o : Obs) : Option (List Call) :=
  match o, cs with
  | .taskDropped .., cs => some cs
  | .enter k, [] => some [⟨k, .called, {}, (mem.acc (cfg.queue (apiMach k))).length⟩]
  | .enter k, c :: cs =>
    if c.st.calling then some (⟨k, .called, {}, (mem.acc (cfg.queue (apiMach k))).length⟩ :: c :: cs) else none
  | .leave k r, c :: cs => if c.api = k ∧ returns cfg c r then some cs else none
  | .leave .., [] => none
  | o, [] => if background o then some [] else none
  | o, c :: cs =>
    if c.st.calling ∧ userObs o then some (c :: cs)
    else match next cfg mem c o with
      | some st => some ({ c with st := st } :: cs)
      | none => none

/-- Every open call looks at the memory. -/
def Call.look (cfg : Cfg) (mem : Mem) (o : Obs) (c : Call) : Call :=
  { c with seen := { c.seen.look cfg mem c.api with
      swapped := c.seen.swapped || (match o with | .listener m _ => m = apiMach c.api | _ => false) } }

def step (cfg : Cfg) (g : G) (e : Tid × Obs) : Option G :=
  if g.mem.legal e.2 then
    match stack cfg g.mem (g.calls e.1) e.2 with
    | none => none
    | some cs =>
      let mem := g.mem.step e.2
      some ⟨mem, fun t => ((fset g.calls e.1 cs) t).map (Call.look cfg mem e.2)⟩
  else none

/-- Read a history. `none`: some call did something it should not have done. -/
def run (cfg : Cfg) : G → List (Tid × Obs) → Option G
  | g, [] => some g
  | g, e :: tr => match step cfg g e with
    | none => none
    | some g' => run cfg g' tr

/-- In the beginning nothing has been started, queues are empty, no call is open. -/
def G.init (pay : EvOid → Option Val) (lst : MId → Bool) : G where
  mem := ⟨fun _ => false, fun _ => false, lst, pay, fun _ => [], fun _ => 0, 0⟩
  calls := fun _ => []

end Verif.Spec.Calls
