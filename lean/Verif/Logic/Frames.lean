import Verif.Logic.Proto
import Verif.Spec.Machine
/-
Control states of threads: a stack of frames, one per library method in progress.
-/

namespace Verif
open Spec (Item)

/-- Progress of a piece of code that follows a plan. `cur` and `lst` are what the code has to see when it reads
`currentState` and `stateMachineListener`; if it sees something else it is `lame`. -/
inductive Ph
  | run (pl : List Item) (cur : Option St) (lst : Option LId)
  | inCb (c : Cb) (pl : List Item) (cur : Option St) (lst : Option LId)
  | lame (pend : Option St)                      -- off the plan; `pend`: update decided, not yet written
  | lameCb (c : Cb)
  | thrown (x : Exc)                             -- an exception is in flight
deriving DecidableEq

/-- The update that has been decided and not yet written. -/
def pendOf : List Item → Option St
  | .cur s :: _ => some s
  | _ => none

/-- The plan is to throw. -/
def isThr : List Item → Bool
  | .thr _ :: _ => true
  | _ => false

/-- Progress of `fire`. -/
inductive Fate
  | pre                         -- called
  | st1                         -- isStarted() was true
  | st2                         -- isStarted() was true again
  | before                      -- isStarted() was false
  | after                       -- isEnded() was true
  | live                        -- to be processed
  | scan (todo : List PairId)   -- looking for an equal event
  | dup                         -- found one
  | sized                       -- the queue is not full
  | full                        -- the queue is full
  | took (p : PairId)           -- has a pair
  | cpy (p : PairId)            -- payload present
  | raw (p : PairId)            -- no payload
  | copied (p : PairId) (ev : Ev)
  | loaded (p : PairId) (ev : Ev)
  | owing                       -- enqueued, has to submit a drain task
  | cb (c : Cb)                 -- in a flow callback
  | fin (r : Option Exc)        -- finished, with this outcome
deriving DecidableEq

/-- Progress of `start`/`startInState`. -/
inductive StPh
  | pre
  | lost                        -- CAS failed
  | won                         -- CAS succeeded
  | busy (ph : Ph)
  | fin
deriving DecidableEq

/-- Progress of `stop()` called by user code. -/
inductive SpPh
  | pre
  | won
  | fin
deriving DecidableEq

/-- Progress of a drain task. -/
inductive Dr
  | fresh
  | loop
  | seen (first : Bool)
  | polled (p : PairId) (ev : Ev) (m : MId)
  | known (p : PairId) (ev : Ev) (m : MId)
  | busy (p : PairId) (ev : Ev) (m : MId) (ph : Ph)
  | flow (p : PairId) (ev : Ev) (m : MId) (x : Exc)
  | over (p : PairId) (ev : Ev) (m : MId) (x : Option Exc)
  | quit
  | dead (x : Exc)
deriving DecidableEq

inductive Frame
  | fire (m : MId) (ev : Ev) (f : Fate)
  | stop (m : MId) (ph : SpPh)
  | start (m : MId) (ph : StPh)
  | startIn (m : MId) (s : Option St) (ph : StPh)
  | drain (s : SId) (cm : MId) (d : Dr)
deriving DecidableEq

def Frame.ofApi : Api → Frame
  | .fire m ev => .fire m ev .pre
  | .stop m => .stop m .pre
  | .start m => .start m .pre
  | .startInState m s => .startIn m s .pre

/-- User code may be running on top of this frame. -/
def Ph.calling : Ph → Bool
  | .inCb .. | .lameCb _ => true
  | _ => false

def Frame.calling : Frame → Bool
  | .fire _ _ (.cb _) => true
  | .start _ (.busy ph) => ph.calling
  | .drain _ _ (.busy _ _ _ ph) => ph.calling
  | .drain _ _ (.flow ..) => true
  | _ => false

def callable : List Frame → Prop
  | [] => True
  | f :: _ => f.calling = true

/-- Harmless operations of user code. -/
def userOp : Op → Prop
  | .getStarted _ | .getEnded _ | .getCur _ | .qSize _ | .setListener .. | .getPayload _ | .setPayload ..
  | .emit (.user _) | .getMem _ | .setMem .. | .await _ | .countDown _ | .setIntr => True
  | _ => False

/-- The machine and the event a callback belongs to, if it is one of those that happen inside a transition. -/
def Cb.tMach : Cb → Option (MId × Ev)
  | .begin m _ ev _ | .end_ m _ ev _ | .action m _ _ _ ev | .unmapped m ev => some (m, ev)
  | _ => none

def Cb.isNote : Cb → Bool
  | .begin .. | .end_ .. => true
  | _ => false

def phAllowed (m : MId) (ev : Ev) : Ph → Op → Prop
  | .run _ _ _, .getCur m' => m' = m
  | .run pl _ _, .getListener m' => m' = m ∧ isThr pl = false
  | .run pl _ _, .notify m' c => m' = m ∧ c.isNote = true ∧ c.tMach = some (m, ev) ∧ pl.head? = some (.cb c)
  | .run pl _ _, .emit (.cb c) => c.isNote = false ∧ c.tMach = some (m, ev) ∧ pl.head? = some (.cb c)
  | .run pl _ _, .casEnded m' s b api => m' = m ∧ api = false ∧
    (pl.head? = some (.upd s b) ∨ (b = true ∧ pl.head? = some (.halt s)))
  | .run pl _ _, .setCur m' s api => m' = m ∧ api = false ∧ pl.head? = some (.cur s)
  | .inCb c _ _ _, .emit (.cbRet c' _) => c' = c
  | .lame none, .getCur m' => m' = m
  | .lame none, .getListener m' => m' = m
  | .lame none, .notify m' c => m' = m ∧ c.tMach = some (m, ev)
  | .lame none, .emit (.cb c) => c.tMach = some (m, ev)
  | .lame none, .casEnded m' _ _ api => m' = m ∧ api = false
  | .lame (some s), .setCur m' s' api => m' = m ∧ api = false ∧ s' = s
  | .lameCb c, .emit (.cbRet c' _) => c' = c
  | _, _ => False

/-- The code has seen the state it should see. -/
def Ph.seen (pl : List Item) (cur : Option St) (lst : Option LId) : Ph :=
  match pl with
  | .thr x :: _ => .thrown x
  | pl => .run pl cur lst

def phNxt (m : MId) (ph : Ph) (o : Op) (w : World) : Ph :=
  match ph, o with
  | .run pl cur lst, .getCur _ => if (w.mach m).cur = cur then .seen pl cur lst else .lame (pendOf pl)
  | .run pl cur lst, .getListener _ => if (w.mach m).listener = lst then .run pl cur lst else .lame (pendOf pl)
  | .run pl cur lst, .notify _ c =>
    match (w.mach m).listener with
    | none => .lame none
    | some l => if some l = lst then .inCb c pl.tail cur lst else .lameCb c
  | .run pl cur lst, .emit (.cb c) => .inCb c pl.tail cur lst
  | .run pl cur lst, .casEnded .. =>
    if (w.mach m).ended then
      match pl with
      | .halt _ :: .cur _ :: pl => .run pl cur lst
      | _ => .lame none
    else .run pl.tail cur lst
  | .run pl _ lst, .setCur _ s _ => .run pl.tail (some s) lst
  | .inCb _ pl cur lst, .emit (.cbRet _ r) =>
    match r with
    | none => .run pl cur lst
    | some x => .thrown x
  | .lame _, .notify _ c =>
    match (w.mach m).listener with
    | none => .lame none
    | some _ => .lameCb c
  | .lame _, .emit (.cb c) => .lameCb c
  | .lame _, .casEnded _ s _ _ => if (w.mach m).ended then .lame none else .lame (some s)
  | .lame _, .setCur .. => .lame none
  | .lameCb _, .emit (.cbRet _ r) =>
    match r with
    | none => .lame none
    | some x => .thrown x
  | ph, _ => ph

section
variable (env : Env)

def Env.q (s : SId) : QId := (env.strat s).queue
def Env.qm (m : MId) : QId := env.q (env.mach m).strat

/-- The specification's view of machine `m` when its events are processed with the table of strategy `s`. -/
def desc (s : SId) (m : MId) : Spec.Desc where
  m := m
  table := (env.strat s).table
  endSt := (env.mach m).res.endSt
  nacts := fun k o => (env.acts k o).length

def fateAllowed (m : MId) (ev : Ev) : Fate → Op → Prop
  | .pre, .getStarted m' => m' = m
  | .st1, .getStarted m' => m' = m
  | .st2, .getEnded m' => m' = m
  | .before, .emit (.cb c) => c = .flowBefore m ev
  | .after, .emit (.cb c) => c = .flowAfter m ev
  | .live, .qSnap q => q = env.qm m ∧ (env.strat (env.mach m).strat).dropDup = true
  | .live, .qSize q => q = env.qm m ∧ (env.strat (env.mach m).strat).dropDup = false
  | .scan (p :: _), .getPair p' => p' = p
  | .scan [], .qSize q => q = env.qm m
  | .dup, .emit o => o = .dropped m ev
  | .full, .emit (.cb c) => c = .flowFull m ev
  | .sized, .poolTake s => s = (env.mach m).strat
  | .took _, .getPayload o => o = ev.oid
  | .cpy _, .newCopy ev' => ev' = ev
  | .raw p, .setPair p' ev' m' => p' = p ∧ ev' = ev ∧ m' = m
  | .copied p e, .setPair p' ev' m' => p' = p ∧ ev' = e ∧ m' = m
  | .loaded p _, .offer q p' => q = env.qm m ∧ p' = p
  | .owing, .submit e s m' =>
    e = (env.strat (env.mach m).strat).exec ∧ s = (env.mach m).strat ∧ m' = m
  | .cb c, .emit (.cbRet c' _) => c' = c
  | _, _ => False

def fateNxt (m : MId) (ev : Ev) (f : Fate) (o : Op) (w : World) : Fate :=
  match f, o with
  | .pre, .getStarted _ => if (w.mach m).started then .st1 else .before
  | .st1, .getStarted _ => if (w.mach m).started then .st2 else .live
  | .st2, .getEnded _ => if (w.mach m).ended then .after else .live
  | .before, .emit (.cb c) => .cb c
  | .after, .emit (.cb c) => .cb c
  | .live, .qSnap q => .scan (w.queue q)
  | .scan (_ :: ps), .getPair p =>
    match w.pair p with
    | some (en, _) => if en.eqv ev then .dup else .scan ps
    | none => .fin (some .npe)
  | .live, .qSize q | .scan _, .qSize q =>
    if (env.strat (env.mach m).strat).maxQ > 0 && ((w.queue q).length : Int) ≥ (env.strat (env.mach m).strat).maxQ then .full else .sized
  | .dup, .emit _ => .fin none
  | .full, .emit (.cb c) => .cb c
  | .sized, .poolTake s =>
    match w.pool s with
    | [] => .took w.nextPair
    | p :: _ => .took p
  | .took p, .getPayload o => if (w.payload o).isSome then .cpy p else .raw p
  | .cpy p, .newCopy ev => .copied p ⟨0, ev.name, .copy w.nextCopy⟩
  | .raw p, .setPair .. => .loaded p ev
  | .copied p e, .setPair .. => .loaded p e
  | .loaded _ _, .offer .. => .owing
  | .owing, .submit e _ _ => .fin (if w.shut e then some .rejected else none)
  | .cb _, .emit (.cbRet _ r) => .fin r
  | f, _ => f

def spAllowed (m : MId) : SpPh → Op → Prop
  | .pre, .casEnded m' s b api => m' = m ∧ s = (env.mach m).res.endSt ∧ b = true ∧ api = true
  | .won, .setCur m' s api => m' = m ∧ s = (env.mach m).res.endSt ∧ api = true
  | _, _ => False

def spNxt (m : MId) (ph : SpPh) (o : Op) (w : World) : SpPh :=
  match ph, o with
  | .pre, .casEnded .. => if (w.mach m).ended then .fin else .won
  | .won, .setCur .. => .fin
  | ph, _ => ph

/-- Operations on the plan of a `start()`. -/
def startOp : Op → Bool
  | .emit _ | .getListener _ | .notify .. => true
  | _ => false

/-- How `start()` fails before it looks at the machine's state. -/
def Env.startFail (m : MId) : Option Exc :=
  match startChecks (env.mach m).init (env.mach m).table, (env.mach m).init with
  | some x, _ => some x
  | none, none => some .npe
  | none, some _ => none

/-- How `startInState()` fails before it looks at the machine's state. -/
def Env.startInFail (m : MId) (s : Option St) : Option Exc :=
  match (env.mach m).table.row? s, s with
  | some _, some _ => none
  | _, _ => some (.ise .notConfigured)

def stAllowed (silent : Bool) (m : MId) (fail : Option Exc) (i : Option St) : StPh → Op → Prop
  | .pre, .casStarted m' => m' = m ∧ fail = none
  | .won, .setCur m' s api => m' = m ∧ some s = i ∧ api = true
  | .busy ph, .clearEnded m' => m' = m ∧ ((∃ c l, ph = .run [] c l) ∨ ph = .lame none)
  | .busy ph, o => silent = false ∧ startOp o = true ∧ phAllowed m immEv ph o
  | _, _ => False

/-- `silent`: `startInState`. -/
def stNxt (silent : Bool) (m : MId) (ph : StPh) (o : Op) (w : World) : StPh :=
  match ph, o with
  | .pre, .casStarted _ => if (w.mach m).started then .lost else .won
  | .won, .setCur _ s _ =>
    .busy (.run (if silent then [] else (desc env (env.mach m).strat m).startPlan (env.mach m).res.noSt
      (w.mach m).listener.isSome s) (some s) (w.mach m).listener)
  | .busy _, .clearEnded _ => .fin
  | .busy ph, o => .busy (phNxt m ph o w)
  | ph, _ => ph

def drAllowed (s : SId) (cm : MId) : Dr → Op → Prop
  | .fresh, .qIsEmpty q => q = env.q s
  | .loop, .qIsEmpty q => q = env.q s
  | .seen _, .poll q => q = env.q s
  | .polled p _ _, .getPair p' => p' = p
  | .known _ _ _, .getEnded m => m = cm
  | .busy p ev m ph, o => phAllowed m ev ph o ∨
      (∃ x, x.isException = true ∧ o = .emit (.cb (.flowEx m ev x)) ∧
        (ph = .thrown x ∨ (ph = .lame none ∧ x = .npe))) ∨
      (o = .poolGive s p ∧ ((∃ c l, ph = .run [] c l) ∨ (∃ x, x.isException = false ∧ ph = .thrown x) ∨ ph = .lame none))
  | .flow _ ev m x, .emit (.cbRet c _) => c = .flowEx m ev x
  | .over p _ _ _, .poolGive s' p' => s' = s ∧ p' = p
  | _, _ => False

def drNxt (s : SId) (d : Dr) (o : Op) (w : World) : Dr :=
  match d, o with
  | .fresh, .qIsEmpty q => if (w.queue q).isEmpty then .quit else .seen true
  | .loop, .qIsEmpty q => if (w.queue q).isEmpty then .quit else .seen false
  | .seen _, .poll q =>
    match w.queue q with
    | [] => .dead .npe
    | p :: _ => match w.pair p with
      | some (ev, m) => .polled p ev m
      | none => .dead .npe
  | .polled p ev m, .getPair _ => .known p ev m
  | .known p ev m, .getEnded cm =>
    if (w.mach cm).ended then .over p ev m none
    else .busy p ev m (.run ((desc env s m).plan (w.mach m).listener.isSome (w.mach m).cur ev) (w.mach m).cur (w.mach m).listener)
  | .busy _ _ _ ph, .poolGive .. =>
    match ph with
    | .thrown x => .dead x
    | _ => .loop
  | .busy p ev m _, .emit (.cb (.flowEx _ _ x)) => .flow p ev m x
  | .busy p ev m ph, o => .busy p ev m (phNxt m ph o w)
  | .flow p ev m _, .emit (.cbRet _ r) => .over p ev m r
  | .over _ _ _ x, .poolGive .. =>
    match x with
    | none => .loop
    | some x => .dead x
  | d, _ => d

def Frame.allowed : Frame → Op → Prop
  | .fire m ev f, o => fateAllowed env m ev f o
  | .stop m ph, o => spAllowed env m ph o
  | .start m ph, o => stAllowed false m (env.startFail m) (env.mach m).init ph o
  | .startIn m s ph, o => stAllowed true m (env.startInFail m s) s ph o
  | .drain s cm d, o => drAllowed env s cm d o

def Frame.nxt (f : Frame) (o : Op) (w : World) : Frame :=
  match f with
  | .fire m ev f => .fire m ev (fateNxt env m ev f o w)
  | .stop m ph => .stop m (spNxt m ph o w)
  | .start m ph => .start m (stNxt env false m ph o w)
  | .startIn m s ph => .startIn m s (stNxt env true m ph o w)
  | .drain s cm d => .drain s cm (drNxt env s d o w)

/-- May `start`/`startInState` return from this phase with this outcome? -/
def StPh.leaves (fail : Option Exc) : StPh → Option Exc → Prop
  | .pre, r => r = fail ∧ r ≠ none
  | .lost, r => r = some (.ise .alreadyStarted)
  | .won, _ => False
  | .busy ph, r => ∃ x, r = some x ∧ (ph = .thrown x ∨ (ph = .lame none ∧ x = .npe))
  | .fin, r => r = none

/-- May a method return from this frame with this outcome? -/
def Frame.leaves : Frame → Api → Option Exc → Prop
  | .fire m ev f, .fire m' ev' , r => m = m' ∧ ev = ev' ∧ f = .fin r
  | .stop m ph, .stop m', r => m = m' ∧ ph = .fin ∧ r = none
  | .start m ph, .start m', r => m = m' ∧ ph.leaves (env.startFail m) r
  | .startIn m s ph, .startInState m' s', r => m = m' ∧ s = s' ∧ ph.leaves (env.startInFail m s) r
  | _, _, _ => False

def lAllowed (l : List Frame) : Op → Prop
  | .emit (.enter _) => callable l
  | .emit (.leave c r) => ∃ f rest, l = f :: rest ∧ f.leaves env c r
  | o => (callable l ∧ userOp o) ∨ ∃ f rest, l = f :: rest ∧ f.allowed env o

def lNxt (l : List Frame) (o : Op) (w : World) : List Frame :=
  match o, l with
  | .emit (.enter c), l => .ofApi c :: l
  | .emit (.leave ..), _ :: rest => rest
  | o, f :: rest => f.nxt env o w :: rest
  | _, [] => []

/-- What a thread may assume of the world. -/
def lKnow (l : List Frame) (w : World) : Prop :=
  (∀ q p, p ∈ w.queue q → (w.pair p).isSome = true) ∧
  (∀ s cm p ev m rest, l = .drain s cm (.polled p ev m) :: rest → w.pair p = some (ev, m)) ∧
  (∀ m ev todo rest, l = .fire m ev (.scan todo) :: rest → ∀ p ∈ todo, (w.pair p).isSome = true)

/-- The method works for this strategy and this machine. -/
def Frame.serves (s : SId) (m : MId) : Frame → Prop
  | .fire m' _ _ => m' = m ∧ s = (env.mach m).strat
  | .drain s' _ (.busy _ _ m' _) | .drain s' _ (.flow _ _ m' _) => s' = s ∧ m' = m
  | _ => False

/-- Handlers that belong to a strategy are only called by methods that work for it. -/
def lPre : Call → List Frame → Prop
  | .drain s cm, l => l = [.drain s cm .loop]
  | .unmapped s _ m, l | .flowEx s _ m _, l => callable l ∧ ∃ f, l.head? = some f ∧ f.serves env s m
  | _, l => callable l

theorem lPre_callable {c : Call} {l : List Frame} (h : lPre env c l) (hd : ∀ s m, c ≠ .drain s m) : callable l := by
  cases c with
  | drain s m => exact absurd rfl (hd s m)
  | unmapped => exact h.1
  | flowEx => exact h.1
  | _ => exact h

def lPost : Call → List Frame → Except Exc Unit → List Frame → Prop
  | .drain s cm, _, r, l' =>
    match r with
    | .ok _ => l' = [.drain s cm .quit]
    | .error x => l' = [.drain s cm (.dead x)]
  | _, l, _, l' => l' = l

/-- The protocol all threads follow. -/
def proto : Proto (List Frame) where
  allowed := lAllowed env
  know := lKnow
  nxt := lNxt env
  pre := lPre env
  post := lPost

def task (s : SId) (m : MId) : List Frame := [.drain s m .fresh]

/-- How threads end: client threads with nothing, worker threads with a finished drain. -/
def fin (t : Tid) (r : Except Exc Unit) (l : List Frame) : Prop :=
  ((∃ n, t = .client n) ∧ l = []) ∨ ∃ s m, match r with
    | .ok _ => l = [.drain s m .quit]
    | .error x => l = [.drain s m (.dead x)]

end
end Verif
