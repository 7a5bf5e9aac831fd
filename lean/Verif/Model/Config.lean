import Verif.Model.Basic
/-
The configuration methods of GenericStateMachine (GenericStateMachine.java:64-185), statement by statement.
-/

namespace Verif

/-- The fields of `GenericStateMachine` that configuration touches (GenericStateMachine.java:36, 41-43). -/
structure CfgSt where
  init : Option St            -- initState
  marked : Option St          -- markedState
  markedEv : Option Ev        -- markedEvent
  table : Table               -- states
deriving Repr, DecidableEq

/-- A freshly built machine (GenericStateMachine.java:46-62, 366-372). -/
def CfgSt.empty : CfgSt := ⟨none, none, none, []⟩

/-- Java statements over `CfgSt`: on a throw, the mutations done so far stay. -/
abbrev CfgM := EStateM Exc CfgSt

/-- GenericStateMachine.java:137-142 (`state.getName()` on null throws NPE). -/
def assertNotReservedState (s : Option St) : CfgM St :=
  match s with
  | none => throw .npe
  | some s => if reservedStateNames.any (fun r => r == s.name) then throw (.ise .reservedState) else pure s

/-- GenericStateMachine.java:144-149. Only the name is compared, whatever the class of the event. -/
def assertNotReservedStateEvent (e : Option Ev) : CfgM Ev :=
  match e with
  | none => throw .npe
  | some e => if resImmediate == e.name then throw (.ise .reservedEvent) else pure e

/-- GenericStateMachine.java:178-185 -/
def assertInitStateDefined (exists_ : Bool) : CfgM Unit := do
  let c ← get
  if exists_ && c.init.isNone then throw (.ise .noInit)
  else if !exists_ && c.init.isSome then throw (.ise .initExists)

/-- GenericStateMachine.java:169-176 -/
def assertMarkedStateDefined (exists_ : Bool) : CfgM Unit := do
  let c ← get
  if exists_ && c.marked.isNone then throw (.ise .noMarked)
  else if !exists_ && c.marked.isSome then throw (.ise .marked)

/-- `this.states.get(this.markedState)`, dereferenced: NPE if absent. -/
def markedRow : CfgM Row := do
  let c ← get
  match c.table.row? c.marked with
  | none => throw .npe
  | some r => pure r

/-- GenericStateMachine.java:151-158. The message reads `this.markedEvent.getName()`, which is an NPE when no event
is marked. -/
def assertEventNotMapped : CfgM Unit := do
  let r ← markedRow
  let c ← get
  match r.target (c.markedEv.map Ev.key) with
  | some _ => if c.markedEv.isNone then throw .npe else throw (.ise .alreadyMapped)
  | none => pure ()

/-- GenericStateMachine.java:160-167 -/
def assertNoMappingsExistAtEnd : CfgM Unit := do
  let r ← markedRow
  if !r.ents.isEmpty then throw (.ise .mappingsExist)

/-- `this.states.get(this.markedState).put(key, value)`. -/
def putMarked (k : Option EvKey) (v : Option St) : CfgM Unit := do
  let r ← markedRow
  if r.ro then throw .uoe
  modify fun c => match c.marked with
    | none => c
    | some s => { c with table := AMap.put c.table s.name { r with ents := AMap.put r.ents k v } }

/-- GenericStateMachine.java:109-110, 121-122, 132-133 -/
def clearMarked : CfgM Unit := modify fun c => { c with marked := none, markedEv := none }

/-- GenericStateMachine.java:79-86 -/
def when_ (s : Option St) : CfgM Unit := do
  let s ← assertNotReservedState s
  assertInitStateDefined true
  assertMarkedStateDefined false
  modify fun c => { c with table := AMap.putIfAbsent c.table s.name ⟨false, []⟩ }
  modify fun c => { c with marked := some s }

/-- GenericStateMachine.java:66-76 -/
def initialSate (rs : Reserved) (s : Option St) : CfgM Unit := do
  let s ← assertNotReservedState s
  assertInitStateDefined false
  modify fun c => { c with init := some s }
  modify fun c => { c with table := AMap.put c.table s.name ⟨false, []⟩ }
  modify fun c => { c with table := AMap.put c.table rs.endSt.name ⟨true, []⟩ }
  modify fun c => { c with table := AMap.put c.table rs.noSt.name ⟨true, []⟩ }
  modify fun c => { c with table := AMap.put c.table rs.noopSt.name ⟨true, []⟩ }
  when_ (some s)

/-- GenericStateMachine.java:89-96 -/
def receives (e : Option Ev) : CfgM Unit := do
  let e ← assertNotReservedStateEvent e
  assertInitStateDefined true
  assertMarkedStateDefined true
  modify fun c => { c with markedEv := some e }
  putMarked (some e.key) none

/-- GenericStateMachine.java:99-112 -/
def itEnds (rs : Reserved) : CfgM Unit := do
  assertInitStateDefined true
  assertMarkedStateDefined true
  match (← get).markedEv with
  | none => do
    assertNoMappingsExistAtEnd
    putMarked (some immKey) (some rs.endSt)
  | some e => do
    assertEventNotMapped
    putMarked (some e.key) (some rs.endSt)
  clearMarked

/-- GenericStateMachine.java:115-124 -/
def itTransitionsTo (s : Option St) : CfgM Unit := do
  let s ← assertNotReservedState s
  assertInitStateDefined true
  assertMarkedStateDefined true
  assertEventNotMapped
  putMarked ((← get).markedEv.map Ev.key) (some s)
  clearMarked

/-- GenericStateMachine.java:127-135 -/
def itDoesNotTransition (rs : Reserved) : CfgM Unit := do
  assertInitStateDefined true
  assertMarkedStateDefined true
  assertEventNotMapped
  putMarked ((← get).markedEv.map Ev.key) (some rs.noopSt)
  clearMarked

/-- One call of a configuration method by the client. -/
inductive CfgCall
  | initialSate (s : Option St)
  | when_ (s : Option St)
  | receives (e : Option Ev)
  | itEnds
  | itTransitionsTo (s : Option St)
  | itDoesNotTransition
deriving Repr, DecidableEq

def CfgCall.run (rs : Reserved) : CfgCall → CfgM Unit
  | .initialSate s => Verif.initialSate rs s
  | .when_ s => Verif.when_ s
  | .receives e => Verif.receives e
  | .itEnds => Verif.itEnds rs
  | .itTransitionsTo s => Verif.itTransitionsTo s
  | .itDoesNotTransition => Verif.itDoesNotTransition rs

/-- The exception a call throws, if any. -/
def CfgCall.throws (rs : Reserved) (k : CfgCall) (c : CfgSt) : Option Exc :=
  match k.run rs c with
  | .ok _ _ => none
  | .error e _ => some e

/-- The fields after the call, whether it returned or threw. -/
def CfgCall.after (rs : Reserved) (k : CfgCall) (c : CfgSt) : CfgSt :=
  match k.run rs c with
  | .ok _ c' => c'
  | .error _ c' => c'

/-- The configuration after a client made these calls, catching whatever they throw. -/
def cfgRun (rs : Reserved) (ks : List CfgCall) (c : CfgSt) : CfgSt :=
  ks.foldl (fun c k => k.after rs c) c

/-- The checks of `start()` before the started flag is touched (GenericStateMachine.java:217-231). -/
def startChecks (init : Option St) (t : Table) : Option Exc :=
  if init.isNone then some (.ise .noInit)
  else if t.isEmpty then some (.ise .noTransitions)
  else if t.any (fun r => r.2.ents.any (fun e => e.2.isNone)) then some (.ise .dangling)
  else none

end Verif
