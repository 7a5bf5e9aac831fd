import Verif.Model.Sem
/-
Specification: two programs that use the library in the same way, but with other names and other objects. Events have the same objects in both; everything else about
events and states may differ as a naming says.
-/

namespace Verif.Spec.Names

/-- Which names of states, objects of states and names of events of two programs correspond to each other. -/
structure Naming where
  st : String → String → Prop
  ob : Nat → Nat → Prop
  ev : String → String → Prop

/-- Different names have different counterparts, and equal ones equal counterparts. Reserved names (GenericStateMachine.java:23-26) are their own counterparts. Nothing is
asked about objects: one may have many counterparts. -/
structure Naming.Ok (N : Naming) : Prop where
  st : ∀ {a a' b b'}, N.st a a' → N.st b b' → (a = b ↔ a' = b')
  ev : ∀ {a a' b b'}, N.ev a a' → N.ev b b' → (a = b ↔ a' = b')
  reserved : ∀ n ∈ reservedStateNames, N.st n n
  immediate : N.ev resImmediate resImmediate

section
variable {α β : Type}

inductive Opt (R : α → β → Prop) : Option α → Option β → Prop
  | none : Opt R none none
  | some {a b} : R a b → Opt R (some a) (some b)

inductive All (R : α → β → Prop) : List α → List β → Prop
  | nil : All R [] []
  | cons {a b l l'} : R a b → All R l l' → All R (a :: l) (b :: l')

end

variable (N : Naming)

/-- States correspond. -/
def Naming.St (s s' : Verif.St) : Prop := N.st s.name s'.name ∧ N.ob s.oid s'.oid

/-- Events correspond. -/
def Naming.Ev (e e' : Verif.Ev) : Prop := e.cls = e'.cls ∧ N.ev e.name e'.name ∧ e.oid = e'.oid

def Naming.Key (k k' : EvKey) : Prop := k.cls = k'.cls ∧ N.ev k.name k'.name

def Naming.Row (r r' : Verif.Row) : Prop := r.ro = r'.ro ∧ All (fun e e' => Opt N.Key e.1 e'.1 ∧ Opt N.St e.2 e'.2) r.ents r'.ents

/-- Tables correspond, entry by entry. -/
def Naming.Table (t t' : Verif.Table) : Prop := All (fun r r' => N.st r.1 r'.1 ∧ N.Row r.2 r'.2) t t'

/-! ### Configuration -/

/-- Configurations of a machine correspond. -/
structure Naming.Cfg (c c' : CfgSt) : Prop where
  init : Opt N.St c.init c'.init
  marked : Opt N.St c.marked c'.marked
  markedEv : Opt N.Ev c.markedEv c'.markedEv
  table : N.Table c.table c'.table

/-- Calls of configuration methods correspond. -/
inductive Naming.CfgCall : Verif.CfgCall → Verif.CfgCall → Prop
  | initialSate {s s'} : Opt N.St s s' → Naming.CfgCall (.initialSate s) (.initialSate s')
  | when_ {s s'} : Opt N.St s s' → Naming.CfgCall (.when_ s) (.when_ s')
  | receives {e e'} : Opt N.Ev e e' → Naming.CfgCall (.receives e) (.receives e')
  | itEnds : Naming.CfgCall .itEnds .itEnds
  | itTransitionsTo {s s'} : Opt N.St s s' → Naming.CfgCall (.itTransitionsTo s) (.itTransitionsTo s')
  | itDoesNotTransition : Naming.CfgCall .itDoesNotTransition .itDoesNotTransition

/-- Objects of reserved states correspond. -/
def Naming.Res (r r' : Reserved) : Prop := N.ob r.endOid r'.endOid ∧ N.ob r.noOid r'.noOid ∧ N.ob r.noopOid r'.noopOid

/-! ### User code -/

/-- No names of states or events are passed or returned. -/
def Nameless : UCall → Bool
  | .fire .. | .startInState .. | .getCurrentState _ => false
  | _ => true

/-- User code does corresponding things: it may use names, as long as it treats them alike. -/
inductive Naming.User : UProg → UProg → Prop
  | done : Naming.User .done .done
  | thr (x : Exc) : Naming.User (.thr x) (.thr x)
  | call (u : UCall) {k k' : u.Res → UProg} (hu : Nameless u = true) (hk : ∀ r, Naming.User (k r) (k' r)) : Naming.User (.call u k) (.call u k')
  | fire (m : MId) {ev ev' : Verif.Ev} {k k' : Except Exc Unit → UProg} (he : N.Ev ev ev') (hk : ∀ r, Naming.User (k r) (k' r)) :
      Naming.User (.call (.fire m ev) k) (.call (.fire m ev') k')
  | startInState (m : MId) {s s' : Option Verif.St} {k k' : Except Exc Unit → UProg} (hs : Opt N.St s s') (hk : ∀ r, Naming.User (k r) (k' r)) :
      Naming.User (.call (.startInState m s) k) (.call (.startInState m s') k')
  | getCurrentState (m : MId) {k k' : Option Verif.St → UProg} (hk : ∀ r r', Opt N.St r r' → Naming.User (k r) (k' r')) :
      Naming.User (.call (.getCurrentState m) k) (.call (.getCurrentState m) k')

/-- Environments correspond: configuration and user code. -/
structure Naming.Env (env env' : Verif.Env) : Prop where
  strat : ∀ m, (env.mach m).strat = (env'.mach m).strat
  table : ∀ m, N.Table (env.mach m).table (env'.mach m).table
  init : ∀ m, Opt N.St (env.mach m).init (env'.mach m).init
  res : ∀ m, N.Res (env.mach m).res (env'.mach m).res
  queue : ∀ s, (env.strat s).queue = (env'.strat s).queue
  exec : ∀ s, (env.strat s).exec = (env'.strat s).exec
  maxQ : ∀ s, (env.strat s).maxQ = (env'.strat s).maxQ
  dropDup : ∀ s, (env.strat s).dropDup = (env'.strat s).dropDup
  stable : ∀ s, N.Table (env.strat s).table (env'.strat s).table
  width : ∀ e, env.width e = env'.width e
  acts : ∀ k o o', N.ob o o' → All (fun a a' => ∀ ev ev' m, N.Ev ev ev' → N.User (a ev m) (a' ev' m)) (env.acts k o) (env'.acts k o')
  listener : ∀ l b f f' ev ev' t t', N.St f f' → N.Ev ev ev' → N.St t t' → N.User (env.listener l b f ev t) (env'.listener l b f' ev' t')
  unmapped : ∀ s ev ev' m, N.Ev ev ev' → N.User (env.unmapped s ev m) (env'.unmapped s ev' m)
  flowEx : ∀ s ev ev' m x, N.Ev ev ev' → N.User (env.flowEx s ev m x) (env'.flowEx s ev' m x)
  flowAfter : ∀ s ev ev' m, N.Ev ev ev' → N.User (env.flowAfter s ev m) (env'.flowAfter s ev' m)
  flowBefore : ∀ s ev ev' m, N.Ev ev ev' → N.User (env.flowBefore s ev m) (env'.flowBefore s ev' m)
  proc : ∀ i, N.User (env.proc i) (env'.proc i)

/-! ### Histories -/

inductive Naming.Cb : Verif.Cb → Verif.Cb → Prop
  | begin (m : MId) {f f' t t' : Verif.St} {ev ev' : Verif.Ev} : N.St f f' → N.Ev ev ev' → N.St t t' → Naming.Cb (.begin m f ev t) (.begin m f' ev' t')
  | end_ (m : MId) {f f' t t' : Verif.St} {ev ev' : Verif.Ev} : N.St f f' → N.Ev ev ev' → N.St t t' → Naming.Cb (.end_ m f ev t) (.end_ m f' ev' t')
  | action (m : MId) (k : Kind) {o o' : Nat} (i : Nat) {ev ev' : Verif.Ev} : N.ob o o' → N.Ev ev ev' → Naming.Cb (.action m k o i ev) (.action m k o' i ev')
  | unmapped (m : MId) {ev ev' : Verif.Ev} : N.Ev ev ev' → Naming.Cb (.unmapped m ev) (.unmapped m ev')
  | flowEx (m : MId) (x : Exc) {ev ev' : Verif.Ev} : N.Ev ev ev' → Naming.Cb (.flowEx m ev x) (.flowEx m ev' x)
  | flowFull (m : MId) {ev ev' : Verif.Ev} : N.Ev ev ev' → Naming.Cb (.flowFull m ev) (.flowFull m ev')
  | flowAfter (m : MId) {ev ev' : Verif.Ev} : N.Ev ev ev' → Naming.Cb (.flowAfter m ev) (.flowAfter m ev')
  | flowBefore (m : MId) {ev ev' : Verif.Ev} : N.Ev ev ev' → Naming.Cb (.flowBefore m ev) (.flowBefore m ev')

inductive Naming.Api : Verif.Api → Verif.Api → Prop
  | fire (m : MId) {ev ev' : Verif.Ev} : N.Ev ev ev' → Naming.Api (.fire m ev) (.fire m ev')
  | stop (m : MId) : Naming.Api (.stop m) (.stop m)
  | start (m : MId) : Naming.Api (.start m) (.start m)
  | startInState (m : MId) {s s' : Option Verif.St} : Opt N.St s s' → Naming.Api (.startInState m s) (.startInState m s')

/-- No names of states or events occur. -/
def Plain : Verif.Obs → Bool
  | .started _ | .cleared _ | .listener .. | .submitted .. | .rejected .. | .payload .. | .taskDropped .. | .uncaught _ | .user _ | .latch _ => true
  | _ => false

/-- Entries of the history correspond: the same has happened, with other names. -/
inductive Naming.Obs : Verif.Obs → Verif.Obs → Prop
  | plain (o : Verif.Obs) (h : Plain o = true) : Naming.Obs o o
  | enter {c c' : Verif.Api} : N.Api c c' → Naming.Obs (.enter c) (.enter c')
  | leave {c c' : Verif.Api} (r : Option Exc) : N.Api c c' → Naming.Obs (.leave c r) (.leave c' r)
  | cb {c c' : Verif.Cb} : N.Cb c c' → Naming.Obs (.cb c) (.cb c')
  | cbRet {c c' : Verif.Cb} (r : Option Exc) : N.Cb c c' → Naming.Obs (.cbRet c r) (.cbRet c' r)
  | upd (m : MId) {s s' : Verif.St} (b api : Bool) : N.St s s' → Naming.Obs (.upd m s b api) (.upd m s' b api)
  | cur (m : MId) {s s' : Verif.St} (api : Bool) : N.St s s' → Naming.Obs (.cur m s api) (.cur m s' api)
  | dropped (m : MId) {ev ev' : Verif.Ev} : N.Ev ev ev' → Naming.Obs (.dropped m ev) (.dropped m ev')
  | accepted (q : QId) (m : MId) {ev ev' : Verif.Ev} : N.Ev ev ev' → Naming.Obs (.accepted q m ev) (.accepted q m ev')
  | taken (q : QId) (m : MId) {ev ev' : Verif.Ev} : N.Ev ev ev' → Naming.Obs (.taken q m ev) (.taken q m ev')
  | done (m : MId) {ev ev' : Verif.Ev} : N.Ev ev ev' → Naming.Obs (.done m ev) (.done m ev')
  | copied (n : Nat) {ev ev' : Verif.Ev} (v : Option Val) : N.Ev ev ev' → Naming.Obs (.copied n ev v) (.copied n ev' v)

def Naming.Trace (tr tr' : List (Tid × Verif.Obs)) : Prop := All (fun e e' => e.1 = e'.1 ∧ N.Obs e.2 e'.2) tr tr'

/-- Memories correspond. -/
structure Naming.World (w w' : Verif.World) : Prop where
  mach : ∀ m, (w.mach m).started = (w'.mach m).started ∧ (w.mach m).ended = (w'.mach m).ended ∧ Opt N.St (w.mach m).cur (w'.mach m).cur ∧
    (w.mach m).listener = (w'.mach m).listener
  payload : w.payload = w'.payload
  pair : ∀ p, Opt (fun x x' => N.Ev x.1 x'.1 ∧ x.2 = x'.2) (w.pair p) (w'.pair p)
  nextPair : w.nextPair = w'.nextPair
  nextCopy : w.nextCopy = w'.nextCopy
  queue : w.queue = w'.queue
  pool : w.pool = w'.pool
  tasks : w.tasks = w'.tasks
  shut : w.shut = w'.shut
  latch : w.latch = w'.latch
  intr : w.intr = w'.intr
  mem : w.mem = w'.mem
  trace : N.Trace w.trace w'.trace

/-- The scheduler makes the same choices; clients begin corresponding programs. -/
inductive Naming.Choice : Verif.Choice → Verif.Choice → Prop
  | begin (n : Nat) {u u' : UProg} : N.User u u' → Naming.Choice (.begin n u) (.begin n u')
  | run (t : Tid) : Naming.Choice (.run t) (.run t)
  | dispatch (e : EId) (i j : Nat) : Naming.Choice (.dispatch e i j) (.dispatch e i j)
  | interrupt (t : Tid) : Naming.Choice (.interrupt t) (.interrupt t)
  | shutdown (e : EId) (now : Bool) : Naming.Choice (.shutdown e now) (.shutdown e now)

/-! ### Renaming -/

/-- Other names for states and events, and other objects for states; and the way back. -/
structure Renaming where
  st : String → String
  ob : Nat → Nat
  ev : String → String
  st' : String → String
  ob' : Nat → Nat
  ev' : String → String

structure Renaming.Ok (f : Renaming) : Prop where
  st : ∀ a, f.st' (f.st a) = a
  ob : ∀ a, f.ob' (f.ob a) = a
  ev : ∀ a, f.ev' (f.ev a) = a
  reserved : ∀ n ∈ reservedStateNames, f.st n = n
  immediate : f.ev resImmediate = resImmediate

namespace Renaming
variable (f : Renaming)

def naming : Naming := ⟨fun a b => b = f.st a, fun a b => b = f.ob a, fun a b => b = f.ev a⟩

def stOf (s : Verif.St) : Verif.St := ⟨f.st s.name, f.ob s.oid⟩

def evOf (e : Verif.Ev) : Verif.Ev := ⟨e.cls, f.ev e.name, e.oid⟩

/-- The way back. -/
def stBack (s : Verif.St) : Verif.St := ⟨f.st' s.name, f.ob' s.oid⟩

def evBack (e : Verif.Ev) : Verif.Ev := ⟨e.cls, f.ev' e.name, e.oid⟩

def cbOf : Verif.Cb → Verif.Cb
  | .begin m a ev b => .begin m (f.stOf a) (f.evOf ev) (f.stOf b)
  | .end_ m a ev b => .end_ m (f.stOf a) (f.evOf ev) (f.stOf b)
  | .action m k o i ev => .action m k (f.ob o) i (f.evOf ev)
  | .unmapped m ev => .unmapped m (f.evOf ev)
  | .flowEx m ev x => .flowEx m (f.evOf ev) x
  | .flowFull m ev => .flowFull m (f.evOf ev)
  | .flowAfter m ev => .flowAfter m (f.evOf ev)
  | .flowBefore m ev => .flowBefore m (f.evOf ev)

def apiOf : Verif.Api → Verif.Api
  | .fire m ev => .fire m (f.evOf ev)
  | .startInState m s => .startInState m (s.map f.stOf)
  | c => c

def obsOf : Verif.Obs → Verif.Obs
  | .enter c => .enter (f.apiOf c)
  | .leave c r => .leave (f.apiOf c) r
  | .cb c => .cb (f.cbOf c)
  | .cbRet c r => .cbRet (f.cbOf c) r
  | .upd m s b api => .upd m (f.stOf s) b api
  | .cur m s api => .cur m (f.stOf s) api
  | .dropped m ev => .dropped m (f.evOf ev)
  | .accepted q m ev => .accepted q m (f.evOf ev)
  | .taken q m ev => .taken q m (f.evOf ev)
  | .done m ev => .done m (f.evOf ev)
  | .copied n ev v => .copied n (f.evOf ev) v
  | o => o

/-- User code that does the same with the other names. What it is told about states is translated back for it. -/
def userOf : UProg → UProg
  | .done => .done
  | .thr x => .thr x
  | .call (.fire m ev) k => .call (.fire m (f.evOf ev)) fun r => userOf (k r)
  | .call (.startInState m s) k => .call (.startInState m (s.map f.stOf)) fun r => userOf (k r)
  | .call (.getCurrentState m) k => .call (.getCurrentState m) fun r => userOf (k (r.map f.stBack))
  | .call u k => .call u fun r => userOf (k r)

def tableOf (t : Verif.Table) : Verif.Table :=
  t.map fun r => (f.st r.1, ⟨r.2.ro, r.2.ents.map fun e => (e.1.map fun k => ⟨k.cls, f.ev k.name⟩, e.2.map f.stOf)⟩)

/-- The environment with the other names. -/
def envOf (env : Verif.Env) : Verif.Env where
  mach m := { env.mach m with
    table := f.tableOf (env.mach m).table
    init := (env.mach m).init.map f.stOf
    res := ⟨f.ob (env.mach m).res.endOid, f.ob (env.mach m).res.noOid, f.ob (env.mach m).res.noopOid⟩ }
  strat s := { env.strat s with table := f.tableOf (env.strat s).table }
  width := env.width
  acts k o := (env.acts k (f.ob' o)).map fun a ev m => f.userOf (a (f.evBack ev) m)
  listener l b s ev t := f.userOf (env.listener l b (f.stBack s) (f.evBack ev) (f.stBack t))
  unmapped s ev m := f.userOf (env.unmapped s (f.evBack ev) m)
  flowEx s ev m x := f.userOf (env.flowEx s (f.evBack ev) m x)
  flowAfter s ev m := f.userOf (env.flowAfter s (f.evBack ev) m)
  flowBefore s ev m := f.userOf (env.flowBefore s (f.evBack ev) m)
  proc i := f.userOf (env.proc i)

def choiceOf : Verif.Choice → Verif.Choice
  | .begin n u => .begin n (f.userOf u)
  | x => x

end Renaming

end Verif.Spec.Names
