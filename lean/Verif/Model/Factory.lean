import Verif.Model.Code
/-
How strategies and machines are made: EventProcessingStrategyFactory and GenericStateMachine.Builder. Java paths are
relative to /repo/src/main/java/com/webotech/statemachine/.

Objects are numbered in the order of their creation. A program is a list of calls; a call that refers to an object which
does not exist (yet) cannot be written in Java and does nothing here.

Not modelled here: handlers and listeners held by a `Config` (they are the arbitrary `unmapped`, `flowEx`, ... of `Env`),
`withThreadName`, and strategies that are not made by the factory.
-/

namespace Verif

/-- strategy/EventProcessingStrategyFactory.java:59-68: a `Config`. -/
structure FConfig where
  exec : Option EId := none
  queue : Option QId := none
  maxQ : Int := -1
deriving DecidableEq

/-- A strategy: the config it was made from, what it got from it (lines 48-51), and the machine whose transition map it
was given last (GenericStateMachine.java:59). -/
structure FStrat where
  cfg : Nat
  queue : QId
  exec : EId
  maxQ : Int
  dropDup : Bool
  owner : Option MId
deriving DecidableEq

/-- Everything made so far. Queues and executors: the config that made it, or `none` if user code did; executors also
have a number of threads. Config 0 is `basicConfig` (line 23). -/
structure Setup where
  queues : List (Option Nat) := []
  execs : List (Option Nat × Nat) := []
  configs : List FConfig := [{}]
  strats : List FStrat := []
  builders : List (Option SId) := []
  machines : List SId := []
deriving DecidableEq

inductive SetupCmd
  | newQueue                                  -- user code makes a queue
  | newExecutor (n : Nat)                     -- user code makes an executor with n threads
  | newConfig
  | withExecutor (k : Nat) (e : EId)          -- lines 70-73
  | withEventQueue (k : Nat) (q : QId)        -- lines 92-95
  | withMaxQueueSize (k : Nat) (n : Int)      -- lines 97-100
  | createDefault (k : Nat)                   -- lines 29-36; without argument: k = 0
  | createDropDuplicate (k : Nat)             -- lines 38-46; without argument: k = 0
  | newBuilder
  | setStrategy (b : Nat) (s : SId)           -- GenericStateMachine.java:352-356
  | build (b : Nat)                           -- GenericStateMachine.java:366-372
deriving DecidableEq

/-- lines 115-122 `getExecutor`. -/
def Setup.getExecutor (S : Setup) (k : Nat) (c : FConfig) : EId × Setup :=
  match c.exec with
  | some e => (e, S)
  | none => (S.execs.length,
    { S with execs := S.execs ++ [(some k, 1)], configs := S.configs.set k { c with exec := some S.execs.length } })

/-- lines 139-144 `getEventQueue`. -/
def Setup.getEventQueue (S : Setup) (k : Nat) (c : FConfig) : QId × Setup :=
  match c.queue with
  | some q => (q, S)
  | none => (S.queues.length,
    { S with queues := S.queues ++ [some k], configs := S.configs.set k { c with queue := some S.queues.length } })

/-- lines 29-51. The new strategy has the number `S.strats.length`. -/
def Setup.create (S : Setup) (k : Nat) (dropDup : Bool) : Setup :=
  match S.configs[k]? with
  | none => S
  | some c =>
    let (e, S1) := S.getExecutor k c
    match S1.configs[k]? with
    | none => S
    | some c1 =>
      let (q, S2) := S1.getEventQueue k c1
      { S2 with strats := S2.strats ++ [⟨k, q, e, c.maxQ, dropDup, none⟩] }

/-- GenericStateMachine.java:370-371 and 59: a new machine, which hands its transition map to the strategy. -/
def Setup.machine (S : Setup) (s : SId) : Setup :=
  match S.strats[s]? with
  | none => S
  | some t => { S with
      machines := S.machines ++ [s]
      strats := S.strats.set s { t with owner := some S.machines.length } }

def Setup.step (S : Setup) : SetupCmd → Setup
  | .newQueue => { S with queues := S.queues ++ [none] }
  | .newExecutor n => { S with execs := S.execs ++ [(none, n)] }
  | .newConfig => { S with configs := S.configs ++ [{}] }
  | .withExecutor k e =>
    match S.configs[k]?, S.execs[e]? with
    | some c, some (none, _) => if k = 0 then S else { S with configs := S.configs.set k { c with exec := some e } }
    | _, _ => S
  | .withEventQueue k q =>
    match S.configs[k]?, S.queues[q]? with
    | some c, some none => if k = 0 then S else { S with configs := S.configs.set k { c with queue := some q } }
    | _, _ => S
  | .withMaxQueueSize k n =>
    match S.configs[k]? with
    | some c => if k = 0 then S else { S with configs := S.configs.set k { c with maxQ := n } }
    | none => S
  | .createDefault k => S.create k false
  | .createDropDuplicate k => S.create k true
  | .newBuilder => { S with builders := S.builders ++ [none] }
  | .setStrategy b s =>
    match S.builders[b]?, S.strats[s]? with
    | some _, some _ => { S with builders := S.builders.set b (some s) }
    | _, _ => S
  | .build b =>
    match S.builders[b]? with
    | none => S
    | some (some s) => S.machine s
    | some none =>
      let S1 := S.create 0 false
      { S1 with builders := S1.builders.set b (some S.strats.length) }.machine S.strats.length

/-- A whole program. -/
def Setup.run (cmds : List SetupCmd) : Setup := cmds.foldl Setup.step {}

/-- The environment of the runtime. Transition tables, user code etc. come from `env`. Numbers that stand for nothing are
given queues and executors of their own. -/
def Setup.wire (S : Setup) (env : Env) : Env :=
  { env with
    mach := fun m => { env.mach m with strat := match S.machines[m]? with
      | some s => s
      | none => S.strats.length + m }
    strat := fun s => match S.strats[s]? with
      | some t => ⟨t.queue, t.exec, t.maxQ, t.dropDup, match t.owner with
        | some m => (env.mach m).table
        | none => []⟩
      | none => ⟨S.queues.length + s, S.execs.length + s, -1, false, []⟩
    width := fun e => match S.execs[e]? with
      | some x => x.2
      | none => 1 }

end Verif
