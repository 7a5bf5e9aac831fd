# Formal model of paulmackinlay/state-machine: design

Source: `/repo` (Java, about 1500 lines under `src/main`), read as text, never run.
Prover: Lean 4.33.0, core library only. Property list: `properties.jsonl`. Status per property: `MANIFEST.json`.
Mutation log: `seeded/LOG.jsonl`. Axioms per theorem: `AXIOMS.md` (generated by `tools/axioms.py`).

## 1. The model (`lean/Verif/Model`)

The Java methods are transcribed statement by statement into a small imperative language embedded in Lean, which has an
interleaving semantics. Every definition cites the Java lines it stands for.

| module | Java code |
|---|---|
| `Basic` | names, state objects (name + identity; `equals` by name), event objects (class + name + identity; `equals` by class and name), exceptions, the two-level transition map with null keys and null values |
| `Config` | the configuration methods of `GenericStateMachine` (`initialSate`, `when`, `receives`, `itEnds`, `itTransitionsTo`, `itDoesNotTransition`, all `assert…` methods), the checks of `start()` |
| `Prog` | shared memory `World`, atomic operations `Op`/`exec`, programs `Prog`, user code `UProg`, entries of the history `Obs` |
| `Code` | `fire`, `processEvent` of both strategies, the drain task, `TransitionTask.execute`, `notifyStateMachineListener`, `updateCurrentState`, `stop`, `start`, `startInState`, `NamedState.onEntry/onExit`, calls of all user callbacks, the getters, `setStateMachineListener` |
| `Sem` | threads and scheduler: `step`, `runs`, `ReachFrom`, `Reach`, `Initial` |
| `User` | sequencing and try/catch of user code, `HandleExceptionAction`, the runs of a piece of user code |
| `Util` | `MultiConsumerStateMachineListener`, `LoggingStateMachineListener`, `Threads` |
| `Factory` | `EventProcessingStrategyFactory` with its memoising `Config`, `GenericStateMachine.Builder`: which machines share which strategy, queue, executor |
| `Direct` | `Code` and `Sem` once more, for executors that execute a task in the thread that hands it over |
| `Actions` | `NamedState`: action lists that change while they are run; separate from the rest |
| `Maps` | `equals` and `hashCode` of states and events with their names (null names too), `java.util.HashMap` with bins; shows that the association lists of the other modules stand for them; separate from the rest |
| `Scan` | `DropDuplicateEventStrategy.processEvent` with the iteration over the queue in small steps, pool and pairs; separate from the rest |
| `Queues` | `DefaultEventStrategy.processEvent` and the drain task with an arbitrary queue (`withEventQueue`) and a `size()` that is not atomic; separate from the rest |
| `Context` | the list of subsystems of an app (`AbstractAppContext`), replaced or changed while the loops of `AbstractAppService` go through it; separate from the rest |
| `Weak` | `Sem` once more, but a read of `currentState` may return anything |
| `Plain` | `Sem` once more, but a read of any plain field may return anything |
| `Reuse` | `Sem` once more, but `EventMachinePairPool.take` may return any idle pair, and pairs may get lost; `fire(null)` |
| `Open` | `Sem`, and calls of the public method `updateCurrentState` from anywhere |
| `Bypass` | `Sem`, and calls of `processEvent` of a machine's strategy in place of `fire` |
| `Reconf` | configuration calls on a running machine, one thread; separate from the rest |
| `Service` | `LifecycleStateMachineUtil`, `AbstractAppService`, `Subsystem` calls, the main latch |

* A program is a free-monad tree: return, throw, atomic operation with a continuation, call with a continuation. One choice of
  the scheduler executes one atomic operation of one thread.
* User code (actions, listeners, handlers, the code of client threads) is an arbitrary tree of API calls that may branch on every
  result, throw `Exception`s and `Error`s, use memory of its own, wait for latches, call (recursive) procedures. Nothing is
  assumed about it unless a theorem says so.
* Any number of machines, strategies, queues, executors, workers per executor, client threads. Idle clients may begin any
  program at any time. A worker may take any pending task (stronger than FIFO executors need). Executors can be shut down
  (`shutdown`, `shutdownNow`), threads can be interrupted.
* `World.trace` is the history: calls and returns of API methods and callbacks, state writes, queue operations. No result of an
  operation depends on it. Theorems about observable behaviour are statements about the history of a reachable configuration.

## 2. Specifications (`lean/Verif/Spec`)

Written over histories, without reference to the code.

* `Config`: a phase and a function from (state, event) to outcomes (C01-C08).
* `Calls`: an automaton that reads the history of the whole program and accepts it only if each `fire`, `start`, `startInState`,
  `stop` does what is documented, judged by what was true at some moment while the call was open. `Fate`: the same
  for a single complete call, as an inductive list of fates (C09-C12, C27-C31, C49).
* `Machine`, `Monitor`, `Event`: the plan of an event, an automaton that watches one thread and one machine, and the same
  as statements about the piece of history between the moments an event is taken and given back (`Transition`, `Notify`,
  `Handles`, `Events`, `Desc.next`) (C15-C24).
* `Course`: an automaton that follows one thread that processes events through the history and may look at the machines at any
  moment; nothing is assumed about other threads (C57). `Way` is the automaton, `Reason` what it means for a single entry.
* `Notes`: bracketing of listener calls (C36), which callbacks fit the state of the machine (C58). `App`: phases of an app, what its calls may do (C42-C51, C69). `Trace`: queue projections. `Callbacks`: the code behind a callback (C53), answers of getters (C54). `Dup`: reasons for dropping an event (C52).
* `Script`: what may be done for one event, in order (C60).
* `HB`: histories of operations with their results, synchronisation, happens-before, data races; a discipline for clients (C61, C62).
* `Weak`: which values of a plain field a read may return, by happens-before consistency (C88). `Plain`: the same for all plain fields; rules for listeners and payloads (C89, C90).
* `Footprint`: what is licensed by the calls in the source code of the clients (C91).
* `Checks`: what reads of pooled pairs may return, and when an event may be dropped or stored (C92).
* `Loose`: the flags of a machine as the history tells them; a machine is started once and enters no state once it has ended (C93).
* `Safe`: rules for payloads that suffice also when strategies drop duplicates (C99).
* `Names`: what it means that two programs are the same up to names of states and events and up to State objects; renaming (C100).
* `Watch`: listeners that only watch, and what it means that two worlds are alike but for them (C101).
* `Groups`: groups of machines that share nothing with the rest of the program; other copies of events (C102); states of a group, programs that agree on a group (C103).
* `Limits`: the same program with other bounds of queues and numbers of threads (C104).
* `Undup`: the same program without the check for duplicates (C105).
* `Cycle`: two configurations that are the same to everybody, reached in different ways (C106).
* `Asking`: client threads that only ask, and an execution without them (C107).
* `Shuffle`: threads exchanged among each other (C108).
* `Calm`: executions in which threads are not interrupted (C109).
* `Orderly`: executions in which executors are not shut down (C110).
* `Reuse`: two configurations that are equal to everybody but the pool of pairs; what a program does whatever its operations return (C94).
* `Meddle`: a client that only sets listeners and payloads; the fates of API calls without what depends on listeners and payloads (C95).
* `Live`: infinite executions, fairness of threads and executors, termination of user code (C59); which calls are open in a thread (C63).
* `Context`: the list given last, its elements, the phases of an app, as folds over a history (C84).
* `Maps`: the contract of `equals` and `hashCode`, maps as functions on classes of equal keys (C86).
* `Scan`: what was accepted, dropped, taken (C87).
* `Queues`: what is in a queue, what came in and went out (C85).
* `Direct`: a stack of calls, user code and events being processed, for a program of one thread (C80).

## 3. Proof technique (`lean/Verif/Logic`, `lean/Verif/Proofs`)

* `Logic/Proto`: a program logic. A protocol gives each thread a control state, says which operations are allowed in it and how
  it changes; `Ok` checks a program against it with an arbitrary world at each operation, so one check covers all
  interleavings; `sound` combines checked programs with an invariant over the world and the control states of all threads.
* `Logic/Frames`, `Logic/Moves`: the protocol of the library: a stack of frames, one per method in progress. `Proofs/Walk*`: the code
  follows it. Then each invariant is proved by cases over the possible moves:
  `Own` (each pooled pair is in exactly one place; queues are FIFO), `Tasks`, `Tokens` (counting waiting events against drain
  tasks and threads responsible for them), `Drain`, `Mem` (memory is a function of the history), `Calls` and `Monitor` (histories are
  accepted by the automata), `Bounds`, `Brackets`. `Logic/Prod` combines two protocols; `Course`, `CourseInv` use it (C57).
* `Logic/Track` follows control states along an infinite execution. `Live`, `LiveQueue`, `LiveDone`: a lexicographic measure on the positions of
  `Course` which every step outside user code decreases; so a worker comes to poll or to rest, and C14 gives somebody who serves the queue (C59). `Wait`: every library method is
  a finite program without waits between calls of user code (`Calm`), and keeps the nesting of calls and callbacks in the history (C63).
* `Pool`: pairs are made only while all others are in the queue or in the hands of threads that fire or drain (C66).
* `Proofs/HB`: invariants that also speak of the history of operations; `HBPairs`, `HBCur`: every earlier access to a pair (to the
  current state) happens before what the thread that may access it next does next (C61, C62).
* From the automata to statements about histories: `Hist`, `Paths`, `Fates` (calls); `Event`, `Outcome`, `Processing`, `Fold`, `Stretch` (events).
* `Config`: induction over lists of configuration calls, with a closed form for every call. `Factory`: induction over lists of setup commands.
* `Logic/Own`, `Proofs/AppProto`, `AppOk`, `AppInv`: a second logic in which the code of client threads is restricted, for programs
  that use an app only through its own methods (`App.Wired`).
* Where the code violates the property, an execution of the model is given (an explicit schedule, evaluated by the kernel) and the
  negation is proved; the part that does hold is proved beside it, and has status `partial` in the manifest. True replacements
  were appended to the property list (C49 onwards).
* `Demo`: concrete environments and schedules. Beside each theorem an example applies it to one of them.

## 4. Per property

| id | theorems in | remarks |
|---|---|---|
| C01-C08 | Props/Config, Started | C05 is false (`receives` resets the mapping before it is checked): negation proved for every configuration |
| C09-C12, C25, C27-C29, C49 | Props/Calls | any environment. C25 false when `stop()` comes before or during `start()`; C29 false for null payloads |
| C13, C32, C33 | Props/Queue | any environment |
| C14 | Props/Stranded | queues that belong to one executor; refused tasks excepted (execution given) |
| C15-C24 | Props/Events, Workers, Ends | machines with a queue of their own and a single-threaded executor (`Alone`), arbitrary other machines, user code, schedules; pieces of history in which nobody starts or stops the machine or replaces its listener. C23 false for the initial state |
| C26 | Props/Ends | false in races with `stop()` and after a failed `start()` |
| C30, C31 | Props/Calls, Bounds | bound attained with several producers; duplicates possible with several producers or copies (executions) |
| C34 | Props/Factory, Workers | true for machines with strategies of their own; false for the default builder, which shares one queue (executions) |
| C35 | Props/Workers | single-threaded; execution with two workers |
| C36 | Props/Notes | true between calls of `start`, `stop`, `setStateMachineListener`; false across `start()` and across `stop()`; what remains true with interference is C60 |
| C37-C40 | Props/Util | C40 false when the counter overflows, C39 lines ambiguous with certain names (witnesses) |
| C41, C47 | Props/Lifecycle | the table is computed from the configuration calls; C47 via C15-C21 |
| C42-C46, C48, C50, C51 | Props/Service | C45, C48 false |
| C52, C55 | Props/Dup | invariant `DupInv` (Proofs/Dup): what a scan has seen, and which queue a pair belongs to |
| C53, C54 | Props/Callbacks | invariant `HonestConf` (Proofs/Honest) |
| C56 | Props/Rest | C17 (fold) over the events taken, C14 (all accepted events are taken), C49 (start) |
| C57 | Props/Course | any environment; C15-C24 say more, but only without interference |
| C58 | Props/Truth | as C15-C24; false if `stop()` is called meanwhile (two executions) |
| C59 | Props/Live | a queue with an executor of its own (any number of workers); weak fairness. Executors shared by several queues are not covered |
| C60 | Props/Script | any environment. Which state the actions belong to is C57; which states the listener is told, C57 and C58 |
| C61 | Props/DataRaces | any environment without drop-duplicate strategies; with them there are races (execution) |
| C62 | Props/DataRaces | executions in which clients keep to `Disciplined`; each clause is needed, and the service layer itself breaks it (executions) |
| C63 | Props/Wait | any environment; `start()` of an app, which does wait by design, is C44, C50 |
| C64, C65 | Props/Docs | as C15-C24; the documentation says something else (executions) |
| C66 | Props/Pool | strategies with a queue of their own; false for shared queues (execution) |
| C67 | Props/Quick | a closed program: the shared memory as a function of the positions of the two threads, checked position by position |
| C68 | Props/Actions | one thread, finished calls; not connected with the model of machines |
| C69 | Props/Interrupted | C46 for `start()`, and for the `stop()` it calls; what an interrupted `start()` does not see to (executions) |
| C70 | Props/Restored, Proofs/AppIntr | a protocol of its own with three control states: from the interruption on the thread sets its status before anything else and does not wait again until `start()` returns |
| C71 | Spec/Effects, Props/Effects | the fold of C17 without its hypothesis that no user code throws: the outcomes (which callback threw) are read off the history, C15 gives the events one by one, and each kind of handling has the effect its outcome says |
| C72 | Spec/Wiring, Proofs/Wiring, Props/Wiring | invariant over programs: a config holds what it was given last or something made for it (`Holds`); every call but the `with..` calls only fills in what is missing (`Grow`) |
| C73 | Props/Wiring | a builder keeps its strategy, machines keep theirs, and the owner of a strategy is the last machine built with it |
| C74 | Proofs/Settle, Proofs/SettleFire, Proofs/SettleStep, Props/Settle | from C59: the accepted event is processed; the state as a fold (C17) gives the first event that changes it; `Step`: a transition somewhere in an execution |
| C75 | Proofs/AppSettle, Props/Settle | C74 with the script of the entry action (C42): it runs within the transition, so `complete` or `error` is accepted after the transition began, and is taken after it has ended |
| C76 | Spec/AppLive, Proofs/AppWait, Props/AppReturns | a method of the app runs without waiting (`Free`) until the `await`; a fair thread comes to its end; nested calls by position in the history |
| C77 | Proofs/AppStops, Props/AppReturns | C12 gives the fate of the event fired by the call: accepted (C75), or the machine has ended, or the state has changed: STARTED has been left, and by the table the way leads to STOPPED; a released latch of count 1 is open |
| C78 | Spec/Exec, Proofs/Shared, Demo/Busy, Props/Shared | as C59, but a task of the queue moves up in the backlog whenever the executor begins a task; a worker that never ends takes events of one queue for ever; negations: the drain loop of a busy machine is followed symbolically for one lap of 28 steps, for arbitrary worlds |
| C79 | Spec/Npe, Props/Npe | from C57 (reasons of entries); which states a machine can get into from the acceptance of histories by the automaton of calls |
| C80 | Model/Direct, Spec/Direct, Proofs/Direct, Props/Direct | nesting automaton; weakest preconditions for programs, by induction over the number of steps |
| C81 | Spec/Direct, Props/Direct | executions |
| C82 | Model/Reconf, Spec/Reconf, Proofs/Reconf, Props/Reconf, Proofs/ReconfCalls, Props/ReconfCalls | Hoare logic over an exception-state monad; induction over the history |
| C83 | Spec/Determined, Props/Determined | from C15 (events one by one), by induction over the events |
| C84 | Model/Context, Spec/Context, Proofs/Context, Props/Context | invariant over a transition system of its own: the iterator in progress and the history since the phase began |
| C85 | Model/Queues, Spec/Queues, Proofs/Queues, Props/Queues | invariant over a transition system of its own; conditions under which an entry may be written |
| C86 | Model/Maps, Spec/Maps, Proofs/Maps, Props/Maps | refinement: the bins stand for a function on classes of equal keys |
| C87 | Model/Scan, Spec/Scan, Proofs/Scan, Props/Scan | invariant over a transition system of its own; each pair has one place |
| C88 | Model/Weak, Spec/Weak, Proofs/Weak, WeakSC, WeakStart, Props/Weak | every write follows a CAS of the same thread, for all results of reads; orders of writes from the order of the CASes; reads replaced one by one by sequentially consistent ones |
| C89 | Model/Plain, Spec/Plain, Proofs/Plain, Props/Plain | induction over the execution: reads replaced one by one by sequentially consistent ones; a justified read of a field without races returns what was written last |
| C90 | Proofs/HBListener, HBPayload, Props/Plain | who reads the listener knows of the start; what is read from a pair has been put there by a thread that had used the payload before: induction along the chain of threads |
| C91 | Spec/Footprint, Proofs/Footprint, Props/Footprint | all operations in the programs of the library, by structural induction; pairs and tasks contain only what has been fired |
| C92 | Spec/Checks, Proofs/HBWrites, Proofs/Passes, Proofs/Checks, Props/Checks | invariant about writes to pairs, and about what a thread in `fire` has read so far, in growing histories; a thread that reads something other than memory goes on as in a world that contains it |
| C93 | Spec/Loose, Proofs/Loose, Props/Loose | invariants that do not mention currentState, listeners and payloads hold in executions where these reads return anything: a thread that reads `v` goes on as in a world that contains `v`; course of a thread without memory (`Steps`, Props/Script) |
| C94 | Model/Reuse, Spec/Reuse, Proofs/Reuse, Props/Reuse | a relation between two executions with different pairs: `Lin` says that two programs are equal up to the names of the pairs they hold; pairs are matched while they are held or queued, and forgotten when given back |
| C95 | Spec/Meddle, Proofs/Meddle, Props/Meddle | refinement: a weak read is simulated by a write of the additional client, the read, and a write that takes it back; the automaton of Spec/Calls accepts all histories in which reads of currentState are weak; entries of the additional client are filtered out of calls |
| C96 | Model/Open, Proofs/Open, Props/Open | refinement: executions with calls of updateCurrentState() are executions with weak reads of currentState; consequences from C93 and C95; schedules as counterexamples |
| C97 | Model/Bypass, Proofs/Bypass, Props/Bypass | refinement: executions with direct calls of processEvent() are executions with weak reads of isStarted and isEnded; the invariants of C93 do not depend on these reads; schedules as counterexamples |
| C98 | Proofs/Stale, Props/Stale | a justified read of a pair returns its content or belongs to a check (C92), and the program tells which; the invariants of C93 do not depend on what a check finds, except the one about duplicates, where the only thread that fires finds what it wrote itself |
| C99 | Spec/Safe, Proofs/HBPayload, Proofs/Safe, Proofs/Monitored, Props/Safe | one induction over the execution carries the invariants behind C62, C63 and C89 together with C92: each read is of a pair, and then of the content or in a check, or of a field without races so far, and then of what was written last; the rest is executions in which only checks go wrong (`CRuns`), for which the invariants behind C15, C17, C22 and C57 hold |
| C100 | Spec/Names, Proofs/Names, Props/Names | logical relation: corresponding programs, operation by operation, have corresponding results and effects; induction over programs, user code and schedules; names are compared only through `AMap.get?`, `put`, `eqv` |
| C101 | Spec/Watch, Proofs/Watch, Props/Watch | simulation with stuttering: programs related to themselves without the calls of watching listeners; in one direction their steps are left out, in the other they are inserted (well-founded, never blocked) |
| C102 | Spec/Groups, Proofs/Groups, Props/Groups | simulation of the whole program by the group alone, with renaming of pairs and copies: the numbers that will be given out to the group are known in advance from the given execution; a frame lemma says that operations of one part do not touch the other |
| C103 | Spec/Groups, Proofs/Groups, Props/Elsewhere | the simulation of C102 between two programs; the states machines of the group get into are an invariant |
| C104 | Spec/Limits, Proofs/Limits, Props/Limits | simulation in lock step; the two programs are related as long as the sizes of queues they read are judged alike |
| C105 | Spec/Undup, Proofs/Undup, Props/Undup | simulation in which one side waits while the other scans; the ownership invariant says that pairs in queues are filled, so a scan does not throw |
| C106 | Spec/Cycle, Proofs/Cycle, Props/Cycle | nothing reads the history; the relation of C94 holds between two points at which no thread holds a pair, with the pairs of the queues matched in order |
| C107 | Spec/Asking, Proofs/Asking, Props/Asking | projection: every step of the others commutes with leaving out the threads that ask, every step of these changes nothing but the history |
| C108 | Spec/Shuffle, Proofs/Shuffle, Props/Shuffle | every step commutes with exchanging threads; nothing reads the history (Proofs/Cycle) |
| C109 | Spec/Calm, Proofs/Calm, Props/Calm | lock-step with the execution without interrupts; only `await` reads the interrupt status; C91 for programs |
| C110 | Spec/Orderly, Proofs/Orderly, Props/Orderly | lock-step with the execution without shutdown; only `submit` reads whether an executor is shut down |

## 5. Trusted base

* Lean's kernel. Axioms used: `propext`, `Classical.choice`, `Quot.sound` at most; `AXIOMS.md` lists them for every theorem of the manifest.
  No `sorry`, no `native_decide`, no `bv_decide`, no axioms of our own. `decide +kernel` is evaluated by the kernel.
* The reading of the Java source recorded by the citations in the model.
* The definitions in `Spec` and the statements in `Props`.

Where the model is coarser than the code, or leaves something out:

* Sequential consistency. Plain fields of the library are `currentState` and `stateMachineListener`, the fields of pairs, and the payload of
  events; stale reads and reorderings permitted by the Java memory model are not modelled. For executions without data races the
  Java memory model (JLS 17.4.5) promises sequential consistency; C61, C62 and C90 say for which there are none, on pairs, `currentState`, listeners and
  payloads. C89 proves the promise itself for the programs of the model, from happens-before consistency of reads alone. For clients that break the rules
  (`getCurrentState()`, `stop()` from outside, firing during `start()`, payloads or listeners changed while in use) the theorems
  hold of sequentially consistent executions only. For reads of `currentState` C88 says what may happen otherwise; there, everything but `currentState` is
  still sequentially consistent. For reads of pairs C92 says it, for all strategies, whatever reads of other plain fields return. With drop-duplicate strategies and the rules kept, C99 says that only the checks for duplicates may go wrong. C93 and C98 say which properties hold whatever reads of plain fields return, C95 that weak reads of listeners and payloads are no more than another client thread. Values a read may return are those of happens-before consistency, which permits more than the Java memory model; but
  in C89 and where C88 says so, only values written earlier in the execution (no circles of reads and writes that justify each other).
* Operations of `ConcurrentLinkedQueue`, `AtomicBoolean`, `ExecutorService`, `CountDownLatch` are atomic steps. The iteration of
  the drop-duplicates strategy takes the elements of the queue at one moment and then reads their contents one by one (except in `Scan`, C87, where it goes from node to node). `size()` is
  atomic (except in `Queues`, C85). The two writes and two reads of a pair are one step each (pairs are private at that time, C32).
* Executors run tasks asynchronously on a fixed number of workers; a worker whose task dies from an uncaught throwable goes on with the
  next one. Executors that run tasks in the calling thread are in `Model/Direct`, for C80 and C81 only; they are never shut down.
* Machines are configured before any thread runs. Configuration calls on a running machine are in `Model/Reconf`, for C82 only, where one
  thread runs at a time (the maps are `HashMap`s: what concurrent changes do to them is not modelled). Not modelled: actions
  appended to a state meanwhile (except C68, for states alone), calls of the public method `setStates` of a strategy from outside (they replace its table).
* The public methods of `GenericStateMachine` that `StateMachine` does not have: `updateCurrentState` is in `Open` (C96) only; `notifyStateMachineListener`, called from outside, is not modelled (it calls the listener, as user code can do itself). Calls of strategies that go round `fire` are in `Bypass` (C97) only, and only with the strategy of the machine. A `DefaultEventStrategy` that is used both by itself and inside a `DropDuplicateEventStrategy` is not modelled.
* All states are `NamedState`s; events may be of any class whose `equals` is class + name. `fire(null)` is in `Reuse` (C94) only; `null` names are not modelled except in `Maps` (C86).
* `int` arithmetic is modelled where it matters (thread numbers, C40; the queue bound is an arbitrary integer).
* Logging is not modelled except where a property is about it (C39; "Main latch was interrupted"; dropped duplicates). Formatting
  by log4j and thread names of loggers are not modelled.
* Stack overflow, out of memory and thread death are not modelled. User code terminates between two API calls, but may run forever through
  calls of procedures or of the library.
* Apps: the list of subsystems is fixed (except in `Context`, C84, where what subsystems do is reduced to whether they throw); client code uses the machine of an app only through the app's methods (`App.Outside`); subsystems and listeners
  may do anything else. The context object is opaque.

## 6. Testing the theorems

* `tools/mutate.py`: applies an edit to the model in a scratch copy, rebuilds, replaces proofs that fail by `sorry` until everything
  builds, and lists the manifest theorems that now depend on `sorryAx`.
* `tools/oracle.py`: runs the specification automata and other executable forms of the theorems' conclusions on random schedules of the
  mutated model, which shows that the *statements* are false there, not only that the proofs break.
* Results are logged in `seeded/LOG.jsonl`.
