{"id": "C01", "title": "initial state first, and exactly once", "statement": "Until an initialSate(..) call has succeeded, when/receives/itTransitionsTo/itEnds/itDoesNotTransition and start() all throw IllegalStateException; after it has succeeded every further initialSate(..) with a usable state throws IllegalStateException, and the initial state never changes.", "quantifier": "every finite sequence of configuration calls, with arbitrary arguments, including failing calls", "why_tests_cant": "the claim ranges over every call history; a test fixes one", "anchors": ["src/main/java/com/webotech/statemachine/GenericStateMachine.java: initialSate, when, receives, itEnds, itTransitionsTo, itDoesNotTransition, assertInitStateDefined"]}
{"id": "C02", "title": "reserved names never enter a configuration", "statement": "A configuration call whose state (or event) argument carries a reserved name throws IllegalStateException; after any history the reserved states have no outgoing transition, every configured target is either a non-reserved user state or the machine's own END/NOOP state, and the reserved immediate event only ever leads to END.", "quantifier": "every sequence of configuration calls with arbitrary names", "why_tests_cant": "the claim ranges over every call history; a test fixes one", "anchors": ["src/main/java/com/webotech/statemachine/GenericStateMachine.java: assertNotReservedState, assertNotReservedStateEvent, reservedStateNames"]}
{"id": "C03", "title": "a rejected configuration call changes nothing", "statement": "If a configuration call throws, the configuration (initial state, clause in progress, all transitions) is exactly what it was before the call.", "quantifier": "every configuration history and every call made after it", "why_tests_cant": "the claim ranges over every call history; a test fixes one", "anchors": ["src/main/java/com/webotech/statemachine/GenericStateMachine.java: initialSate..itDoesNotTransition and the assert* methods"]}
{"id": "C04", "title": "a clause sets exactly one transition", "statement": "After when(A).receives(e).itTransitionsTo(B) (resp. itEnds, itDoesNotTransition) is accepted, e received in A leads to B (resp. END, NOOP), and what every other (state, event) pair leads to is unchanged.", "quantifier": "every reachable configuration, all A, e, B, and every other (state,event) pair", "why_tests_cant": "the claim ranges over every call history; a test fixes one", "anchors": ["src/main/java/com/webotech/statemachine/GenericStateMachine.java: when, receives, itTransitionsTo, itEnds, itDoesNotTransition"]}
{"id": "C05", "title": "a transition cannot be configured twice", "statement": "Configuring a second outcome for a (state, event) pair that already has one is rejected with IllegalStateException (assertEventNotMapped).", "quantifier": "every reachable configuration and every pair already mapped", "why_tests_cant": "the claim ranges over every call history; a test fixes one", "anchors": ["src/main/java/com/webotech/statemachine/GenericStateMachine.java: assertEventNotMapped, receives"]}
{"id": "C06", "title": "start() accepts exactly the complete configurations", "statement": "start() on a never-started machine throws IllegalStateException if there is no initial state or some receives(e) was never given an outcome, and otherwise starts the machine.", "quantifier": "every configuration reachable by any call sequence", "why_tests_cant": "the claim ranges over every call history; a test fixes one", "anchors": ["src/main/java/com/webotech/statemachine/GenericStateMachine.java: start"]}
{"id": "C07", "title": "immediate end only for states without transitions", "statement": "when(S).itEnds() with no event is accepted exactly when S has no transition configured; once accepted S is a state in which the machine ends.", "quantifier": "every reachable configuration, every state", "why_tests_cant": "the claim ranges over every call history; a test fixes one", "anchors": ["src/main/java/com/webotech/statemachine/GenericStateMachine.java: itEnds, assertNoMappingsExistAtEnd"]}
{"id": "C08", "title": "the configuration DSL accepts exactly its grammar", "statement": "For non-reserved arguments, which of the calls initialSate/when/receives/outcome is accepted next depends only on the phase: nothing configured, no clause open, clause open, clause open with an event; a call sequence is accepted iff it follows that four-phase automaton (and the immediate-end/double null-event side conditions).", "quantifier": "every call sequence of any length", "why_tests_cant": "the claim ranges over every call history; a test fixes one", "anchors": ["src/main/java/com/webotech/statemachine/GenericStateMachine.java: configuration methods and assert* methods"]}
{"id": "C09", "title": "at most one start succeeds", "statement": "Over the whole life of a machine, among all start() and startInState() calls made from any threads at most one returns normally past the started check; all the others throw IllegalStateException, and isStarted() never goes back to false.", "quantifier": "every schedule, any number of threads, all user code", "why_tests_cant": "the claim ranges over every interleaving of an unbounded number of threads; a test observes a few schedules", "anchors": ["src/main/java/com/webotech/statemachine/GenericStateMachine.java: start, startInState, isStarted"]}
{"id": "C10", "title": "fire before start has no effect", "statement": "fire(e) performed on a machine that has not been started calls onEventBeforeMachineStart(e) exactly once, enqueues nothing, and changes neither the machine nor the queue.", "quantifier": "every event, every not-started machine world", "why_tests_cant": "the claim ranges over every call history; a test fixes one", "anchors": ["src/main/java/com/webotech/statemachine/GenericStateMachine.java: fire"]}
{"id": "C11", "title": "fire after end has no effect", "statement": "fire(e) performed on an ended machine calls onEventAfterMachineEnd(e) exactly once and enqueues nothing.", "quantifier": "every event, every ended machine world", "why_tests_cant": "the claim ranges over every call history; a test fixes one", "anchors": ["src/main/java/com/webotech/statemachine/GenericStateMachine.java: fire"]}
{"id": "C12", "title": "every fire has exactly one fate", "statement": "Each fire(e) call, under every interleaving, has exactly one of the outcomes: before-start callback, after-end callback, queue-full callback, dropped as a duplicate, or enqueued exactly once (followed by one executor submission); never two and never none.", "quantifier": "every schedule, every strategy configuration, all user code", "why_tests_cant": "the claim ranges over every interleaving of an unbounded number of threads; a test observes a few schedules", "anchors": ["src/main/java/com/webotech/statemachine/GenericStateMachine.java: fire", "src/main/java/com/webotech/statemachine/strategy/DefaultEventStrategy.java: processEvent", "src/main/java/com/webotech/statemachine/strategy/DropDuplicateEventStrategy.java: processEvent"]}
{"id": "C13", "title": "events are taken in the order they were accepted", "statement": "For every queue, the sequence of (event, machine) pairs taken for processing is a prefix of the sequence accepted into it; nothing is reordered, altered, invented or taken twice.", "quantifier": "every schedule, any number of producers, workers, machines and strategies", "why_tests_cant": "the claim ranges over every interleaving of an unbounded number of threads; a test observes a few schedules", "anchors": ["src/main/java/com/webotech/statemachine/strategy/DefaultEventStrategy.java: processEvent", "src/main/java/com/webotech/statemachine/strategy/EventMachinePairPool.java: take, give"]}
{"id": "C14", "title": "no accepted event is stranded", "statement": "Whenever an event is waiting in the queue, there is a drain task pending, or a drain that has not looked yet, or a producer that still has to submit one (as long as the executor accepts tasks); hence when all calls have returned, the executor has no task and its workers are idle, the queue is empty, even if user code threw Errors that killed drains.", "quantifier": "every schedule, all user code including code throwing Errors", "why_tests_cant": "the claim ranges over every interleaving of an unbounded number of threads; a test observes a few schedules", "anchors": ["src/main/java/com/webotech/statemachine/strategy/DefaultEventStrategy.java: processEvent"]}
{"id": "C15", "title": "events of a machine are processed one at a time", "statement": "With a single-threaded executor and a queue of its own, processing of one event of a machine (all listener callbacks and actions) is complete before the next event of that machine is taken.", "quantifier": "every schedule, any number of client threads, all user code", "why_tests_cant": "the claim ranges over every interleaving of an unbounded number of threads; a test observes a few schedules", "anchors": ["src/main/java/com/webotech/statemachine/strategy/DefaultEventStrategy.java: processEvent", "src/main/java/com/webotech/statemachine/strategy/TransitionTask.java: execute"]}
{"id": "C16", "title": "transition protocol", "statement": "For an event with a configured transition A->B: listener begin(A,e,B), then all exit actions of A in append order, then the current state becomes B, then all entry actions of B in append order, then listener end(A,e,B); nothing is skipped, repeated or reordered unless user code throws or stop() is called.", "quantifier": "every schedule, every table, any numbers of actions, all user code", "why_tests_cant": "the claim ranges over every interleaving of an unbounded number of threads; a test observes a few schedules", "anchors": ["src/main/java/com/webotech/statemachine/strategy/TransitionTask.java: execute", "src/main/java/com/webotech/statemachine/NamedState.java: onEntry, onExit", "src/main/java/com/webotech/statemachine/GenericStateMachine.java: notifyStateMachineListener"]}
{"id": "C17", "title": "the current state is the fold of the table over the processed events", "statement": "As long as nobody calls stop() and no user code throws, whenever no event is in processing getCurrentState() is the state obtained from the start state by folding the configured transition table over the events taken so far, and isEnded() says whether that fold reached the end.", "quantifier": "every schedule, every event sequence of any length, every table", "why_tests_cant": "the claim ranges over every interleaving of an unbounded number of threads; a test observes a few schedules", "anchors": ["src/main/java/com/webotech/statemachine/strategy/TransitionTask.java: execute", "src/main/java/com/webotech/statemachine/GenericStateMachine.java: updateCurrentState"]}
{"id": "C18", "title": "no-transition events only notify", "statement": "An event configured with itDoesNotTransition causes exactly begin(A,e,_NOOP_) and end(A,e,_NOOP_); no action runs and the current state does not change.", "quantifier": "every schedule, every table, every such event", "why_tests_cant": "the claim ranges over every interleaving of an unbounded number of threads; a test observes a few schedules", "anchors": ["src/main/java/com/webotech/statemachine/strategy/TransitionTask.java: execute", "src/main/java/com/webotech/statemachine/GenericStateMachine.java: itDoesNotTransition"]}
{"id": "C19", "title": "unmapped events only reach the unmapped handler", "statement": "An event with no outcome in the current state causes exactly one call of the unmapped-event handler; no listener callback, no action, no state change.", "quantifier": "every schedule, every table, every such event", "why_tests_cant": "the claim ranges over every interleaving of an unbounded number of threads; a test observes a few schedules", "anchors": ["src/main/java/com/webotech/statemachine/strategy/TransitionTask.java: execute"]}
{"id": "C20", "title": "an exception before the state change leaves the state", "statement": "If the begin callback or an exit action throws an Exception, no later action of the transition runs, the current state stays A, end is not notified, and onExceptionDuringEventProcessing is called exactly once with that event.", "quantifier": "every schedule, every position of the throwing action", "why_tests_cant": "the claim ranges over every interleaving of an unbounded number of threads; a test observes a few schedules", "anchors": ["src/main/java/com/webotech/statemachine/strategy/TransitionTask.java: execute", "src/main/java/com/webotech/statemachine/strategy/DefaultEventStrategy.java: processEvent"]}
{"id": "C21", "title": "an exception after the state change leaves the new state", "statement": "If an entry action throws an Exception, the current state is B, no later entry action runs, end is not notified, onExceptionDuringEventProcessing is called exactly once; the machine is not ended by this transition even when B is a final state.", "quantifier": "every schedule, every position of the throwing action", "why_tests_cant": "the claim ranges over every interleaving of an unbounded number of threads; a test observes a few schedules", "anchors": ["src/main/java/com/webotech/statemachine/strategy/TransitionTask.java: execute", "src/main/java/com/webotech/statemachine/strategy/DefaultEventStrategy.java: processEvent"]}
{"id": "C22", "title": "a failing event does not stop the machine", "statement": "Whatever Exception user code throws while an event is processed (flow listener not throwing), the drain goes on: the exception never escapes the worker, and the next event is processed under the normal protocol.", "quantifier": "every schedule, all user code", "why_tests_cant": "the claim ranges over every interleaving of an unbounded number of threads; a test observes a few schedules", "anchors": ["src/main/java/com/webotech/statemachine/strategy/DefaultEventStrategy.java: processEvent"]}
{"id": "C23", "title": "reaching a final state ends the machine", "statement": "When a transition into a state that is final (configured with itEnds or never configured) completes, isEnded() becomes true and the current state becomes _END_ before the next event is taken; an event configured with itEnds does the same. This should hold for the initial state too.", "quantifier": "every table, every schedule", "why_tests_cant": "the claim ranges over every interleaving of an unbounded number of threads; a test observes a few schedules", "anchors": ["src/main/java/com/webotech/statemachine/strategy/TransitionTask.java: execute", "src/main/java/com/webotech/statemachine/GenericStateMachine.java: stop, start, itEnds"]}
{"id": "C24", "title": "an ended machine processes nothing", "statement": "Once the machine has ended, every event still in the queue is discarded without any listener callback, action or handler call.", "quantifier": "every schedule, any queue contents", "why_tests_cant": "the claim ranges over every interleaving of an unbounded number of threads; a test observes a few schedules", "anchors": ["src/main/java/com/webotech/statemachine/strategy/DefaultEventStrategy.java: processEvent", "src/main/java/com/webotech/statemachine/GenericStateMachine.java: isEnded"]}
{"id": "C25", "title": "end is permanent", "statement": "Once isEnded() has become true it stays true.", "quantifier": "every schedule, all user code", "why_tests_cant": "the claim ranges over every interleaving of an unbounded number of threads; a test observes a few schedules", "anchors": ["src/main/java/com/webotech/statemachine/GenericStateMachine.java: start, stop, updateCurrentState, isEnded"]}
{"id": "C26", "title": "ended means current state _END_", "statement": "Whenever isEnded() is true and no call is in progress, getCurrentState() is _END_.", "quantifier": "every schedule, all user code", "why_tests_cant": "the claim ranges over every interleaving of an unbounded number of threads; a test observes a few schedules", "anchors": ["src/main/java/com/webotech/statemachine/GenericStateMachine.java: updateCurrentState, stop"]}
{"id": "C27", "title": "stop() is immediate and idempotent", "statement": "After stop() returns on a machine no start of which is in progress, isEnded() is true; a stop() on an ended machine changes nothing.", "quantifier": "every schedule, all user code", "why_tests_cant": "the claim ranges over every interleaving of an unbounded number of threads; a test observes a few schedules", "anchors": ["src/main/java/com/webotech/statemachine/GenericStateMachine.java: stop, updateCurrentState"]}
{"id": "C28", "title": "startInState starts silently in a configured state", "statement": "startInState(S) throws for a state that is not configured and changes nothing; otherwise, on a machine not started, the machine is started in S with no listener callback and no action.", "quantifier": "every table, every state, every world", "why_tests_cant": "the claim ranges over every call history; a test fixes one", "anchors": ["src/main/java/com/webotech/statemachine/GenericStateMachine.java: startInState"]}
{"id": "C29", "title": "payload is captured when fired", "statement": "If the event has a payload when fire is called, the event object seen by actions carries that payload whatever the client later sets on its own event object; this should hold for a null payload too.", "quantifier": "every schedule, all later setPayload calls", "why_tests_cant": "the claim ranges over every interleaving of an unbounded number of threads; a test observes a few schedules", "anchors": ["src/main/java/com/webotech/statemachine/strategy/DefaultEventStrategy.java: processEvent", "src/main/java/com/webotech/statemachine/NamedStateEvent.java: NamedStateEvent(StateEvent), setPayload"]}
{"id": "C30", "title": "bounded queue", "statement": "With maxQueueSize n>0, an event fired when n or more events are queued is not enqueued and is reported to onExceptionDuringEventProcessing; with k threads firing concurrently the queue never holds more than n+k-1 events (n with a single producer).", "quantifier": "every schedule, any n, any k", "why_tests_cant": "the claim ranges over every interleaving of an unbounded number of threads; a test observes a few schedules", "anchors": ["src/main/java/com/webotech/statemachine/strategy/DefaultEventStrategy.java: processEvent, maxQueueSize"]}
{"id": "C31", "title": "drop-duplicate strategy", "statement": "An event equal to one already queued when it is checked is dropped and nothing else happens; with a single producer that fires events of the library's class the queue never contains two equal events (with two producers, or with copies of payload-carrying events of other classes, it can).", "quantifier": "every schedule, every queue content", "why_tests_cant": "the claim ranges over every interleaving of an unbounded number of threads; a test observes a few schedules", "anchors": ["src/main/java/com/webotech/statemachine/strategy/DropDuplicateEventStrategy.java: processEvent"]}
{"id": "C32", "title": "pooled pairs are never shared", "statement": "A pooled event/machine pair is never at the same time in the pool and in a queue, in two queues, twice in one, or held by two threads; so a queued event can never be overwritten by a later fire.", "quantifier": "every schedule, any number of strategies, queues and threads", "why_tests_cant": "the claim ranges over every interleaving of an unbounded number of threads; a test observes a few schedules", "anchors": ["src/main/java/com/webotech/statemachine/strategy/EventMachinePairPool.java: take, give", "src/main/java/com/webotech/statemachine/strategy/DefaultEventStrategy.java: processEvent"]}
{"id": "C33", "title": "queue size accounting", "statement": "getEventQueueSize() is always the number of events accepted minus the number taken for processing, hence never negative and zero exactly when all accepted events were taken.", "quantifier": "every schedule", "why_tests_cant": "the claim ranges over every interleaving of an unbounded number of threads; a test observes a few schedules", "anchors": ["src/main/java/com/webotech/statemachine/strategy/DefaultEventStrategy.java: getEventQueueSize", "src/main/java/com/webotech/statemachine/GenericStateMachine.java: getEventQueueSize"]}
{"id": "C34", "title": "machines do not interfere", "statement": "A machine's events are processed only against that machine's own transitions, and what happens in another machine cannot change its state or consume its events, when each has its own strategy. This should hold for machines built with the default builder too.", "quantifier": "every schedule, any number of machines", "why_tests_cant": "the claim ranges over every interleaving of an unbounded number of threads; a test observes a few schedules", "anchors": ["src/main/java/com/webotech/statemachine/strategy/EventProcessingStrategyFactory.java: createDefaultStrategy, basicConfig, Config.getEventQueue, Config.getExecutor", "src/main/java/com/webotech/statemachine/GenericStateMachine.java: Builder.build", "src/main/java/com/webotech/statemachine/strategy/DefaultEventStrategy.java: processEvent"]}
{"id": "C35", "title": "a single-threaded drain never finds the queue empty after its check", "statement": "With a single-threaded executor owning the queue, a drain never fails on an empty queue (no NullPointerException escapes to the worker thread); with several workers it can.", "quantifier": "every schedule", "why_tests_cant": "the claim ranges over every interleaving of an unbounded number of threads; a test observes a few schedules", "anchors": ["src/main/java/com/webotech/statemachine/strategy/DefaultEventStrategy.java: processEvent"]}
{"id": "C36", "title": "listener callbacks are properly bracketed", "statement": "After start() has returned, a listener installed throughout sees for one machine a sequence in which every end(f,e,t) immediately follows its begin(f,e,t): callbacks never nest or overlap; a begin without end only when user code threw or stop() intervened. This should hold across start() too.", "quantifier": "every schedule", "why_tests_cant": "the claim ranges over every interleaving of an unbounded number of threads; a test observes a few schedules", "anchors": ["src/main/java/com/webotech/statemachine/GenericStateMachine.java: notifyStateMachineListener, start", "src/main/java/com/webotech/statemachine/strategy/TransitionTask.java: execute"]}
{"id": "C37", "title": "HandleExceptionAction contains exceptions", "statement": "A HandleExceptionAction runs the wrapped action; if that throws an Exception the handler is called exactly once with it and nothing propagates unless the handler throws; Errors propagate and the handler is not called.", "quantifier": "every wrapped action, every handler, every world", "why_tests_cant": "the claim ranges over every call history; a test fixes one", "anchors": ["src/main/java/com/webotech/statemachine/HandleExceptionAction.java: execute"]}
{"id": "C38", "title": "MultiConsumerStateMachineListener is a set of listeners", "statement": "After any history of add/remove, a listener is called back iff its last effective operation was add, exactly once per notification; add/remove return whether they changed the set. If a listener throws, the exception is passed on and the listeners that come later in the iteration are not called: callbacks are not independent of failures of the others.", "quantifier": "every add/remove history, every iteration order, all listener behaviours", "why_tests_cant": "the claim ranges over every call history; a test fixes one", "anchors": ["src/main/java/com/webotech/statemachine/MultiConsumerStateMachineListener.java: add, remove, onStateChangeBegin, onStateChangeEnd"]}
{"id": "C39", "title": "LoggingStateMachineListener lines", "statement": "For every transition the listener logs exactly one line per callback in the documented format, with the name variant iff the name is non-empty; distinct transitions with names free of the separators give distinct begin lines.", "quantifier": "all names", "why_tests_cant": "the claim ranges over every call history; a test fixes one", "anchors": ["src/main/java/com/webotech/statemachine/LoggingStateMachineListener.java: logChange"]}
{"id": "C40", "title": "thread names are unique", "statement": "Threads created by any of the named daemon thread factories of the process, whatever their base names, are daemon threads with pairwise different names of the form base-n.", "quantifier": "every interleaving of thread creations over all factories (below integer overflow)", "why_tests_cant": "the claim ranges over every call history; a test fixes one", "anchors": ["src/main/java/com/webotech/statemachine/util/Threads.java: NamedDaemonThreadFactory.newThread"]}
{"id": "C41", "title": "lifecycle table", "statement": "configureAppStateMachine accepts any five distinct non-reserved states and yields exactly the nine documented transitions and no others.", "quantifier": "all quintuples of states with pairwise different non-reserved names", "why_tests_cant": "the claim ranges over every call history; a test fixes one", "anchors": ["src/main/java/com/webotech/statemachine/service/LifecycleStateMachineUtil.java: configureAppStateMachine"]}
{"id": "C42", "title": "subsystems start in order and stop in reverse order", "statement": "Entering STARTING starts subsystems 0,1,2,.. in order, each at most once and only after the previous returned; entering STOPPING stops them in exactly the reverse order; all of them unless one throws.", "quantifier": "any number of subsystems, all subsystem behaviours, every schedule", "why_tests_cant": "the claim ranges over every interleaving of an unbounded number of threads; a test observes a few schedules", "anchors": ["src/main/java/com/webotech/statemachine/service/AbstractAppService.java: configureAppStateMachine (starting, stopping actions)"]}
{"id": "C43", "title": "a failing subsystem aborts the phase with an error event", "statement": "If subsystem k throws an Exception in start (stop), no later subsystem is started (stopped), complete is not fired, and exactly one error event is fired.", "quantifier": "any number of subsystems, any k, all behaviours", "why_tests_cant": "the claim ranges over every call history; a test fixes one", "anchors": ["src/main/java/com/webotech/statemachine/service/AbstractAppService.java: configureAppStateMachine", "src/main/java/com/webotech/statemachine/HandleExceptionAction.java: execute"]}
{"id": "C44", "title": "start() of an app blocks until it has stopped", "statement": "In exit-on-stop mode the first start() call does not return normally before the STOPPED state has been entered (unless the waiting thread is interrupted).", "quantifier": "every schedule", "why_tests_cant": "the claim ranges over every interleaving of an unbounded number of threads; a test observes a few schedules", "anchors": ["src/main/java/com/webotech/statemachine/service/AbstractAppService.java: start, stopped entry action"]}
{"id": "C45", "title": "a stopped restartable app can exit", "statement": "In restartable mode (isExitOnStop false), a stop in state STOPPED ends the process: the blocked start() call returns.", "quantifier": "every schedule", "why_tests_cant": "the claim ranges over every interleaving of an unbounded number of threads; a test observes a few schedules", "anchors": ["src/main/java/com/webotech/statemachine/service/AbstractAppService.java: start, stop, appLatch"]}
{"id": "C46", "title": "app start/stop guards", "statement": "start() on a started app throws IllegalStateException and fires nothing unless the app is restartable and STOPPED, in which case it fires exactly one start event; stop() fires exactly one stop event in STARTED (or, if restartable, STOPPED), does nothing in STOPPED of an exit-on-stop app, and otherwise throws IllegalStateException and fires nothing.", "quantifier": "every lifecycle state, both modes", "why_tests_cant": "the claim ranges over every call history; a test fixes one", "anchors": ["src/main/java/com/webotech/statemachine/service/AbstractAppService.java: start, stop"]}
{"id": "C47", "title": "error leads to STOPPED", "statement": "An error event processed in STARTING, STARTED or STOPPING leads to STOPPED; in UNINITIALISED and STOPPED it is ignored.", "quantifier": "every lifecycle state, every schedule", "why_tests_cant": "the claim ranges over every interleaving of an unbounded number of threads; a test observes a few schedules", "anchors": ["src/main/java/com/webotech/statemachine/service/LifecycleStateMachineUtil.java: configureAppStateMachine", "src/main/java/com/webotech/statemachine/service/AbstractAppService.java: error"]}
{"id": "C48", "title": "start() of an app returns cleanly", "statement": "When an exit-on-stop app is stopped properly, its start() call returns without an exception.", "quantifier": "every schedule", "why_tests_cant": "the claim ranges over every interleaving of an unbounded number of threads; a test observes a few schedules", "anchors": ["src/main/java/com/webotech/statemachine/service/AbstractAppService.java: start (finally block), stop"]}
{"id": "C49", "title": "start() enters the initial state under the transition protocol", "statement": "A start() call that gets past its checks marks the machine as started, makes the initial state current, then (if a listener is installed) notifies begin(_UNINITIALISED_,_immediate_,S), runs all entry actions of S in append order, notifies end, and resets isEnded; if user code throws, it stops there and start() throws that exception; if the checks fail it throws and does nothing at all.", "quantifier": "every schedule, any number of entry actions, all user code", "why_tests_cant": "the claim ranges over every interleaving of an unbounded number of threads; a test observes a few schedules", "anchors": ["src/main/java/com/webotech/statemachine/GenericStateMachine.java: start, notifyStateMachineListener", "src/main/java/com/webotech/statemachine/NamedState.java: onEntry"]}
{"id": "C50", "title": "a restartable app never releases the thread that started it", "statement": "In restartable mode a start() call returns normally only if it restarted a stopped app (then it has fired exactly one start event) or if its thread was interrupted while it waited. Nothing else makes it return: not a stop, and not a second stop, which ends the machine.", "quantifier": "every schedule, any number of subsystems and client threads, all user code", "why_tests_cant": "the claim ranges over every interleaving of an unbounded number of threads; a test observes a few schedules", "anchors": ["src/main/java/com/webotech/statemachine/service/AbstractAppService.java: start, stop, appLatch"]}
{"id": "C51", "title": "start() of an app throws only what its parts throw", "statement": "If start() of an app throws x, then either it was refused (x is IllegalStateException and nothing was done), or x was thrown by the machine's start(), by firing the start event, or by its own final call of stop(). The last can be an IllegalStateException although the app was stopped properly: if the machine ends between the isEnded test and the stop() call.", "quantifier": "every schedule, all user code", "why_tests_cant": "the claim ranges over every interleaving of an unbounded number of threads; a test observes a few schedules", "anchors": ["src/main/java/com/webotech/statemachine/service/AbstractAppService.java: start (finally block), stop"]}
{"id": "C52", "title": "events are dropped only for a reason", "statement": "If fire(e) with the drop-duplicate strategy drops e, then at some moment of that call an equal event was waiting in the queue, or another thread was in the middle of firing an equal event (or one whose copy is equal) to a machine with the same queue; if no other thread fires to the queue, an equal event was waiting. The events compared may belong to another machine that shares the strategy: then an event can be lost although its machine has none like it.", "quantifier": "every schedule, any number of producers, workers, machines and strategies", "why_tests_cant": "the claim ranges over every interleaving of an unbounded number of threads; a test observes a few schedules", "anchors": ["src/main/java/com/webotech/statemachine/strategy/DropDuplicateEventStrategy.java: processEvent", "src/main/java/com/webotech/statemachine/strategy/EventMachinePairPool.java: take, give", "src/main/java/com/webotech/statemachine/strategy/DefaultEventStrategy.java: processEvent"]}
{"id": "C53", "title": "callbacks run the configured code", "statement": "Whenever the library calls user code (an action, a listener, the unmapped-event handler, a flow listener), the history has just recorded which callback it is, the code is the one configured for it (the i-th action of that state, the listener installed in that machine at that moment, the handler of the strategy), and its outcome is recorded as it is. Nothing else is ever run in its place, and nothing recorded is not run.", "quantifier": "every schedule, all user code", "why_tests_cant": "the claim ranges over every interleaving of an unbounded number of threads; a test observes a few schedules", "anchors": ["src/main/java/com/webotech/statemachine/strategy/TransitionTask.java: execute", "src/main/java/com/webotech/statemachine/NamedState.java: onEntry, onExit", "src/main/java/com/webotech/statemachine/GenericStateMachine.java: fire, notifyStateMachineListener", "src/main/java/com/webotech/statemachine/strategy/DefaultEventStrategy.java: processEvent"]}
{"id": "C54", "title": "getters tell the truth", "statement": "isStarted, isEnded, getCurrentState, getEventQueueSize and getPayload take effect at one moment, change nothing and return what the history up to that moment says; in particular getCurrentState during the exit actions of a transition is the old state, during the entry actions the new one.", "quantifier": "every schedule, every moment, called from any thread including user code", "why_tests_cant": "the claim ranges over every interleaving of an unbounded number of threads; a test observes a few schedules", "anchors": ["src/main/java/com/webotech/statemachine/GenericStateMachine.java: isStarted, isEnded, getCurrentState, getEventQueueSize", "src/main/java/com/webotech/statemachine/NamedStateEvent.java: getPayload"]}
{"id": "C55", "title": "the queued event is equal to the fired one", "statement": "What fire(e) puts into the queue is equal to e in the sense of equals(), so it is treated by the transition table like e, for every event of the library's own class, with or without payload; for events of other classes that carry a payload this can fail, and the configured transition is not found.", "quantifier": "every schedule, every event", "why_tests_cant": "the claim ranges over every interleaving of an unbounded number of threads; a test observes a few schedules", "anchors": ["src/main/java/com/webotech/statemachine/strategy/DefaultEventStrategy.java: processEvent", "src/main/java/com/webotech/statemachine/NamedStateEvent.java: NamedStateEvent(StateEvent), equals, hashCode"]}
{"id": "C56", "title": "at rest, the state is the fold over everything that was accepted", "statement": "Suppose a machine with an own strategy and a single-threaded executor is started once without interference, nobody starts or stops it or replaces its listener after that, none of its user code throws, and no task is refused. When everything has come to rest, its state is the fold of its transition table over all events accepted since the beginning, in the order of acceptance, starting at the initial state: no accepted event is forgotten and none counts twice.", "quantifier": "every schedule, any number of producers, all user code", "why_tests_cant": "the claim ranges over every interleaving of an unbounded number of threads; a test observes a few schedules", "anchors": ["src/main/java/com/webotech/statemachine/GenericStateMachine.java: fire, start", "src/main/java/com/webotech/statemachine/strategy/DefaultEventStrategy.java: processEvent", "src/main/java/com/webotech/statemachine/strategy/TransitionTask.java: execute"]}
{"id": "C57", "title": "whatever interferes, everything done for an event has a reason", "statement": "In any environment (shared queues, strategies and executors, executors with several threads, start, stop and setStateMachineListener calls at any time) a thread that processes events follows a fixed course, and everything it does has a reason in the history: an event is taken only by a thread of the strategy's executor; a listener call (f,e,t) means that the machine was in f at some moment since e was taken and that the table leads with e to t from a state the machine was in at some moment since; an action belongs to a state the machine was in since; a state is entered only if the table leads there and the machine has not ended; an exception is reported only if user code threw it or state, table row or listener were missing.", "quantifier": "every environment, every schedule", "why_tests_cant": "the claim ranges over every interleaving of an unbounded number of threads; a test observes a few schedules", "anchors": ["src/main/java/com/webotech/statemachine/strategy/TransitionTask.java: execute", "src/main/java/com/webotech/statemachine/strategy/DefaultEventStrategy.java: processEvent", "src/main/java/com/webotech/statemachine/GenericStateMachine.java: notifyStateMachineListener, setCurrentState"]}
{"id": "C58", "title": "callbacks tell the truth", "statement": "While an event is processed and nobody starts or stops the machine or replaces its listener meanwhile, begin(a,e,b) is reported when a is current and the table leads with e to b; end(a,e,b) is reported when the machine was in a when e was taken and b is current now (a, if e is configured with no transition); exit actions run in the state they belong to, entry actions too. If somebody calls stop() meanwhile, the listener can be told of transitions that are not configured or never took place.", "quantifier": "every schedule, every moment of the processing", "why_tests_cant": "the claim ranges over every interleaving of an unbounded number of threads; a test observes a few schedules", "anchors": ["src/main/java/com/webotech/statemachine/strategy/TransitionTask.java: execute", "src/main/java/com/webotech/statemachine/GenericStateMachine.java: notifyStateMachineListener, setCurrentState, stop"]}
{"id": "C59", "title": "every accepted event is processed in the end", "statement": "If a queue has an executor of its own which refuses and drops none of its tasks, threads are scheduled fairly, and user code called in the workers always returns, then every event accepted by fire() is eventually taken by a worker, in the order of acceptance, and its processing eventually ends; whatever else user code does (throw Errors, fire further events for ever, start, stop, interrupt). For being taken it is enough that user code returns in one of the workers.", "quantifier": "every infinite execution with fair scheduling", "why_tests_cant": "the claim ranges over every interleaving of an unbounded number of threads; a test observes a few schedules", "anchors": ["src/main/java/com/webotech/statemachine/strategy/DefaultEventStrategy.java: processEvent", "src/main/java/com/webotech/statemachine/strategy/TransitionTask.java: execute"]}
{"id": "C60", "title": "order and number of callbacks for an event", "statement": "From the moment a worker has taken an event until it is done with it, the callbacks it makes and the states it enters follow one of a few scripts: nothing; the unmapped-event handler once; begin and end of a non-transition; or begin, all exit actions of one state in order, entering the target, all entry actions of one state in order, end (begin and end with the same states), entering the end state if the target is final. No callback is made twice. If the script is broken off, then by an exception, reported by one exceptionInFlow callback, or by an Error of user code. This holds whatever other threads do to the machine in the meantime (stop it, replace its listener, process other events of it at the same time).", "quantifier": "every execution, every environment (shared queues and strategies, several workers)", "why_tests_cant": "the claim ranges over every interleaving of an unbounded number of threads; a test observes a few schedules", "anchors": ["src/main/java/com/webotech/statemachine/strategy/DefaultEventStrategy.java: processEvent", "src/main/java/com/webotech/statemachine/strategy/TransitionTask.java: execute", "src/main/java/com/webotech/statemachine/GenericStateMachine.java: notifyStateMachineListener, updateCurrentState"]}
{"id": "C61", "title": "no data races on pooled pairs", "statement": "All accesses to the fields of one pooled event/machine pair, of which one is a write, are ordered by happens-before (program order and the synchronisation of the queue, the pool, the two flags and latches); in any environment without drop-duplicate strategies. With a drop-duplicate strategy they are not: the scan for duplicates reads pairs while other threads reuse and overwrite them.", "quantifier": "every execution, any number of strategies, queues, workers and clients, all user code", "why_tests_cant": "the claim ranges over every interleaving of an unbounded number of threads; a test observes a few schedules", "anchors": ["src/main/java/com/webotech/statemachine/strategy/EventMachinePairPool.java: take, give", "src/main/java/com/webotech/statemachine/strategy/DefaultEventStrategy.java: processEvent", "src/main/java/com/webotech/statemachine/strategy/DropDuplicateEventStrategy.java: processEvent", "src/main/java/com/webotech/statemachine/strategy/EventMachinePair.java"]}
{"id": "C62", "title": "no data races on the current state, under a discipline", "statement": "currentState is a plain field. If a machine has its strategy, queue and single-threaded executor for itself, getCurrentState() and stop() are called by its worker only (in callbacks), and nobody but the worker and the starting thread fires before start() has reset isEnded, then all conflicting accesses to the field are ordered by happens-before. Each of these conditions is needed: if any of them is dropped, there are executions with data races; the app service (start(), stop()) has one itself.", "quantifier": "every execution that keeps to the discipline, all user code, all other machines", "why_tests_cant": "the claim ranges over every interleaving of an unbounded number of threads; a test observes a few schedules", "anchors": ["src/main/java/com/webotech/statemachine/GenericStateMachine.java: currentState, start, stop, fire, getCurrentState", "src/main/java/com/webotech/statemachine/strategy/DefaultEventStrategy.java: processEvent", "src/main/java/com/webotech/statemachine/service/AbstractAppService.java: start, stop"]}
{"id": "C63", "title": "API calls do not wait for other threads", "statement": "A call of fire, start, startInState or stop is never blocked: whenever a thread is in such a call and not in user code called by it, it can take its next step; so every call returns, or hangs for ever in user code (an action, a listener, a handler) that the call itself has called. Other threads may do or neglect whatever they like, and the executor may be idle or shut down.", "quantifier": "every execution, every environment, every moment of every call", "why_tests_cant": "the claim ranges over every interleaving of an unbounded number of threads; a test observes a few schedules", "anchors": ["src/main/java/com/webotech/statemachine/GenericStateMachine.java: fire, start, startInState, stop", "src/main/java/com/webotech/statemachine/strategy/DefaultEventStrategy.java: processEvent", "src/main/java/com/webotech/statemachine/strategy/DropDuplicateEventStrategy.java: processEvent", "src/main/java/com/webotech/statemachine/strategy/EventMachinePairPool.java: take, give"]}
{"id": "C64", "title": "actions around the end of a machine", "statement": "When an event that is configured to end the machine is processed, exit actions of the state it leaves run, and the entry actions of the end state (if it has any), like for any other transition, so the documentation (docs/04-configure.md:112-115: it stops immediately with no actions executing) is wrong. When a transition leads to a final state, its entry actions run and its exit actions do not; this part of the documentation is right.", "quantifier": "every schedule, all user code, machines with strategy, queue and single-threaded executor of their own, no interference while the event is processed", "why_tests_cant": "the claim ranges over every interleaving of an unbounded number of threads; a test observes a few schedules", "anchors": ["src/main/java/com/webotech/statemachine/strategy/TransitionTask.java: execute", "src/main/java/com/webotech/statemachine/GenericStateMachine.java: stop, setCurrentState", "docs/04-configure.md:110-115"]}
{"id": "C65", "title": "what getEventQueueSize() counts", "statement": "The value returned by getEventQueueSize(), plus one if an event is being processed, is the number of events that were accepted and whose processing has not completed. So the documentation (number of StateEvents that haven't completed processing) is off by one while an event is processed.", "quantifier": "every schedule, every moment, every calling thread; machines with strategy, queue and single-threaded executor of their own", "why_tests_cant": "the claim ranges over every interleaving of an unbounded number of threads; a test observes a few schedules", "anchors": ["src/main/java/com/webotech/statemachine/GenericStateMachine.java: getEventQueueSize", "src/main/java/com/webotech/statemachine/strategy/DefaultEventStrategy.java: processEvent, getEventQueueSize", "src/main/java/com/webotech/statemachine/api/StateMachine.java:105-107"]}
{"id": "C66", "title": "memory held by the pool is bounded", "statement": "If a queue belongs to one strategy, the number of pooled pairs in its pool and its queue is never more than the highest number of events ever waiting, plus the number of threads that fire, plus the number of worker threads; with a bound on the queue size this is a constant. If strategies share a queue (as all machines made by the default builder do) it is not bounded by this. Pairs in the pool are not reset: each keeps the event and the machine it was last used for reachable.", "quantifier": "every execution, any number of strategies, clients and workers, all user code", "why_tests_cant": "the claim ranges over every interleaving of an unbounded number of threads; a test observes a few schedules", "anchors": ["src/main/java/com/webotech/statemachine/strategy/EventMachinePairPool.java: take, give", "src/main/java/com/webotech/statemachine/strategy/DefaultEventStrategy.java: processEvent", "src/main/java/com/webotech/statemachine/strategy/EventProcessingStrategyFactory.java: basicConfig, getEventQueue, getExecutor"]}
{"id": "C67", "title": "the quick start example of the README", "statement": "In every execution the program of the README's quick start prints a beginning of the three documented lines, in order; it takes at most 53 steps, and when nothing remains to be done all three lines are printed and the machine is in its end state. But start() does not wait for the events fired by its actions, and the worker is a daemon thread: the main thread can be finished (and the JVM exit) when only one line is printed. And isEnded() can be false for ever afterwards.", "quantifier": "every schedule of the main thread and the worker", "why_tests_cant": "the claim ranges over every interleaving of an unbounded number of threads; a test observes a few schedules", "anchors": ["README.md:49-86", "src/main/java/com/webotech/statemachine/GenericStateMachine.java: start, fire", "src/main/java/com/webotech/statemachine/strategy/DefaultEventStrategy.java: processEvent", "src/main/java/com/webotech/statemachine/strategy/TransitionTask.java: execute", "src/main/java/com/webotech/statemachine/util/Threads.java: newThread"]}
{"id": "C68", "title": "action lists of states", "statement": "The entry (exit) actions of a state are the non-null actions appended to it, in order; a null array is refused with NullPointerException. onEntry (onExit) runs the actions it finds, one after the other from the first, as long as they return normally and none of them, however indirectly, has appended an action to the same list; if one has, the actions after it are not run and ConcurrentModificationException is thrown, but the action stays appended; the same holds for actions run from inside actions; appending only nulls, or to other lists, does no harm. Lists only grow, at the end.", "quantifier": "every set of states and actions, all code of actions (appending, running the actions of states recursively, catching exceptions), every finished call", "why_tests_cant": "the claim ranges over every call history; a test fixes one", "anchors": ["src/main/java/com/webotech/statemachine/NamedState.java: onEntry, onExit, appendEntryActions, appendExitActions"]}
{"id": "C69", "title": "start() of an app does not return normally while the app is left running", "statement": "A call of start() that returns normally has either restarted a stopped (restartable) app, or its machine had ended at some moment of the call, or the call itself has fired stop when the app was STARTED (STOPPED, if restartable), or has found an exit-on-stop app STOPPED. So interrupting the thread that waits in start() stops a running app. But it does not wait for that: it can return while no subsystem has been stopped yet. And if the interrupt comes while the app is STARTING, start() throws IllegalStateException and the app goes on to run and is never stopped.", "quantifier": "every schedule, both modes, any number of subsystems and clients, all user code", "why_tests_cant": "the claim ranges over every interleaving of an unbounded number of threads; a test observes a few schedules", "anchors": ["src/main/java/com/webotech/statemachine/service/AbstractAppService.java: start (catch and finally blocks), stop"]}
{"id": "C70", "title": "start() of an app gives the interrupt status back", "statement": "When a call of start() of an app returns, normally or with an exception, after its waiting has been interrupted, the interrupt status of the calling thread is set.", "quantifier": "every schedule, both modes, any number of subsystems and clients, all user code (which can itself wait, and be interrupted)", "why_tests_cant": "the claim ranges over every interleaving of an unbounded number of threads; a test observes a few schedules", "anchors": ["src/main/java/com/webotech/statemachine/service/AbstractAppService.java: start (catch block)"]}
{"id": "C71", "title": "the state when user code throws, and machines that get stuck", "statement": "As long as nobody calls start() or stop() or replaces the listener, whenever no event is in processing getCurrentState() and isEnded() are what one obtains from the start state by letting each event taken lead where the table says, except that an event during which the begin listener, an exit action, the end listener of a no-transition event or the unmapped-event handler threw leads nowhere, and one during which an entry action or the end listener of a transition threw leads to the target state without ending the machine if that state is final. Hence a machine whose transition into a final state failed after the change of state stays in that state, not ended, whatever is fired.", "quantifier": "every schedule, every table, all user code that throws or not, every sequence of events", "why_tests_cant": "the claim ranges over every interleaving of an unbounded number of threads; a test observes a few schedules", "anchors": ["src/main/java/com/webotech/statemachine/strategy/TransitionTask.java: execute, handleStateTransition"]}
{"id": "C72", "title": "a strategy has the settings its config was given last", "statement": "A strategy made by a factory method from a Config has the maximal queue size, the executor and the queue that the config was given last before the call; later calls change none of them; without withMaxQueueSize the queue is unbounded, without withExecutor the executor is single-threaded; two strategies made from one config share the queue (the executor) unless the config was given another one in between.", "quantifier": "every program that makes configs, executors, queues, strategies, builders and machines in any order", "why_tests_cant": "the claim ranges over every call history; a test fixes one", "anchors": ["src/main/java/com/webotech/statemachine/strategy/EventProcessingStrategyFactory.java: newDefaultStrategy, Config"]}
{"id": "C73", "title": "machines built by one builder share a strategy", "statement": "A machine has the strategy its builder was given last. Two machines built by one builder, which was not given another strategy in between, have the same strategy, queue and executor, and that strategy works with the transition table of the machine built last: the first machine then goes to states it was never configured with, although nobody touches the second one.", "quantifier": "every program that makes strategies, builders and machines in any order", "why_tests_cant": "the claim ranges over every call history; a test fixes one", "anchors": ["src/main/java/com/webotech/statemachine/GenericStateMachine.java: Builder.build, constructor (setStates)"]}
{"id": "C74", "title": "an event that is mapped in the current state gets the machine out of it", "statement": "If threads are scheduled fairly, the machine's executor keeps its tasks and user code returns without throwing, and nobody starts or stops the machine or replaces its listener, then a machine that is in some state when no event is in processing, and for which an event leading from that state to another one is waiting or gets accepted, leaves the state in the end: the worker takes an event that leads from this state to some state, while the machine is in the former, and enters the latter.", "quantifier": "every infinite execution with fair scheduling, every machine with a queue of its own and one worker", "why_tests_cant": "the claim ranges over every interleaving of an unbounded number of threads; a test observes a few schedules", "anchors": ["src/main/java/com/webotech/statemachine/strategy/DefaultEventStrategy.java: processEvent", "src/main/java/com/webotech/statemachine/strategy/TransitionTask.java: execute", "src/main/java/com/webotech/statemachine/GenericStateMachine.java: fire"]}
{"id": "C75", "title": "the lifecycle of an app always goes on", "statement": "Under fair scheduling, with subsystems that return (normally or with an Exception): after a start event is accepted in UNINITIALISED the app gets STARTED or STOPPED; an app that is STARTING gets STARTED or STOPPED; one that is STOPPING gets STOPPED; one that is STARTED gets STOPPED when a stop or error event is accepted; and when STOPPED is entered in exit-on-stop mode, the main thread is released. But if a subsystem throws an Error, the app stays in STARTING for ever and the main thread waits in start() for ever.", "quantifier": "every infinite execution with fair scheduling, any number of subsystems, whatever they do, both modes", "why_tests_cant": "the claim ranges over every interleaving of an unbounded number of threads; a test observes a few schedules", "anchors": ["src/main/java/com/webotech/statemachine/service/AbstractAppService.java: configure (entry actions)", "src/main/java/com/webotech/statemachine/service/LifecycleStateMachineUtil.java: configureAppStateMachine", "src/main/java/com/webotech/statemachine/HandleExceptionAction.java: execute"]}
{"id": "C76", "title": "the methods of an app return", "statement": "Every call of stop() or error(e) returns, whatever other threads, the executor and the subsystems do. A call of start() returns once the machine has been started before; the first one returns unless it hangs in a listener of the machine called by the start() of the machine, or the latch is never released and the calling thread is never interrupted.", "quantifier": "every infinite execution in which the calling thread is scheduled fairly; any behaviour of everything else", "why_tests_cant": "the claim ranges over every interleaving of an unbounded number of threads; a test observes a few schedules", "anchors": ["src/main/java/com/webotech/statemachine/service/AbstractAppService.java: start", "src/main/java/com/webotech/statemachine/service/AbstractAppService.java: stop", "src/main/java/com/webotech/statemachine/service/AbstractAppService.java: error"]}
{"id": "C77", "title": "an app that is told to stop gets STOPPED, and start() returns", "statement": "Under fair scheduling, with subsystems that return (normally or with an Exception): if stop() or error(e) is called after the app has got STARTED, the app gets STOPPED, whatever the outcome of the call. In exit-on-stop mode every call of start(), made before or after that, then returns, unless it hangs in a listener of the machine.", "quantifier": "every infinite execution with fair scheduling, any number of subsystems, any number of concurrent callers", "why_tests_cant": "the claim ranges over every interleaving of an unbounded number of threads; a test observes a few schedules", "anchors": ["src/main/java/com/webotech/statemachine/service/AbstractAppService.java: stop", "src/main/java/com/webotech/statemachine/service/AbstractAppService.java: error", "src/main/java/com/webotech/statemachine/service/AbstractAppService.java: start", "src/main/java/com/webotech/statemachine/service/LifecycleStateMachineUtil.java: configureAppStateMachine"]}
{"id": "C78", "title": "machines that share an executor", "statement": "If the executor of a machine serves other machines with other queues, too, every accepted event is still processed in the end under fair scheduling, if user code returns, tasks are begun in order and each of the queues gets finitely many events; more generally if some worker of the executor has nothing to do again and again. Without that it is false: a machine that keeps itself busy starves the others for ever, since a drain task does not end before its queue is empty; and the backlog of the executor then grows without bound, whatever maxQueueSize is.", "quantifier": "every infinite execution with fair scheduling, any number of machines, queues and worker threads", "why_tests_cant": "the claim ranges over every interleaving of an unbounded number of threads; a test observes a few schedules", "anchors": ["src/main/java/com/webotech/statemachine/strategy/DefaultEventStrategy.java: processEvent", "src/main/java/com/webotech/statemachine/strategy/TransitionTask.java: execute", "src/main/java/com/webotech/statemachine/strategy/EventProcessingStrategyFactory.java: the executor given to a strategy"]}
{"id": "C79", "title": "where a NullPointerException of event processing comes from", "statement": "If event processing reports a NullPointerException to the unexpected flow listener, then user code called for the event threw it, or the listener was removed while the event was processed, or the event was taken before the machine had been given its first state, or its state is not configured. Hence there is none if all states are configured, user code does not throw it, the listener is not removed, and the event is taken after start() has set the state. It is not true that an event which is accepted has its effect if user code never throws: it gets lost if it is fired by another thread while start() is in progress, or if setStateMachineListener(null) is called at the wrong moment; or a final state is entered without the machine being ended.", "quantifier": "every environment, every execution; three witnesses", "why_tests_cant": "the claim ranges over every interleaving of an unbounded number of threads; a test observes a few schedules", "anchors": ["src/main/java/com/webotech/statemachine/GenericStateMachine.java: start, notifyStateMachineListener, setStateMachineListener", "src/main/java/com/webotech/statemachine/strategy/TransitionTask.java: execute", "src/main/java/com/webotech/statemachine/strategy/DefaultEventStrategy.java: processEvent"]}
{"id": "C80", "title": "executors that run tasks in the calling thread", "statement": "Let all executors execute a task in the thread that hands it over (such as Runnable::run), and let the program have one thread. Then events are processed inside calls of fire() only, nested properly: first in first out, the processing of an event is over when everything it called has returned. When a call of fire() that has queued an event returns normally, every event ever queued there has been taken, and the processing of each event taken during the call is over. If no call of fire() has thrown an exception then no event is left in a queue whenever the thread is idle.", "quantifier": "every environment, every program of one thread, every execution", "why_tests_cant": "the claim ranges over every interleaving of an unbounded number of threads; a test observes a few schedules", "anchors": ["src/main/java/com/webotech/statemachine/strategy/DefaultEventStrategy.java: processEvent", "docs/05-events.md:25-33"]}
{"id": "C81", "title": "what is lost with executors that run tasks in the calling thread", "statement": "With executors that execute a task in the thread that hands it over, it is not true that an event is taken only after the processing of the event before is over; nor that entry actions run while the machine is in the state they belong to; nor that the machine goes only from a state to one the table leads to; nor that the listener is last told the state the machine is in. One thread is sufficient: an action that fires an event. With two threads it is not true that the event has been processed when fire() returns.", "quantifier": "five witnesses", "why_tests_cant": "the claim ranges over every interleaving of an unbounded number of threads; a test observes a few schedules", "anchors": ["src/main/java/com/webotech/statemachine/strategy/DefaultEventStrategy.java: processEvent", "docs/05-events.md:25-33"]}
{"id": "C82", "title": "machines configured while they run", "statement": "Configuration methods may be called on a machine that has been started, by clients and by the user code the machine calls. Whatever is called and whenever: what an event leads to is read from the configuration at the moment when the event is taken, and calls made during its processing do not matter for it; only whether the state entered is final is decided by the configuration after everything else has been done. Every state change made by event processing is one configured when the event was taken, or ends the machine because the state just entered is final now. Listener and actions are called in the usual order, all of them unless something is thrown (those of the end state once user code has stopped the machine). Events are taken in the order they were queued; they are queued when the machine is started and not ended, otherwise reported. The machine is started once, in a state configured at that moment; configuration calls throw what they throw before the start. No call makes a configured state unconfigured or takes away the end of a state that ends. But a state that is final when the event is taken need not end the machine, and an event that had a target at the start need not have one later.", "quantifier": "every program, every sequence of configuration calls, client code, starts and processed events (one thread at a time)", "why_tests_cant": "the claim ranges over every interleaving of an unbounded number of threads; a test observes a few schedules", "anchors": ["src/main/java/com/webotech/statemachine/GenericStateMachine.java: when, receives, itTransitionsTo, itEnds", "src/main/java/com/webotech/statemachine/strategy/TransitionTask.java: execute"]}
{"id": "C83", "title": "what a machine does is determined by the events it takes", "statement": "For a machine with a queue and a single-threaded executor of its own, between two moments when no event is in processing and as long as nobody starts or stops it or replaces its listener: the whole sequence of callbacks made by event processing (listener, exit and entry actions, unmapped handler, reports of exceptions) and the state in the end are given by a function of the state before, the list of events taken, and what user code throws, where what a callback throws may depend on all callbacks before. So two executions, even of different programs, with the same configuration, the same events and user code that throws in the same places make the same callbacks in the same order, however their threads are scheduled. At rest the events are those accepted, in order of acceptance. This is not so for executors with several threads.", "quantifier": "every environment, every two executions, every function that says what user code throws", "why_tests_cant": "the claim ranges over every interleaving of an unbounded number of threads; a test observes a few schedules", "anchors": ["src/main/java/com/webotech/statemachine/strategy/TransitionTask.java: execute", "src/main/java/com/webotech/statemachine/strategy/DefaultEventStrategy.java: processEvent"]}
{"id": "C84", "title": "subsystems that are exchanged while the app runs", "statement": "When the list of subsystems of an app is replaced (withSubsystems) or changed by anybody at any time: each phase of starting or stopping works on the list given last when it begins; events, whether fired by clients or by the phases, are handled in the order they were fired, and the app is in the state they lead to; phases begin when the app comes to STARTING or STOPPING, and only then; phases do not overlap and subsystems are started in phases of starting only and stopped in phases of stopping only. If a phase ends with complete and nobody changed its list meanwhile, it has called exactly the elements of the list, each of which returned normally, in order (starting) or in reverse order (stopping). Whatever is done to the list, a finished phase of starting has called as many subsystems as the list has in the end, one of stopping as many as it had in the beginning. It ends with error only if there was no list, a subsystem threw, the list was changed structurally or contains null; then what was called is a beginning of that order, unless the list was changed. After a structural change of its list a phase calls nothing any more. If nobody gave another list or changed the list between start and stop, exactly the subsystems started are stopped, in reverse order. Without this condition an app may come to STOPPED without an error while a subsystem was started and never stopped and another was stopped and never started; and it may come to STARTED without an error although a subsystem that was on the list all the time was never started (one took itself off the list while it was started).", "quantifier": "every sequence of replacements and changes of lists, events, exceptions, interleaved with the loops of the app in any way", "why_tests_cant": "the claim ranges over every interleaving of an unbounded number of threads; a test observes a few schedules", "anchors": ["src/main/java/com/webotech/statemachine/service/AbstractAppContext.java: withSubsystems, getSubsystems", "src/main/java/com/webotech/statemachine/service/AbstractAppService.java: configureAppStateMachine"]}
{"id": "C85", "title": "other event queues", "statement": "A default strategy with any queue (withEventQueue), whose poll() may choose any element and whose offer() may refuse one, and whose size() need not be atomic: when fire returns, exactly one of three things has happened: the event was put into the queue, refused by the queue, or reported because the queue was full. It is reported only if there is a bound (maxQueueSize > 0) and the queue held at least that many elements when the event was fired, counting those that came meanwhile; it is accepted only if fewer were there throughout the call of size(). Every accepted event is in the queue or has been taken, not both, is taken once, and is the one the queue chose; with a first-in-first-out queue the order is that of acceptance, for any number of workers. When nobody is doing anything, nothing is left in the queue. If events are fired one after the other the bound holds. A single worker never finds the queue empty after its check. But: a queue that refuses elements loses events without any report; with other queues events of a single thread are not processed in order; threads that fire at the same time exceed the bound; with two workers one may find the queue empty and die.", "quantifier": "every queue discipline, every bound, any number of threads that fire and of workers, every schedule, every result of size() between the number of elements that stayed and the number that were there or came", "why_tests_cant": "the claim ranges over every interleaving of an unbounded number of threads; a test observes a few schedules", "anchors": ["src/main/java/com/webotech/statemachine/strategy/DefaultEventStrategy.java: processEvent, getEventQueueSize", "src/main/java/com/webotech/statemachine/strategy/EventProcessingStrategyFactory.java: withEventQueue, withMaxQueueSize"]}
{"id": "C86", "title": "equals, hashCode and the maps keyed by states and events", "statement": "equals of states and of events is an equivalence: same class and same name, null names included; nothing is equal to null; equal objects have the same hash code. A HashMap whose keys keep this contract answers get, containsKey, isEmpty and the search for null values as a function on classes of equal keys would: what is found under a key is what was last put (put, putIfAbsent) under an equal key, whatever hash codes collide, whatever bins they go to, and whenever the table is resized. So the association lists keyed by class and name that the model uses cannot be told from the hash maps of the code. But: with events of a class of the user's own that defines equals and not hashCode, an event equal to a mapped one is not found.", "quantifier": "every assignment of classes and names to objects, every hash function of strings, every assignment of hash codes to bins, every sequence of operations, resizings included", "why_tests_cant": "hash codes that collide, tables that are resized at a given moment, and keys without a name do not occur in tests", "anchors": ["src/main/java/com/webotech/statemachine/NamedState.java: equals, hashCode", "src/main/java/com/webotech/statemachine/NamedStateEvent.java: equals, hashCode", "src/main/java/com/webotech/statemachine/GenericStateMachine.java: states; when, receives, itTransitionsTo, assertEventNotMapped, start", "src/main/java/com/webotech/statemachine/strategy/TransitionTask.java: execute"]}
{"id": "C87", "title": "the drop-duplicate check while the queue changes", "statement": "The drop-duplicate strategy goes through the queue from node to node while other threads add and take events and pooled pairs are used again. Whatever happens meanwhile: each fire(e) ends with e accepted or dropped, not both; e is dropped only in favour of another fired event that is equal to it, that had not been taken when this call of fire began, and that is never dropped itself; so when all calls have returned, an equal event has been accepted, and is waiting or was taken after fire(e) began. e is accepted only if no equal event was waiting in the queue from before fire(e) until e was accepted. If events are fired one after the other, no two events in the queue are equal. The iteration never meets a pair without an event, events are taken in the order of acceptance, and a worker processes the event that was in the pair when it took it. But: an event may be dropped although everything else has been processed completely; an event may be dropped although no equal event has ever been in the queue (pairs given back to the pool are not reset, whatever the comment on give() says); equal events fired at the same time both get into the queue.", "quantifier": "any number of threads that fire and of workers, any relation for equals (not even symmetric), every schedule", "why_tests_cant": "the claim ranges over every interleaving of an unbounded number of threads; a test observes a few schedules", "anchors": ["src/main/java/com/webotech/statemachine/strategy/DropDuplicateEventStrategy.java: processEvent", "src/main/java/com/webotech/statemachine/strategy/DefaultEventStrategy.java: processEvent", "src/main/java/com/webotech/statemachine/strategy/EventMachinePairPool.java: take, give"]}
{"id": "C88", "title": "what getCurrentState() returns under weak memory", "statement": "currentState is a plain field; a read may return any value that happens-before consistency allows, and the program goes on with it. If a machine is started once, by one thread, nobody changes its state before start() is about to return, and afterwards only its worker does: (1) if a state write happens before a read (the reader has waited for a latch, say, that an entry action counts down), the read returns that state or one entered later; (2) a thread that calls isEnded() (fire() does so, too) and then getCurrentState() gets a state at most one transition behind the one the machine was in when isEnded() was called, and this lag does occur; (3) it does not get null if start() was over; (4) the worker itself always reads what it wrote last. If a machine has a thread of its own and is used with the discipline of C62, weak memory makes no difference: the execution is one of the sequentially consistent model. Sequentially consistent executions are always allowed. But: another thread may get null from getCurrentState() long after start() has returned and events were processed; consecutive calls may return a new state and then an old one; stop() of an app that has entered STARTED and is idle may throw IllegalStateException because it reads an old state.", "quantifier": "all environments, clients and schedules, all values reads may return, for any set of machines whose field is weak", "why_tests_cant": "the claim ranges over every interleaving of an unbounded number of threads; a test observes a few schedules", "anchors": ["src/main/java/com/webotech/statemachine/GenericStateMachine.java: currentState, getCurrentState, start, updateCurrentState, isEnded", "src/main/java/com/webotech/statemachine/service/AbstractAppService.java: stop"]}
{"id": "C89", "title": "without data races weak memory makes no difference", "statement": "All plain fields of the library (currentState, stateMachineListener, the two fields of a pooled pair, payloads) may be weak: a read returns any value that happens-before consistency allows, the initial one or one written earlier, and the program goes on with it. (1) If no sequentially consistent execution that begins like a weak one has a data race on the weak fields, the weak execution is sequentially consistent: same actions, same values read, same end. (2) So it is whenever the rules are kept: no drop-duplicate strategies; machines have a thread of their own and are used with the discipline of C62; listeners are set before start() by the thread that calls it; the payload of an event is written by its owner only, before the event is put into a queue. Nothing is asked for the pairs. (3) Sequentially consistent executions are always allowed. But a listener that is set by another thread while the machine runs may be found non-null by the check and null by the call right after it: NullPointerException and a lost event, although nobody ever sets it to null.", "quantifier": "all environments, clients and schedules, all values reads may return, any set of weak fields", "why_tests_cant": "the claim ranges over every interleaving of an unbounded number of threads; a test observes a few schedules", "anchors": ["src/main/java/com/webotech/statemachine/GenericStateMachine.java: currentState, stateMachineListener, notifyStateMachineListener", "src/main/java/com/webotech/statemachine/strategy/EventMachinePair.java: setEventMachinePair, getStateEvent, getStateMachine", "src/main/java/com/webotech/statemachine/NamedStateEvent.java: payload"]}
{"id": "C90", "title": "listeners and payloads are handed over safely", "statement": "(1) The listener of a machine that has a thread of its own is never in a data race, if the machine is used with the discipline of C62 and the listener is set only before start(), by the thread that calls start(). (2) The payload of an event is never in a data race, if only the thread that owns the event writes it, not any more once the event has been put into a queue, and other threads use it only after they have got the event from a queue. Events may be fired on by those who receive them, to other machines with other threads; copies made by fire() belong to the thread that fires.", "quantifier": "all environments (payloads: without drop-duplicate strategies), clients and schedules", "why_tests_cant": "the claim ranges over every interleaving of an unbounded number of threads; a test observes a few schedules", "anchors": ["src/main/java/com/webotech/statemachine/GenericStateMachine.java: setStateMachineListener, notifyStateMachineListener", "src/main/java/com/webotech/statemachine/strategy/DefaultEventStrategy.java: processEvent", "src/main/java/com/webotech/statemachine/NamedStateEvent.java: getPayload, setPayload, copy constructor"]}
{"id": "C91", "title": "the library does only what user code asks for", "statement": "Let it be known which calls user code may make: callbacks in any thread, clients in theirs. Then (1) everything any thread ever does is licensed by these calls: a thread starts a machine, ends it, sets listeners and payloads, puts events into queues, submits tasks only if its code contains the corresponding call; a worker touches a machine only if somebody may have fired to it, and what is called on behalf of machine and event has been fired to this machine, as the event itself or as a safe copy of it with the same name. (2) A machine that nobody starts, stops or fires to is left alone, even if it shares strategy, queue and executor with busy ones: its fields keep their values and nothing is called on its behalf. (3) Payloads of events made by clients, and listeners, are changed by nobody but user code.", "quantifier": "all environments, sets of calls, clients and schedules", "why_tests_cant": "the claim ranges over every interleaving of an unbounded number of threads; a test observes a few schedules", "anchors": ["src/main/java/com/webotech/statemachine/GenericStateMachine.java: all methods", "src/main/java/com/webotech/statemachine/strategy/DefaultEventStrategy.java: processEvent"]}
{"id": "C92", "title": "the check for duplicates under weak memory", "statement": "The fields of pooled event/machine pairs are plain, and a strategy that drops duplicates reads pairs that are in the queue or were a moment ago, while other threads may be reusing them. Let reads of pairs return anything that the Java memory model allows, and reads of all other plain fields (current state, listener, payload) anything at all. Then (1) no read of a pair fails with null: neither the check of fire() nor the worker. (2) What the check gets is an event that has been written to the pair, and not one older than what the pair contained when the thread looked into the queue. So an event is dropped only if an equal event was in the queue at that time, or has been put into the same pair later; and an event is stored for the queue only if each pair in the queue at that time contained an event that is not equal, or such an event has been put into it later. So an equal event in a pair that is not reused meanwhile is always noticed. (3) A worker that has removed a pair from the queue gets what has been written last. (4) Any two writes to a pair are ordered by happens-before.", "quantifier": "all environments (all strategies), initial states, executions with weak reads of plain fields", "why_tests_cant": "the claim ranges over every interleaving of an unbounded number of threads; a test observes a few schedules", "anchors": ["src/main/java/com/webotech/statemachine/strategy/DropDuplicateEventStrategy.java: processEvent", "src/main/java/com/webotech/statemachine/strategy/DefaultEventStrategy.java: processEvent", "src/main/java/com/webotech/statemachine/strategy/EventMachinePairPool.java: take, give", "src/main/java/com/webotech/statemachine/strategy/EventMachinePair.java: fields"]}
{"id": "C93", "title": "what does not depend on plain fields", "statement": "Let every read of currentState, of a machine's listener and of a payload return anything at all, whether it has ever been written or not. (Reads of event/machine pairs return what they contain or, if there are no drop-duplicate strategies, what the Java memory model allows.) Then all the same: (1) events are taken from a queue in the order in which they were put into it, each once, none lost; (2) every waiting event has a pending drain task or a thread that is about to see to it, and when all is idle all have been taken; (3) the bound of a queue holds (max plus number of firing threads minus one), and with the drop-duplicate strategy and one firing thread no two waiting events are equal; (4) a machine is started once, enters no state once it has ended, and isStarted() and isEnded() tell the truth; (5) what a worker does for an event follows one of the scripts of C60: no callback twice, none out of order, exceptions reported once.", "quantifier": "all environments, initial states, executions with arbitrary results of these reads", "why_tests_cant": "the claim ranges over every interleaving of an unbounded number of threads; a test observes a few schedules", "anchors": ["src/main/java/com/webotech/statemachine/GenericStateMachine.java: currentState, stateMachineListener, isStarted, isEnded", "src/main/java/com/webotech/statemachine/strategy/DefaultEventStrategy.java: processEvent", "src/main/java/com/webotech/statemachine/strategy/TransitionTask.java: execute", "src/main/java/com/webotech/statemachine/NamedStateEvent.java: payload"]}
{"id": "C94", "title": "the pool of pairs cannot be observed", "statement": "If no strategy drops duplicates: (1) run the same schedule with the library's pool of event/machine pairs, with a new pair for every event, or with any other way of choosing an idle pair, and the histories, machines, payloads, pending tasks and waiting events are the same; (2) the same when pairs get lost from the pool, so whatever holds of all histories also holds when fire(null) is called now and then; (3) fire(null) itself either reports to the flow listener, or throws a NullPointerException having done nothing but read and take one pair away from the pool: nothing is queued and no task is submitted. With a drop-duplicate strategy (1) is false: an event can be dropped because a pair has been used again.", "quantifier": "all environments, initial states, schedules, ways of choosing pairs, lost pairs", "why_tests_cant": "the claim ranges over every interleaving of an unbounded number of threads; a test observes a few schedules", "anchors": ["src/main/java/com/webotech/statemachine/strategy/EventMachinePairPool.java: take, give", "src/main/java/com/webotech/statemachine/strategy/DefaultEventStrategy.java: processEvent", "src/main/java/com/webotech/statemachine/GenericStateMachine.java: fire", "src/main/java/com/webotech/statemachine/strategy/DropDuplicateEventStrategy.java: processEvent"]}
{"id": "C95", "title": "weak reads of listeners and payloads are one more client thread", "statement": "Let reads of the listener, payload, pair and currentState fields return anything (reads of pairs: as in C93). Then the execution is one in which only currentState is weak and in which one more client thread runs, which does nothing but set listeners and payloads; without its entries the histories are the same, and so is the memory. If currentState is read as it was written last, it is a sequentially consistent execution, so everything else proved here applies to it. Consequently every fire that has returned did exactly one of: before-start callback, after-end callback, queue-full callback, duplicate dropped, event (or a copy with its name) queued once and one task submitted or refused, each under the condition documented for it at some moment of the call; stop, startInState and start likewise; and no two starts of a machine return normally.", "quantifier": "all environments, initial states, schedules and values read", "why_tests_cant": "the claim ranges over every interleaving of an unbounded number of threads; a test observes a few schedules", "anchors": ["src/main/java/com/webotech/statemachine/GenericStateMachine.java: fire, start, stop, startInState, setStateMachineListener", "src/main/java/com/webotech/statemachine/strategy/DefaultEventStrategy.java: processEvent", "NamedStateEvent.java: getPayload, setPayload"]}
{"id": "C96", "title": "the public method updateCurrentState()", "statement": "GenericStateMachine.updateCurrentState(state) is public; any code may call it at any time, with any state but the end state (with the end state it is stop()). Then the threads, the history and all of the memory except currentState are those of an execution without such calls in which reads of currentState may return anything; conversely, before the machine ends any state can be made to be read. So what does not depend on currentState remains: events are taken in order, once, none gets lost; the bound of the queue; no duplicates; one start; no state entered after the end; what is done for an event follows a script; exceptions are reported; and what fire, stop and start do. What does not: transitions start from states never entered, and a stopped machine that nobody has started again can be in another state than _END_, if the call was made before it was stopped; calls made after the end have no effect.", "quantifier": "all environments, initial states, schedules and calls of updateCurrentState()", "why_tests_cant": "the claim ranges over every interleaving of an unbounded number of threads; a test observes a few schedules", "anchors": ["src/main/java/com/webotech/statemachine/GenericStateMachine.java: updateCurrentState", "src/main/java/com/webotech/statemachine/strategy/TransitionTask.java: execute"]}
{"id": "C97", "title": "events handed to a strategy directly", "statement": "EventProcessingStrategy.processEvent(event, machine) is public; any code may call it instead of fire(event), on a machine that is not started or has ended. Then the execution is one without such calls in which reads of the flags isStarted and isEnded may return anything. What does not depend on these reads remains: events are taken in order, once, none gets lost, and all have been taken when everything is idle; the bound of the queue; no duplicates; one start; no state entered after the end; what is done for an event follows a script; exceptions are reported. But nobody is told that the machine cannot process the event: before the start it is accepted and ends with a NullPointerException, after the end it is accepted and silently thrown away.", "quantifier": "all environments, initial states, schedules and direct calls", "why_tests_cant": "the claim ranges over every interleaving of an unbounded number of threads; a test observes a few schedules", "anchors": ["src/main/java/com/webotech/statemachine/GenericStateMachine.java: fire", "src/main/java/com/webotech/statemachine/strategy/DefaultEventStrategy.java: processEvent", "src/main/java/com/webotech/statemachine/strategy/DropDuplicateEventStrategy.java: processEvent"]}
{"id": "C98", "title": "weak memory and strategies that drop duplicates", "statement": "Let strategies drop duplicates. Then calls of fire() read pairs that belong to others, and under the Java memory model they may find contents that are out of date. Let reads of pairs return anything the memory model allows, and reads of currentState, listeners and payloads anything at all. Then all the same: (1) events are taken from a queue in the order in which they were put into it, each once, none lost; (2) every waiting event has somebody who will see to it, and when all is idle all have been taken; (3) the bound of a queue holds; and if one thread fires, no two waiting events are equal; (4) a machine is started once, enters no state once it has ended, and isStarted() and isEnded() tell the truth; (5) what is done for an event is part of a script, and finished unless something was thrown.", "quantifier": "all environments, initial states, schedules and results of reads of plain fields", "why_tests_cant": "the claim ranges over every interleaving of an unbounded number of threads; a test observes a few schedules", "anchors": ["src/main/java/com/webotech/statemachine/strategy/DropDuplicateEventStrategy.java: processEvent", "src/main/java/com/webotech/statemachine/strategy/EventMachinePairPool.java", "src/main/java/com/webotech/statemachine/strategy/DefaultEventStrategy.java: processEvent"]}
{"id": "C99", "title": "weak memory and strategies that drop duplicates, used with discipline", "statement": "Let the plain fields of the library be weak, as in C89, and let strategies drop duplicates, which C89 excludes. Let the rules be kept: machines have a thread of their own and are used with the discipline of C62; listeners are set before start() by the thread that calls it; the payload of an event is written by its owner only, before the event is put into a queue, and used by others only after they have taken the event from a queue. Then (1) only the checks for duplicates may read something that is out of date: with all other reads sequentially consistent the same execution is possible; reads of currentState, listeners and payloads return what was written last; (2) there is no data race on these fields; (3) what the history tells about the machines is true, and every thread does what is configured for the states the machines are in (C57); (4) events are processed one at a time, each as configured for the state the machine is in (C15, C22), and the state is the fold of the table over the events taken (C17).", "quantifier": "all environments, clients and schedules, all values reads may return, any set of weak fields", "why_tests_cant": "the claim ranges over every interleaving of an unbounded number of threads; a test observes a few schedules", "anchors": ["src/main/java/com/webotech/statemachine/strategy/DropDuplicateEventStrategy.java: processEvent", "src/main/java/com/webotech/statemachine/GenericStateMachine.java: currentState, stateMachineListener", "src/main/java/com/webotech/statemachine/strategy/EventMachinePair.java: setEventMachinePair, getStateEvent, getStateMachine", "src/main/java/com/webotech/statemachine/NamedStateEvent.java: payload"]}
{"id": "C100", "title": "names do not matter", "statement": "Take two programs that use the library in the same way, but with other names for states and events, chosen consistently (different names stay different, reserved names stay), and with other State objects, chosen as one likes as long as they have corresponding actions. (1) Their calls of configuration methods throw the same exceptions and lead to corresponding tables. (2) Whatever one program can do, the other can do: histories, states, flags, queues correspond, entry by entry; what is impossible for one is impossible for the other. (3) Every program can be renamed like this: any injective change of names gives another program with the same executions, renamed. So the library looks at names only to compare them with each other and with the reserved ones, at State objects only for their actions.", "quantifier": "all environments, renamings, initial states and schedules", "why_tests_cant": "the claim ranges over every interleaving of an unbounded number of threads; a test observes a few schedules", "anchors": ["src/main/java/com/webotech/statemachine/GenericStateMachine.java: all methods", "src/main/java/com/webotech/statemachine/strategy/TransitionTask.java", "src/main/java/com/webotech/statemachine/NamedState.java: equals", "src/main/java/com/webotech/statemachine/NamedStateEvent.java: equals", "src/main/java/com/webotech/statemachine/strategy/DropDuplicateEventStrategy.java"]}
{"id": "C101", "title": "listeners that only watch make no difference", "statement": "Let some machines have listeners that only watch: in onStateChangeBegin/End they call getters, write log lines and use memory of their own, and do not throw. Let no other code replace these listeners or use their memory. (1) Whatever can happen with the listeners can happen without them: same history but for the calls of the listeners and what they write, same states, flags, queues, pool, tasks, same threads idle; the schedule is the same with some turns left out. (2) Conversely, whatever can happen without listeners can happen with them: they keep nothing from happening. (3) So one such listener can be exchanged for any other. (4) LoggingStateMachineListener is such a listener.", "quantifier": "all environments, listeners, initial states and schedules", "why_tests_cant": "the claim ranges over every interleaving of an unbounded number of threads; a test observes a few schedules", "anchors": ["src/main/java/com/webotech/statemachine/GenericStateMachine.java: notifyStateMachineListener, start", "src/main/java/com/webotech/statemachine/strategy/TransitionTask.java: execute", "src/main/java/com/webotech/statemachine/LoggingStateMachineListener.java"]}
{"id": "C102", "title": "machines that share nothing do not influence each other", "statement": "Let a group of machines, with their event strategies, queues, executors, listeners, client threads, event objects and memory of user code, share nothing with the rest of the program. (1) Leave out everything the rest does in an execution: what remains is an execution, in which the group has the same history and ends with the same states, flags, queues, tasks, memory and payloads, and with the same threads idle. Only the copies made of events with payload may be other objects. (2) So what the rest does makes no difference to the group. (3) The machines of a program are in the states they are in if the two parts are run separately. (4) Whatever the two parts can do separately they can do together, in any order. This holds although all machines share the code of the library and the allocation of event pairs and copies.", "quantifier": "all environments, groups, initial states and schedules", "why_tests_cant": "the claim ranges over every interleaving of an unbounded number of threads; a test observes a few schedules", "anchors": ["src/main/java/com/webotech/statemachine/GenericStateMachine.java", "src/main/java/com/webotech/statemachine/strategy/DefaultEventStrategy.java: processEvent, EventMachinePairPool", "src/main/java/com/webotech/statemachine/strategy/TransitionTask.java: execute"]}
{"id": "C103", "title": "the rest of the program can be replaced", "statement": "Let two programs agree on a group of machines that shares nothing with the rest: the machines and event strategies of the group are configured in the same way, and the user code of the group and the actions of the states its machines can get into are the same. The rest of the two programs may be different. (1) What the group does in an execution of the first program it can do in the second, with the same history, states, queues, tasks, memory and payloads. (2) If the group does the same in an execution of each, its history and its machines are the same in both: what a machine does depends only on its own configuration. (3) In the second program the group can do it in any order with whatever the rest of the second program can do.", "quantifier": "all pairs of environments that agree on the group, initial states and schedules", "why_tests_cant": "the claim ranges over every interleaving of an unbounded number of threads; a test observes a few schedules", "anchors": ["src/main/java/com/webotech/statemachine/GenericStateMachine.java", "src/main/java/com/webotech/statemachine/strategy/DefaultEventStrategy.java: processEvent, EventMachinePairPool", "src/main/java/com/webotech/statemachine/strategy/TransitionTask.java: execute"]}
{"id": "C104", "title": "limits that are not reached make no difference", "statement": "(1) An execution in which no event is refused because a queue is full is also an execution of the program with higher queue bounds (or none) and more threads per executor: with the same history, states, queues, payloads and memory. (2) Changing the bounds makes no difference to executions in which no queue gets to a size that one of the bounds calls full and the other does not, and threads that do nothing can be taken away. (3) In particular a bound can be introduced if queues stay shorter.", "quantifier": "all environments, bounds, numbers of threads, configurations and schedules", "why_tests_cant": "the claim ranges over every interleaving of an unbounded number of threads; a test observes a few schedules", "anchors": ["src/main/java/com/webotech/statemachine/strategy/DefaultEventStrategy.java: processEvent", "src/main/java/com/webotech/statemachine/strategy/EventProcessingStrategyFactory.java"]}
{"id": "C105", "title": "a strategy that drops duplicates but need not", "statement": "An execution in which a DropDuplicateEventStrategy drops no event is, without the steps in which it checks for duplicates, an execution of the same program with a DefaultEventStrategy in its place: with the same history, and all machines, queues, tasks, payloads and memory are the same in the end. So whatever is true of all histories with default strategies holds with strategies that drop duplicates, as long as they drop nothing. In particular the check itself never throws.", "quantifier": "all environments, sets of strategies and schedules", "why_tests_cant": "the claim ranges over every interleaving of an unbounded number of threads; a test observes a few schedules", "anchors": ["src/main/java/com/webotech/statemachine/strategy/DropDuplicateEventStrategy.java: processEvent", "src/main/java/com/webotech/statemachine/strategy/DefaultEventStrategy.java: processEvent"]}
{"id": "C106", "title": "at rest, the past does not matter", "statement": "Suppose two executions have come, in whatever ways, to points at which no thread is busy and at which the machines, payloads, tasks of executors, waiting events and memory of user code are the same (and as many events have been copied). Unless duplicates are dropped, the same schedule is possible from both points and adds the same to both histories; so the same can be observed from then on. In particular, a series of calls that leaves everything as it was can be repeated as often as one likes, and the same is observed every time: the library itself accumulates nothing that matters. (The pool of pairs may grow.) This fails for DropDuplicateEventStrategy: the pairs in the pool make a difference.", "quantifier": "all environments, pairs of reachable configurations in which no thread is busy, schedules, numbers of repetitions", "why_tests_cant": "the claim ranges over every interleaving of an unbounded number of threads; a test observes a few schedules", "anchors": ["src/main/java/com/webotech/statemachine/strategy/EventMachinePairPool.java: take, give", "src/main/java/com/webotech/statemachine/strategy/DefaultEventStrategy.java: processEvent", "src/main/java/com/webotech/statemachine/GenericStateMachine.java: fire", "src/main/java/com/webotech/statemachine/strategy/DropDuplicateEventStrategy.java: processEvent"]}
{"id": "C107", "title": "threads that only ask make no difference", "statement": "Client threads that only call isStarted(), isEnded(), getCurrentState(), getEventQueueSize() and getPayload(), look at memory and take notes can be left out of any execution: the rest can be done as before, with the same history except for what those threads wrote into it, and all machines, queues, tasks, pools, payloads and memory are the same. Such a thread never waits: at any time, whatever other threads have left undone, it can get all its answers, and that makes no difference to the others.", "quantifier": "all environments, sets of client threads that only ask (what they ask may depend on the answers), schedules", "why_tests_cant": "the claim ranges over every interleaving of an unbounded number of threads; a test observes a few schedules", "anchors": ["src/main/java/com/webotech/statemachine/GenericStateMachine.java: isStarted, isEnded, getCurrentState, getEventQueueSize", "src/main/java/com/webotech/statemachine/strategy/DefaultEventStrategy.java: getEventQueueSize", "src/main/java/com/webotech/statemachine/NamedStateEvent.java: getPayload"]}
{"id": "C108", "title": "it does not matter which thread makes a call", "statement": "The library is not tied to threads: in any execution, the client threads may be exchanged among each other, and the threads of every executor among each other, and the same happens, done by the other threads. At any time, threads that are neither busy nor interrupted may take over from each other: what happens from then on is the same except for the names of the threads; so a machine may be started by one thread, used by a second and stopped by a third.", "quantifier": "all environments, permutations of client threads and of the threads of each executor, configurations and schedules", "why_tests_cant": "the claim ranges over every interleaving of an unbounded number of threads; a test observes a few schedules", "anchors": ["src/main/java/com/webotech/statemachine/GenericStateMachine.java: start, stop, fire", "src/main/java/com/webotech/statemachine/strategy/DefaultEventStrategy.java: processEvent", "src/main/java/com/webotech/statemachine/strategy/TransitionTask.java: execute"]}
{"id": "C109", "title": "interrupts concern only threads that wait outside the state machine", "statement": "State machines never wait and never look at the interrupt status of a thread (the only call that waits is start() of an app service). In any execution, threads that do not wait for a latch, in user code or in start() of a service, may be interrupted or not, at any time and however often: the same steps remain possible, the same calls and callbacks happen in the same order, and machines, queues, pending tasks and payloads end up the same; only the interrupt status of those threads differs. In particular, interrupting an executor thread while it processes an event loses no event unless an action or handler waits on it.", "quantifier": "all environments, sets of threads, configurations and schedules (C109_library: all initial configurations and all programs whose calls on those threads do not include waiting)", "why_tests_cant": "the claim ranges over every interleaving of an unbounded number of threads; a test observes a few schedules", "anchors": ["src/main/java/com/webotech/statemachine/GenericStateMachine.java: start, stop, fire", "src/main/java/com/webotech/statemachine/strategy/DefaultEventStrategy.java: processEvent", "src/main/java/com/webotech/statemachine/strategy/TransitionTask.java: execute"]}
{"id": "C110", "title": "an orderly shutdown of an executor loses nothing that has been submitted", "statement": "shutdown() of an executor (not shutdownNow()) has no influence on tasks submitted before: in any execution from any point on, as long as no task is submitted to the executors in question, it makes no difference whether and when they are shut down. The same steps remain possible, the same calls and callbacks happen in the same order, and machines, queues, pending tasks and payloads end up the same. So after the last event has been fired, the executor may be shut down at any time, also while events are processed. (An event fired after the shutdown is not processed: the executor rejects the task.)", "quantifier": "all environments, sets of executors, configurations and schedules", "why_tests_cant": "the claim ranges over every interleaving of an unbounded number of threads; a test observes a few schedules", "anchors": ["src/main/java/com/webotech/statemachine/GenericStateMachine.java: fire", "src/main/java/com/webotech/statemachine/strategy/DefaultEventStrategy.java: processEvent", "src/main/java/com/webotech/statemachine/strategy/TransitionTask.java: execute"]}
