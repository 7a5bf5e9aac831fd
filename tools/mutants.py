CFG = "Verif/Model/Config.lean"
CODE = "Verif/Model/Code.lean"
PROG = "Verif/Model/Prog.lean"
SEM = "Verif/Model/Sem.lean"
FAC = "Verif/Model/Factory.lean"
BAS = "Verif/Model/Basic.lean"
MUTANTS = []
def mu(id, file, definition, old, new, claim, breaks, **k):
    MUTANTS.append(dict(id=id, file=file, definition=definition, old=old, new=new, claim=claim, breaks=breaks, **k))

# --- configuration
mu("cfg01", CFG, "initialSate", "  let s ← assertNotReservedState s\n  assertInitStateDefined false\n", "  let s ← assertNotReservedState s\n",
   "C01: a second initialSate(..) is accepted and replaces the initial state", ["C01_"])
mu("cfg02", CFG, "when_", "  let s ← assertNotReservedState s\n  assertInitStateDefined true\n  assertMarkedStateDefined false\n", "  let s ← assertNotReservedState s\n  assertMarkedStateDefined false\n",
   "C01: when(..) is accepted before initialSate(..)", ["C01_"])
mu("cfg03", CFG, "assertNotReservedState", "if reservedStateNames.any (fun r => r == s.name) then throw (.ise .reservedState) else pure s", "if reservedStateNames.any (fun r => r == s.name && s.name != resEnd) then throw (.ise .reservedState) else pure s",
   "C02: a state named _END_ is accepted", ["C02_"])
mu("cfg04", CFG, "receives", "  let e ← assertNotReservedStateEvent e\n  assertInitStateDefined true\n  assertMarkedStateDefined true\n  modify fun c => { c with markedEv := some e }\n  putMarked (some e.key) none",
   "  let e ← assertNotReservedStateEvent e\n  modify fun c => { c with markedEv := some e }\n  assertInitStateDefined true\n  assertMarkedStateDefined true\n  putMarked (some e.key) none",
   "C03: receives(..) in the wrong place throws but remembers the event", ["C03_"])
mu("cfg05", CFG, "itTransitionsTo", "  putMarked ((← get).markedEv.map Ev.key) (some s)\n  clearMarked", "  putMarked ((← get).markedEv.map Ev.key) (some s)",
   "C04: the clause is not finished by itTransitionsTo", ["C04_"])
mu("cfg06", CFG, "itDoesNotTransition", "(some rs.noopSt)\n  clearMarked", "(some rs.endSt)\n  clearMarked",
   "C04: itDoesNotTransition configures an end", ["C04_"])
mu("cfg07", CFG, "itEnds", "    assertNoMappingsExistAtEnd\n    putMarked", "    putMarked",
   "C07: a state with outgoing transitions is accepted as final", ["C07_"])
mu("cfg08", CFG, "startChecks", "else if t.any (fun r => r.2.ents.any (fun e => e.2.isNone)) then some (.ise .dangling)", "else if t.all (fun r => r.2.ents.any (fun e => e.2.isNone)) then some (.ise .dangling)",
   "C06: start() accepts a configuration with a dangling receives", ["C06_"])
mu("cfg09", CFG, "when_", "AMap.putIfAbsent c.table s.name ⟨false, []⟩", "AMap.put c.table s.name ⟨false, []⟩",
   "C04/C08: a second when(A) forgets the transitions of A", ["C04_"])
mu("cfg10", CFG, "receives", "  putMarked (some e.key) none", "  pure ()",
   "C06: a clause that was not finished is not noticed by start(); C05 remapping now throws", ["C06_"])
# --- queue, pool
mu("q01", PROG, "exec .offer", "queue := fset w.queue q (w.queue q ++ [p]) }", "queue := fset w.queue q (p :: w.queue q) }",
   "C13: LIFO instead of FIFO", ["C13_fifo"])
mu("q02", PROG, "exec .poll", "let w' := { w with queue := fset w.queue q ps }", "let w' := { w with queue := fset w.queue q (p :: ps) }",
   "C13: poll does not remove the element", ["C13_fifo"])
mu("q03", CODE, "processOne", "  lift (.poolGive s p)\n  ofExcept r", "  lift (.poolGive s p)\n  lift (.poolGive s p)\n  ofExcept r",
   "C32: the pair is given back twice", ["C32_pairs_never_shared"])
mu("q04", CODE, "drain", "    let (ev, m) ← deref (← lift (.getPair p))\n    processOne env s cm p ev m", "    let (ev, m) ← deref (← lift (.getPair p))\n    lift (.poolGive s p)\n    processOne env s cm p ev m",
   "C32: the pair is given back before the event is processed", ["C32_pairs_never_shared"])
mu("q05", PROG, "exec .poolTake", "| p :: ps => (p, { w with pool := fset w.pool s ps })", "| p :: ps => (p, w)",
   "C32: a pair taken from the pool stays in it", ["C32_pairs_never_shared"])
# --- fire
mu("f01", CODE, "fire", "  if !(← lift (.getStarted m)) then\n    callback (.flowBefore m ev) (.flowBefore s ev m)\n  else", "  if false then\n    callback (.flowBefore m ev) (.flowBefore s ev m)\n  else",
   "C10: an event fired before start is enqueued", ["C10_before_start"])
mu("f02", CODE, "fire", "      callback (.flowAfter m ev) (.flowAfter s ev m)\n    else\n      processEvent env s ev m", "      ret ()\n    else\n      processEvent env s ev m",
   "C11: an event fired after the end is not reported", ["C11_"])
mu("f03", CODE, "processEventDefault", "(queueSize : Int) ≥ c.maxQ then", "(queueSize : Int) > c.maxQ then",
   "C30: off by one, the queue holds maxQueueSize + 1 events", ["C30_full_rejects", "C30_bound"])
mu("f04", CODE, "processEventDefault", "if c.maxQ > 0 && (queueSize", "if c.maxQ ≥ 0 && (queueSize",
   "C30: maxQueueSize 0 means that nothing is accepted", ["C30_room_accepts"])
mu("f05", CODE, "processEventDefault", "    callback (.flowFull m ev) (.flowEx s ev m (.ise .queueFull))\n  else", "    ret ()\n  else",
   "C30: an event that does not fit is dropped silently", ["C30_full_rejects"])
mu("f06", CODE, "processEventDefault", "      lift (.setPair p ev' m)\n    else", "      lift (.setPair p ev m)\n    else",
   "C29: the payload is not captured", ["C29_payload_captured"])
mu("f07", CODE, "processEventDefault", "    lift (.offer c.queue p)\n    if !(← lift (.submit c.exec s m)) then\n      thr .rejected", "    lift (.offer c.queue p)\n    if queueSize == 0 then\n      if !(← lift (.submit c.exec s m)) then\n        thr .rejected",
   "C14: a drain task is submitted only if the queue was empty", ["C14_covered", "C14_waiting"])
mu("f08", CODE, "processEvent", "    if ← anyEqual ev ps then\n      lift (.emit (.dropped m ev))\n    else", "    if ← anyEqual ev ps.tail then\n      lift (.emit (.dropped m ev))\n    else",
   "C31: the head of the queue is not compared", ["C31_duplicate_dropped", "C31_no_duplicates"])
mu("f09", CODE, "processEventDefault", "    let p ← lift (.poolTake s)\n    if", "    lift (.emit (.dropped m ev))\n    let p ← lift (.poolTake s)\n    if",
   "C31/C27: an accepted event is also reported as dropped", [])
# --- start, stop
mu("s01", CODE, "start", "    if ← lift (.casStarted m) then\n      lift (.setCur m i true)\n      notify", "    if true then\n      lift (.setCur m i true)\n      notify",
   "C09: start() does not check whether it was started", ["C09_"])
mu("s02", CODE, "start", "      notifyListener env m true (some c.res.noSt) immEv (some i)\n      lift (.clearEnded m)", "      lift (.clearEnded m)",
   "C49: no end callback of start()", ["C49_"])
mu("s03", CODE, "start", "      onState env .entry i immEv m\n", "",
   "C49: entry actions of the initial state are not run", ["C49_"])
mu("s04", CODE, "startInState", "      lift (.setCur m s true)\n      lift (.clearEnded m)\n    else thr (.ise .alreadyStarted)\n  | _, _", "      lift (.setCur m s true)\n      onState env .entry s immEv m\n      lift (.clearEnded m)\n    else thr (.ise .alreadyStarted)\n  | _, _",
   "C28: startInState runs entry actions", ["C28_"])
mu("s05", PROG, "exec .casStarted", "(true, ({ w with mach := fset w.mach m { w.mach m with started := true } }).log t (.started m))", "(true, (w).log t (.started m))",
   "C09: start() forgets to set the flag", ["C09_"])
mu("s06", CODE, "updateCurrentState", "  if ← lift (.casEnded m s (s.eqv (env.mach m).res.endSt) api) then\n    lift (.setCur m s api)", "  if ← lift (.casEnded m s (s.eqv (env.mach m).res.endSt && false) api) then\n    lift (.setCur m s api)",
   "C49/C24: stop() and events into the end state do not set isEnded", ["C27_stop"])
# --- event processing
mu("e01", CODE, "execute", "      onState env .exit (← deref (← lift (.getCur m))) ev m\n      updateCurrentState env m to false\n", "      updateCurrentState env m to false\n      onState env .exit (← deref (← lift (.getCur m))) ev m\n",
   "C16: exit actions run after the state was changed", ["C16_transition"])
mu("e02", CODE, "execute", "      updateCurrentState env m to false\n      onState env .entry (← deref (← lift (.getCur m))) ev m\n", "      updateCurrentState env m to false\n",
   "C16: entry actions are not run", ["C16_transition"])
mu("e03", CODE, "runActs", "    runActs m k oid ev (i + 1) n", "    runActs m k oid ev (i + 2) (n - 1)",
   "C16/C20: every second action is skipped", ["C16_transition"])
mu("e04", CODE, "execute", "  | none => callback (.unmapped m ev) (.unmapped s ev m)", "  | none => ret ()",
   "C19: unmapped events are ignored silently", ["C19_unmapped"])
mu("e05", CODE, "execute", "      if isFinal table res to then\n        stop env m false", "      ret ()",
   "C23: reaching a final state does not end the machine", ["C23_final_state_ends"])
mu("e06", CODE, "isFinal", "  | none => true\n", "  | none => false\n",
   "C23: a state that was never configured is not final", ["C23_final_state_ends"])
mu("e07", CODE, "execute", "    if res.noopSt.eqv to then\n      notifyListener env m false (← lift (.getCur m)) ev (some to)\n      notifyListener env m true (← lift (.getCur m)) ev (some to)\n    else", "    if false then\n      ret ()\n    else",
   "C18: an event without transition runs exit actions and moves to _NOOP_", ["C18_no_transition"])
mu("e08", CODE, "processOne", "      if x.isException then\n        (callback (.flowEx m ev x) (.flowEx s ev m x)).attempt\n      else ret (.error x)", "      ret (.error x)",
   "C21/C22: an exception of an action kills the drain task and is not reported", ["C22_survives"])
mu("e09", CODE, "processOne", "    if !(← lift (.getEnded cm)) then\n      execute env s ev m).attempt", "    execute env s ev m).attempt",
   "C24: events queued when the machine ended are processed", ["C24_"])
mu("e10", CODE, "execute", "      let from_ ← lift (.getCur m)\n      notifyListener env m false from_ ev (some to)\n", "      let from_ ← lift (.getCur m)\n",
   "C16/C36: no begin callback", ["C16_transition"])
mu("e11", CODE, "execute", "      notifyListener env m true from_ ev (some to)\n      if isFinal", "      notifyListener env m true (← lift (.getCur m)) ev (some to)\n      if isFinal",
   "C16/C36: the end callback gets the new state as the old one", ["C16_transition"])
mu("e12", CODE, "drain", "    processOne env s cm p ev m\n    invoke (.drain s cm)", "    processOne env s cm p ev cm\n    invoke (.drain s cm)",
   "C34/C15: the event is applied to the machine that submitted the task, not to its own", ["C15_only_for_the_event"])
mu("e13", CODE, "drain", "    processOne env s cm p ev m\n    invoke (.drain s cm)", "    processOne env s cm p ev m",
   "none of the safety claims except C14: each task drains one event only; every event still has its task", [])
mu("e14", CODE, "execute", "  let table := (env.strat s).table\n", "  let table := (env.mach m).table\n",
   "C34: would repair the wrong-table defect; the negation must fail", ["C34_negation_wrong_table"])
# --- factory
mu("fa01", FAC, "Setup.getEventQueue", "configs := S.configs.set k { c with queue := some S.queues.length } })", "configs := S.configs })",
   "C34: would give every strategy its own queue; the statements about sharing must fail", ["C34_default_strategies_share"])
mu("fa02", FAC, "Setup.build", "let S1 := S.create 0 false", "let S1 := S.create 0 true",
   "C34: default builders get a drop-duplicates strategy", ["C34_default_builder"])
# --- second series
mu("g01", CODE, "anyEqual", "  | [] => ret false", "  | [] => ret true", "C31: every event is dropped as a duplicate", [])
mu("g02", BAS, "Ev.eqv", "def Ev.eqv (a b : Ev) : Bool := a.key == b.key", "def Ev.eqv (a b : Ev) : Bool := a.name == b.name", "C31: events of different classes with the same name count as duplicates", [])
mu("g03", CODE, "anyEqual", "    if en.eqv ev then ret true else anyEqual ev ps", "    if en.eqv ev then ret true else ret false", "C31: only the head of the queue is compared", ["C31_"])
mu("g04", CODE, "fire", "      if ← lift (.getStarted m) then lift (.getEnded m) else ret false", "      lift (.getEnded m)", "equivalent: a machine that was seen started stays started", [])
mu("g05", CODE, "fire", "      callback (.flowAfter m ev) (.flowAfter s ev m)", "      callback (.flowBefore m ev) (.flowBefore s ev m)", "C11: late events are reported to the wrong method", ["C11_", "C12_"])
mu("g06", PROG, "exec .newCopy", "(w.payload ev.oid) }).log t\n        (.copied", "none }).log t\n        (.copied", "C29: the copy has no payload", ["C29_"])
mu("g07", PROG, "exec .newCopy", "(⟨0, ev.name, .copy w.nextCopy⟩,", "(⟨ev.cls, ev.name, .copy w.nextCopy⟩,", "C29/C31: copies keep the class of the event; would repair C31_negation_copies", ["C31_negation_copies"])
mu("g08", CODE, "processOne", "if !(← lift (.getEnded cm)) then", "if !(← lift (.getEnded m)) then", "would repair C34_negation_lost_event: the flag of the event's machine is read", ["C34_negation_lost_event"])
mu("g09", CODE, "updateCurrentState", "  if ← lift (.casEnded m s (s.eqv (env.mach m).res.endSt) api) then\n    lift (.setCur m s api)", "  let _ ← lift (.casEnded m s (s.eqv (env.mach m).res.endSt) api)\n  lift (.setCur m s api)", "C25/C27: the current state is changed although the machine has ended", ["C27_"])
mu("g10", CODE, "startInState", "  match (env.mach m).table.row? s, s with\n  | some _, some s =>", "  match some (), s with\n  | some _, some s =>", "C28: startInState accepts states that are not configured", ["C28_"])
mu("g11", CODE, "start", "      lift (.setCur m i true)\n      notifyListener env m false (some c.res.noSt) immEv (some i)\n", "      notifyListener env m false (some c.res.noSt) immEv (some i)\n      lift (.setCur m i true)\n", "C49: the begin callback of start() comes before the state change", ["C49_"])
mu("g12", CODE, "start", "      lift (.setCur m i true)\n      notifyListener env m false (some c.res.noSt) immEv (some i)\n", "      lift (.setCur m i true)\n      notifyListener env m false (some i) immEv (some i)\n", "C49: start() reports the initial state as the old state", ["C49_"])
mu("g13", CODE, "start", "      lift (.setCur m i true)\n      notifyListener env m false (some c.res.noSt) immEv (some i)\n", "      lift (.setCur m i true)\n      lift (.clearEnded m)\n      notifyListener env m false (some c.res.noSt) immEv (some i)\n", "C25/C49: isEnded is reset twice", ["C25_", "C49_"])
mu("g14", CODE, "execute", "      onState env .entry (← deref (← lift (.getCur m))) ev m", "      onState env .entry to ev m", "C16 undisturbed: equivalent. After a stop() in the middle of the transition the entry actions of the target are run instead of those of _END_", [])
mu("g15", CODE, "execute", "      onState env .exit (← deref (← lift (.getCur m))) ev m", "      onState env .exit (← deref from_) ev m", "equivalent unless a stop() comes between begin callback and exit actions", [])
mu("g16", CODE, "processEventDefault", "    lift (.offer c.queue p)\n    if !(← lift (.submit c.exec s m)) then\n      thr .rejected", "    if !(← lift (.submit c.exec s m)) then\n      thr .rejected\n    lift (.offer c.queue p)", "C14: the task is submitted before the event is in the queue", ["C14_"])
mu("g17", CODE, "processOne", "      if x.isException then", "      if true then", "C21/C22: Errors are reported and swallowed", ["C22_"])
mu("g18", CODE, "processOne", "        (callback (.flowEx m ev x) (.flowEx s ev m x)).attempt", "        (do let _ ← (callback (.flowEx m ev x) (.flowEx s ev m x)).attempt; ret (.ok ()))", "C22_fatal: exceptions of the flow listener are swallowed", ["C22_"])
mu("g19", CODE, "isFinal", "    | some x => res.endSt.eqv x", "    | some _ => false", "C23: a state with itEnds() is not final", ["C23_"])
mu("g20", CODE, "isFinal", "    | none => false\n", "    | none => true\n", "C23/C17: every state is final", ["C23_", "C17_"])
mu("g21", CODE, "processEvent", "      lift (.emit (.dropped m ev))\n    else processEventDefault env s ev m", "      lift (.emit (.dropped m ev))\n      processEventDefault env s ev m\n    else processEventDefault env s ev m", "C31: a duplicate is reported and enqueued", ["C31_", "C12_"])
mu("g22", CODE, "processEventDefault", "    callback (.flowFull m ev) (.flowEx s ev m (.ise .queueFull))\n  else", "    callback (.flowFull m ev) (.flowEx s ev m (.ise .queueFull))\n    let p ← lift (.poolTake s)\n    lift (.setPair p ev m)\n    lift (.offer c.queue p)\n  else", "C30/C12: an event that does not fit is reported and enqueued", ["C30_", "C12_"])
mu("g23", CODE, "processEventDefault", "    if !(← lift (.submit c.exec s m)) then\n      thr .rejected", "    let _ ← lift (.submit c.exec s m)", "C12: fire() returns normally although the executor refused the task", ["C12_"])
mu("g24", CODE, "UCall.prog", "  | .getEventQueueSize m => lift (.qSize (env.strat (env.mach m).strat).queue)", "  | .getEventQueueSize m => lift (.qSize (env.mach m).strat)", "C33: getEventQueueSize() asks the wrong queue", ["C33_"])
mu("g25", CODE, "UCall.prog", "  | .isEnded m => lift (.getEnded m)", "  | .isEnded m => lift (.getStarted m)", "C27: isEnded() returns isStarted", ["C27_"])
mu("g26", CODE, "UCall.prog", "  | .getCurrentState m => lift (.getCur m)", "  | .getCurrentState m => ret (env.mach m).init", "C17: getCurrentState() always returns the initial state", ["C17_"])
mu("g27", CODE, "notifyListener", "    let f := f.getD no\n    let t := t.getD no\n", "    let f := f.getD no\n    let t := f\n", "C16: the listener gets the old state as the new one", ["C16_"])
mu("g28", CODE, "notifyListener", "    let c : Cb := if complete then .end_ m f ev t else .begin m f ev t\n", "    let c : Cb := .begin m f ev t\n", "C16/C36: begin instead of end", ["C16_"])
mu("g29", CODE, "runActs", "    callback (.action m k oid i ev) (.action k oid i ev m)\n    runActs", "    let _ ← (callback (.action m k oid i ev) (.action k oid i ev m)).attempt\n    runActs", "C20/C21: exceptions of actions are ignored", ["C20_", "C21_"])
mu("g30", CODE, "onState", "  runActs m k s.oid ev 0 (env.acts k s.oid).length", "  runActs m k s.oid ev 0 ((env.acts k s.oid).length - 1)", "C16: the last action is not run", ["C16_"])
mu("g31", CODE, "execute", "      notifyListener env m true from_ ev (some to)\n      if isFinal table res to then\n        stop env m false", "      if isFinal table res to then\n        stop env m false\n      notifyListener env m true from_ ev (some to)", "C16/C23: the machine ends before the end callback", ["C16_"])
mu("g32", CODE, "execute", "  match row.target (some ev.key) with\n  | none => callback", "  match row.target (some ⟨0, ev.name⟩) with\n  | none => callback", "C19: the class of an event is ignored in the table", ["C16_", "C19_"])
mu("g33", CODE, "stop", "def stop (m : MId) (api : Bool) : Prog Unit := updateCurrentState env m (env.mach m).res.endSt api", "def stop (m : MId) (api : Bool) : Prog Unit := do\n  if ← lift (.getStarted m) then\n    updateCurrentState env m (env.mach m).res.endSt api", "C27: stop() before start() does nothing", ["C27_"])
mu("g34", CODE, "drain", "  if ← lift (.qIsEmpty q) then\n    ret ()\n  else", "  if ← lift (.getEnded cm) then\n    ret ()\n  else if ← lift (.qIsEmpty q) then\n    ret ()\n  else", "C14: an ended machine leaves its events in the queue", ["C14_"])
mu("g35", CODE, "body", "  | .flowAfter s ev m => (env.flowAfter s ev m).denote env", "  | .flowAfter s ev m => (env.flowBefore s ev m).denote env", "C11: the wrong handler is run (the history records which handler was meant)", ["C11_"])
mu("g36", CODE, "body", "  | .listener l c f ev t => (env.listener l c f ev t).denote env", "  | .listener l c f ev t => (env.listener l (!c) f ev t).denote env", "C16: begin and end of the listener are exchanged (the history records which one was meant)", [])
mu("g37", CODE, "body", "  | .action k oid i ev m => match (env.acts k oid)[i]? with", "  | .action k oid i ev m => match (env.acts k oid)[0]? with", "C16: always the first action is run (the history records which one was meant)", [])
mu("g38", PROG, "exec .poolTake", "| [] => (w.nextPair, { w with nextPair := w.nextPair + 1 })", "| [] => (w.nextPair, w)", "C32: the same new pair is handed out again and again", ["C32_"])
mu("g39", PROG, "exec .submit", "{ w with tasks := fset w.tasks e (w.tasks e ++ [(s, m)]) }).log t (.submitted s m))", "w).log t (.submitted s m))", "C14: submitted tasks are forgotten", ["C14_"])
mu("g40", SEM, "step .dispatch", "((c.w.tasks e).eraseIdx j) },", "((c.w.tasks e).drop 2) },", "C14: a worker forgets a pending task", ["C14_"])
mu("g41", PROG, "exec .casEnded", "    if (w.mach m).ended then (false, w)\n    else (true, ({ w with mach := fset w.mach m { w.mach m with ended := b } }).log t (.upd m s b api))", "    (true, ({ w with mach := fset w.mach m { w.mach m with ended := b } }).log t (.upd m s b api))", "C24/C25: a transition revives an ended machine", ["C25_"])
mu("g42", CFG, "itTransitionsTo", "  let s ← assertNotReservedState s\n  assertInitStateDefined true\n  assertMarkedStateDefined true\n  assertEventNotMapped\n", "  let s ← assertNotReservedState s\n  assertInitStateDefined true\n  assertMarkedStateDefined true\n", "C05: a second outcome without event is accepted", ["C08_"])
mu("g43", CFG, "assertNotReservedStateEvent", "if resImmediate == e.name then", "if immKey == e.key then", "C02: an event of another class named _immediate_ is accepted", ["C02_"])
mu("g44", CFG, "initialSate", "  modify fun c => { c with init := some s }\n", "", "C01: the initial state is not stored", ["C01_"])
mu("g45", CFG, "itEnds", "    assertEventNotMapped\n    putMarked (some e.key) (some rs.endSt)", "    assertEventNotMapped\n    putMarked (some immKey) (some rs.endSt)", "C04: itEnds() after receives(e) makes the state final", ["C04_"])
mu("g46", CFG, "startChecks", "  if init.isNone then some (.ise .noInit)", "  if false then some (.ise .noInit)", "C06: start() without an initial state", ["C06_"])

# --- races, scripts, liveness
SVC = "Verif/Model/Service.lean"
UTI = "Verif/Model/Util.lean"
USR = "Verif/Model/User.lean"
mu("h01", CODE, "processEventDefault", "      lift (.setPair p ev m)\n    lift (.offer c.queue p)\n", "      ret ()\n    lift (.offer c.queue p)\n    lift (.setPair p ev m)\n", "C61/C29: the pair is filled after it has been put into the queue", ["C61_", "C29_"])
mu("h02", CODE, "start", "      lift (.setCur m i true)\n      notifyListener env m false", "      lift (.clearEnded m)\n      lift (.setCur m i true)\n      notifyListener env m false", "C62: isEnded is reset (also) before the state is written", ["C62_", "C49_"])
mu("h03", CODE, "fire", "  let s := (env.mach m).strat\n  if !(← lift (.getStarted m)) then", "  let s := (env.mach m).strat\n  let _ ← lift (.getCur m)\n  if !(← lift (.getStarted m)) then", "C62: fire() reads the current state in the calling thread", ["C62_"])
mu("h04", CODE, "startInState", "      lift (.setCur m s true)\n      lift (.clearEnded m)\n", "      lift (.clearEnded m)\n      lift (.setCur m s true)\n", "C62: startInState() resets isEnded before it writes the state", ["C62_"])
mu("h05", CODE, "execute", "      notifyListener env m true from_ ev (some to)\n", "      notifyListener env m true from_ ev (some to)\n      notifyListener env m true from_ ev (some to)\n", "C60: the end of a transition is reported twice", ["C60_", "C16_", "C36_"])
mu("h06", CODE, "processOne", "        (callback (.flowEx m ev x) (.flowEx s ev m x)).attempt\n", "        (do callback (.flowEx m ev x) (.flowEx s ev m x); callback (.flowEx m ev x) (.flowEx s ev m x)).attempt\n", "C60/C21: an exception is reported twice", ["C60_", "C21_"])
mu("h07", SEM, "step .dispatch", "    if i < env.width e then\n", "    if i < env.width e + 1 then\n", "C62/C15/C35: executors have one thread more than configured", ["C62_", "C35_", "C15_"])
mu("h08", PROG, "enabled", "  | .await n, w => w.intr t || w.latch n == 0", "  | .await n, w => w.intr t || w.latch n ≤ 1", "C44: await() does not wait for the last countDown()", ["C44_"])
mu("h09", PROG, "exec .qSnap", "  | .qSnap q, w => (w.queue q, w)", "  | .qSnap q, w => ((w.queue q).tail, w)", "C31: the scan does not see the head of the queue", ["C31_"])
mu("h10", PROG, "exec .newCopy", "    (⟨0, ev.name, .copy w.nextCopy⟩,", "    (⟨0, \"copy\", .copy w.nextCopy⟩,", "C55: copies have another name", ["C55_"])
mu("h11", CODE, "drain", "    let p ← deref (← lift (.poll q))\n", "    let p ← deref (← lift (.poll q))\n    if (← lift (.getEnded cm)) then invoke (.drain s cm) else\n", "C32/C57: events of an ended machine are discarded without giving the pair back (the history shows no end of their processing)", ["C57_", "C59_"])
mu("h12", CODE, "drain", "    invoke (.drain s cm)", "    if (← lift (.qIsEmpty q)) then ret () else ret ()", "C14/C59: the task ends after one event; every event still has its own task", ["C59_"])
# --- apps
mu("h20", SVC, "callSub", "    | .ok _ => next\n    | .error x => .thr x))", "    | .ok _ => next\n    | .error x => if x.isException then next else .thr x))", "C43: the loop goes on after a failure of a subsystem", ["C42_"])
mu("h21", SVC, "stopLoop", "  | k + 1 => a.callSub k false (stopLoop k)", "  | k + 1 => a.callSub (a.nsubs - 1 - k) false (stopLoop k)", "C42: subsystems are stopped in the order of starting", ["C42_"])
mu("h22", SVC, "stoppingAction", "def stoppingAction : UProg := handleException (a.stopLoop a.nsubs) a.exceptionHandler", "def stoppingAction : UProg := .call (.countDown a.latch) fun _ => handleException (a.stopLoop a.nsubs) a.exceptionHandler", "C44/C50: start() is released when stopping begins", ["C44_", "C45_"])
mu("h23", SVC, "stopBody", "    if named s STATE_STARTED || !a.exitOnStop && named s STATE_STOPPED then a.fire evtStop", "    if named s STATE_STARTED || named s STATE_STARTING || !a.exitOnStop && named s STATE_STOPPED then a.fire evtStop", "C46: stop() is accepted while starting", ["C46_"])
mu("h24", SVC, "startBody", "      else if !a.exitOnStop && named s STATE_STOPPED then a.fire evtStart", "      else if named s STATE_STOPPED then a.fire evtStart", "C46: an exit-on-stop app can be restarted", ["C46_"])
mu("h25", SVC, "startFinally", "  .call (.isEnded a.m) fun e => if !e then a.recorded .stop a.stopBody else .done", "  .call (.isEnded a.m) fun _ => .done", "start() does not stop the app when it is interrupted", ["C48_"])
mu("h26", SVC, "lifecycleCalls", "   .when_ (some started), .receives (some evtError), .itTransitionsTo (some stopped),", "   .when_ (some started), .receives (some evtError), .itTransitionsTo (some stopping),", "C41/C47: an error in STARTED stops the subsystems first", ["C41_", "C47_"])
mu("h27", SVC, "exceptionHandler", "fun _ => a.fire evtError", "fun _ => .done", "C43: a failing subsystem fires nothing", ["C42_"])
mu("h28", SVC, "errorBody", "def errorBody : UProg := a.fire evtError", "def errorBody : UProg := a.fire evtStop", "C46/C47: error() fires the stop event", ["C46_"])
mu("h29", SVC, "stoppedAction", "    (a.fire evtStop).andThen (.call (.countDown a.latch) fun _ => .done)", "    .call (.countDown a.latch) fun _ => a.fire evtStop", "C44 holds; start() can be released before the stop event is fired", [])
mu("h30", SVC, "startBody", "        (UProg.call (.start a.m) UProg.ofRes).andThen <|\n        (a.fire evtStart).andThen <|\n", "        (UProg.call (.start a.m) UProg.ofRes).andThen <|\n", "C46: start() does not fire the start event", ["C46_"])
# --- helpers
mu("h40", USR, "handleException", "    | .error x => if x.isException then handler x else .thr x", "    | .error x => handler x", "C37: Errors are handled too", ["C37_"])
mu("h41", USR, "handleException", "    | .error x => if x.isException then handler x else .thr x", "    | .error x => if x.isException then (handler x).andThen (.thr x) else .thr x", "C37: the exception is thrown again after it was handled", ["C37_"])
mu("h42", UTI, "Multi.Step.finish", "  | finish {cs i} : i.must = [] → Step", "  | finish {cs i} : Step", "C38: a notification may leave out listeners", ["C38_"])
mu("h43", UTI, "Multi.Step.next", "  | next {cs i l} : l ∈ i.may → l ∉ i.seen →", "  | next {cs i l} : l ∈ i.may →", "C38: a listener may be called twice", ["C38_"])
mu("h44", UTI, "Multi.Step.addOld", "  | addOld {s l} : l ∈ s.consumers → Step s (.add l false) s", "  | addOld {s l} : l ∈ s.consumers → Step s (.add l true) s", "C38: add() always returns true", ["C38_"])
mu("h45", UTI, "Multi.Step.throws", "(.ret l (some x)) ⟨cs, .raising x⟩", "(.ret l (some x)) ⟨cs, .iter i⟩", "C38: would make the listeners independent; the negation must fail", ["C38_"])
mu("h46", UTI, "Logging.logChange", "      else .note (.log (line beginNamed [n, old.name, ev.name, new.name])) .done", "      else .note (.log (line beginNamed [n, new.name, ev.name, old.name])) .done", "C39: old and new state are exchanged", ["C39_"])
mu("h47", UTI, "Threads.step", "{ s with count := s.count + 1, inside", "{ s with count := s.count, inside", "C40: the counter is not incremented", ["C40_"])
mu("h48", UTI, "Threads.step", "⟨b ++ '-' :: showInt z, true⟩", "⟨b ++ '-' :: showInt z, false⟩", "C40: threads are no daemons", ["C40_"])
mu("h49", UTI, "Threads.step", "⟨b ++ '-' :: showInt z, true⟩", "⟨b ++ showInt z, true⟩", "C40: no separator", ["C40_"])
# --- C60 to C73
FAC, ACT = "Verif/Model/Factory.lean", "Verif/Model/Actions.lean"
mu("i01", FAC, "Setup.step", "if k = 0 then S else { S with configs := S.configs.set k { c with maxQ := n } }", "if ¬ (k = 0) then S else { S with configs := S.configs.set k { c with maxQ := n } }", "C72: withMaxQueueSize has no effect", ["C72_"])
mu("i02", FAC, "Setup.create", "⟨k, q, e, c.maxQ, dropDup, none⟩", "⟨k, q, e, -1, dropDup, none⟩", "C72: strategies are always unbounded", ["C72_"])
mu("i03", FAC, "Setup.create", "⟨k, q, e, c.maxQ, dropDup, none⟩", "⟨k, q, e, c.maxQ, false, none⟩", "C72: no strategy drops duplicates", ["C72_"])
mu("i04", FAC, "Setup.step", "{ S with configs := S.configs.set k { c with exec := some e } }", "{ S with configs := S.configs.set k { c with exec := c.exec.or (some e) } }", "C72: only the first executor counts", ["C72_"])
mu("i05", FAC, "Setup.step", "    | some _, some _ => { S with builders := S.builders.set b (some s) }", "    | some none, some _ => { S with builders := S.builders.set b (some s) }", "C73: only the first strategy of a builder counts", ["C73_"])
mu("i06", FAC, "Setup.machine", "strats := S.strats.set s { t with owner := some S.machines.length }", "strats := S.strats.set s { t with owner := t.owner.or (some S.machines.length) }", "C73: would give a strategy the table of the first machine; the statement about the last one must fail", ["C73_"])
mu("i07", FAC, "Setup.getEventQueue", "configs := S.configs.set k { c with queue := some S.queues.length } }", "configs := S.configs }", "C72: would give every strategy a queue of its own; the statements about sharing must fail", ["C72_", "C34_"])
mu("i08", "Verif/Model/Prog.lean", "exec setIntr", "  | .setIntr, w => ((), { w with intr := fset w.intr t true })", "  | .setIntr, w => ((), w)", "C70: the interrupt status is lost", ["C70_"])
mu("i09", SVC, "startBody", "(.call .setIntr fun _ => a.startFinally)", "a.startFinally", "C70: start() does not set the interrupt status again", ["C70_"])
mu("i10", SVC, "startBody", "(.call .setIntr fun _ => a.startFinally)", "(UProg.andThen a.startFinally (UProg.call UCall.setIntr fun _ => UProg.done))", "C70: the status is lost if stop() throws in the finally block", ["C70_"])
mu("i11", SVC, "startFinally", "fun e => if !e then a.recorded .stop a.stopBody else .done", "fun e => if e then a.recorded .stop a.stopBody else .done", "C69: start() returns while the app is running", ["C69_"])
mu("i12", SVC, "startFinally", "fun e => if !e then a.recorded .stop a.stopBody else .done", "fun _ => .done", "C69: start() returns while the app is running", ["C69_"])
mu("i13", ACT, "append", "(as.filter (·.isSome)).foldl (fun h a => match a with | some a => h.add l a | none => h) h", "(as.filter (·.isSome)).reverse.foldl (fun h a => match a with | some a => h.add l a | none => h) h", "C68: actions are appended in reverse order", ["C68_"])
mu("i14", ACT, "Heap.add", "h.items l ++ [a]", "[a] ++ h.items l", "C68: actions are prepended", ["C68_"])
mu("i15", ACT, "Heap.add", "h.mod l + 1", "h.mod l", "C68: changes while the list is run go unnoticed", ["C68_"])
mu("i16", ACT, "append", "  | none => (h, .error .npe)", "  | none => (h, .ok ())", "C68: null is accepted", ["C68_"])
mu("i17", ACT, "Exec.changed", "  | changed {h l es m i} : h.mod l ≠ m → Exec code (.loop l es m i) h h (.error .cme)", "  | changed {h l es m i} : h.mod l ≠ m → es.length ≤ i → Exec code (.loop l es m i) h h (.error .cme)", "C68: the change is noticed at the end only", ["C68_"])
mu("i18", "Verif/Model/Prog.lean", "exec poolTake", "    | p :: ps => (p, { w with pool := fset w.pool s ps })", "    | p :: _ => (p, w)", "C32/C63: a pair is handed out twice", ["C32_"])
mu("i19", "Verif/Model/Prog.lean", "exec poolGive", "    let w' := { w with pool := fset w.pool s (w.pool s ++ [p]) }", "    let w' := w", "the pool is never used", ["C64_", "C65_", "C66_"])
mu("i20", "Verif/Model/Code.lean", "UCall.prog", "  | .getEventQueueSize m => lift (.qSize (env.strat (env.mach m).strat).queue)", "  | .getEventQueueSize m => lift (.qSize (env.mach m).strat)", "getEventQueueSize() of the wrong queue", ["C54_"])
mu("i21", "Verif/Model/Code.lean", "execute", "      onState env .entry (← deref (← lift (.getCur m))) ev m\n      notifyListener env m true from_ ev (some to)\n      if isFinal table res to then\n        stop env m false", "      if isFinal table res to then\n        stop env m false\n      onState env .entry (← deref (← lift (.getCur m))) ev m\n      notifyListener env m true from_ ev (some to)", "C71/C16: the machine ends before the entry actions of the final state", ["C71_", "C16_"])
mu("i22", "Verif/Model/Code.lean", "fire", "    let e ← do\n      if ← lift (.getStarted m) then lift (.getEnded m) else ret false", "    let e ← do\n      if ← lift (.getStarted m) then lift (.getEnded m) else ret true", "C12: equivalent unless a machine is un-started", [])
mu("i23", "Verif/Model/Code.lean", "api", "  let r ← p.attempt\n  lift (.emit (.leave c (outcome r)))\n  ret r", "  let r ← p.attempt\n  ret r", "the return of a call is not recorded", ["C67_"])
mu("i24", "Verif/Model/Code.lean", "start", "      notifyListener env m true (some c.res.noSt) immEv (some i)\n      lift (.clearEnded m)", "      lift (.clearEnded m)\n      notifyListener env m true (some c.res.noSt) immEv (some i)", "the end flag is reset before the listener is told", ["C23_"])
mu("i25", "Verif/Model/Code.lean", "processEventDefault", "    lift (.offer c.queue p)\n    if !(← lift (.submit c.exec s m)) then\n      thr .rejected", "    let b ← lift (.submit c.exec s m)\n    lift (.offer c.queue p)\n    if !b then\n      thr .rejected", "C14: the task can look before the event is in the queue", ["C14_"])
# --- C74 to C77
mu("j01", SVC, "stoppedAction", "    (a.fire evtStop).andThen (.call (.countDown a.latch) fun _ => .done)", "    a.fire evtStop", "C75/C77: the latch is never released", ["C75_released", "C77_released"])
mu("j02", SVC, "stoppedAction", "    (a.fire evtStop).andThen (.call (.countDown a.latch) fun _ => .done)", "    .call (.countDown a.latch) fun _ => .done", "the machine is not ended in exit mode", [])
mu("j03", SVC, "stopBody", "    if named s STATE_STARTED || !a.exitOnStop", "    if named s STATE_STARTING || !a.exitOnStop", "C77: stop() of a STARTED app does nothing", ["C77_told"])
mu("j04", SVC, "errorBody", "def errorBody : UProg := a.fire evtError", "def errorBody : UProg := a.fire evtComplete", "C77: error() fires the wrong event", ["C77_told"])
mu("j05", SVC, "errorBody", "def errorBody : UProg := a.fire evtError", "def errorBody : UProg := (a.fire evtError).andThen (.call (.await a.latch) fun _ => .done)", "C76: error() waits until the app has stopped", ["C76_stop_error_return"])
mu("j06", SVC, "stopBody", "&& named s STATE_STOPPED then a.fire evtStop", "&& named s STATE_STOPPED then (a.fire evtStop).andThen (.call (.await a.latch) fun _ => .done)", "C76: stop() waits until the app has stopped", ["C76_stop_error_return"])
mu("j07", SVC, "startBody", "      else .thr (.ise .appState)\n\ndef methodBody", "      else .call (.await a.latch) fun _ => .thr (.ise .appState)\n\ndef methodBody", "C76: start() of an app that has been started waits", ["C76_start_again"])
mu("j08", SVC, "lifecycleCalls", "   .when_ (some started), .receives (some evtError), .itTransitionsTo (some stopped),\n", "", "C75/C77: a STARTED app ignores errors", ["C75_started", "C77_told"])
mu("j09", SVC, "lifecycleCalls", ".when_ (some stopping), .receives (some evtError), .itTransitionsTo (some stopped)", ".when_ (some stopping), .receives (some evtError), .itTransitionsTo (some started)", "C75: an app whose subsystems cannot be stopped gets STARTED again", ["C75_stopping", "C77_told"])
mu("j10", SVC, "exceptionHandler", "fun _ => a.fire evtError", "fun _ => .done", "C75: the app hangs in STARTING if a subsystem cannot be started", ["C75_starting"])
mu("j11", SVC, "stopLoop", "  | 0 => a.fire evtComplete\n  | k + 1 => a.callSub k false", "  | 0 => .done\n  | k + 1 => a.callSub k false", "C75: the app hangs in STOPPING", ["C75_stopping", "C77_told"])
mu("j12", SVC, "startFinally", "fun e => if !e then a.recorded .stop a.stopBody else .done", "fun e => if !e then a.recorded .stop (.call (.await a.latch) fun _ => a.stopBody) else .done", "C76: start() waits once more after an interrupt", ["C76_start_returns"])
mu("j13", SVC, "startBody", "        (a.fire evtStart).andThen <|\n", "", "C75: start() does not start the app", [])
mu("j14", SVC, "stoppedAction", "  if a.exitOnStop then\n    (a.fire evtStop)", "  if !a.exitOnStop then\n    (a.fire evtStop)", "C77: the latch is released in the wrong mode", ["C77_released"])
mu("j15", "Verif/Model/Prog.lean", "exec countDown", "  | .countDown n, w => ((), ({ w with latch := fset w.latch n (w.latch n - 1) }).log t (.latch n))", "  | .countDown n, w => ((), w.log t (.latch n))", "C77: countDown does not open the latch", ["C77_released"])
# --- C78, C79
CODE = "Verif/Model/Code.lean"
mu("k01", CODE, "notifyListener", "    | none => thr .npe\n    | some l => userCall c (.listener l complete f ev t)", "    | none => ret ()\n    | some l => userCall c (.listener l complete f ev t)", "C79: would not lose events if the listener is removed; the negations must fail", ["C79_negation_listener", "C79_negation_final"])
mu("k02", CODE, "startInState", "  match (env.mach m).table.row? s, s with\n  | some _, some s =>", "  match (env.mach m).table.row? s, s with\n  | _, some s =>", "C79: startInState accepts states without configuration", ["C79_none"])
mu("k03", CODE, "start", "      lift (.setCur m i true)\n      notifyListener env m false (some c.res.noSt) immEv (some i)", "      lift (.setCur m c.res.noSt true)\n      notifyListener env m false (some c.res.noSt) immEv (some i)", "C79: start() sets another state", ["C79_none"])
mu("k04", CODE, "execute", "  | none => callback (.unmapped m ev) (.unmapped s ev m)\n", "  | none => thr .npe\n", "C79: NPE for unmapped events", ["C79_cause"])
mu("k05", CODE, "notifyListener", "  let l ← lift (.getListener m)\n  if l.isSome then\n", "  let _ ← lift (.getListener m)\n  if true then\n", "C79: NPE if there is no listener", ["C79_none"])
mu("k06", CODE, "start", "    if ← lift (.casStarted m) then\n      lift (.setCur m i true)", "    lift (.setCur m i true)\n    if ← lift (.casStarted m) then\n      ret ()", "C79: would not lose events fired during start(); the negation must fail", ["C79_negation_start"])
mu("k08", CODE, "drain", "    processOne env s cm p ev m\n    invoke (.drain s cm)", "    processOne env s cm p ev m", "C78: a task processes one event only (nothing is starved or left behind then)", ["C78_negation_starvation", "C78_negation_backlog"])
mu("k09", "Verif/Model/Sem.lean", "step dispatch", "tasks := fset c.w.tasks e ((c.w.tasks e).eraseIdx j)", "tasks := fset c.w.tasks e ((c.w.tasks e).drop (j + 1))", "C78: a worker throws the tasks before its own away", ["C78_taken", "C78_idles"])
mu("k10", CODE, "processOne", "    if !(← lift (.getEnded cm)) then\n      execute env s ev m).attempt", "    if !(← lift (.getEnded cm)) then\n      if (← lift (.getCur m)).isSome then\n        execute env s ev m).attempt", "C79: would ignore events taken too early; the negation must fail or still hold, the cause must get narrower", [])
mu("k11", CODE, "drain", "  if ← lift (.qIsEmpty q) then\n    ret ()", "  if (← lift (.qSize q)) ≤ 1 then\n    ret ()", "C78: the last event is left in the queue", ["C78_taken", "C78_idles", "C78_processed"])
mu("k12", CODE, "execute", "      updateCurrentState env m to false\n", "      updateCurrentState env m (if to.oid = 0 then res.noSt else to) false\n", "C79: a transition goes to a state that is not configured", ["C79_none"])
# --- C80, C81
DIR = "Verif/Model/Direct.lean"
mu("l01", DIR, "processEventDefault", "    lift (.offer c.queue p)\n    if d c.exec then\n      invoke (.drain s m)\n    else if", "    if d c.exec then\n      invoke (.drain s m)\n    lift (.offer c.queue p)\n    if d c.exec then\n      ret ()\n    else if", "C80: fire() leaves its own event in the queue", ["C80_nested", "C80_rest", "C80_processed"])
mu("l02", DIR, "processEventDefault", "      invoke (.drain s m)\n    else if", "      ret ()\n    else if", "C80: the executor does not execute tasks", ["C80_nested", "C80_rest", "C80_processed"])
mu("l03", CODE, "drain", "    processOne env s cm p ev m\n    invoke (.drain s cm)", "    processOne env s cm p ev m", "C80: one event per task; still nested, and one event is taken for each that is queued, but a nested call may leave ones", [])
mu("l04", "Verif/Model/Prog.lean", "exec poll", "      let w' := { w with queue := fset w.queue q ps }\n      (some p,", "      let w' := { w with queue := fset w.queue q ps.reverse }\n      (some p,", "C80: not first in first out", ["C80_nested"])
mu("l05", DIR, "body", "  | .action k oid i ev m => match (env.acts k oid)[i]? with\n    | some a => denote env d (a ev m)", "  | .action k oid i ev m => match (env.acts k oid)[i]? with\n    | some a => denote env (fun _ => false) (a ev m)", "C81: what actions fire would be executed later; the negations must fail", ["C81_negation_completion", "C81_negation_entry", "C81_negation_table", "C81_negation_listener"])
mu("l06", DIR, "processEventDefault", "      invoke (.drain s m)\n    else if", "      let _ ← (invoke (.drain s m)).attempt\n    else if", "C80: exceptions of the task are swallowed (equivalent for what C80 says)", [])
mu("l07", CODE, "processOne", "      execute env s ev m).attempt", "      execute env s ev m).attempt\n  lift (.emit (.done m ev))", "C80: the end of processing is recorded twice", ["C80_nested"])
# --- C82
REC = "Verif/Model/Reconf.lean"
mu("m01", REC, "transition", "  updateCurrentState c to false\n  onState c .entry (← deref (← get).cur) ev\n  notifyListener c true from_ ev to\n  if isFinal (← get).cfg.table c.res to then", "  updateCurrentState c to false\n  let t := (← get).cfg.table\n  onState c .entry (← deref (← get).cur) ev\n  notifyListener c true from_ ev to\n  if isFinal t c.res to then", "C82: whether the state is final is decided before the entry actions", ["C82_story", "C82_ends", "C82_negation_final"])
mu("m02", REC, "transition", "  onState c .exit (← deref (← get).cur) ev\n  updateCurrentState c to false", "  onState c .exit (← deref (← get).cur) ev\n  let to := (((← get).cfg.table.row? from_).bind (·.target (some ev.key))).getD to\n  updateCurrentState c to false", "C82: the target is read again after the exit actions", ["C82_story", "C82_event", "C82_target"])
mu("m03", REC, "updateCurrentState", "  if !(← get).ended then\n    modify fun w => { w with ended := s.eqv c.res.endSt, cur := some s }\n    emit (.cur s user)", "  modify fun w => { w with ended := s.eqv c.res.endSt, cur := some s }\n  emit (.cur s user)", "C82: an ended machine goes on", ["C82_story"])
mu("m04", REC, "RCall.run", "    modify fun w => { w with cfg := k.after c.res w.cfg }\n", "    if !(← get).started then\n      modify fun w => { w with cfg := k.after c.res w.cfg }\n", "C82: configuration calls on a started machine are ignored", ["C82_story", "C82_negation_final", "C82_negation_target"])
mu("m05", REC, "transition", "  if isFinal (← get).cfg.table c.res to then\n    stop c false", "  if isFinal (← get).cfg.table c.res ((← get).cur.getD to) then\n    stop c false", "C82: the current state is asked whether it is final (equivalent: it is `to` unless the machine is ended)", [])
mu("m06", REC, "execute", "  | none => callback c (.unmapped 0 ev) (c.unmapped ev)", "  | none => pure ()", "C82: unmapped events are ignored", ["C82_story", "C82_event"])
mu("m08", REC, "processOne", "  if !(← get).ended then\n    tryCatch (execute c ev) (report c ev)", "  tryCatch (execute c ev) (report c ev)", "C82: an ended machine handles events", ["C82_story"])
mu("m09", REC, "execute", "    if c.res.noopSt.eqv to then", "    if false then", "C82: a transition to the no-op state", ["C82_story"])
mu("m07", "Verif/Model/Config.lean", "when_", "table := AMap.putIfAbsent c.table s.name ⟨false, []⟩ }", "table := AMap.put c.table s.name ⟨false, []⟩ }", "C82: when() forgets what has been configured for the state", ["C82_grows"])
CTX = "Verif/Model/Context.lean"
mu("n01", CTX, "W.turn", "  else if w.mod i.l ≠ i.expected then w.abort i.up                   -- ConcurrentModificationException\n", "", "C84: no check for modification", ["Ctx.C84_changed", "Ctx.C84_negation_aborted"])
mu("n02", CTX, "W.turn", "  if i.cursor = (if i.up then (w.items i.l).length else 0) then", "  if (if i.up then (w.items i.l).length ≤ i.cursor else i.cursor = 0) then", "C84: the end is reached beyond the size as well", ["Ctx.C84_count"])
mu("n03", CTX, "W.beginPhase", "if up then 0 else (w.items l).length, w.mod l, none", "if up then 0 else (w.items l).length - 1, w.mod l, none", "C84: stopping begins before the last subsystem", ["Ctx.C84_finished", "Ctx.C84_mirror"])
mu("n04", CTX, "step", "        some (if ok then w else w.abort i.up)", "        some w", "C84: exceptions of subsystems are swallowed", ["Ctx.C84_finished"])
mu("n05", CTX, "W.turn", "    | _ => w.abort i.up                                              -- NullPointerException (or NoSuchElementException)", "    | _ => ({ w with it := none, queue := w.queue ++ [evtComplete] }).emit (.finished i.up)", "C84: a null element ends the loop", ["Ctx.C84_finished", "Ctx.C84_mirror"])
mu("n06", CTX, "step", "  | .take => match w.it, w.queue with\n    | none, ev :: q =>", "  | .take => match w.it, w.queue with\n    | _, ev :: q =>", "C84: an event is handled while a phase is running", ["Ctx.C84_alone"])
mu("n07", CTX, "W.beginPhase", "  match w.ref with\n  | none => (w.emit", "  match (if up then w.ref else some 0) with\n  | none => (w.emit", "C84: stopping uses the first list", ["Ctx.C84_begin", "Ctx.C84_mirror"])
mu("n08", CTX, "step", "  | .given l => some (({ w with ref := l }).emit (.given l))", "  | .given l => some (({ w with ref := if w.it = none then l else w.ref }).emit (.given l))", "C84: withSubsystems is ignored while a phase is running", ["Ctx.C84_begin"])
mu("n09", CTX, "W.turn", "{ i with cursor := if i.up then i.cursor + 1 else i.cursor - 1, calling := some x }", "{ i with cursor := if i.up then i.cursor + 1 else i.cursor - 2, calling := some x }", "C84: every other subsystem is stopped", ["Ctx.C84_finished", "Ctx.C84_mirror"])
mu("n10", CTX, "W.beginPhase", "w.mod l, none⟩ }).emit", "0, none⟩ }).emit", "C84: expectedModCount is 0", ["Ctx.C84_aborted", "Ctx.C84_negation_replaced"])
mu("n11", CTX, "W.turn", "    ({ w with it := none, queue := w.queue ++ [evtComplete] }).emit (.finished i.up)\n", "    ({ w with it := none, queue := w.queue ++ [evtComplete] }).emit (.finished true)\n", "C84: the end of stopping is reported as the end of starting", ["Ctx.C84_alone"])
mu("n12", CTX, "W.handle", "    else if s = STATE_STOPPING then w.beginPhase false", "    else if s = STATE_STOPPING then w.beginPhase true", "C84: stopping starts the subsystems again", ["Ctx.C84_states", "Ctx.C84_negation_replaced"])
QS = "Verif/Model/Queues.lean"
mu("o01", QS, "step", "        if c.max > 0 ∧ (r : Int) ≥ c.max then some { w with prod := fset w.prod p (.full t) }", "        if c.max > 0 ∧ (r : Int) > c.max then some { w with prod := fset w.prod p (.full t) }", "C85: one event too many", ["Qs.C85_bound", "Qs.C85_accepted"])
mu("o02", QS, "step", "        if c.max > 0 ∧ (r : Int) ≥ c.max then", "        if c.max ≥ 0 ∧ (r : Int) ≥ c.max then", "C85: a bound of 0 is a bound", ["Qs.C85_rejected"])
mu("o03", QS, "step", "        else some { w with prod := fset w.prod p (.offered t), log := w.log ++ [.refuse t] }", "        else some { w with prod := fset w.prod p (.passed t) }", "C85: fire tries again when refused (nothing is lost)", ["Qs.C85_negation_lost"])
mu("o04", QS, "step", "    | .offered t => some { w with pending := w.pending + 1, prod", "    | .offered t => some { w with pending := if w.q.length ≤ 1 then w.pending + 1 else w.pending, prod", "C85: no task if the queue was not empty before", ["Qs.C85_rest"])
mu("o05", QS, "step", "    | .loop => some { w with work := fset w.work k (if w.q = [] then .idle else .polling) }", "    | .loop => some { w with work := fset w.work k .idle }", "C85: a task that does nothing", ["Qs.C85_rest"])
mu("o06", QS, "step", "    | .busy t => some { w with work := fset w.work k .loop, log", "    | .busy t => some { w with work := fset w.work k .idle, log", "C85: a task takes one event only (equivalent for the claims: one task per accepted event)", [])
mu("o07", QS, "step", "some { w with q := (x :: q).eraseIdx i, work", "some { w with q := if i = 0 then q else x :: q, work", "C85: elements not at the head are not removed", ["Qs.C85_conserved"])
mu("o08", QS, "step", "if ok then some { w with q := w.q ++ [t], offers", "if ok then some { w with q := t :: w.q, offers", "C85: new elements come first", ["Qs.C85_fifo"])
mu("o09", QS, "step", "      | [] => some { w with work := fset w.work k .idle, log := w.log ++ [.died k] }", "      | [] => some { w with work := fset w.work k .idle }", "C85: nothing to poll ends the task", ["Qs.C85_negation_died"])
mu("o10", QS, "step", "    | .full t => some { w with prod := fset w.prod p (.over t), log := w.log ++ [.rejected p t] }", "    | .full t => some { w with prod := fset w.prod p (.over t) }", "C85: no report when the queue is full", ["Qs.C85_fate"])
mu("o11", QS, "step", "    | .full t => some { w with prod := fset w.prod p (.over t), log", "    | .full t => some { w with prod := fset w.prod p (.passed t), log", "C85: the event is reported and put into the queue", ["Qs.C85_fate", "Qs.C85_bound"])
mu("o12", QS, "step", "if 0 < w.pending ∧ k < c.workers then some { w with pending := w.pending - 1, work", "if 0 < w.pending ∧ k < c.workers then some { w with pending := 0, work", "C85: all tasks are dropped when one begins (equivalent for the claims: the worker drains the queue)", [])
MAPS = "Verif/Model/Maps.lean"
mu("p01", MAPS, "equals", "    else if (heap this).cls ≠ (heap o).cls then false\n", "", "C86: equals ignores the class", ["Maps.C86_equal", "Maps.C86_agree"])
mu("p02", MAPS, "objectsEquals", "  | none, none => true\n", "", "C86: two objects without a name are not equal", ["Maps.C86_equal", "Maps.C86_agree"])
mu("p03", MAPS, "hashCode", "  match (heap this).name with\n  | none => 0", "  match (heap this).name with\n  | none => this", "C86: the hash code of an object without a name is its identity", ["Maps.C86_contract", "Maps.C86_agree"])
mu("p04", MAPS, "hits", "n.hash = ks.hashOf key && (n.key = key ||", "n.hash = ks.hashOf key && (false ||", "C86: a null key is never found", ["Maps.C86_hash"])
mu("p05", MAPS, "hits", "  n.hash = ks.hashOf key && (n.key = key || match key with | none => false | some k => ks.equals k n.key)", "  n.hash = ks.hashOf key", "C86: keys with the same hash code are confused", ["Maps.C86_hash"])
mu("p06", MAPS, "hits", "(n.key = key || match key with | none => false | some k => ks.equals k n.key)", "n.key = key", "C86: only the same object is found", ["Maps.C86_hash"])
mu("p07", MAPS, "putBin", "if ks.hits key n then { n with val := v } :: ns else n :: putBin", "if ks.hits key n then n :: ns else n :: putBin", "C86: put does not replace a value", ["Maps.C86_hash"])
mu("p08", MAPS, "putBin", "  | n :: ns => if ks.hits key n then { n with val := v } :: ns else n :: putBin ks key v ns", "  | n :: ns => n :: putBin ks key v ns", "C86: put adds a second node", ["Maps.C86_hash"])
mu("p09", MAPS, "HMap.put", "if j = i then putBin ks key v (m.bin j) else m.bin j", "if j = i then putBin ks key v [] else m.bin j", "C86: put forgets the rest of the bin", ["Maps.C86_hash"])
mu("p10", MAPS, "HMap.resize", "⟨cap, fun i => m.nodes.filter fun n => idx cap n.hash = i⟩", "⟨cap, m.bin⟩", "C86: the nodes stay in their bins when the table is resized", ["Maps.C86_hash"])
mu("p11", MAPS, "HMap.resize", "⟨cap, fun i => m.nodes.filter fun n => idx cap n.hash = i⟩", "⟨cap, fun i => (m.bin i).filter fun n => idx cap n.hash = i⟩", "C86: nodes that belong to another bin are lost when the table is resized", ["Maps.C86_hash"])
mu("p12", MAPS, "HMap.step", "  | .putIfAbsent k v => match (m.node ks idx k).bind (·.val) with\n    | some _ => (m, .unit)", "  | .putIfAbsent k v => match (m.node ks idx k) with\n    | some _ => (m, .unit)", "C86: putIfAbsent does not replace null", ["Maps.C86_hash"])
mu("p13", MAPS, "HMap.step", "  | .hasNull => (m, .bool (m.nodes.any fun n => n.val.isNone))", "  | .hasNull => (m, .bool ((m.bin 0).any fun n => n.val.isNone))", "C86: only the first bin is searched for null", ["Maps.C86_hash"])
mu("p14", MAPS, "equals", "  | none => false\n  | some o =>\n    if this = o", "  | none => (heap this).name = none\n  | some o =>\n    if this = o", "C86: an object without a name is equal to null", ["Maps.C86_contract"])
mu("p15", MAPS, "HMap.put", "let i := idx m.cap (ks.hashOf key)\n  {", "let i := idx (m.cap + 1) (ks.hashOf key)\n  {", "C86: put and get disagree about the bin", ["Maps.C86_hash"])

# C87: the drop-duplicate check while the queue changes
SCAN = "Verif/Model/Scan.lean"
mu("qs01", SCAN, "step", "| .busy x t => some { w with pool := w.pool ++ [x],", "| .busy x t => some { w with held := fset w.held x none, pool := w.pool ++ [x],", "C87: a pair is cleared before it goes back to the pool, so a check that is under way meets null", ["Scan.C87_npe"])
mu("qs02", SCAN, "step", "if eqv t' t then some { w with prod := fset w.prod p (.over t), log := w.log ++ [.drop p t] }\n        else some { w with prod := fset w.prod p (.scan t pos) }", "some { w with prod := fset w.prod p (.scan t pos) }", "C87: nothing is ever dropped", ["Scan.C87_alone"])
mu("qs03", SCAN, "step", "if eqv t' t then some { w with prod := fset w.prod p (.over t)", "if ¬ eqv t' t then some { w with prod := fset w.prod p (.over t)", "C87: what is not equal is dropped", ["Scan.C87_dropped", "Scan.C87_alone"])
mu("qs04", SCAN, "step", "      | none => some { w with prod := fset w.prod p (.passed t) }", "      | none => some { w with prod := fset w.prod p (.over t) }", "C87: an event that is no duplicate is forgotten", ["Scan.C87_fate"])
mu("qs05", SCAN, "step", "(.seen t (Nat.max pos w.head + 1) x)", "(.seen t (Nat.max pos w.head + 2) x)", "C87: the check looks at every other event", ["Scan.C87_alone"])
mu("qs06", SCAN, "step", "| .fire p => match w.prod p with                                   -- DropDuplicateEventStrategy.java:43-45\n    | .idle => some { w with fresh := w.fresh + 1, prod := fset w.prod p (.scan w.fresh 0)", "| .fire p => match w.prod p with                                   -- DropDuplicateEventStrategy.java:43-45\n    | .idle => some { w with fresh := w.fresh + 1, prod := fset w.prod p (.passed w.fresh)", "C87: nothing is checked", ["Scan.C87_alone"])
mu("qs07", SCAN, "step", "| .got t x => some { w with held := fset w.held x (some t), prod", "| .got t x => some { w with prod", "C87: the event is not written to the pair", ["Scan.C87_fifo", "Scan.C87_content"])
mu("qs08", SCAN, "step", "      | x :: xs => some { w with pool := xs, prod := fset w.prod p (.got t x) }", "      | x :: _ => some { w with prod := fset w.prod p (.got t x) }", "C87: a pair stays in the pool, two events share it", ["Scan.C87_fifo", "Scan.C87_content"])
mu("qs09", SCAN, "step", "| .written t x => some { w with nodes := w.nodes ++ [x], prod", "| .written t x => some { w with nodes := x :: w.nodes, prod", "C87: the newest event is taken first", ["Scan.C87_fifo"])
mu("qs10", SCAN, "step", "some { w with pool := w.pool ++ [x], work := fset w.work k .idle, log := w.log ++ [.done k t] }", "some { w with work := fset w.work k .idle, log := w.log ++ [.done k t] }", "C87: pairs are not reused (makes C87_negation_reused false)", ["Scan.C87_negation_reused"])
mu("qs11", SCAN, "step", "        | some t => some { w with head := w.head + 1, work := fset w.work k (.got x), log := w.log ++ [.take k t] }", "        | some t => some { w with head := w.head + 1, pool := w.pool ++ [x], work := fset w.work k (.got x), log := w.log ++ [.take k t] }", "C87: a pair goes back to the pool before it is read", ["Scan.C87_content", "Scan.C87_fifo"])
mu("qs12", SCAN, "step", "      | some t => some { w with work := fset w.work k (.busy x t), log := w.log ++ [.process k t] }", "      | some t => some { w with work := fset w.work k .idle, pool := w.pool ++ [x, x], log := w.log ++ [.process k t] }", "C87: a pair is given back twice", ["Scan.C87_fifo"])
mu("qs13", SCAN, "step", "      | [] => some { w with newPair := w.newPair + 1, prod", "      | [] => some { w with prod", "C87: all new pairs are the same object", ["Scan.C87_fifo"])
mu("qs14", SCAN, "step", "| none => some { w with prod := fset w.prod p .idle, log := w.log ++ [.npe p t] }", "| none => some { w with prod := fset w.prod p .idle, log := w.log ++ [.drop p t] }", "nothing: a check never meets a pair without an event (C87_npe)", [])
mu("qs15", SCAN, "step", "match w.nodes[Nat.max pos w.head]? with\n      | some x => some { w with prod := fset w.prod p (.seen t (Nat.max pos w.head + 1) x) }", "match w.nodes[pos]? with\n      | some x => some { w with prod := fset w.prod p (.seen t (pos + 1) x) }", "C87: the check also looks at events that were taken before it began", ["Scan.C87_dropped"])

# C82, C84, C68: what the edits of tools/automut.py got past
mu("r01", REC, "transition", "  onState c .exit (← deref (← get).cur) ev\n  updateCurrentState c to false\n", "  updateCurrentState c to false\n  onState c .exit (← deref (← get).cur) ev\n", "C82: exit actions of the new state instead of the old one", ["C82_calls"])
mu("r02", REC, "transition", "  onState c .entry (← deref (← get).cur) ev\n  notifyListener c true from_ ev to\n", "  notifyListener c true from_ ev to\n  onState c .entry (← deref (← get).cur) ev\n", "C82: the listener is told the end before the entry actions", ["C82_calls"])
mu("r03", REC, "execute", "      notifyListener c false (← get).cur ev to\n      notifyListener c true (← get).cur ev to\n    else", "      notifyListener c true (← get).cur ev to\n    else", "C82: a noop transition is told once", ["C82_calls"])
mu("r04", REC, "start", "      onState c .entry i immEv\n", "", "C82: start() runs no entry action", ["C82_start"])
mu("r05", REC, "startInState", "      emit (.started s)\n", "      emit (.started s)\n      emit (.cb (.action 0 .entry s.oid 0 immEv))\n", "C82: startInState runs entry actions", ["C82_start"])
mu("r06", REC, "fire", "queue := w.queue ++ [ev] }", "queue := ev :: w.queue }", "C82: last in, first out", ["C82_fifo"])
mu("r07", REC, "processOne", "  if !(← get).ended then\n    tryCatch", "  if !(← get).started then\n    tryCatch", "C82: events are only handled by machines that are not started", ["C82_calls"])
mu("r08", REC, "report", "  else emit (.uncaught x)", "  else pure ()", "C82: errors vanish", ["C82_calls"])
mu("r09", REC, "report", "tryCatch (callback c (.flowEx 0 ev x) (c.flowEx ev x)) fun y => emit (.uncaught y)", "callback c (.flowEx 0 ev x) (c.flowEx ev x)", "C82: what the flow listener throws is not caught, so the task does not end the event", ["C82_calls"])
mu("r10", REC, "start", "  | some x, _ => throw x\n", "  | some x, _ => if x = .npe then throw x else pure ()\n", "C82: start() with a bad configuration returns", [])
mu("r11", REC, "execute", "  | none => callback c (.unmapped 0 ev) (c.unmapped ev)", "  | none => pure ()", "C82: unmapped events are ignored", ["C82_calls"])
mu("r12", REC, "transition", "  if isFinal (← get).cfg.table c.res to then\n    stop c false", "  pure ()", "C82: a machine in a final state does not end", ["C82_ends"])
mu("r13", CTX, "W.handle", "    let w := ({ w with state := s }).emit (.state s)\n", "    let w := (w).emit (.state s)\n", "C84: the state does not change", ["Ctx.C84_state"])
mu("r14", CTX, "W.handle", "  | none => w\n", "  | none => ({ w with state := STATE_STOPPED }).emit (.state STATE_STOPPED)\n", "C84: an event without a transition stops the app", ["Ctx.C84_state"])
mu("r15", CTX, "step", "    | none, ev :: q => some ((({ w with queue := q }).emit (.taken ev)).handle ev)", "    | none, ev :: _ => some (((w).emit (.taken ev)).handle ev)", "C84: an event is handled again and again", ["Ctx.C84_fifo"])
mu("r16", CTX, "step", "    | none, ev :: q => some ((({ w with queue := q }).emit (.taken ev)).handle ev)", "    | none, ev :: q => some (({ w with queue := q }).emit (.taken ev))", "C84: events are taken and not handled", ["Ctx.C84_state"])
mu("r17", CTX, "step", "  | .take => match w.it, w.queue with\n    | none, ev :: q", "  | .take => match w.it, w.queue.reverse with\n    | none, ev :: q", "C84: the newest event first", ["Ctx.C84_fifo"])
mu("r18", ACT, "Exec", "Exec code (.loop l (h.items l) (h.mod l) 0) h h1 r1 → Exec code (.code (k r1))", "Exec code (.loop l (h.items l).reverse (h.mod l) 0) h h1 r1 → Exec code (.code (k r1))", "C68: a nested run goes backwards", ["Actions.C68_nested"])
WEAK = "Verif/Model/Weak.lean"
SWEAK = "Verif/Spec/Weak.lean"
mu("wk01", CODE, "updateCurrentState", "  if ← lift (.casEnded m s (s.eqv (env.mach m).res.endSt) api) then\n    lift (.setCur m s api)\n", "  lift (.setCur m s api)\n  let _ ← lift (.casEnded m s (s.eqv (env.mach m).res.endSt) api)\n", "C88: the state is written before the flag is changed", ["C88_known", "C88_lag", "C88_started"])
mu("wk02", CODE, "start", "      lift (.setCur m i true)\n      notifyListener env m false (some c.res.noSt) immEv (some i)\n      onState env .entry i immEv m\n      notifyListener env m true (some c.res.noSt) immEv (some i)\n      lift (.clearEnded m)\n", "      lift (.clearEnded m)\n      lift (.setCur m i true)\n      notifyListener env m false (some c.res.noSt) immEv (some i)\n      onState env .entry i immEv m\n      notifyListener env m true (some c.res.noSt) immEv (some i)\n", "C88: isEnded is reset before the state is written", ["C88_start", "C88_started"])
mu("wk03", CODE, "startInState", "      lift (.setCur m s true)\n      lift (.clearEnded m)\n", "      lift (.setCur m s true)\n", "C88: startInState does not reset isEnded, so its state need not be seen", ["C88_start", "C88_started"])
mu("wk04", WEAK, "step", "(some (k v))", "(some (k (c.w.mach m).cur))", "C88: reads are sequentially consistent, whatever is said to be read", ["C88_negation_service"])
mu("wk05", SWEAK, "Sees", "Writes H m k s → HB wide H j k → ¬HB wide H k i", "Writes H m k s → HB wide H j k → HB wide H k i → True", "C88: a read may see an overwritten value", ["C88_known", "C88_lag", "C88_sequential"])
mu("wk06", CODE, "UCall.prog", "  | .getCurrentState m => lift (.getCur m)\n", "  | .getCurrentState m => do\n    let _ ← lift (.getEnded m)\n    lift (.getCur m)\n", "C88: getCurrentState() reads a volatile field first, so null is not returned after start()", ["C88_negation_null"])
PLAIN = "Verif/Model/Plain.lean"
SPLAIN = "Verif/Spec/Plain.lean"
mu("pl01", CODE, "processEventDefault", "      lift (.setPair p ev m)\n    lift (.offer c.queue p)\n", "      lift (.offer c.queue p)\n      lift (.setPair p ev m)\n    lift (.offer c.queue p)\n", "C90: events without payload are put into the queue before the pair is filled, so the pair and the event are not handed over safely", ["C90_payload", "C89_library"])
mu("pl02", PLAIN, "execRead", "payload := fset w.payload (.copy w.nextCopy) v }", "payload := fset w.payload (.copy w.nextCopy) (w.payload ev.oid) }", "C89: the copy gets another payload than the one that has been read", ["C89_drf", "C89_library"])
mu("pl03", PLAIN, "execRead", "    | none => some (none, w)\n    | some l => some (some l, w.log t (.cb c))", "    | none => some (none, w.log t (.cb c))\n    | some l => some (some l, w.log t (.cb c))", "C89: a listener that is null is called", ["C89_drf", "C89_library"])
mu("pl04", PLAIN, "source", "  | .newCopy ev => some (.payload ev.oid)\n", "", "C89: the copy constructor reads no payload", ["C89_drf", "C89_allowed"])
mu("pl05", PLAIN, "step", "if M x then (execRead t o v c.w)", "if M x ∨ True then (execRead t o v c.w)", "C89: fields that are not weak return anything", ["C89_drf", "C89_library"])
mu("pl06", PLAIN, "execRead", "  | .getPayload _, .payload v, w => some (v, w)", "  | .getPayload o, .payload _, w => some (w.payload o, w)", "C89: payloads are sequentially consistent, whatever is said to be read", ["C89_drf"])
mu("pl07", CODE, "UCall.prog", "  | .fire m ev => api (.fire m ev) (Verif.fire env m ev)\n", "  | .fire m ev => do\n    let _ ← lift (.getListener m)\n    api (.fire m ev) (Verif.fire env m ev)\n", "C90: fire() reads the listener, in the thread of the client", ["C90_listener", "C89_library"])
mu("pl08", CODE, "processOne", "  lift (.poolGive s p)\n  ofExcept r\n", "  lift (.setPayload ev.oid none)\n  lift (.poolGive s p)\n  ofExcept r\n", "C90: the library clears payloads when an event has been processed, so no client can keep to the rules", ["C90_payload"])
mu("pl09", CODE, "drain", "    let (ev, m) ← deref (← lift (.getPair p))\n    processOne env s cm p ev m\n", "    lift (.poolGive s p)\n    let (ev, m) ← deref (← lift (.getPair p))\n    processOne env s cm p ev m\n", "C89: pairs are given back before they are read", ["C89_library", "C90_payload"])
mu("pl10", CODE, "stop", "def stop (m : MId) (api : Bool) : Prog Unit := updateCurrentState env m (env.mach m).res.endSt api\n", "def stop (m : MId) (api : Bool) : Prog Unit := do\n  updateCurrentState env m (env.mach m).res.endSt api\n  lift (.setListener m none)\n", "C90: stop() removes the listener, so no client that stops a machine keeps to the rules", ["C90_listener"])
mu("pl11", SPLAIN, "Justified", "Puts H f k u → HB wide (dids H) j k → ¬HB wide (dids H) k i", "Puts H f k u → HB wide (dids H) j k → HB wide (dids H) k i → True", "C89: a read may return an overwritten value", ["C89_drf", "C89_library"])
mu("pl12", SPLAIN, "Handed", "ev.oid = o → d.tid = t0 ∧ i < j", "ev.oid = o → d.tid = t0", "C90: the payload may be changed after the event has been fired", ["C90_payload"])
mu("pl13", SPLAIN, "Prepared", "H[j]? = some (.op u (.setCur m s api) ()) → i < j", "H[j]? = some (.op u (.setCur m s api) ()) → i < j ∨ True", "C90: the listener may be changed after start()", ["C90_listener"])

# C92
SHB = "Verif/Spec/HB.lean"
mu("ck01", CODE, "processOne", "  lift (.poolGive s p)\n  ofExcept r\n", "  lift (.poolGive s p)\n  lift (.poolGive s p)\n  ofExcept r\n", "C92: a pair is given back twice, so two threads write to it", ["C92_writes", "C92_reads"])
mu("ck02", CODE, "anyEqual", "if en.eqv ev then ret true", "if en.eqv en then ret true", "C92: any queued event makes the check drop the event", ["C92_drops"])
mu("ck03", CODE, "processEvent", "    let ps ← lift (.qSnap (env.strat s).queue)\n", "    let ps ← lift (.qSnap ((env.strat s).queue + 1))\n", "C92: the check looks into another queue", ["C92_drops"])
mu("ck04", PLAIN, "execRead", "    | some e, some m => some (some (e, m), w)\n", "    | some e, some m => some (if e.cls = 0 then none else some (e, m), w)\n", "C92: reads of pairs may fail", ["C92_reads"])
mu("ck05", SPLAIN, "Justified", "Puts H f k u → HB wide (dids H) j k → ¬HB wide (dids H) k i", "Puts H f k u → HB wide (dids H) j k → HB wide (dids H) k i → True", "C92: a read may return an overwritten value", ["C92_reads", "C92_drops"])
mu("ck06", SHB, "Sync", "      (H[j]? = some (.op u (.poll q) (some p)) ∨ ∃ l, H[j]? = some (.op u (.qSnap q) l) ∧ p ∈ l) →", "      (H[j]? = some (.op u (.poll q) (some p)) ∨ ∃ l, H[j]? = some (.op u (.qSnap q) l) ∧ p ∈ l ∧ False) →", "C92: the iterator of the queue does not synchronise, so the check may find null", ["C92_reads", "C92_drops"])
mu("ck07", CODE, "processEvent", "    if ← anyEqual ev ps then\n", "    if (← anyEqual ev ps) || ps.length > 3 then\n", "C92: events are dropped when the queue is long", ["C92_drops"])
mu("ck08", CODE, "anyEqual", "if en.eqv ev then ret true else anyEqual ev ps", "if en.eqv ev then ret true else anyEqual ev ps.tail", "C92: the check skips every second event, so duplicates pass", ["C92_passes", "C92_noticed"])
mu("ck09", CODE, "processEventDefault", "      lift (.setPair p ev' m)\n", "      lift (.setPair p ⟨0, \"copy\", ev'.oid⟩ m)\n", "C92: the copy that is stored has another name than the event that passed the check", ["C92_passes"])
mu("ck10", CODE, "processEvent", "    else processEventDefault env s ev m\n  else", "    else do processEventDefault env s ev m; processEventDefault env s ev m\n  else", "C92: an event that has passed the check is queued twice", ["C92_passes"])
mu("ck11", CODE, "processEvent", "  if (env.strat s).dropDup then\n", "  if (env.strat s).dropDup && ev.cls == 0 then\n", "C92: events of other classes are not checked", ["C92_passes", "C92_noticed"])
# C93, C95
MED = "Verif/Spec/Meddle.lean"
mu("lo01", CODE, "drain", "  if ← lift (.qIsEmpty q) then\n    ret ()\n", "  if (← lift (.qIsEmpty q)) || (← lift (.getCur cm)).isNone then\n    ret ()\n", "C93: a drain gives up when it reads null as the current state", ["C93_covered", "C93_all_taken"])
mu("lo02", CODE, "processEventDefault", "  if c.maxQ > 0 && (queueSize : Int) ≥ c.maxQ then\n", "  if c.maxQ > 0 && (queueSize : Int) ≥ c.maxQ && (← lift (.getPayload ev.oid)).isSome then\n", "C93: events without payload are never refused", ["C93_bound", "C95_fire"])
mu("lo03", CODE, "execute", "      onState env .entry (← deref (← lift (.getCur m))) ev m\n      notifyListener env m true from_ ev (some to)\n", "      if (← lift (.getCur m)) == some to then notifyListener env m true from_ ev (some to)\n      onState env .entry (← deref (← lift (.getCur m))) ev m\n      notifyListener env m true from_ ev (some to)\n", "C93: the listener is notified of the end twice if the thread reads the new state", ["C93_script"])
mu("lo04", CODE, "processOne", "      if x.isException then\n", "      if x.isException && (← lift (.getCur cm)).isSome then\n", "C93: exceptions are not handed to the flow listener when the thread reads null as the current state", ["C93_finished"])
mu("lo05", CODE, "processEvent", "    if ← anyEqual ev ps then\n", "    if (← anyEqual ev ps) && (← lift (.getPayload ev.oid)).isNone then\n", "C93: duplicates with a payload are queued", ["C93_no_duplicates"])
mu("lo06", CODE, "start", "    if ← lift (.casStarted m) then\n      lift (.setCur m i true)\n      notify", "    if (← lift (.casStarted m)) || (← lift (.getCur m)).isNone then\n      lift (.setCur m i true)\n      notify", "C95: a second start() goes on if it reads null as the current state", ["C95_one_start", "C09_one_start"])
# C94
REUSE = "Verif/Model/Reuse.lean"
mu("ru01", CODE, "processOne", "  lift (.poolGive s p)\n  ofExcept r\n", "  lift (.poolGive s p)\n  let _ ← lift (.poolTake s)\n  lift (.poolGive s p)\n  ofExcept r\n", "C94: a pair that may be in use is put into the pool", ["C94_any", "C94_no_pool"])
mu("ru02", CODE, "processEventDefault", "    else\n      lift (.setPair p ev m)\n    lift (.offer", "    else if (← lift (.getPair p)).isNone then\n      lift (.setPair p ev m)\n    lift (.offer", "C94: a recycled pair keeps its event", ["C94_any", "C94_no_pool"])
mu("ru03", REUSE, "processNull", "    let _ ← lift (.poolTake s)\n    thr .npe\n", "    let p ← lift (.poolTake s)\n    lift (.offer c.queue p)\n    thr .npe\n", "C94: fire(null) leaves an entry in the queue", ["C94_fire_null"])
mu("ru04", REUSE, "processNull", "    let _ ← lift (.poolTake s)\n    thr .npe\n", "    let p ← lift (.poolTake s)\n    lift (.poolGive s p)\n    lift (.poolGive s p)\n    thr .npe\n", "C94: fire(null) puts its pair into the pool twice", ["C94_fire_null"])
mu("ru05", REUSE, "processNull", "    let _ ← lift (.poolTake s)\n    thr .npe\n", "    let _ ← lift (.poolTake s)\n", "C94: fire(null) returns normally", ["C94_fire_null"])
mu("ru06", REUSE, "take", "(p, { w with pool := fset w.pool s ((w.pool s).eraseIdx i) })", "(p, w)", "C94: a pair that has been taken remains in the pool", ["C94_any"])
mu("ru07", CODE, "drain", "    processOne env s cm p ev m\n", "    processOne env s cm p ev m\n    let x ← lift (.getPair p)\n    if x != some (ev, m) then thr .npe\n", "C94: a pair is read after it has been given back, and the drain fails if it has been reused", ["C94_any", "C94_no_pool"])
mu("ru08", REUSE, "processNull", "    let ps ← lift (.qSnap c.queue)\n    noneEqual ps\n", "    let ps ← lift (.qSnap c.queue)\n    if ps.isEmpty then thr .npe\n    noneEqual ps\n", "C94: fire(null) to an empty queue takes no pair, or is not refused when it should be", ["C94_fire_null"])
# C95
mu("me01", PLAIN, "execRead", "payload := fset w.payload (.copy w.nextCopy) v }", "payload := fset w.payload (.copy w.nextCopy) none }", "C95: the copy has no payload, whatever is read", ["C95_reads", "C95_meddler"])
mu("me02", MED, "meddler", "  | .listener m l :: ws => .call (.setListener m l) fun _ => meddler ws\n", "  | .listener m l :: ws => .call (.setListener m l) fun _ => .call (.setListener m none) fun _ => meddler ws\n", "C95: the additional client takes every listener back at once, so it explains nothing", ["C95_meddler"])
mu("me03", MED, "onlyCur", "  | .cur m => M (.cur m)\n  | _ => False\n", "  | .listener m => M (.listener m)\n  | _ => False\n", "C95: currentState is not weak but listeners are", ["C95_meddler"])
mu("me04", MED, "LooseFate", "  | before {r} : During mem mid (fun mem => mem.started m = false) →", "  | before {r} : During mem mid (fun mem => mem.ended m = true) →", "C95: flowBefore is called only for machines that have ended", ["C95_fire"])
mu("me05", MED, "LooseStart", "(r = none → .cleared m ∈ rest)", "(.cleared m ∈ rest)", "C95: start() resets the end flag even if an entry action throws", ["C95_start"])
mu("me06", CODE, "fire", "      if ← lift (.getStarted m) then lift (.getEnded m) else ret false", "      if ← lift (.getStarted m) then do let e ← lift (.getEnded m); let s ← lift (.getCur m); ret (e || s.isNone) else ret false", "C95: an event is refused when the thread reads null as the current state", ["C95_fire"])
mu("me07", CODE, "updateCurrentState", "    lift (.setCur m s api)\n", "    if (← lift (.getCur m)).isSome then lift (.setCur m s api)\n", "C95: stop() keeps the state when the thread reads null", ["C95_stop"])
mu("me08", CODE, "startInState", "      lift (.setCur m s true)\n      lift (.clearEnded m)\n    else thr (.ise .alreadyStarted)\n  | _, _", "      if (← lift (.getCur m)).isNone then lift (.setCur m s true)\n      lift (.clearEnded m)\n    else thr (.ise .alreadyStarted)\n  | _, _", "C95: startInState() keeps a state that the thread reads", ["C95_start_in_state"])
mu("me09", PLAIN, "execRead", "    | some e, some m => some (some (e, m), w)\n", "    | some e, some m => some (some (e, m), { w with nextPair := w.nextPair + 1 })\n", "C95: reading a pair changes something else", ["C95_reads"])
# C96
OPEN = "Verif/Model/Open.lean"
mu("op01", OPEN, "step", "{ c.conf.w.mach m with cur := some s }", "{ c.conf.w.mach m with cur := some s, ended := false }", "C96: updateCurrentState() lets an ended machine run again", ["C96_weak", "C96_flags"])
mu("op02", OPEN, "step", "      else if (c.conf.w.mach m).ended then some c\n", "", "C96: updateCurrentState() does not look whether the machine has ended", ["C96_ended"])
mu("op03", OPEN, "step", "      if s.eqv (env.mach m).res.endSt then none\n", "      if s.eqv (env.mach m).res.endSt then some { c with conf := { c.conf with w := { c.conf.w with mach := fset c.conf.w.mach m { c.conf.w.mach m with ended := true } } } }\n", "C96: updateCurrentState(_END_) ends the machine without leaving a trace in the history", ["C96_weak", "C96_flags"])
mu("op04", OPEN, "step", "mach := fset c.conf.w.mach m { c.conf.w.mach m with cur := some s } }", "mach := fset c.conf.w.mach m { c.conf.w.mach m with cur := some s }, queue := fun _ => [] }", "C96: updateCurrentState() throws the waiting events away", ["C96_weak", "C96_order"])
mu("op05", OPEN, "step", "{ c.conf.w.mach m with cur := some s }", "c.conf.w.mach m", "C96: updateCurrentState() does nothing", ["C96_converse", "C96_negation_table", "C96_negation_end"])
BYP = "Verif/Model/Bypass.lean"
mu("by01", BYP, "Step", "(some ((processEvent env (env.mach m).strat ev m).handle k))", "(some ((processEvent env (env.mach m).strat ev m).handle fun _ => k (.ok ())))", "C97: a direct call hides exceptions", ["C97_direct", "C97_anywhere"])
mu("by02", BYP, "Step", "(some ((processEvent env (env.mach m).strat ev m).handle k))", "(some ((processEvent env (env.mach (m + 1)).strat ev m).handle k))", "C97: the strategy of another machine is called", ["C97_direct", "C97_anywhere"])
mu("by03", BYP, "FStep", "c.thr t = some (.op (.getStarted m) k) → FStep M c ⟨c.w, fset", "c.thr t = some (.op (.getStarted m) k) → FStep M c ⟨{ c.w with queue := fun _ => [] }, fset", "C97: a read of isStarted throws the waiting events away", ["C97_order", "C97_flags"])
mu("by04", BYP, "FStep", "c.thr t = some (.op (.getEnded m) k) → FStep M c ⟨c.w, fset", "c.thr t = some (.op (.getEnded m) k) → FStep M c ⟨{ c.w with mach := fset c.w.mach m { c.w.mach m with ended := b } }, fset", "C97: a weak read of isEnded changes the flag", ["C97_flags"])
mu("by05", BYP, "Step", "c.thr t = some ((fire env m ev).handle k) →", "c.thr t = some ((start env m).handle k) →", "C97: a call of start() hands an event to the strategy", ["C97_direct", "C97_anywhere"])
# C91
mu("fo01", CODE, "execute", "      updateCurrentState env m to false\n", "      updateCurrentState env (m + 1) to false\n", "C91: a transition writes the state of another machine", ["C91_untouched", "C91_licensed"])
mu("fo02", CODE, "drain", "    processOne env s cm p ev m\n", "    processOne env s cm p ev cm\n", "C91: the event is processed for the machine that has submitted the task", ["C91_licensed"])
mu("fo03", CODE, "processEventDefault", "    if !(← lift (.submit c.exec s m)) then\n", "    if !(← lift (.submit c.exec s (m + 1))) then\n", "C91: the task is submitted in the name of another machine", ["C91_licensed"])
# C99: without one of the rules the claims are false
SAFE = "Verif/Spec/Safe.lean"
PSAFE = "Verif/Proofs/Safe.lean"
mu("sa01", SAFE, "Delivered", " ∧ Taken H k p ∧ ev.oid = o", " ∧ ev.oid = o", "C99: who finds an event in a check for duplicates may use its payload", ["C99_races", "C99_library"])
mu("sa02", SAFE, "Delivered", "→ ev.oid = o → d.tid = t0 ∧ i < j", "→ ev.oid = o → d.tid = t0", "C99: the owner of an event may change its payload at any time", ["C99_races", "C99_library"])
mu("sa03", SAFE, "Pairs", "  | .pair _ => True\n", "  | .pair _ => False\n", "C99: reads of pairs are sequentially consistent too", ["C99_library"])
mu("sa04", PSAFE, "Rules", "m H ∧ ∃ t0, Prepared t0 (env.workerOf m) m H\n", "m H\n", "C99: listeners may be set at any time", ["C99_races", "C99_library"])
mu("sa05", PSAFE, "Rules", "  | .cur m => OwnThread env m ∧ Disciplined (env.workerOf m) m H\n", "  | .cur m => OwnThread env m\n", "C99: machines may be used without discipline", ["C99_races", "C99_library"])
mu("sa06", PSAFE, "Rules", "  | .cur m => OwnThread env m ∧ Disciplined (env.workerOf m) m H\n", "  | .cur m => Disciplined (env.workerOf m) m H\n", "C99: machines may share threads", ["C99_races", "C99_library"])
mu("sa07", PSAFE, "Rules", "  | .payload o => ∃ t0, Delivered t0 o H\n", "  | .payload _ => True\n", "C99: payloads may be used at any time", ["C99_races", "C99_library"])
# C100
NAM = "Verif/Spec/Names.lean"
mu("nm01", NAM, "Naming.Ok", "  st : ∀ {a a' b b'}, N.st a a' → N.st b b' → (a = b ↔ a' = b')\n", "  st : ∀ {a a' b b'}, N.st a a' → N.st b b' → (a = b → a' = b')\n", "C100: two states may get the same name", ["C100_config", "C100_run"])
mu("nm02", NAM, "Naming.Ok", "  ev : ∀ {a a' b b'}, N.ev a a' → N.ev b b' → (a = b ↔ a' = b')\n", "  ev : ∀ {a a' b b'}, N.ev a a' → N.ev b b' → (a = b → a' = b')\n", "C100: two events may get the same name", ["C100_config", "C100_run"])
mu("nm03", NAM, "Naming.Ok", "  reserved : ∀ n ∈ reservedStateNames, N.st n n\n", "  reserved : N.st resUninit resUninit ∧ N.st resNoop resNoop\n", "C100: _END_ may be called something else", ["C100_config", "C100_run"])
mu("nm04", NAM, "Naming.Env", "(fun a a' => ∀ ev ev' m, N.Ev ev ev' → N.User (a ev m) (a' ev' m)) (env.acts k o) (env'.acts k o')", "(fun _ _ => True) (env.acts k o) (env'.acts k o')", "C100: State objects may have other actions", ["C100_run"])
mu("nm05", NAM, "Renaming.obsOf", "  | .cur m s api => .cur m (f.stOf s) api\n", "  | .cur m s api => .cur m s api\n", "C100: states entered keep their names", ["C100_rename"])
mu("nm06", CODE, "isFinal", "    | some x => res.endSt.eqv x\n", "    | some x => res.endSt.eqv x || to.name == \"final\"\n", "C100: a state that is called final is final", ["C100_run", "C100_rename"])
mu("nm07", BAS, "Ev.eqv", "def Ev.eqv (a b : Ev) : Bool := a.key == b.key\n", "def Ev.eqv (a b : Ev) : Bool := a.cls == b.cls && a.name.length == b.name.length\n", "C100: events are compared by the length of their names", ["C100_run", "C100_rename"])
# C101
WAT = "Verif/Spec/Watch.lean"
mu("wa01", WAT, "Watch.Quiet", "  | done : Quiet .done\n", "  | done : Quiet .done\n  | thr (x : Exc) : Quiet (.thr x)\n", "C101: watching listeners may throw", ["C101_detach", "C101_attach", "C101_exchange"])
mu("wa02", WAT, "Watch.Looks", "  | .isStarted _ | .isEnded _ | .getCurrentState _ |", "  | .isStarted _ | .setIntr | .isEnded _ | .getCurrentState _ |", "C101: watching listeners may set the interrupt flag", ["C101_detach", "C101_attach", "C101_exchange"])
mu("wa03", WAT, "Watch.Apart", "  | .setListener m none => !V.mach m\n", "  | .setListener _ none => true\n", "C101: watching listeners may be removed at any time", ["C101_detach", "C101_attach", "C101_exchange"])
mu("wa04", WAT, "Watch.Apart", "  | .getMem a => !V.mem a\n", "  | .getMem _ => true\n", "C101: other code may read the memory of watching listeners", ["C101_detach", "C101_attach", "C101_exchange"])
mu("wa05", WAT, "Watch.seen", "  | .cb c | .cbRet c _ => V.cbSeen c\n", "  | .cb c => V.cbSeen c\n", "C101: returns of watching listeners are in both histories", ["C101_detach", "C101_attach", "C101_exchange"])
mu("wa06", CODE, "notifyListener", "  let l ← lift (.getListener m)\n", "  let l ← lift (.getListener m)\n  if l.isNone then lift (.setMem 0 1)\n", "C101: a machine without listeners does something else", ["C101_detach", "C101_attach", "C101_exchange"])
mu("wa07", WAT, "Watch.Looks", "  | .setMem a _ => V.mem a\n", "  | .setMem _ _ => true\n", "C101: watching listeners may write any memory", ["C101_detach", "C101_attach", "C101_exchange"])
mu("wa08", WAT, "Watch.Others", "(w.mach m).listener = some l → V.lst l = false", "(w.mach m).listener = some l → V.lst l = false ∨ V.lst l = true", "C101: watching listeners may be used with other machines too, though they use the same memory", ["C101_detach", "C101_attach", "C101_exchange"])

GRP = "Verif/Spec/Groups.lean"
C102 = ["C102_alone", "C102_whatever", "C102_parts", "C102_together"]
mu("gr01", GRP, "Group.Env", "  queue : ∀ s, G.strat s = true → G.queue (env.strat s).queue = true\n", "  queue : ∀ s, G.strat s = true → G.queue (env.strat s).queue = true ∨ True\n", "C102: strategies of different groups may share a queue", C102)
mu("gr02", GRP, "Group.Code", "  same : ∀ f ev, g (renEv f ev) = renUser f (g ev)", "  same : ∀ f ev, g (renEv f ev) = renUser f (g ev) ∨ True", "C102: user code may do different things for different copies", C102)
mu("gr03", GRP, "renObs", "  | .copied n ev v => .copied (f n) (renEv f ev) v", "  | .copied n ev v => .copied n (renEv f ev) v", "C102: copies have the same numbers", C102)
mu("gr04", GRP, "Group.entry", "  | (.env, .taskDropped s _) => G.strat s", "  | (.env, .taskDropped _ _) => false", "C102: a task thrown away by shutdownNow() is in one history and not in the other", C102)
mu("gr05", GRP, "Group.Begins", "  | .begin n u => G.client n = true → G.User (fun _ => False) u", "  | .begin n u => G.client n = true → G.User (fun _ => False) u ∨ True", "C102: client threads of the group may use the rest", C102)
mu("gr06", GRP, "Group.Call", "∀ k, l = some k → G.lst k = true\n  | .getPayload", "∀ k, l = some k → G.lst k = true ∨ True\n  | .getPayload", "C102: a listener of the rest may be installed", C102)
mu("gr07", GRP, "Group.Start", "(w.mach m).listener = some l → G.lst l = true", "(w.mach m).listener = some l → G.lst l = true ∨ True", "C102: machines of the group may have listeners of the rest", C102)
mu("gr08", SEM, "step", "    let w := { c.w with shut := fset c.w.shut e true }", "    let w := { c.w with shut := fun _ => true }", "C102: shutdown of one executor shuts all down", C102)
mu("gr09", PROG, "exec", "  | .setIntr, w => ((), { w with intr := fset w.intr t true })", "  | .setIntr, w => ((), { w with intr := fun _ => true })", "C102: a thread interrupts all others", C102)
mu("gr10", PROG, "exec", "    | p :: ps => (p, { w with pool := fset w.pool s ps })", "    | p :: ps => (p, { w with pool := fset (fset w.pool s ps) (s + 1) [] })", "C102: taking a pair from the pool empties another pool", C102)

C103 = ["C103_elsewhere", "C103_programs", "C103_replaced"]
mu("el01", GRP, "Group.Agree", "  acts : ∀ k o, S o → ∀ m, G.mach m = true → (env'.acts k o).map", "  acts : ∀ k o, S o → ∀ m, G.mach m = true → True ∨ (env'.acts k o).map", "C103: actions may be different in the other program", C103)
mu("el02", GRP, "Group.Within", "row.target k = some to → S to.oid", "row.target k = some to → S to.oid ∨ True", "C103: machines may get into states whose actions are different", C103)
mu("el03", GRP, "StaysCall", "  | .startInState _ (some s) => S s.oid\n", "", "C103: machines may be started in states whose actions are different", C103)
mu("el04", GRP, "Group.Alike", "  intrWorker : ∀ e i, G.exec e = true → w'.intr", "  intrWorker : ∀ e i, G.exec e = true → True ∨ w'.intr", "C103: workers may be interrupted in one program only", C103)
mu("el05", GRP, "Group.Agree", "  width : ∀ e, G.exec e = true → env'.width e = env.width e", "  width : ∀ e, G.exec e = true → env'.width e ≤ env.width e", "C103: the executor may have fewer threads", C103)
mu("el06", GRP, "Group.Alike", "  copies : ∀ n, w'.payload (.copy n) = none\n", "", "C103: there may be payloads of copies that were not made", C103)
mu("el07", CODE, "notifyListener", "    let no := (env.mach m).res.noSt\n", "    let no := (env.mach 0).res.noSt\n", "C103: listeners get the reserved state of another machine", C103)
mu("el08", GRP, "Group.Env", "  acts : ∀ k o, S o → ∀ a ∈ env.acts k o, ∀ m, G.mach m = true → G.Code", "  acts : ∀ k o, ¬S o → ∀ a ∈ env.acts k o, ∀ m, G.mach m = true → G.Code", "C103: actions of the states of the group may use the rest", C103)

LIM = "Verif/Spec/Limits.lean"
C104 = ["C104_raise", "C104_same", "C104_bound"]
mu("li01", LIM, "Higher", "def Higher (b b' : Int) : Prop := b' ≤ 0 ∨ (0 < b ∧ b ≤ b')", "def Higher (b b' : Int) : Prop := b' ≤ 0 ∨ b ≤ b'", "C104: a bound is no lower than no bound", ["C104_raise"])
mu("li02", LIM, "IsFull", "def IsFull (b : Int) (n : Nat) : Prop := 0 < b ∧ b ≤ n", "def IsFull (b : Int) (n : Nat) : Prop := 0 < b ∧ b < n", "C104: a queue is full only when it is longer than its bound", ["C104_same"])
mu("li03", LIM, "Refused", "  | (_, .cb (.flowFull _ _)) => True", "  | (_, .cbRet (.flowFull _ _) _) => True", "C104: what matters is that the callback has returned", ["C104_raise"])
mu("li04", LIM, "Uses", "  | .dispatch e i _ => i < n e", "  | .dispatch e i _ => i ≤ n e", "C104: one thread too few", ["C104_same"])
mu("li05", CODE, "processEventDefault", "    let p ← lift (.poolTake s)\n", "    if c.maxQ > 0 then lift (.setMem 0 1)\n    let p ← lift (.poolTake s)\n", "C104: strategies with a bound do something else, too", C104)
mu("li06", CODE, "drain", "  let q := (env.strat s).queue\n  if ←", "  let q := (env.strat s).queue\n  if env.width (env.strat s).exec > 1 then lift (.setMem 0 1)\n  if ←", "C104: the number of threads matters to those that are used", C104)
mu("li07", CODE, "processEventDefault", "(queueSize : Int) ≥ c.maxQ then", "(queueSize : Int) > c.maxQ then", "C104: one event more than the bound is accepted", ["C104_bound", "C104_same"])

UND = "Verif/Spec/Undup.lean"
C105 = ["C105_undup", "C105_histories"]
mu("un01", UND, "Dropped", "  | (_, .dropped m _) => D (env.mach m).strat = true", "  | (_, .dropped m _) => D m = true", "C105: what matters is the number of the machine, not of its strategy", C105)
mu("un02", UND, "undup", "(env.strat s).dropDup && !D s", "(env.strat s).dropDup || D s", "C105: strategies that do not check may check", C105)
mu("un03", CODE, "anyEqual", "    if en.eqv ev then ret true else anyEqual ev ps\n", "    if en.eqv ev then ret true else do lift (.setMem 0 1); anyEqual ev ps\n", "C105: the check leaves something behind", C105)
mu("un04", CODE, "processEvent", "      lift (.emit (.dropped m ev))\n", "      ret ()\n", "C105: events are dropped silently", C105)
mu("un05", CODE, "processEvent", "    else processEventDefault env s ev m\n  else processEventDefault env s ev m", "    else processEventDefault env s ⟨ev.cls, ev.name, .client 0⟩ m\n  else processEventDefault env s ev m", "C105: another event object is queued", C105)

CYC = "Verif/Spec/Cycle.lean"
C106 = ["C106_same", "C106_futures", "C106_cycle"]
mu("cy01", CYC, "Same.mem", "  mem : c'.w.mem = c.w.mem", "  mem : True", "C106: the memory of user code does not matter", C106)
mu("cy02", CYC, "Same.waiting", "  waiting : ∀ q, (c'.w.queue q).map c'.w.pair = (c.w.queue q).map c.w.pair", "  waiting : ∀ q, (c'.w.queue q).length = (c.w.queue q).length", "C106: it does not matter which events wait", C106)
mu("cy03", CYC, "Same.nextCopy", "  nextCopy : c'.w.nextCopy = c.w.nextCopy", "  nextCopy : True", "C106: copies are called the same, however many there are", C106)
mu("cy04", CYC, "Same.payload", "  payload : c'.w.payload = c.w.payload", "  payload : ∀ n, c'.w.payload (.client n) = c.w.payload (.client n)", "C106: payloads of copies do not matter", C106)
mu("cy05", CYC, "Same.mach", "  mach : c'.w.mach = c.w.mach", "  mach : ∀ m, (c'.w.mach m).cur = (c.w.mach m).cur", "C106: only the states of machines matter", C106)
mu("cy06", PROG, "exec qSize", "  | .qSize q, w => ((w.queue q).length, w)", "  | .qSize q, w => ((w.queue q).length + (w.pool q).length, w)", "C106: the size of the pool counts as the size of the queue", C106)
mu("cy07", PROG, "exec getPayload", "  | .getPayload o, w => (w.payload o, w)", "  | .getPayload o, w => (if w.trace.length < 100000 then w.payload o else none, w)", "C106: payloads are lost after a long time", C106)

ASK = "Verif/Spec/Asking.lean"
C107 = ["C107_without", "C107_answered", "C107_histories"]
mu("as01", ASK, "question", "| .getMem _ | .note _ => true", "| .getMem _ | .note _ | .setMem _ _ => true", "C107: threads that write into memory make no difference", C107)
mu("as02", ASK, "question", "| .getMem _ | .note _ => true", "| .getMem _ | .note _ | .await _ => true", "C107: threads that wait for a latch get their answers, and leave interrupts alone", C107)
mu("as03", ASK, "keep", "  | .begin n _ => !N n", "  | .begin _ _ => true", "C107: the threads begin, and do not go on", ["C107_without", "C107_histories"])
mu("as04", ASK, "Only", "N n = true → Asks u", "N n = false → Asks u", "C107: it is the others that only ask", C107)
mu("as05", ASK, "without", "c.w.trace.filter fun e => !mine N e.1", "c.w.trace", "C107: the history is the same, notes and all", ["C107_without"])
mu("as06", "Verif/Model/Code.lean", "UCall.prog", "  | .getEventQueueSize m => lift (.qSize (env.strat (env.mach m).strat).queue)", "  | .getEventQueueSize m => do\n    let _ ← lift (.poolTake (env.mach m).strat)\n    lift (.qSize (env.strat (env.mach m).strat).queue)", "C107: asking for the size of the queue takes a pair out of the pool", C107)

SHU = "Verif/Spec/Shuffle.lean"
C108 = ["C108_shuffle", "C108_next", "C108_histories"]
mu("sh01", SHU, "Shuffle.Fits", "i < env.width e → f.worker e i < env.width e", "i < env.width e → True", "C108: an executor has more threads", C108)
mu("sh02", SHU, "Shuffle.choice", "  | .interrupt t => .interrupt (f.tid t)", "  | .interrupt t => .interrupt t", "C108: the other thread is interrupted", C108)
mu("sh03", SHU, "Shuffle.conf", "intr := fun t => c.w.intr (f.back.tid t), ", "", "C108: the interrupt status stays where it is", C108)
mu("sh04", SHU, "Shuffle.history", "l.map fun e => (f.tid e.1, e.2)", "l", "C108: histories do not tell who did what", C108)
mu("sh05", PROG, "enabled", "  | .await n, w => w.intr t || w.latch n == 0", "  | .await n, w => w.intr t || w.latch n == 0 || t == .client 0", "C108: the main thread need not wait", C108)

CAL = "Verif/Spec/Calm.lean"
C109 = ["C109_without", "C109_with", "C109_library"]
mu("ca01", CAL, "calm", "  | .interrupt t => !I t\n", "  | .interrupt _ => false\n", "C109: no thread is interrupted, not even those that wait", C109)
mu("ca02", CAL, "calm", "  | .interrupt t => !I t\n", "  | .interrupt t => I t\n", "C109: it is the others that are not interrupted", C109)
mu("ca03", CAL, "Alike.intr", "∀ t, I t = false → d.w.intr t = c.w.intr t", "∀ t, d.w.intr t = c.w.intr t", "C109: the interrupt status is the same, too", C109)
mu("ca04", CAL, "calm", "  | .interrupt t => !I t\n", "  | .interrupt t => !I t\n  | .shutdown _ _ => false\n", "C109: executors are not shut down", C109)
mu("ca05", PROG, "exec submit", "    if w.shut e then (false, w.log t (.rejected s m))", "    if w.shut e || w.intr t then (false, w.log t (.rejected s m))", "C109: tasks of interrupted threads are rejected", C109)

ORD = "Verif/Spec/Orderly.lean"
C110 = ["C110_with", "C110_without"]
mu("or01", ORD, "going", "  | .shutdown e false => !E e\n", "  | .shutdown e _ => !E e\n", "C110: shutdownNow() loses nothing either", C110)
mu("or02", ORD, "going", "  | .shutdown e false => !E e\n", "  | .shutdown _ false => false\n", "C110: other executors may be shut down, too", C110)
mu("or03", ORD, "Like.shut", "∀ e, E e = false → d.w.shut e = c.w.shut e", "∀ e, d.w.shut e = c.w.shut e", "C110: nobody can tell that the executor is shut down", C110)
mu("or04", "Verif/Model/Sem.lean", "step", "    some { c with w := if now then w.dropTasks e else w }", "    some { c with w := w.dropTasks e }", "C110: shutdown() drops pending tasks", C110)
