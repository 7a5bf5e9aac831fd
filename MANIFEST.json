{
 "claims": [
  {
   "property": "C01",
   "status": "proved",
   "theorems": [
    "Verif.C01_initial_state_first",
    "Verif.C01_initial_state_once"
   ],
   "note": ""
  },
  {
   "property": "C02",
   "status": "proved",
   "theorems": [
    "Verif.C02_reserved_rejected",
    "Verif.C02_reserved_never_configured"
   ],
   "note": ""
  },
  {
   "property": "C03",
   "status": "proved",
   "theorems": [
    "Verif.C03_rejected_call_changes_nothing"
   ],
   "note": ""
  },
  {
   "property": "C04",
   "status": "proved",
   "theorems": [
    "Verif.C04_clause_sets_one_transition"
   ],
   "note": ""
  },
  {
   "property": "C05",
   "status": "partial",
   "theorems": [
    "Verif.C05_remapping_is_accepted",
    "Verif.C05_negation",
    "Verif.C05_remapping_partial"
   ],
   "note": "False of the code: receives() resets the mapping before it is checked, so remapping is silently accepted and the last outcome wins. Proved for every configuration; what remains true (no-event outcomes) is C05_remapping_partial."
  },
  {
   "property": "C06",
   "status": "proved",
   "theorems": [
    "Verif.C06_start_accepts_complete",
    "Verif.C06_start"
   ],
   "note": ""
  },
  {
   "property": "C07",
   "status": "proved",
   "theorems": [
    "Verif.C07_immediate_end"
   ],
   "note": ""
  },
  {
   "property": "C08",
   "status": "proved",
   "theorems": [
    "Verif.C08_grammar"
   ],
   "note": ""
  },
  {
   "property": "C13",
   "status": "proved",
   "theorems": [
    "Verif.C13_fifo"
   ],
   "note": ""
  },
  {
   "property": "C14",
   "status": "proved",
   "theorems": [
    "Verif.C14_covered",
    "Verif.C14_waiting",
    "Verif.C14_all_taken",
    "Verif.C14_refused_event_stays"
   ],
   "note": "For a queue whose strategies submit to one executor. Excepted are events whose drain task was refused or dropped by a shut-down executor; C14_refused_event_stays is such an execution."
  },
  {
   "property": "C32",
   "status": "proved",
   "theorems": [
    "Verif.C32_pairs_never_shared"
   ],
   "note": ""
  },
  {
   "property": "C33",
   "status": "proved",
   "theorems": [
    "Verif.C33_queue_size"
   ],
   "note": ""
  },
  {
   "property": "C09",
   "status": "proved",
   "theorems": [
    "Verif.C09_one_start",
    "Verif.C09_started_once",
    "Verif.C09_second_start_throws",
    "Verif.C09_started_forever"
   ],
   "note": ""
  },
  {
   "property": "C10",
   "status": "proved",
   "theorems": [
    "Verif.C10_before_start"
   ],
   "note": ""
  },
  {
   "property": "C11",
   "status": "proved",
   "theorems": [
    "Verif.C11_after_end"
   ],
   "note": "'Ended' means ended when the call is made and not reset by a start()/startInState() in progress (see C25)."
  },
  {
   "property": "C12",
   "status": "proved",
   "theorems": [
    "Verif.C12_one_fate",
    "Verif.C12_exactly_one",
    "Verif.returns_are_calls",
    "Verif.memory_of_history"
   ],
   "note": ""
  },
  {
   "property": "C25",
   "status": "partial",
   "theorems": [
    "Verif.C25_end_permanent",
    "Verif.C25_cleared_once",
    "Verif.C25_cleared_by_start",
    "Verif.C25_stop_then_start",
    "Verif.C25_stop_during_start"
   ],
   "note": "False of the code as stated: start()/startInState() reset isEnded (two schedules). Proved: that is the only way, it happens at most once, and from then on end is permanent."
  },
  {
   "property": "C27",
   "status": "proved",
   "theorems": [
    "Verif.C27_stop"
   ],
   "note": ""
  },
  {
   "property": "C28",
   "status": "proved",
   "theorems": [
    "Verif.C28_startInState"
   ],
   "note": ""
  },
  {
   "property": "C29",
   "status": "partial",
   "theorems": [
    "Verif.C29_payload_captured",
    "Verif.C29_null_payload_not_captured"
   ],
   "note": "Proved for events with a payload; false for a null payload, which is not captured (schedule given)."
  },
  {
   "property": "C30",
   "status": "proved",
   "theorems": [
    "Verif.C30_full_rejects",
    "Verif.C30_room_accepts",
    "Verif.C30_bound",
    "Verif.C30_single_producer",
    "Verif.C30_bound_attained"
   ],
   "note": ""
  },
  {
   "property": "C31",
   "status": "proved",
   "theorems": [
    "Verif.C31_duplicate_dropped",
    "Verif.C31_no_duplicates",
    "Verif.C31_negation_two_producers",
    "Verif.C31_negation_copies"
   ],
   "note": "Without the restrictions (one producer, events of the library's class) duplicates do get queued: the two negations."
  },
  {
   "property": "C49",
   "status": "proved",
   "theorems": [
    "Verif.C49_start_protocol"
   ],
   "note": ""
  },
  {
   "property": "C15",
   "status": "proved",
   "theorems": [
    "Verif.C15_one_at_a_time",
    "Verif.C15_only_for_the_event",
    "Verif.C15_events"
   ],
   "note": "For a machine with a strategy and queue of its own and a single-threaded executor."
  },
  {
   "property": "C16",
   "status": "proved",
   "theorems": [
    "Verif.C16_transition",
    "Verif.C16_exactly",
    "Verif.C16_so_far"
   ],
   "note": "For a machine with a strategy and queue of its own and a single-threaded executor. Events during which nobody starts, stops or re-listens the machine."
  },
  {
   "property": "C17",
   "status": "proved",
   "theorems": [
    "Verif.C17_fold"
   ],
   "note": "For a machine with a strategy and queue of its own and a single-threaded executor."
  },
  {
   "property": "C18",
   "status": "proved",
   "theorems": [
    "Verif.C18_no_transition",
    "Verif.C19_exactly"
   ],
   "note": "For a machine with a strategy and queue of its own and a single-threaded executor."
  },
  {
   "property": "C19",
   "status": "proved",
   "theorems": [
    "Verif.C19_unmapped",
    "Verif.C19_exactly"
   ],
   "note": "For a machine with a strategy and queue of its own and a single-threaded executor."
  },
  {
   "property": "C20",
   "status": "proved",
   "theorems": [
    "Verif.C20_exception_before"
   ],
   "note": "For a machine with a strategy and queue of its own and a single-threaded executor."
  },
  {
   "property": "C21",
   "status": "proved",
   "theorems": [
    "Verif.C21_exception_after"
   ],
   "note": "For a machine with a strategy and queue of its own and a single-threaded executor."
  },
  {
   "property": "C23",
   "status": "partial",
   "theorems": [
    "Verif.C23_final_state_ends",
    "Verif.C23_start_never_ends",
    "Verif.C23_negation_initial"
   ],
   "note": "For a machine with a strategy and queue of its own and a single-threaded executor. False of the code for the initial state (for every configuration start() never ends the machine; schedule given)."
  },
  {
   "property": "C22",
   "status": "proved",
   "theorems": [
    "Verif.C22_fatal",
    "Verif.C22_survives",
    "Verif.C15_events"
   ],
   "note": "For executors whose threads are the only ones that poll the queues of its strategies."
  },
  {
   "property": "C26",
   "status": "partial",
   "theorems": [
    "Verif.C26_orderly_partial",
    "Verif.C26_stop_race",
    "Verif.C26_start_throws"
   ],
   "note": "For a machine with a strategy and queue of its own and a single-threaded executor. False of the code as stated: two schedules. Proved for histories in which start/startInState/stop are not concurrent with other changes of the machine, and a failing start does not find the machine ended."
  },
  {
   "property": "C34",
   "status": "partial",
   "theorems": [
    "Verif.C34_own_strategy",
    "Verif.C34_own_executor",
    "Verif.C34_isolated",
    "Verif.C34_own_events",
    "Verif.C34_default_builder",
    "Verif.C34_default_strategies_share",
    "Verif.C34_default_not_private",
    "Verif.C34_negation_wrong_table",
    "Verif.C34_negation_lost_event"
   ],
   "note": "Proved for machines with a strategy made from a config of their own, in every program of factory and builder calls. False of the code for default builders: all of them share one queue and one executor; two schedules show a machine driven by another machine's table, and an event lost because another machine has ended."
  },
  {
   "property": "C35",
   "status": "proved",
   "theorems": [
    "Verif.C35_never_empty",
    "Verif.C35_no_npe",
    "Verif.C35_two_workers"
   ],
   "note": ""
  },
  {
   "property": "C36",
   "status": "partial",
   "theorems": [
    "Verif.C36_brackets_partial",
    "Verif.C36_negation_start",
    "Verif.C36_negation_stop"
   ],
   "note": "Proved for all stretches of history after start() in which nobody starts or stops the machine or replaces its listener. False of the code across start() (a schedule shows nested callbacks) and across stop() (begin and end name different states). What holds in all executions is C60."
  },
  {
   "property": "C24",
   "status": "proved",
   "theorems": [
    "Verif.C24_ended_machine_processes_nothing",
    "Verif.C24_nothing"
   ],
   "note": "For a machine with a strategy and queue of its own and a single-threaded executor."
  },
  {
   "property": "C37",
   "status": "proved",
   "theorems": [
    "Verif.C37_handle_exception",
    "Verif.C37_denote"
   ],
   "note": ""
  },
  {
   "property": "C38",
   "status": "proved",
   "theorems": [
    "Verif.C38_set",
    "Verif.C38_notify",
    "Verif.C38_at_most_once",
    "Verif.C38_negation_independent"
   ],
   "note": ""
  },
  {
   "property": "C39",
   "status": "proved",
   "theorems": [
    "Verif.C39_line",
    "Verif.C39_distinct",
    "Verif.C39_negation_separators"
   ],
   "note": "With the separator in a name, two transitions can have the same line (the negation)."
  },
  {
   "property": "C40",
   "status": "proved",
   "theorems": [
    "Verif.C40_thread_names",
    "Verif.C40_negation_overflow"
   ],
   "note": "For up to 2^31 threads; beyond that the counter overflows and the form is lost (the negation)."
  },
  {
   "property": "C41",
   "status": "proved",
   "theorems": [
    "Verif.C41_lifecycle"
   ],
   "note": ""
  },
  {
   "property": "C42",
   "status": "proved",
   "theorems": [
    "Verif.C42_phase",
    "Verif.C42_phase_over"
   ],
   "note": "For clients that do not tamper with the machine, latch or log marks of the app (App.Outside), and an initial latch count of at least one."
  },
  {
   "property": "C43",
   "status": "proved",
   "theorems": [
    "Verif.C42_phase",
    "Verif.C42_phase_over",
    "Verif.C43_left_running"
   ],
   "note": "For clients that do not tamper with the machine, latch or log marks of the app (App.Outside), and an initial latch count of at least one. C43_left_running: the subsystems started before the failing one are never stopped."
  },
  {
   "property": "C44",
   "status": "proved",
   "theorems": [
    "Verif.C44_start_blocks",
    "Verif.C44_released",
    "Verif.C44_stopped_action"
   ],
   "note": "For clients that do not tamper with the machine, latch or log marks of the app (App.Outside), and an initial latch count of at least one."
  },
  {
   "property": "C45",
   "status": "partial",
   "theorems": [
    "Verif.C45_never_released",
    "Verif.C45_stuck"
   ],
   "note": "False of the code, for every restartable app: nothing ever counts its latch down (see C50). C45_stuck is an execution after which the machine has ended and start() still waits."
  },
  {
   "property": "C46",
   "status": "proved",
   "theorems": [
    "Verif.C46_calls",
    "Verif.C46_stop_refused"
   ],
   "note": "For clients that do not tamper with the machine, latch or log marks of the app (App.Outside), and an initial latch count of at least one."
  },
  {
   "property": "C47",
   "status": "proved",
   "theorems": [
    "Verif.C47_step",
    "Verif.C47_error_stops",
    "Verif.C47_error_ignored"
   ],
   "note": "For an app whose machine has a strategy of its own and a single-threaded executor."
  },
  {
   "property": "C48",
   "status": "partial",
   "theorems": [
    "Verif.C48_why",
    "Verif.C48_race"
   ],
   "note": "False of the code: C48_race is a schedule. What holds is C51."
  },
  {
   "property": "C50",
   "status": "proved",
   "theorems": [
    "Verif.C45_never_released",
    "Verif.C45_stuck"
   ],
   "note": "For clients that do not tamper with the machine, latch or log marks of the app (App.Outside), and an initial latch count of at least one."
  },
  {
   "property": "C51",
   "status": "proved",
   "theorems": [
    "Verif.C48_why",
    "Verif.C48_race"
   ],
   "note": "For clients that do not tamper with the machine, latch or log marks of the app (App.Outside), and an initial latch count of at least one."
  },
  {
   "property": "C52",
   "status": "proved",
   "theorems": [
    "Verif.C52_dropped_for_a_reason",
    "Verif.C52_single_producer",
    "Verif.C52_race",
    "Verif.C52_shared_strategy"
   ],
   "note": "C52_race: the concurrent-fire case does occur. C52_shared_strategy: an event lost because of another machine's event."
  },
  {
   "property": "C53",
   "status": "proved",
   "theorems": [
    "Verif.C53_callbacks_run_their_code",
    "Verif.C53_recorded_callbacks_run"
   ],
   "note": ""
  },
  {
   "property": "C54",
   "status": "proved",
   "theorems": [
    "Verif.C54_getters",
    "Verif.machine_of_history",
    "Verif.C58_callbacks_fit"
   ],
   "note": ""
  },
  {
   "property": "C55",
   "status": "proved",
   "theorems": [
    "Verif.C55_copy_is_equal",
    "Verif.C55_negation_class"
   ],
   "note": "The negation shows the restriction to the library's class is needed."
  },
  {
   "property": "C56",
   "status": "proved",
   "theorems": [
    "Verif.C56_from_start",
    "Verif.C56_at_rest"
   ],
   "note": "C56_at_rest is the general form, from any moment at which no event is in processing."
  },
  {
   "property": "C57",
   "status": "proved",
   "theorems": [
    "Verif.C57_course",
    "Verif.C57_reasons"
   ],
   "note": "C57_course is the automaton, C57_reasons what follows for each entry."
  },
  {
   "property": "C58",
   "status": "proved",
   "theorems": [
    "Verif.C58_callbacks_fit",
    "Verif.C58_negation_from_end",
    "Verif.C58_negation_phantom"
   ],
   "note": "For a machine with a strategy and queue of its own and a single-threaded executor. The negations show that the condition on stop() is needed."
  },
  {
   "property": "C59",
   "status": "proved",
   "theorems": [
    "Verif.C59_taken",
    "Verif.C59_done",
    "Verif.C59_processed"
   ],
   "note": "Infinite executions (Spec.Run); weak fairness for threads and for the executor, and the termination of user code, are hypotheses."
  },
  {
   "property": "C60",
   "status": "proved",
   "theorems": [
    "Verif.C60_script",
    "Verif.C60_finished",
    "Verif.C60_once"
   ],
   "note": "Scripts are Spec.Course.Script; deeds inside API calls made by user code are not counted."
  },
  {
   "property": "C61",
   "status": "proved",
   "theorems": [
    "Verif.C61_pairs",
    "Verif.C61_negation_drop_duplicate"
   ],
   "note": "The negation shows that the condition on strategies is needed; it uses a more generous notion of synchronisation."
  },
  {
   "property": "C62",
   "status": "proved",
   "theorems": [
    "Verif.C62_current_state",
    "Verif.C62_negation_getter",
    "Verif.C62_negation_stop",
    "Verif.C62_negation_early_fire",
    "Verif.C62_negation_service"
   ],
   "note": "Spec.HB.Disciplined is the discipline; the negations (with a more generous notion of synchronisation) show that every clause is needed."
  },
  {
   "property": "C63",
   "status": "proved",
   "theorems": [
    "Verif.C63_never_waits",
    "Verif.C63_returns"
   ],
   "note": "Infinite executions; fairness for the calling thread only."
  },
  {
   "property": "C64",
   "status": "proved",
   "theorems": [
    "Verif.C64_ending_event",
    "Verif.C64_final_state",
    "Verif.C64_negation_documentation"
   ],
   "note": "For a machine with a strategy and queue of its own and a single-threaded executor. The negation refutes the documentation."
  },
  {
   "property": "C65",
   "status": "proved",
   "theorems": [
    "Verif.C65_queue_size",
    "Verif.C65_negation_documentation"
   ],
   "note": "For a machine with a strategy and queue of its own and a single-threaded executor. The negation refutes the documentation."
  },
  {
   "property": "C66",
   "status": "proved",
   "theorems": [
    "Verif.C66_bound",
    "Verif.C66_memory",
    "Verif.C66_kept",
    "Verif.C66_bound_attained",
    "Verif.C66_negation_shared_queue",
    "Verif.C66_negation_documentation"
   ],
   "note": "The negations show that the condition on the queue is needed, and refute the documentation of give()."
  },
  {
   "property": "C67",
   "status": "proved",
   "theorems": [
    "Verif.Quick.C67_prints",
    "Verif.Quick.C67_finished",
    "Verif.Quick.C67_terminates",
    "Verif.Quick.C67_negation_documentation",
    "Verif.Quick.C67_negation_ended"
   ],
   "note": "About one closed program; all its schedules. The negations are executions in which the README's promise fails."
  },
  {
   "property": "C68",
   "status": "proved",
   "theorems": [
    "Verif.Actions.C68_course",
    "Verif.Actions.C68_nested",
    "Verif.Actions.C68_append",
    "Verif.Actions.C68_appended",
    "Verif.Actions.C68_grows",
    "Verif.Actions.C68_configured"
   ],
   "note": "One thread; a separate small model (Model/Actions), with the modCount of ArrayList. In the other theorems action lists do not change."
  },
  {
   "property": "C69",
   "status": "proved",
   "theorems": [
    "Verif.C69_returns",
    "Verif.C69_negation_waits",
    "Verif.C69_negation_left_running"
   ],
   "note": "For clients that do not tamper with the machine, latch or log marks of the app (App.Outside), and an initial latch count of at least one. The negations are executions that show what it does not see to."
  },
  {
   "property": "C70",
   "status": "proved",
   "theorems": [
    "Verif.C70_restored"
   ],
   "note": "For clients that do not tamper with the machine, latch or log marks of the app (App.Outside), and an initial latch count of at least one. About the step with which start() returns; a later wait of the thread can clear the status again."
  },
  {
   "property": "C71",
   "status": "proved",
   "theorems": [
    "Verif.C71_effects",
    "Verif.C71_all_events",
    "Verif.C71_stuck",
    "Verif.C71_cause",
    "Verif.C71_negation"
   ],
   "note": "For a machine with a strategy and queue of its own and a single-threaded executor. C71_negation: the claim that a machine ends whenever a transition into a final state has changed the state is false."
  },
  {
   "property": "C72",
   "status": "proved",
   "theorems": [
    "Verif.C72_settings",
    "Verif.C72_shared_queue",
    "Verif.C72_shared_executor"
   ],
   "note": "Programs are lists of calls that refer to existing objects; withExecutor(null) and withEventQueue(null) are not modelled."
  },
  {
   "property": "C73",
   "status": "proved",
   "theorems": [
    "Verif.C73_given",
    "Verif.C73_shared",
    "Verif.C73_last_table",
    "Verif.C73_negation"
   ],
   "note": "C73_negation: the claim that machines built by one builder work independently is false."
  },
  {
   "property": "C74",
   "status": "proved",
   "theorems": [
    "Verif.C74_leaves"
   ],
   "note": "Served: fair threads, an executor of its own with one worker that keeps its tasks, callbacks return. Smooth: callbacks do not throw, no start/stop/listener change."
  },
  {
   "property": "C75",
   "status": "proved",
   "theorems": [
    "Verif.C75_goes_on",
    "Verif.C75_starting",
    "Verif.C75_stopping",
    "Verif.C75_started",
    "Verif.C75_begins",
    "Verif.C75_released",
    "Verif.C75_negation_errors"
   ],
   "note": "Cared adds: the app is wired as its constructor does, outside code uses its public methods only, unbounded queue without duplicate dropping. C75_negation_errors: an Error in a subsystem leaves the app in STARTING."
  },
  {
   "property": "C76",
   "status": "proved",
   "theorems": [
    "Verif.C76_stop_error_return",
    "Verif.C76_start_returns",
    "Verif.C76_start_again",
    "Verif.C76_waits_witness",
    "Verif.C76_hangs_witness"
   ],
   "note": "The app is wired as its constructor does; outside code uses its public methods only; the default handlers of the event strategy. The witnesses show that both ways of not returning exist."
  },
  {
   "property": "C77",
   "status": "proved",
   "theorems": [
    "Verif.C77_told",
    "Verif.C77_released",
    "Verif.C77_start_returns"
   ],
   "note": "Assumptions as in C75 (Cared). The latch has count 1, as the constructor makes it."
  },
  {
   "property": "C78",
   "status": "proved",
   "theorems": [
    "Verif.C78_taken",
    "Verif.C78_idles",
    "Verif.C78_processed",
    "Verif.C78_negation_starvation",
    "Verif.C78_negation_backlog"
   ],
   "note": "The executor refuses no task of the queue and throws none away. The two negations are infinite executions of a concrete environment."
  },
  {
   "property": "C79",
   "status": "proved",
   "theorems": [
    "Verif.C79_cause",
    "Verif.C79_none",
    "Verif.C79_negation_start",
    "Verif.C79_negation_listener",
    "Verif.C79_negation_final"
   ],
   "note": "C79_none for a machine with a strategy and queue of its own."
  },
  {
   "property": "C80",
   "status": "proved",
   "theorems": [
    "Verif.C80_nested",
    "Verif.C80_rest",
    "Verif.C80_processed",
    "Verif.Direct.step_none"
   ],
   "note": "Model/Direct is the model with such executors; Direct.step_none: it is the model of the other properties if there is none. Several threads: see C81."
  },
  {
   "property": "C81",
   "status": "proved",
   "theorems": [
    "Verif.C81_negation_completion",
    "Verif.C81_negation_entry",
    "Verif.C81_negation_table",
    "Verif.C81_negation_listener",
    "Verif.C81_negation_two"
   ],
   "note": "Negations: each is refuted by an execution that one client thread (two for the last) can produce."
  },
  {
   "property": "C82",
   "status": "proved",
   "theorems": [
    "Verif.C82_story",
    "Verif.C82_event",
    "Verif.C82_target",
    "Verif.C82_ends",
    "Verif.C82_grows",
    "Verif.C82_calls",
    "Verif.C82_start",
    "Verif.C82_fifo",
    "Verif.C82_entry",
    "Verif.C82_negation_final",
    "Verif.C82_negation_target"
   ],
   "note": "Model/Reconf: one thread at a time; races between configuration and processing are not covered. The negations are the last sentence."
  },
  {
   "property": "C83",
   "status": "proved",
   "theorems": [
    "Verif.C83_determined",
    "Verif.C83_same",
    "Verif.C83_at_rest",
    "Verif.C83_negation_pool"
   ],
   "note": "The negation is the last sentence."
  },
  {
   "property": "C84",
   "status": "proved",
   "theorems": [
    "Verif.Ctx.C84_begin",
    "Verif.Ctx.C84_states",
    "Verif.Ctx.C84_fifo",
    "Verif.Ctx.C84_state",
    "Verif.Ctx.C84_alone",
    "Verif.Ctx.C84_within",
    "Verif.Ctx.C84_finished",
    "Verif.Ctx.C84_count",
    "Verif.Ctx.C84_aborted",
    "Verif.Ctx.C84_changed",
    "Verif.Ctx.C84_mirror",
    "Verif.Ctx.C84_negation_replaced",
    "Verif.Ctx.C84_negation_skipped",
    "Verif.Ctx.C84_negation_aborted"
   ],
   "note": "Model/Context: lists are java.util.ArrayList with its fail-fast iterators; events are handled one by one. The negations are the last sentence, and what remains running when a list is changed during the start."
  },
  {
   "property": "C85",
   "status": "proved",
   "theorems": [
    "Verif.Qs.C85_fate",
    "Verif.Qs.C85_rejected",
    "Verif.Qs.C85_accepted",
    "Verif.Qs.C85_taken",
    "Verif.Qs.C85_conserved",
    "Verif.Qs.C85_fifo",
    "Verif.Qs.C85_rest",
    "Verif.Qs.C85_bound",
    "Verif.Qs.C85_single",
    "Verif.Qs.C85_died",
    "Verif.Qs.C85_negation_lost",
    "Verif.Qs.C85_negation_order",
    "Verif.Qs.C85_negation_bound",
    "Verif.Qs.C85_negation_died"
   ],
   "note": "Model/Queues: what is done with an event is left out. The negations are the last sentence."
  },
  {
   "property": "C86",
   "status": "proved",
   "theorems": [
    "Verif.Maps.C86_contract",
    "Verif.Maps.C86_equal",
    "Verif.Maps.C86_hash",
    "Verif.Maps.C86_list",
    "Verif.Maps.C86_answers",
    "Verif.Maps.C86_agree",
    "Verif.Maps.C86_states",
    "Verif.Maps.C86_negation_hash"
   ],
   "note": "Model/Maps: java.util.HashMap with bins; trees for long bins are left out. The negation is the last sentence."
  },
  {
   "property": "C87",
   "status": "proved",
   "theorems": [
    "Verif.Scan.C87_fate",
    "Verif.Scan.C87_npe",
    "Verif.Scan.C87_dropped",
    "Verif.Scan.C87_covered",
    "Verif.Scan.C87_kept",
    "Verif.Scan.C87_fifo",
    "Verif.Scan.C87_content",
    "Verif.Scan.C87_alone",
    "Verif.Scan.C87_negation_stale",
    "Verif.Scan.C87_negation_reused",
    "Verif.Scan.C87_negation_twice"
   ],
   "note": "Model/Scan: the iteration over the queue in small steps, which is atomic in the main model (C31, C52). What is done with an event is left out; workers take events at any time. The negations are the last sentence."
  },
  {
   "property": "C88",
   "status": "proved",
   "theorems": [
    "Verif.C88_known",
    "Verif.C88_lag",
    "Verif.C88_lag_attained",
    "Verif.C88_start",
    "Verif.C88_started",
    "Verif.C88_worker",
    "Verif.C88_sequential",
    "Verif.C88_allowed",
    "Verif.C88_negation_null",
    "Verif.C88_negation_backwards",
    "Verif.C88_negation_service"
   ],
   "note": "Model/Weak: the programs of the main model, but reads of currentState may return anything; Spec/Weak says which values happens-before consistency (JLS 17.4.5) allows. Causality (JLS 17.4.8) is left out, which allows more executions; the executions of the negations read values written before the read."
  },
  {
   "property": "C89",
   "status": "proved",
   "theorems": [
    "Verif.C89_drf",
    "Verif.C89_library",
    "Verif.C89_allowed",
    "Verif.C89_negation_listener"
   ],
   "note": "Model/Plain: the programs of the main model, but reads of plain fields may return anything; Spec/Plain says which values happens-before consistency (JLS 17.4.5) allows. Reads see earlier writes only, in the order of the execution: executions in which reads and writes justify each other in a circle are not considered (JLS 17.4.8 excludes them for programs without data races)."
  },
  {
   "property": "C90",
   "status": "proved",
   "theorems": [
    "Verif.C90_listener",
    "Verif.C90_payload"
   ],
   "note": "Happens-before as in C61 and C62."
  },
  {
   "property": "C91",
   "status": "proved",
   "theorems": [
    "Verif.C91_licensed",
    "Verif.C91_untouched",
    "Verif.C91_payload",
    "Verif.C91_listener"
   ],
   "note": "The rules about clients in C62, C88 to C90 are about everything that threads do; with C91 those about who calls what can be checked in the source code of the clients."
  },
  {
   "property": "C92",
   "status": "proved",
   "theorems": [
    "Verif.C92_reads",
    "Verif.C92_drops",
    "Verif.C92_passes",
    "Verif.C92_noticed",
    "Verif.C92_writes"
   ],
   "note": "C61 and C89 exclude strategies that drop duplicates (there is a data race, C61). The race does no harm beyond what interleaving does anyway (C31)."
  },
  {
   "property": "C93",
   "status": "proved",
   "theorems": [
    "Verif.C93_order",
    "Verif.C93_covered",
    "Verif.C93_all_taken",
    "Verif.C93_bound",
    "Verif.C93_no_duplicates",
    "Verif.C93_flags",
    "Verif.C93_script",
    "Verif.C93_finished"
   ],
   "note": "C13, C14, C30, C31, C09, C24 and C60 rely on atomics, concurrent queues and executors alone. What the callbacks say (which states, whether there is a listener) does depend on plain fields: C62, C88, C89."
  },
  {
   "property": "C94",
   "status": "proved",
   "theorems": [
    "Verif.C94_any",
    "Verif.C94_no_pool",
    "Verif.C94_wasted",
    "Verif.C94_fire_null",
    "Verif.C94_negation_duplicates"
   ],
   "note": "C94_any is a simulation between the two executions, step by step. fire(null) is a program of its own (Model/Reuse), its effect on the rest is that a pair disappears from the pool."
  },
  {
   "property": "C95",
   "status": "proved",
   "theorems": [
    "Verif.C95_reads",
    "Verif.C95_meddler",
    "Verif.C95_strong",
    "Verif.C95_fire",
    "Verif.C95_stop",
    "Verif.C95_start_in_state",
    "Verif.C95_start",
    "Verif.C95_one_start",
    "Verif.C95_returns"
   ],
   "note": "C95_reads says what weak reads are in the model. C95_meddler constructs the code of the additional client from the values that are read: it writes the value before it is read and puts back what was there. For currentState there is no such method in the API; the theorems about calls hold because they do not depend on it."
  },
  {
   "property": "C96",
   "status": "proved",
   "theorems": [
    "Verif.C96_weak",
    "Verif.C96_converse",
    "Verif.C96_order",
    "Verif.C96_all_taken",
    "Verif.C96_bound",
    "Verif.C96_no_duplicates",
    "Verif.C96_flags",
    "Verif.C96_script",
    "Verif.C96_finished",
    "Verif.C96_fire",
    "Verif.C96_stop",
    "Verif.C96_start",
    "Verif.C96_one_start",
    "Verif.C96_ended",
    "Verif.C96_negation_table",
    "Verif.C96_negation_end"
   ],
   "note": "The call is two atomic steps, the compareAndSet and the write. C96_negation_table and C96_negation_end are witnesses that C16, C17 and C27 depend on nobody calling the method."
  },
  {
   "property": "C97",
   "status": "proved",
   "theorems": [
    "Verif.C97_direct",
    "Verif.C97_anywhere",
    "Verif.C97_order",
    "Verif.C97_covered",
    "Verif.C97_all_taken",
    "Verif.C97_bound",
    "Verif.C97_no_duplicates",
    "Verif.C97_flags",
    "Verif.C97_script",
    "Verif.C97_finished",
    "Verif.C97_negation_before_start",
    "Verif.C97_negation_after_end"
   ],
   "note": "The consequences are proved for executions in which isStarted, isEnded and the plain fields other than the queued pairs are read with any value; C97_direct says that direct calls are such executions. The strategy called is the one of the machine."
  },
  {
   "property": "C98",
   "status": "proved",
   "theorems": [
    "Verif.C98_order",
    "Verif.C98_covered",
    "Verif.C98_all_taken",
    "Verif.C98_bound",
    "Verif.C98_no_duplicates",
    "Verif.C98_flags",
    "Verif.C98_script",
    "Verif.C98_finished"
   ],
   "note": "Extends C93, which assumes that checks for duplicates read what the pairs contain, or that there are none. Which events are dropped: C92."
  },
  {
   "property": "C99",
   "status": "proved",
   "theorems": [
    "Verif.C99_library",
    "Verif.C99_newest",
    "Verif.C99_races",
    "Verif.C99_memory",
    "Verif.C99_course",
    "Verif.C99_reasons",
    "Verif.C99_one_at_a_time",
    "Verif.C99_only_for_the_event",
    "Verif.C99_events",
    "Verif.C99_handles",
    "Verif.C99_fold"
   ],
   "note": "Which events are dropped because of reads that are out of date: C92. Parts (4) ask for a queue and a thread of the machine's own (Alone), as C15 does. Executions as in C89: reads see earlier writes only."
  },
  {
   "property": "C100",
   "status": "proved",
   "theorems": [
    "Verif.C100_config",
    "Verif.C100_run",
    "Verif.C100_impossible",
    "Verif.C100_rename"
   ],
   "note": "User code may look at names as it likes; C100_run asks that it treats corresponding names alike, C100_rename translates them back for it. Event objects and classes of events are the same in both programs."
  },
  {
   "property": "C101",
   "status": "proved",
   "theorems": [
    "Verif.C101_detach",
    "Verif.C101_attach",
    "Verif.C101_exchange",
    "Verif.C101_logging"
   ],
   "note": "Listeners that throw do make a difference (C20, C21), and so does setting a listener to null while an event is processed (C79)."
  },
  {
   "property": "C102",
   "status": "proved",
   "theorems": [
    "Verif.C102_alone",
    "Verif.C102_whatever",
    "Verif.C102_parts",
    "Verif.C102_together"
   ],
   "note": "User code of the group must not read or write the payload of the reserved event that start() passes (user code of two groups could otherwise communicate through it in the model, in which all machines have the same one; in the library every machine has its own). Sharing a strategy does make a difference (C34)."
  },
  {
   "property": "C103",
   "status": "proved",
   "theorems": [
    "Verif.C103_elsewhere",
    "Verif.C103_programs",
    "Verif.C103_replaced"
   ],
   "note": "Copies made of events with payload may be other objects. As in C102, user code of the group must not use the payload of the reserved event that start() passes. States of the group are those that are initial, final, targets in its transition tables or named to startInState by its code."
  },
  {
   "property": "C104",
   "status": "proved",
   "theorems": [
    "Verif.C104_raise",
    "Verif.C104_same",
    "Verif.C104_bound"
   ],
   "note": "Threads may be at different places in the code when an execution ends just between the check of the size of the queue and the callback; all memory and the history are the same."
  },
  {
   "property": "C105",
   "status": "proved",
   "theorems": [
    "Verif.C105_undup",
    "Verif.C105_histories"
   ],
   "note": "Reads of the queue by the check are atomic here (C87 is about the iteration in small steps, C92, C98 about weak memory)."
  },
  {
   "property": "C106",
   "status": "proved",
   "theorems": [
    "Verif.C106_same",
    "Verif.C106_futures",
    "Verif.C106_cycle",
    "Verif.C106_negation_duplicates"
   ],
   "note": "The number of events with payload that have been copied must be the same because copies are numbered in histories. Integer overflow and memory are not modelled."
  },
  {
   "property": "C107",
   "status": "proved",
   "theorems": [
    "Verif.C107_without",
    "Verif.C107_answered",
    "Verif.C107_histories"
   ],
   "note": "Memory is sequentially consistent here (reads under weak memory: C88, C89). ConcurrentLinkedQueue.size() is one step."
  },
  {
   "property": "C108",
   "status": "proved",
   "theorems": [
    "Verif.C108_shuffle",
    "Verif.C108_next",
    "Verif.C108_histories"
   ],
   "note": "Thread names in log lines (C39, C40) are not part of this model; memory is sequentially consistent here."
  },
  {
   "property": "C109",
   "status": "proved",
   "theorems": [
    "Verif.C109_without",
    "Verif.C109_with",
    "Verif.C109_library"
   ],
   "note": "Interrupts are steps of the environment; that shutdownNow() interrupts is modelled as a separate step. Executors are modelled, not java.util.concurrent itself; waiting of user code is modelled by latches only."
  },
  {
   "property": "C110",
   "status": "proved",
   "theorems": [
    "Verif.C110_with",
    "Verif.C110_without"
   ],
   "note": "The executor is a model of java.util.concurrent: shutdown() refuses new tasks and keeps those pending; shutdownNow() drops those pending."
  }
 ]
}