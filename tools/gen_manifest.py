#!/usr/bin/env python3
"""Writes MANIFEST.json. Claims are listed here; properties without an entry are not claimed yet."""
import json, os
C = []
def claim(p, status, thms, note=""):
    C.append({"property": p, "status": status, "theorems": ["Verif." + t for t in thms], "note": note})

claim("C01", "proved", ["C01_initial_state_first", "C01_initial_state_once"])
claim("C02", "proved", ["C02_reserved_rejected", "C02_reserved_never_configured"])
claim("C03", "proved", ["C03_rejected_call_changes_nothing"])
claim("C04", "proved", ["C04_clause_sets_one_transition"])
claim("C05", "partial", ["C05_remapping_is_accepted", "C05_negation", "C05_remapping_partial"],
      "False of the code: receives() resets the mapping before it is checked, so remapping is silently accepted and the last outcome wins. Proved for every configuration; what remains true (no-event outcomes) is C05_remapping_partial.")
claim("C06", "proved", ["C06_start_accepts_complete", "C06_start"])
claim("C07", "proved", ["C07_immediate_end"])
claim("C08", "proved", ["C08_grammar"])
claim("C13", "proved", ["C13_fifo"])
claim("C14", "proved", ["C14_covered", "C14_waiting", "C14_all_taken", "C14_refused_event_stays"],
      "For a queue whose strategies submit to one executor. Excepted are events whose drain task was refused or dropped by a shut-down executor; C14_refused_event_stays is such an execution.")
claim("C32", "proved", ["C32_pairs_never_shared"])
claim("C33", "proved", ["C33_queue_size"])
claim("C09", "proved", ["C09_one_start", "C09_started_once", "C09_second_start_throws", "C09_started_forever"])
claim("C10", "proved", ["C10_before_start"])
claim("C11", "proved", ["C11_after_end"],
      "'Ended' means ended when the call is made and not reset by a start()/startInState() in progress (see C25).")
claim("C12", "proved", ["C12_one_fate", "C12_exactly_one", "returns_are_calls", "memory_of_history"])
claim("C25", "partial", ["C25_end_permanent", "C25_cleared_once", "C25_cleared_by_start", "C25_stop_then_start", "C25_stop_during_start"],
      "False of the code as stated: start()/startInState() reset isEnded (two schedules). Proved: that is the only way, it happens at most once, and from then on end is permanent.")
claim("C27", "proved", ["C27_stop"])
claim("C28", "proved", ["C28_startInState"])
claim("C29", "partial", ["C29_payload_captured", "C29_null_payload_not_captured"],
      "Proved for events with a payload; false for a null payload, which is not captured (schedule given).")
claim("C30", "proved", ["C30_full_rejects", "C30_room_accepts", "C30_bound", "C30_single_producer", "C30_bound_attained"])
claim("C31", "proved", ["C31_duplicate_dropped", "C31_no_duplicates", "C31_negation_two_producers", "C31_negation_copies"],
      "Without the restrictions (one producer, events of the library's class) duplicates do get queued: the two negations.")
claim("C49", "proved", ["C49_start_protocol"])
ALONE = "For a machine with a strategy and queue of its own and a single-threaded executor."
claim("C15", "proved", ["C15_one_at_a_time", "C15_only_for_the_event", "C15_events"], ALONE)
claim("C16", "proved", ["C16_transition", "C16_exactly", "C16_so_far"], ALONE + " Events during which nobody starts, stops or re-listens the machine.")
claim("C17", "proved", ["C17_fold"], ALONE)
claim("C18", "proved", ["C18_no_transition", "C19_exactly"], ALONE)
claim("C19", "proved", ["C19_unmapped", "C19_exactly"], ALONE)
claim("C20", "proved", ["C20_exception_before"], ALONE)
claim("C21", "proved", ["C21_exception_after"], ALONE)
claim("C23", "partial", ["C23_final_state_ends", "C23_start_never_ends", "C23_negation_initial"],
      ALONE + " False of the code for the initial state (for every configuration start() never ends the machine; schedule given).")
claim("C22", "proved", ["C22_fatal", "C22_survives", "C15_events"], "For executors whose threads are the only ones that poll the queues of its strategies.")
claim("C26", "partial", ["C26_orderly_partial", "C26_stop_race", "C26_start_throws"],
      ALONE + " False of the code as stated: two schedules. Proved for histories in which start/startInState/stop are not concurrent with other changes of the machine, and a failing start does not find the machine ended.")
claim("C34", "partial", ["C34_own_strategy", "C34_own_executor", "C34_isolated", "C34_own_events", "C34_default_builder",
      "C34_default_strategies_share", "C34_default_not_private", "C34_negation_wrong_table", "C34_negation_lost_event"],
      "Proved for machines with a strategy made from a config of their own, in every program of factory and builder calls. False of the code for default builders: all of them share one queue and one executor; two schedules show a machine driven by another machine's table, and an event lost because another machine has ended.")
claim("C35", "proved", ["C35_never_empty", "C35_no_npe", "C35_two_workers"])
claim("C36", "partial", ["C36_brackets_partial", "C36_negation_start", "C36_negation_stop"],
      "Proved for all stretches of history after start() in which nobody starts or stops the machine or replaces its listener. False of the code across start() (a schedule shows nested callbacks) and across stop() (begin and end name different states). What holds in all executions is C60.")
claim("C24", "proved", ["C24_ended_machine_processes_nothing", "C24_nothing"], ALONE)
claim("C37", "proved", ["C37_handle_exception", "C37_denote"])
claim("C38", "proved", ["C38_set", "C38_notify", "C38_at_most_once", "C38_negation_independent"])
claim("C39", "proved", ["C39_line", "C39_distinct", "C39_negation_separators"], "With the separator in a name, two transitions can have the same line (the negation).")
claim("C40", "proved", ["C40_thread_names", "C40_negation_overflow"], "For up to 2^31 threads; beyond that the counter overflows and the form is lost (the negation).")
APP = "For clients that do not tamper with the machine, latch or log marks of the app (App.Outside), and an initial latch count of at least one."
claim("C41", "proved", ["C41_lifecycle"])
claim("C42", "proved", ["C42_phase", "C42_phase_over"], APP)
claim("C43", "proved", ["C42_phase", "C42_phase_over", "C43_left_running"], APP + " C43_left_running: the subsystems started before the failing one are never stopped.")
claim("C44", "proved", ["C44_start_blocks", "C44_released", "C44_stopped_action"], APP)
claim("C45", "partial", ["C45_never_released", "C45_stuck"], "False of the code, for every restartable app: nothing ever counts its latch down (see C50). C45_stuck is an execution after which the machine has ended and start() still waits.")
claim("C46", "proved", ["C46_calls", "C46_stop_refused"], APP)
claim("C47", "proved", ["C47_step", "C47_error_stops", "C47_error_ignored"], "For an app whose machine has a strategy of its own and a single-threaded executor.")
claim("C48", "partial", ["C48_why", "C48_race"], "False of the code: C48_race is a schedule. What holds is C51.")
claim("C50", "proved", ["C45_never_released", "C45_stuck"], APP)
claim("C51", "proved", ["C48_why", "C48_race"], APP)
claim("C52", "proved", ["C52_dropped_for_a_reason", "C52_single_producer", "C52_race", "C52_shared_strategy"],
      "C52_race: the concurrent-fire case does occur. C52_shared_strategy: an event lost because of another machine's event.")
claim("C53", "proved", ["C53_callbacks_run_their_code", "C53_recorded_callbacks_run"])
claim("C54", "proved", ["C54_getters", "machine_of_history", "C58_callbacks_fit"])
claim("C55", "proved", ["C55_copy_is_equal", "C55_negation_class"], "The negation shows the restriction to the library's class is needed.")
claim("C56", "proved", ["C56_from_start", "C56_at_rest"], "C56_at_rest is the general form, from any moment at which no event is in processing.")
claim("C57", "proved", ["C57_course", "C57_reasons"], "C57_course is the automaton, C57_reasons what follows for each entry.")
claim("C58", "proved", ["C58_callbacks_fit", "C58_negation_from_end", "C58_negation_phantom"], ALONE + " The negations show that the condition on stop() is needed.")
claim("C59", "proved", ["C59_taken", "C59_done", "C59_processed"], "Infinite executions (Spec.Run); weak fairness for threads and for the executor, and the termination of user code, are hypotheses.")
claim("C60", "proved", ["C60_script", "C60_finished", "C60_once"], "Scripts are Spec.Course.Script; deeds inside API calls made by user code are not counted.")
claim("C61", "proved", ["C61_pairs", "C61_negation_drop_duplicate"], "The negation shows that the condition on strategies is needed; it uses a more generous notion of synchronisation.")
claim("C62", "proved", ["C62_current_state", "C62_negation_getter", "C62_negation_stop", "C62_negation_early_fire", "C62_negation_service"],
      "Spec.HB.Disciplined is the discipline; the negations (with a more generous notion of synchronisation) show that every clause is needed.")
claim("C63", "proved", ["C63_never_waits", "C63_returns"], "Infinite executions; fairness for the calling thread only.")
claim("C64", "proved", ["C64_ending_event", "C64_final_state", "C64_negation_documentation"], ALONE + " The negation refutes the documentation.")
claim("C65", "proved", ["C65_queue_size", "C65_negation_documentation"], ALONE + " The negation refutes the documentation.")
claim("C66", "proved", ["C66_bound", "C66_memory", "C66_kept", "C66_bound_attained", "C66_negation_shared_queue", "C66_negation_documentation"],
      "The negations show that the condition on the queue is needed, and refute the documentation of give().")
claim("C67", "proved", ["Quick.C67_prints", "Quick.C67_finished", "Quick.C67_terminates", "Quick.C67_negation_documentation", "Quick.C67_negation_ended"],
      "About one closed program; all its schedules. The negations are executions in which the README's promise fails.")
claim("C68", "proved", ["Actions.C68_course", "Actions.C68_nested", "Actions.C68_append", "Actions.C68_appended", "Actions.C68_grows", "Actions.C68_configured"],
      "One thread; a separate small model (Model/Actions), with the modCount of ArrayList. In the other theorems action lists do not change.")
claim("C69", "proved", ["C69_returns", "C69_negation_waits", "C69_negation_left_running"], APP + " The negations are executions that show what it does not see to.")
claim("C70", "proved", ["C70_restored"], APP + " About the step with which start() returns; a later wait of the thread can clear the status again.")
claim("C71", "proved", ["C71_effects", "C71_all_events", "C71_stuck", "C71_cause", "C71_negation"], ALONE + " C71_negation: the claim that a machine ends whenever a transition into a final state has changed the state is false.")
claim("C72", "proved", ["C72_settings", "C72_shared_queue", "C72_shared_executor"], "Programs are lists of calls that refer to existing objects; withExecutor(null) and withEventQueue(null) are not modelled.")
claim("C73", "proved", ["C73_given", "C73_shared", "C73_last_table", "C73_negation"], "C73_negation: the claim that machines built by one builder work independently is false.")
claim("C74", "proved", ["C74_leaves"], "Served: fair threads, an executor of its own with one worker that keeps its tasks, callbacks return. Smooth: callbacks do not throw, no start/stop/listener change.")
claim("C75", "proved", ["C75_goes_on", "C75_starting", "C75_stopping", "C75_started", "C75_begins", "C75_released", "C75_negation_errors"], "Cared adds: the app is wired as its constructor does, outside code uses its public methods only, unbounded queue without duplicate dropping. C75_negation_errors: an Error in a subsystem leaves the app in STARTING.")
claim("C76", "proved", ["C76_stop_error_return", "C76_start_returns", "C76_start_again", "C76_waits_witness", "C76_hangs_witness"], "The app is wired as its constructor does; outside code uses its public methods only; the default handlers of the event strategy. The witnesses show that both ways of not returning exist.")
claim("C77", "proved", ["C77_told", "C77_released", "C77_start_returns"], "Assumptions as in C75 (Cared). The latch has count 1, as the constructor makes it.")
claim("C78", "proved", ["C78_taken", "C78_idles", "C78_processed", "C78_negation_starvation", "C78_negation_backlog"], "The executor refuses no task of the queue and throws none away. The two negations are infinite executions of a concrete environment.")
claim("C79", "proved", ["C79_cause", "C79_none", "C79_negation_start", "C79_negation_listener", "C79_negation_final"], "C79_none for a machine with a strategy and queue of its own.")
claim("C80", "proved", ["C80_nested", "C80_rest", "C80_processed", "Direct.step_none"], "Model/Direct is the model with such executors; Direct.step_none: it is the model of the other properties if there is none. Several threads: see C81.")
claim("C81", "proved", ["C81_negation_completion", "C81_negation_entry", "C81_negation_table", "C81_negation_listener", "C81_negation_two"], "Negations: each is refuted by an execution that one client thread (two for the last) can produce.")
claim("C82", "proved", ["C82_story", "C82_event", "C82_target", "C82_ends", "C82_grows", "C82_calls", "C82_start", "C82_fifo", "C82_entry", "C82_negation_final", "C82_negation_target"], "Model/Reconf: one thread at a time; races between configuration and processing are not covered. The negations are the last sentence.")
claim("C83", "proved", ["C83_determined", "C83_same", "C83_at_rest", "C83_negation_pool"], "The negation is the last sentence.")
claim("C84", "proved", ["Ctx.C84_begin", "Ctx.C84_states", "Ctx.C84_fifo", "Ctx.C84_state", "Ctx.C84_alone", "Ctx.C84_within", "Ctx.C84_finished", "Ctx.C84_count", "Ctx.C84_aborted", "Ctx.C84_changed", "Ctx.C84_mirror", "Ctx.C84_negation_replaced", "Ctx.C84_negation_skipped", "Ctx.C84_negation_aborted"], "Model/Context: lists are java.util.ArrayList with its fail-fast iterators; events are handled one by one. The negations are the last sentence, and what remains running when a list is changed during the start.")
claim("C85", "proved", ["Qs.C85_fate", "Qs.C85_rejected", "Qs.C85_accepted", "Qs.C85_taken", "Qs.C85_conserved", "Qs.C85_fifo", "Qs.C85_rest", "Qs.C85_bound", "Qs.C85_single", "Qs.C85_died", "Qs.C85_negation_lost", "Qs.C85_negation_order", "Qs.C85_negation_bound", "Qs.C85_negation_died"], "Model/Queues: what is done with an event is left out. The negations are the last sentence.")
claim("C86", "proved", ["Maps.C86_contract", "Maps.C86_equal", "Maps.C86_hash", "Maps.C86_list", "Maps.C86_answers", "Maps.C86_agree", "Maps.C86_states", "Maps.C86_negation_hash"], "Model/Maps: java.util.HashMap with bins; trees for long bins are left out. The negation is the last sentence.")
claim("C87", "proved", ["Scan.C87_fate", "Scan.C87_npe", "Scan.C87_dropped", "Scan.C87_covered", "Scan.C87_kept", "Scan.C87_fifo", "Scan.C87_content", "Scan.C87_alone", "Scan.C87_negation_stale", "Scan.C87_negation_reused", "Scan.C87_negation_twice"], "Model/Scan: the iteration over the queue in small steps, which is atomic in the main model (C31, C52). What is done with an event is left out; workers take events at any time. The negations are the last sentence.")
claim("C88", "proved", ["C88_known", "C88_lag", "C88_lag_attained", "C88_start", "C88_started", "C88_worker", "C88_sequential", "C88_allowed", "C88_negation_null", "C88_negation_backwards", "C88_negation_service"], "Model/Weak: the programs of the main model, but reads of currentState may return anything; Spec/Weak says which values happens-before consistency (JLS 17.4.5) allows. Causality (JLS 17.4.8) is left out, which allows more executions; the executions of the negations read values written before the read.")
claim("C89", "proved", ["C89_drf", "C89_library", "C89_allowed", "C89_negation_listener"], "Model/Plain: the programs of the main model, but reads of plain fields may return anything; Spec/Plain says which values happens-before consistency (JLS 17.4.5) allows. Reads see earlier writes only, in the order of the execution: executions in which reads and writes justify each other in a circle are not considered (JLS 17.4.8 excludes them for programs without data races).")
claim("C90", "proved", ["C90_listener", "C90_payload"], "Happens-before as in C61 and C62.")
claim("C91", "proved", ["C91_licensed", "C91_untouched", "C91_payload", "C91_listener"], "The rules about clients in C62, C88 to C90 are about everything that threads do; with C91 those about who calls what can be checked in the source code of the clients.")
claim("C92", "proved", ["C92_reads", "C92_drops", "C92_passes", "C92_noticed", "C92_writes"], "C61 and C89 exclude strategies that drop duplicates (there is a data race, C61). The race does no harm beyond what interleaving does anyway (C31).")
claim("C93", "proved", ["C93_order", "C93_covered", "C93_all_taken", "C93_bound", "C93_no_duplicates", "C93_flags", "C93_script", "C93_finished"], "C13, C14, C30, C31, C09, C24 and C60 rely on atomics, concurrent queues and executors alone. What the callbacks say (which states, whether there is a listener) does depend on plain fields: C62, C88, C89.")
claim("C94", "proved", ["C94_any", "C94_no_pool", "C94_wasted", "C94_fire_null", "C94_negation_duplicates"], "C94_any is a simulation between the two executions, step by step. fire(null) is a program of its own (Model/Reuse), its effect on the rest is that a pair disappears from the pool.")
claim("C95", "proved", ["C95_reads", "C95_meddler", "C95_strong", "C95_fire", "C95_stop", "C95_start_in_state", "C95_start", "C95_one_start", "C95_returns"], "C95_reads says what weak reads are in the model. C95_meddler constructs the code of the additional client from the values that are read: it writes the value before it is read and puts back what was there. For currentState there is no such method in the API; the theorems about calls hold because they do not depend on it.")
claim("C96", "proved", ["C96_weak", "C96_converse", "C96_order", "C96_all_taken", "C96_bound", "C96_no_duplicates", "C96_flags", "C96_script", "C96_finished", "C96_fire", "C96_stop", "C96_start", "C96_one_start", "C96_ended", "C96_negation_table", "C96_negation_end"], "The call is two atomic steps, the compareAndSet and the write. C96_negation_table and C96_negation_end are witnesses that C16, C17 and C27 depend on nobody calling the method.")
claim("C97", "proved", ["C97_direct", "C97_anywhere", "C97_order", "C97_covered", "C97_all_taken", "C97_bound", "C97_no_duplicates", "C97_flags", "C97_script", "C97_finished", "C97_negation_before_start", "C97_negation_after_end"], "The consequences are proved for executions in which isStarted, isEnded and the plain fields other than the queued pairs are read with any value; C97_direct says that direct calls are such executions. The strategy called is the one of the machine.")
claim("C98", "proved", ["C98_order", "C98_covered", "C98_all_taken", "C98_bound", "C98_no_duplicates", "C98_flags", "C98_script", "C98_finished"], "Extends C93, which assumes that checks for duplicates read what the pairs contain, or that there are none. Which events are dropped: C92.")
claim("C99", "proved", ["C99_library", "C99_newest", "C99_races", "C99_memory", "C99_course", "C99_reasons", "C99_one_at_a_time", "C99_only_for_the_event", "C99_events", "C99_handles", "C99_fold"], "Which events are dropped because of reads that are out of date: C92. Parts (4) ask for a queue and a thread of the machine's own (Alone), as C15 does. Executions as in C89: reads see earlier writes only.")
claim("C100", "proved", ["C100_config", "C100_run", "C100_impossible", "C100_rename"], "User code may look at names as it likes; C100_run asks that it treats corresponding names alike, C100_rename translates them back for it. Event objects and classes of events are the same in both programs.")
claim("C101", "proved", ["C101_detach", "C101_attach", "C101_exchange", "C101_logging"], "Listeners that throw do make a difference (C20, C21), and so does setting a listener to null while an event is processed (C79).")
claim("C102", "proved", ["C102_alone", "C102_whatever", "C102_parts", "C102_together"], "User code of the group must not read or write the payload of the reserved event that start() passes (user code of two groups could otherwise communicate through it in the model, in which all machines have the same one; in the library every machine has its own). Sharing a strategy does make a difference (C34).")
claim("C103", "proved", ["C103_elsewhere", "C103_programs", "C103_replaced"], "Copies made of events with payload may be other objects. As in C102, user code of the group must not use the payload of the reserved event that start() passes. States of the group are those that are initial, final, targets in its transition tables or named to startInState by its code.")
claim("C104", "proved", ["C104_raise", "C104_same", "C104_bound"], "Threads may be at different places in the code when an execution ends just between the check of the size of the queue and the callback; all memory and the history are the same.")
claim("C105", "proved", ["C105_undup", "C105_histories"], "Reads of the queue by the check are atomic here (C87 is about the iteration in small steps, C92, C98 about weak memory).")
claim("C106", "proved", ["C106_same", "C106_futures", "C106_cycle", "C106_negation_duplicates"], "The number of events with payload that have been copied must be the same because copies are numbered in histories. Integer overflow and memory are not modelled.")
claim("C107", "proved", ["C107_without", "C107_answered", "C107_histories"], "Memory is sequentially consistent here (reads under weak memory: C88, C89). ConcurrentLinkedQueue.size() is one step.")
claim("C108", "proved", ["C108_shuffle", "C108_next", "C108_histories"], "Thread names in log lines (C39, C40) are not part of this model; memory is sequentially consistent here.")
claim("C109", "proved", ["C109_without", "C109_with", "C109_library"], "Interrupts are steps of the environment; that shutdownNow() interrupts is modelled as a separate step. Executors are modelled, not java.util.concurrent itself; waiting of user code is modelled by latches only.")
claim("C110", "proved", ["C110_with", "C110_without"], "The executor is a model of java.util.concurrent: shutdown() refuses new tasks and keeps those pending; shutdownNow() drops those pending.")

json.dump({"claims": C}, open(os.path.join(os.path.dirname(__file__), "..", "MANIFEST.json"), "w"), indent=1)
