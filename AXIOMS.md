# Axioms used by the theorems of MANIFEST.json

Generated by `tools/axioms.py` from `#print axioms`.

| theorem | axioms |
|---|---|
| Verif.Actions.C68_append | propext, Classical.choice, Quot.sound |
| Verif.Actions.C68_appended | propext, Classical.choice, Quot.sound |
| Verif.Actions.C68_configured | propext, Quot.sound |
| Verif.Actions.C68_course | propext, Classical.choice, Quot.sound |
| Verif.Actions.C68_grows | propext, Quot.sound |
| Verif.Actions.C68_nested | propext, Classical.choice, Quot.sound |
| Verif.C01_initial_state_first | propext, Classical.choice, Quot.sound |
| Verif.C01_initial_state_once | propext, Classical.choice, Quot.sound |
| Verif.C02_reserved_never_configured | propext, Classical.choice, Quot.sound |
| Verif.C02_reserved_rejected | propext, Classical.choice, Quot.sound |
| Verif.C03_rejected_call_changes_nothing | propext, Classical.choice, Quot.sound |
| Verif.C04_clause_sets_one_transition | propext, Classical.choice, Quot.sound |
| Verif.C05_negation | propext, Classical.choice, Quot.sound |
| Verif.C05_remapping_is_accepted | propext, Classical.choice, Quot.sound |
| Verif.C05_remapping_partial | propext, Classical.choice, Quot.sound |
| Verif.C06_start | propext, Classical.choice, Quot.sound |
| Verif.C06_start_accepts_complete | propext, Classical.choice, Quot.sound |
| Verif.C07_immediate_end | propext, Classical.choice, Quot.sound |
| Verif.C08_grammar | propext, Classical.choice, Quot.sound |
| Verif.C09_one_start | propext, Classical.choice, Quot.sound |
| Verif.C09_second_start_throws | propext, Classical.choice, Quot.sound |
| Verif.C09_started_forever | propext, Classical.choice, Quot.sound |
| Verif.C09_started_once | propext, Classical.choice, Quot.sound |
| Verif.C100_config | propext |
| Verif.C100_impossible | propext, Classical.choice, Quot.sound |
| Verif.C100_rename | propext, Classical.choice, Quot.sound |
| Verif.C100_run | propext, Classical.choice, Quot.sound |
| Verif.C101_attach | propext, Classical.choice, Quot.sound |
| Verif.C101_detach | propext, Classical.choice, Quot.sound |
| Verif.C101_exchange | propext, Classical.choice, Quot.sound |
| Verif.C101_logging | propext, Classical.choice, Quot.sound |
| Verif.C102_alone | propext, Classical.choice, Quot.sound |
| Verif.C102_parts | propext, Classical.choice, Quot.sound |
| Verif.C102_together | propext, Classical.choice, Quot.sound |
| Verif.C102_whatever | propext, Classical.choice, Quot.sound |
| Verif.C103_elsewhere | propext, Classical.choice, Quot.sound |
| Verif.C103_programs | propext, Classical.choice, Quot.sound |
| Verif.C103_replaced | propext, Classical.choice, Quot.sound |
| Verif.C104_bound | propext, Classical.choice, Quot.sound |
| Verif.C104_raise | propext, Classical.choice, Quot.sound |
| Verif.C104_same | propext, Classical.choice, Quot.sound |
| Verif.C105_histories | propext, Classical.choice, Quot.sound |
| Verif.C105_undup | propext, Classical.choice, Quot.sound |
| Verif.C106_cycle | propext, Classical.choice, Quot.sound |
| Verif.C106_futures | propext, Classical.choice, Quot.sound |
| Verif.C106_negation_duplicates | propext, Quot.sound |
| Verif.C106_same | propext, Classical.choice, Quot.sound |
| Verif.C107_answered | propext, Classical.choice, Quot.sound |
| Verif.C107_histories | propext, Classical.choice, Quot.sound |
| Verif.C107_without | propext, Classical.choice, Quot.sound |
| Verif.C108_histories | propext, Quot.sound |
| Verif.C108_next | propext, Quot.sound |
| Verif.C108_shuffle | propext, Quot.sound |
| Verif.C109_library | propext, Classical.choice, Quot.sound |
| Verif.C109_with | propext, Quot.sound |
| Verif.C109_without | propext, Quot.sound |
| Verif.C10_before_start | propext, Classical.choice, Quot.sound |
| Verif.C110_with | propext, Quot.sound |
| Verif.C110_without | propext, Quot.sound |
| Verif.C11_after_end | propext, Classical.choice, Quot.sound |
| Verif.C12_exactly_one | propext, Classical.choice, Quot.sound |
| Verif.C12_one_fate | propext, Classical.choice, Quot.sound |
| Verif.C13_fifo | propext, Classical.choice, Quot.sound |
| Verif.C14_all_taken | propext, Classical.choice, Quot.sound |
| Verif.C14_covered | propext, Classical.choice, Quot.sound |
| Verif.C14_refused_event_stays | propext, Quot.sound |
| Verif.C14_waiting | propext, Classical.choice, Quot.sound |
| Verif.C15_events | propext, Classical.choice, Quot.sound |
| Verif.C15_one_at_a_time | propext, Classical.choice, Quot.sound |
| Verif.C15_only_for_the_event | propext, Classical.choice, Quot.sound |
| Verif.C16_exactly | propext, Classical.choice, Quot.sound |
| Verif.C16_so_far | propext, Classical.choice, Quot.sound |
| Verif.C16_transition | propext, Classical.choice, Quot.sound |
| Verif.C17_fold | propext, Classical.choice, Quot.sound |
| Verif.C18_no_transition | propext, Classical.choice, Quot.sound |
| Verif.C19_exactly | propext, Classical.choice, Quot.sound |
| Verif.C19_unmapped | propext, Classical.choice, Quot.sound |
| Verif.C20_exception_before | propext, Classical.choice, Quot.sound |
| Verif.C21_exception_after | propext, Classical.choice, Quot.sound |
| Verif.C22_fatal | propext, Classical.choice, Quot.sound |
| Verif.C22_survives | propext, Classical.choice, Quot.sound |
| Verif.C23_final_state_ends | propext, Classical.choice, Quot.sound |
| Verif.C23_negation_initial | propext, Quot.sound |
| Verif.C23_start_never_ends | propext, Classical.choice, Quot.sound |
| Verif.C24_ended_machine_processes_nothing | propext, Classical.choice, Quot.sound |
| Verif.C24_nothing | propext, Classical.choice, Quot.sound |
| Verif.C25_cleared_by_start | propext, Classical.choice, Quot.sound |
| Verif.C25_cleared_once | propext, Classical.choice, Quot.sound |
| Verif.C25_end_permanent | propext, Classical.choice, Quot.sound |
| Verif.C25_stop_during_start | propext |
| Verif.C25_stop_then_start | propext |
| Verif.C26_orderly_partial | propext, Classical.choice, Quot.sound |
| Verif.C26_start_throws | propext, Quot.sound |
| Verif.C26_stop_race | propext, Quot.sound |
| Verif.C27_stop | propext, Classical.choice, Quot.sound |
| Verif.C28_startInState | propext, Classical.choice, Quot.sound |
| Verif.C29_null_payload_not_captured | propext, Quot.sound |
| Verif.C29_payload_captured | propext, Classical.choice, Quot.sound |
| Verif.C30_bound | propext, Classical.choice, Quot.sound |
| Verif.C30_bound_attained | propext, Quot.sound |
| Verif.C30_full_rejects | propext, Classical.choice, Quot.sound |
| Verif.C30_room_accepts | propext, Classical.choice, Quot.sound |
| Verif.C30_single_producer | propext, Classical.choice, Quot.sound |
| Verif.C31_duplicate_dropped | propext, Classical.choice, Quot.sound |
| Verif.C31_negation_copies | propext, Quot.sound |
| Verif.C31_negation_two_producers | propext |
| Verif.C31_no_duplicates | propext, Classical.choice, Quot.sound |
| Verif.C32_pairs_never_shared | propext, Classical.choice, Quot.sound |
| Verif.C33_queue_size | propext, Classical.choice, Quot.sound |
| Verif.C34_default_builder | propext, Quot.sound |
| Verif.C34_default_not_private | propext, Quot.sound |
| Verif.C34_default_strategies_share | propext, Quot.sound |
| Verif.C34_isolated | propext, Classical.choice, Quot.sound |
| Verif.C34_negation_lost_event | propext |
| Verif.C34_negation_wrong_table | propext |
| Verif.C34_own_events | propext, Classical.choice, Quot.sound |
| Verif.C34_own_executor | propext, Quot.sound |
| Verif.C34_own_strategy | propext, Quot.sound |
| Verif.C35_never_empty | propext, Classical.choice, Quot.sound |
| Verif.C35_no_npe | propext, Classical.choice, Quot.sound |
| Verif.C35_two_workers | propext, Quot.sound |
| Verif.C36_brackets_partial | propext, Classical.choice, Quot.sound |
| Verif.C36_negation_start | propext, Quot.sound |
| Verif.C36_negation_stop | propext, Quot.sound |
| Verif.C37_denote | propext, Quot.sound |
| Verif.C37_handle_exception | propext |
| Verif.C38_at_most_once | propext, Classical.choice, Quot.sound |
| Verif.C38_negation_independent | propext, Classical.choice, Quot.sound |
| Verif.C38_notify | propext, Classical.choice, Quot.sound |
| Verif.C38_set | propext, Quot.sound |
| Verif.C39_distinct | propext, Classical.choice, Quot.sound |
| Verif.C39_line | propext, Classical.choice, Quot.sound |
| Verif.C39_negation_separators | propext |
| Verif.C40_negation_overflow | propext, Classical.choice, Quot.sound |
| Verif.C40_thread_names | propext, Classical.choice, Quot.sound |
| Verif.C41_lifecycle | propext, Classical.choice, Quot.sound |
| Verif.C42_phase | propext, Classical.choice, Quot.sound |
| Verif.C42_phase_over | propext, Classical.choice, Quot.sound |
| Verif.C43_left_running | propext, Quot.sound |
| Verif.C44_released | propext, Classical.choice, Quot.sound |
| Verif.C44_start_blocks | propext, Classical.choice, Quot.sound |
| Verif.C44_stopped_action | propext, Classical.choice, Quot.sound |
| Verif.C45_never_released | propext, Classical.choice, Quot.sound |
| Verif.C45_stuck | propext, Quot.sound |
| Verif.C46_calls | propext, Classical.choice, Quot.sound |
| Verif.C46_stop_refused | propext, Classical.choice, Quot.sound |
| Verif.C47_error_ignored | propext, Classical.choice, Quot.sound |
| Verif.C47_error_stops | propext, Classical.choice, Quot.sound |
| Verif.C47_step | propext, Classical.choice, Quot.sound |
| Verif.C48_race | propext, Quot.sound |
| Verif.C48_why | propext, Classical.choice, Quot.sound |
| Verif.C49_start_protocol | propext, Classical.choice, Quot.sound |
| Verif.C52_dropped_for_a_reason | propext, Classical.choice, Quot.sound |
| Verif.C52_race | propext, Quot.sound |
| Verif.C52_shared_strategy | propext, Quot.sound |
| Verif.C52_single_producer | propext, Classical.choice, Quot.sound |
| Verif.C53_callbacks_run_their_code | propext, Classical.choice, Quot.sound |
| Verif.C53_recorded_callbacks_run | propext, Classical.choice, Quot.sound |
| Verif.C54_getters | propext, Classical.choice, Quot.sound |
| Verif.C55_copy_is_equal | propext, Classical.choice, Quot.sound |
| Verif.C55_negation_class | propext |
| Verif.C56_at_rest | propext, Classical.choice, Quot.sound |
| Verif.C56_from_start | propext, Classical.choice, Quot.sound |
| Verif.C57_course | propext, Classical.choice, Quot.sound |
| Verif.C57_reasons | propext, Classical.choice, Quot.sound |
| Verif.C58_callbacks_fit | propext, Classical.choice, Quot.sound |
| Verif.C58_negation_from_end | propext, Quot.sound |
| Verif.C58_negation_phantom | propext, Quot.sound |
| Verif.C59_done | propext, Classical.choice, Quot.sound |
| Verif.C59_processed | propext, Classical.choice, Quot.sound |
| Verif.C59_taken | propext, Classical.choice, Quot.sound |
| Verif.C60_finished | propext, Classical.choice, Quot.sound |
| Verif.C60_once | propext, Classical.choice, Quot.sound |
| Verif.C60_script | propext, Classical.choice, Quot.sound |
| Verif.C61_negation_drop_duplicate | propext, Classical.choice, Quot.sound |
| Verif.C61_pairs | propext, Classical.choice, Quot.sound |
| Verif.C62_current_state | propext, Classical.choice, Quot.sound |
| Verif.C62_negation_early_fire | propext, Classical.choice, Quot.sound |
| Verif.C62_negation_getter | propext, Classical.choice, Quot.sound |
| Verif.C62_negation_service | propext, Classical.choice, Quot.sound |
| Verif.C62_negation_stop | propext, Classical.choice, Quot.sound |
| Verif.C63_never_waits | propext, Quot.sound |
| Verif.C63_returns | propext, Classical.choice, Quot.sound |
| Verif.C64_ending_event | propext, Classical.choice, Quot.sound |
| Verif.C64_final_state | propext, Classical.choice, Quot.sound |
| Verif.C64_negation_documentation | propext, Quot.sound |
| Verif.C65_negation_documentation | propext |
| Verif.C65_queue_size | propext, Classical.choice, Quot.sound |
| Verif.C66_bound | propext, Classical.choice, Quot.sound |
| Verif.C66_bound_attained | propext, Quot.sound |
| Verif.C66_kept | propext, Classical.choice, Quot.sound |
| Verif.C66_memory | propext, Classical.choice, Quot.sound |
| Verif.C66_negation_documentation | propext, Quot.sound |
| Verif.C66_negation_shared_queue | propext, Quot.sound |
| Verif.C69_negation_left_running | propext, Quot.sound |
| Verif.C69_negation_waits | propext, Quot.sound |
| Verif.C69_returns | propext, Classical.choice, Quot.sound |
| Verif.C70_restored | propext, Classical.choice, Quot.sound |
| Verif.C71_all_events | propext, Classical.choice, Quot.sound |
| Verif.C71_cause | propext, Classical.choice, Quot.sound |
| Verif.C71_effects | propext, Classical.choice, Quot.sound |
| Verif.C71_negation | propext, Classical.choice, Quot.sound |
| Verif.C71_stuck | propext, Classical.choice, Quot.sound |
| Verif.C72_settings | propext, Quot.sound |
| Verif.C72_shared_executor | propext, Quot.sound |
| Verif.C72_shared_queue | propext, Quot.sound |
| Verif.C73_given | propext, Quot.sound |
| Verif.C73_last_table | propext, Quot.sound |
| Verif.C73_negation | propext, Quot.sound |
| Verif.C73_shared | propext, Quot.sound |
| Verif.C74_leaves | propext, Classical.choice, Quot.sound |
| Verif.C75_begins | propext, Classical.choice, Quot.sound |
| Verif.C75_goes_on | propext, Classical.choice, Quot.sound |
| Verif.C75_negation_errors | propext, Quot.sound |
| Verif.C75_released | propext, Classical.choice, Quot.sound |
| Verif.C75_started | propext, Classical.choice, Quot.sound |
| Verif.C75_starting | propext, Classical.choice, Quot.sound |
| Verif.C75_stopping | propext, Classical.choice, Quot.sound |
| Verif.C76_hangs_witness | propext, Quot.sound |
| Verif.C76_start_again | propext, Classical.choice, Quot.sound |
| Verif.C76_start_returns | propext, Classical.choice, Quot.sound |
| Verif.C76_stop_error_return | propext, Classical.choice, Quot.sound |
| Verif.C76_waits_witness | propext, Quot.sound |
| Verif.C77_released | propext, Classical.choice, Quot.sound |
| Verif.C77_start_returns | propext, Classical.choice, Quot.sound |
| Verif.C77_told | propext, Classical.choice, Quot.sound |
| Verif.C78_idles | propext, Classical.choice, Quot.sound |
| Verif.C78_negation_backlog | propext, Quot.sound |
| Verif.C78_negation_starvation | propext, Quot.sound |
| Verif.C78_processed | propext, Classical.choice, Quot.sound |
| Verif.C78_taken | propext, Classical.choice, Quot.sound |
| Verif.C79_cause | propext, Classical.choice, Quot.sound |
| Verif.C79_negation_final | propext, Quot.sound |
| Verif.C79_negation_listener | propext, Quot.sound |
| Verif.C79_negation_start | propext, Quot.sound |
| Verif.C79_none | propext, Classical.choice, Quot.sound |
| Verif.C80_nested | propext, Classical.choice, Quot.sound |
| Verif.C80_processed | propext, Classical.choice, Quot.sound |
| Verif.C80_rest | propext, Classical.choice, Quot.sound |
| Verif.C81_negation_completion | propext, Quot.sound |
| Verif.C81_negation_entry | propext |
| Verif.C81_negation_listener | propext |
| Verif.C81_negation_table | propext, Quot.sound |
| Verif.C81_negation_two | propext, Quot.sound |
| Verif.C82_calls | propext, Classical.choice, Quot.sound |
| Verif.C82_ends | propext, Quot.sound |
| Verif.C82_entry | propext, Classical.choice, Quot.sound |
| Verif.C82_event | propext, Quot.sound |
| Verif.C82_fifo | propext, Classical.choice, Quot.sound |
| Verif.C82_grows | propext, Classical.choice, Quot.sound |
| Verif.C82_negation_final | propext |
| Verif.C82_negation_target | propext |
| Verif.C82_start | propext, Classical.choice, Quot.sound |
| Verif.C82_story | propext, Quot.sound |
| Verif.C82_target | propext, Quot.sound |
| Verif.C83_at_rest | propext, Classical.choice, Quot.sound |
| Verif.C83_determined | propext, Classical.choice, Quot.sound |
| Verif.C83_negation_pool | propext, Quot.sound |
| Verif.C83_same | propext, Classical.choice, Quot.sound |
| Verif.C88_allowed | propext, Classical.choice, Quot.sound |
| Verif.C88_known | propext, Classical.choice, Quot.sound |
| Verif.C88_lag | propext, Classical.choice, Quot.sound |
| Verif.C88_lag_attained | propext, Classical.choice, Quot.sound |
| Verif.C88_negation_backwards | propext, Classical.choice, Quot.sound |
| Verif.C88_negation_null | propext, Classical.choice, Quot.sound |
| Verif.C88_negation_service | propext, Classical.choice, Quot.sound |
| Verif.C88_sequential | propext, Classical.choice, Quot.sound |
| Verif.C88_start | propext, Classical.choice, Quot.sound |
| Verif.C88_started | propext, Classical.choice, Quot.sound |
| Verif.C88_worker | propext, Classical.choice, Quot.sound |
| Verif.C89_allowed | propext, Quot.sound |
| Verif.C89_drf | propext, Classical.choice, Quot.sound |
| Verif.C89_library | propext, Classical.choice, Quot.sound |
| Verif.C89_negation_listener | propext, Classical.choice, Quot.sound |
| Verif.C90_listener | propext, Classical.choice, Quot.sound |
| Verif.C90_payload | propext, Classical.choice, Quot.sound |
| Verif.C91_licensed | propext, Classical.choice, Quot.sound |
| Verif.C91_listener | propext, Classical.choice, Quot.sound |
| Verif.C91_payload | propext, Classical.choice, Quot.sound |
| Verif.C91_untouched | propext, Classical.choice, Quot.sound |
| Verif.C92_drops | propext, Classical.choice, Quot.sound |
| Verif.C92_noticed | propext, Classical.choice, Quot.sound |
| Verif.C92_passes | propext, Classical.choice, Quot.sound |
| Verif.C92_reads | propext, Classical.choice, Quot.sound |
| Verif.C92_writes | propext, Classical.choice, Quot.sound |
| Verif.C93_all_taken | propext, Classical.choice, Quot.sound |
| Verif.C93_bound | propext, Classical.choice, Quot.sound |
| Verif.C93_covered | propext, Classical.choice, Quot.sound |
| Verif.C93_finished | propext, Classical.choice, Quot.sound |
| Verif.C93_flags | propext, Classical.choice, Quot.sound |
| Verif.C93_no_duplicates | propext, Classical.choice, Quot.sound |
| Verif.C93_order | propext, Classical.choice, Quot.sound |
| Verif.C93_script | propext, Classical.choice, Quot.sound |
| Verif.C94_any | propext, Classical.choice, Quot.sound |
| Verif.C94_fire_null | propext |
| Verif.C94_negation_duplicates | propext |
| Verif.C94_no_pool | propext, Classical.choice, Quot.sound |
| Verif.C94_wasted | propext, Classical.choice, Quot.sound |
| Verif.C95_fire | propext, Classical.choice, Quot.sound |
| Verif.C95_meddler | propext, Classical.choice, Quot.sound |
| Verif.C95_one_start | propext, Classical.choice, Quot.sound |
| Verif.C95_reads | propext, Quot.sound |
| Verif.C95_returns | propext, Classical.choice, Quot.sound |
| Verif.C95_start | propext, Classical.choice, Quot.sound |
| Verif.C95_start_in_state | propext, Classical.choice, Quot.sound |
| Verif.C95_stop | propext, Classical.choice, Quot.sound |
| Verif.C95_strong | propext, Classical.choice, Quot.sound |
| Verif.C96_all_taken | propext, Classical.choice, Quot.sound |
| Verif.C96_bound | propext, Classical.choice, Quot.sound |
| Verif.C96_converse | propext, Quot.sound |
| Verif.C96_ended | propext, Quot.sound |
| Verif.C96_finished | propext, Classical.choice, Quot.sound |
| Verif.C96_fire | propext, Classical.choice, Quot.sound |
| Verif.C96_flags | propext, Classical.choice, Quot.sound |
| Verif.C96_negation_end | propext, Quot.sound |
| Verif.C96_negation_table | propext, Quot.sound |
| Verif.C96_no_duplicates | propext, Classical.choice, Quot.sound |
| Verif.C96_one_start | propext, Classical.choice, Quot.sound |
| Verif.C96_order | propext, Classical.choice, Quot.sound |
| Verif.C96_script | propext, Classical.choice, Quot.sound |
| Verif.C96_start | propext, Classical.choice, Quot.sound |
| Verif.C96_stop | propext, Classical.choice, Quot.sound |
| Verif.C96_weak | propext, Classical.choice, Quot.sound |
| Verif.C97_all_taken | propext, Classical.choice, Quot.sound |
| Verif.C97_anywhere | propext, Quot.sound |
| Verif.C97_bound | propext, Classical.choice, Quot.sound |
| Verif.C97_covered | propext, Classical.choice, Quot.sound |
| Verif.C97_direct | propext, Quot.sound |
| Verif.C97_finished | propext, Classical.choice, Quot.sound |
| Verif.C97_flags | propext, Classical.choice, Quot.sound |
| Verif.C97_negation_after_end | propext, Quot.sound |
| Verif.C97_negation_before_start | propext, Quot.sound |
| Verif.C97_no_duplicates | propext, Classical.choice, Quot.sound |
| Verif.C97_order | propext, Classical.choice, Quot.sound |
| Verif.C97_script | propext, Classical.choice, Quot.sound |
| Verif.C98_all_taken | propext, Classical.choice, Quot.sound |
| Verif.C98_bound | propext, Classical.choice, Quot.sound |
| Verif.C98_covered | propext, Classical.choice, Quot.sound |
| Verif.C98_finished | propext, Classical.choice, Quot.sound |
| Verif.C98_flags | propext, Classical.choice, Quot.sound |
| Verif.C98_no_duplicates | propext, Classical.choice, Quot.sound |
| Verif.C98_order | propext, Classical.choice, Quot.sound |
| Verif.C98_script | propext, Classical.choice, Quot.sound |
| Verif.C99_course | propext, Classical.choice, Quot.sound |
| Verif.C99_events | propext, Classical.choice, Quot.sound |
| Verif.C99_fold | propext, Classical.choice, Quot.sound |
| Verif.C99_handles | propext, Classical.choice, Quot.sound |
| Verif.C99_library | propext, Classical.choice, Quot.sound |
| Verif.C99_memory | propext, Classical.choice, Quot.sound |
| Verif.C99_newest | propext, Classical.choice, Quot.sound |
| Verif.C99_one_at_a_time | propext, Classical.choice, Quot.sound |
| Verif.C99_only_for_the_event | propext, Classical.choice, Quot.sound |
| Verif.C99_races | propext, Classical.choice, Quot.sound |
| Verif.C99_reasons | propext, Classical.choice, Quot.sound |
| Verif.Ctx.C84_aborted | propext, Classical.choice, Quot.sound |
| Verif.Ctx.C84_alone | propext, Classical.choice, Quot.sound |
| Verif.Ctx.C84_begin | propext, Classical.choice, Quot.sound |
| Verif.Ctx.C84_changed | propext, Classical.choice, Quot.sound |
| Verif.Ctx.C84_count | propext, Classical.choice, Quot.sound |
| Verif.Ctx.C84_fifo | propext, Classical.choice, Quot.sound |
| Verif.Ctx.C84_finished | propext, Classical.choice, Quot.sound |
| Verif.Ctx.C84_mirror | propext, Classical.choice, Quot.sound |
| Verif.Ctx.C84_negation_aborted | propext |
| Verif.Ctx.C84_negation_replaced | propext |
| Verif.Ctx.C84_negation_skipped | propext, Quot.sound |
| Verif.Ctx.C84_state | propext, Classical.choice, Quot.sound |
| Verif.Ctx.C84_states | propext |
| Verif.Ctx.C84_within | propext, Classical.choice, Quot.sound |
| Verif.Direct.step_none | propext, Quot.sound |
| Verif.Maps.C86_agree | propext, Classical.choice, Quot.sound |
| Verif.Maps.C86_answers | propext |
| Verif.Maps.C86_contract | propext |
| Verif.Maps.C86_equal | propext |
| Verif.Maps.C86_hash | propext, Classical.choice, Quot.sound |
| Verif.Maps.C86_list | propext, Classical.choice, Quot.sound |
| Verif.Maps.C86_negation_hash | propext, Classical.choice, Quot.sound |
| Verif.Maps.C86_states | propext, Classical.choice, Quot.sound |
| Verif.Qs.C85_accepted | propext, Classical.choice, Quot.sound |
| Verif.Qs.C85_bound | propext, Classical.choice, Quot.sound |
| Verif.Qs.C85_conserved | propext, Classical.choice, Quot.sound |
| Verif.Qs.C85_died | propext, Classical.choice, Quot.sound |
| Verif.Qs.C85_fate | propext, Classical.choice, Quot.sound |
| Verif.Qs.C85_fifo | propext, Classical.choice, Quot.sound |
| Verif.Qs.C85_negation_bound | propext, Quot.sound |
| Verif.Qs.C85_negation_died | propext, Quot.sound |
| Verif.Qs.C85_negation_lost | propext, Quot.sound |
| Verif.Qs.C85_negation_order | propext, Quot.sound |
| Verif.Qs.C85_rejected | propext, Classical.choice, Quot.sound |
| Verif.Qs.C85_rest | propext, Classical.choice, Quot.sound |
| Verif.Qs.C85_single | propext, Quot.sound |
| Verif.Qs.C85_taken | propext, Classical.choice, Quot.sound |
| Verif.Quick.C67_finished | propext, Classical.choice, Quot.sound |
| Verif.Quick.C67_negation_documentation | propext, Classical.choice, Quot.sound |
| Verif.Quick.C67_negation_ended | propext, Classical.choice, Quot.sound |
| Verif.Quick.C67_prints | propext, Classical.choice, Quot.sound |
| Verif.Quick.C67_terminates | propext, Classical.choice, Quot.sound |
| Verif.Scan.C87_alone | propext, Classical.choice, Quot.sound |
| Verif.Scan.C87_content | propext, Classical.choice, Quot.sound |
| Verif.Scan.C87_covered | propext, Classical.choice, Quot.sound |
| Verif.Scan.C87_dropped | propext, Classical.choice, Quot.sound |
| Verif.Scan.C87_fate | propext, Classical.choice, Quot.sound |
| Verif.Scan.C87_fifo | propext, Classical.choice, Quot.sound |
| Verif.Scan.C87_kept | propext, Classical.choice, Quot.sound |
| Verif.Scan.C87_negation_reused | propext |
| Verif.Scan.C87_negation_stale | propext |
| Verif.Scan.C87_negation_twice | propext |
| Verif.Scan.C87_npe | propext, Classical.choice, Quot.sound |
| Verif.machine_of_history | propext, Classical.choice, Quot.sound |
| Verif.memory_of_history | propext, Classical.choice, Quot.sound |
| Verif.returns_are_calls | propext, Classical.choice, Quot.sound |
