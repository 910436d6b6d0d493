# Axioms each claimed theorem depends on

From `#print axioms`, grouped by the set of axioms.

## none

* Sparta.BHist.C238_no_buckets_violated
* Sparta.Buffer.C15_growth_violated
* Sparta.Buffer.C15_iteration_violated
* Sparta.Buffer.C69_stale_violated
* Sparta.Counter.C112_overflow_violated
* Sparta.MathUtils.C31_safe_power_violated
* Sparta.PayloadEvent.C85_argument_destroyed_violated
* Sparta.PayloadEvent.C85_moved_handle_violated
* Sparta.PayloadEvent.C85_self_assigned_violated
* Sparta.PayloadEvent.C86_cancelAt_count_violated
* Sparta.PayloadEvent.C86_stale_cancel_violated
* Sparta.PayloadEvent.C86_stale_early_violated
* Sparta.SharedData.C27_assign_violated
* Sparta.Stat.C183_move_subs_violated
* Sparta.Stat.C188_move_partial
* Sparta.SyncPort.C90_thrown_violated
* Sparta.SyncPort.C91_isReady_violated
* Sparta.TFilter.C219_operand_violated
* Sparta.Values.C43_reference_violated
* Sparta.Values.C71_compare_violated
* Sparta.Values.C71_get
* Sparta.Values.C73_second_throws

## Classical.choice, Quot.sound, propext

* Sparta.ArchData.C52_last_write
* Sparta.ArchData.C52_memory_object
* Sparta.ArchData.C52_refines
* Sparta.ArchData.C82_update_from_partial
* Sparta.ArchData.Layout.C53_cyclic_violated
* Sparta.ArchData.Layout.C53_layout_exists
* Sparta.ArchData.Layout.C53_layout_partial
* Sparta.ArchData.Layout.C83_waste_partial
* Sparta.Argos.C223_everything
* Sparta.Argos.C223_round_trip_partial
* Sparta.Argos.C224_annotations
* Sparta.Argos.C224_complete
* Sparta.Argos.C224_window
* Sparta.Argos.C225_first_last_partial
* Sparta.Argos.C227_update_partial
* Sparta.Array.C16_array_map
* Sparta.Array.C17_array_age
* Sparta.Array.C17_array_aged_iteration
* Sparta.Array.C17_array_compare
* Sparta.BHist.C237_count32
* Sparta.BHist.C237_count64
* Sparta.BHist.C238_counts
* Sparta.BHist.C238_make
* Sparta.BHist.C239_described_partial
* Sparta.Backoff.C250_powers_partial
* Sparta.Backoff.C250_ten_violated
* Sparta.Backoff.C250_two_violated
* Sparta.BitArray.C32_eq
* Sparta.BitArray.C32_fill
* Sparta.BitArray.C32_make
* Sparta.BitArray.C32_negate
* Sparta.BitArray.C32_round_trip
* Sparta.BitArray.C32_shiftLeft
* Sparta.Buffer.C13_sequence
* Sparta.Buffer.C14_no_alias
* Sparta.Buffer.C15_growth_partial
* Sparta.Buffer.C15_never_full_partial
* Sparta.Buffer.C69_erase
* Sparta.Buffer.C69_follows
* Sparta.Buffer.C69_insert
* Sparta.Buffer.C69_insert_at_end_violated
* Sparta.Buffer.C69_iterators
* Sparta.Buffer.C69_new_entry
* Sparta.Bus.C253_half_violated
* Sparta.Bus.C253_key
* Sparta.Bus.C253_nothing_partial
* Sparta.Bus.C253_once
* Sparta.Bus.C253_pairs
* Sparta.Bus.C253_succeeds
* Sparta.Bus.C253_underscores
* Sparta.ByteOrder.C38_memory_order
* Sparta.ByteOrder.C38_round_trip_partial
* Sparta.ByteOrder.C38_swap_partial
* Sparta.Cache.C44_display
* Sparta.Cache.C44_legal
* Sparta.Cache.C44_protected
* Sparta.Cache.C44_touchLRU
* Sparta.Cache.C44_touchMRU
* Sparta.Cache.C45_lru_oldest
* Sparta.Cache.C46_hit_iff
* Sparta.Cache.C46_no_duplicate
* Sparta.Cache.C46_policies
* Sparta.Cache.C46_unique
* Sparta.Cache.C47_split
* Sparta.Cache.C47_unique_partial
* Sparta.Cache.C47_unique_proper_partial
* Sparta.Cache.C65_memory
* Sparta.Cache.C65_transparent
* Sparta.Cache.C66_castout
* Sparta.Cache.C66_invalidateLine
* Sparta.Cache.C66_reuse
* Sparta.Cache.C67_cold_miss
* Sparta.Cache.C67_open_way
* Sparta.CachedMem.C106_peek
* Sparta.CachedMem.C106_read
* Sparta.CachedMem.C107_memory
* Sparta.CachedMem.C107_pending
* Sparta.CachedMem.C107_results
* Sparta.CachedMem.C108_drop
* Sparta.CachedMem.C108_previous
* Sparta.CachedMem.C108_undo
* Sparta.CachedMem.C109_commit_partial
* Sparta.CachedMem.C109_device_partial
* Sparta.CachedMem.C111_poke_partial
* Sparta.Checkpoint.C49_load_restores_partial
* Sparta.Checkpoint.C49_refines_partial
* Sparta.Checkpoint.C50_counts_partial
* Sparta.Checkpoint.C50_delete_partial
* Sparta.Checkpoint.C51_threshold_partial
* Sparta.Checkpoint.C84_chain_partial
* Sparta.Cherry.C220_refines_partial
* Sparta.Cherry.C221_loader
* Sparta.Cherry.C221_restores
* Sparta.Cherry.C221_start
* Sparta.Cherry.C222_replay
* Sparta.CircularBuffer.C18_contents_partial
* Sparta.CircularBuffer.C18_insert_violated
* Sparta.CircularBuffer.C18_size_partial
* Sparta.CircularBuffer.C77_defined_partial
* Sparta.CircularBuffer.C77_iterators_partial
* Sparta.Clock.C87_normalize_partial
* Sparta.Clock.C87_zero_rejected
* Sparta.Clock.C88_agree
* Sparta.Clock.C88_crossing
* Sparta.Clock.C88_reverse
* Sparta.Clock.C89_cycle_tick
* Sparta.Collect.C190_ids
* Sparta.Collect.C191_flushed
* Sparta.Collect.C191_never_wrong
* Sparta.Collect.C191_shown
* Sparta.Collect.C192_count
* Sparta.Collect.C192_intervals_partial
* Sparta.Collect.C193_no_exception
* Sparta.Collect.C194_continued
* Sparta.Collect.C195_duration_partial
* Sparta.Collect.C196_destroy_partial
* Sparta.Collect.C197_other_files_partial
* Sparta.Collect.C198_container
* Sparta.Collect.C199_automatic
* Sparta.CtxCounter.C247_aggregate
* Sparta.CtxCounter.C247_contexts
* Sparta.CtxCounter.C247_refused
* Sparta.CtxCounter.C248_average
* Sparta.CtxCounter.C248_average_between_partial
* Sparta.CtxCounter.C248_average_between_violated
* Sparta.CtxCounter.C248_maximum_partial
* Sparta.CtxCounter.C248_maximum_violated
* Sparta.CtxCounter.C248_weights
* Sparta.DAG.C08_groups_respect_precedence
* Sparta.DAG.C09_sort_fails_iff_cyclic
* Sparta.DAG.C10_detect_cycle
* Sparta.DAG.C56_phases_in_order
* Sparta.DAG.C57_early_detection
* Sparta.DAG.C57_reported_cycle_is_real
* Sparta.DAG.C58_group_is_longest_chain
* Sparta.DAG.C58_order_independent
* Sparta.DView.C234_assign_partial
* Sparta.DView.C234_last_write_partial
* Sparta.DView.C234_overlap_violated
* Sparta.DView.C234_read_partial
* Sparta.DView.C234_write_partial
* Sparta.DView.C235_index_violated
* Sparta.DView.C235_narrow_violated
* Sparta.DView.C235_padded_partial
* Sparta.DView.C235_truncated_partial
* Sparta.DView.C236_bytes
* Sparta.DView.C236_initial
* Sparta.DView.C236_value
* Sparta.DataPort.C119_all_ports_partial
* Sparta.DataPort.C119_delivered_partial
* Sparta.DataPort.C119_each_port_partial
* Sparta.DataPort.C119_exactly_once_partial
* Sparta.DataPort.C119_in_time_partial
* Sparta.DataPort.C119_refines_partial
* Sparta.DataPort.C120_count_out_partial
* Sparta.DataPort.C120_count_partial
* Sparta.DataPort.C120_never_delivered
* Sparta.DataPort.C120_others_delivered_partial
* Sparta.DataPort.C121_driven_at_partial
* Sparta.DataPort.C121_driven_partial
* Sparta.DataPort.C122_bind
* Sparta.DataPort.C123_held
* Sparta.EnumT.C245_iterate_partial
* Sparta.EnumT.C245_lookup
* Sparta.EnumT.C245_name
* Sparta.EnumT.C245_round_trip_partial
* Sparta.EnumT.C246_counts
* Sparta.EnumT.C246_cumulative
* Sparta.ExPort.C254_ambiguous_violated
* Sparta.FastList.C23_fastlist
* Sparta.FastList.C23_fastlist_stable
* Sparta.FrontArray.C24_read_valid_partial
* Sparta.FrontArray.C24_write_back
* Sparta.FrontArray.C24_write_front
* Sparta.GOP.C249_order
* Sparta.GOP.C249_point
* Sparta.GOP.C249_sorts
* Sparta.Histogram.C114_counts_partial
* Sparta.Histogram.C115_names_partial
* Sparta.Histogram.C116_greatest
* Sparta.Histogram.C117_cycles
* Sparta.Histogram.C118_total
* Sparta.Intern.C242_content_partial
* Sparta.Intern.C242_find
* Sparta.Intern.C242_is_interned
* Sparta.Intern.C242_not_null
* Sparta.Intern.C242_pointers
* Sparta.Intern.C243_columns_partial
* Sparta.Intern.C243_listing
* Sparta.Intern.C243_number
* Sparta.Lexical.C40_characters
* Sparta.Lexical.C40_decimal_partial
* Sparta.Lexical.C40_int16_int8_violated
* Sparta.Lexical.C40_int32
* Sparta.Lexical.C40_int64_min_violated
* Sparta.Lexical.C40_radix_partial
* Sparta.Lexical.C40_single_number
* Sparta.Lexical.C40_u64_violated
* Sparta.MathUtils.C28_floor_log2_32
* Sparta.MathUtils.C28_floor_log2_64
* Sparta.MathUtils.C28_log2_lsb_32
* Sparta.MathUtils.C28_log2_lsb_64
* Sparta.MathUtils.C29_gcd_32
* Sparta.MathUtils.C29_gcd_64
* Sparta.MathUtils.C29_lcm_32_partial
* Sparta.MathUtils.C29_lcm_64_partial
* Sparta.MathUtils.C30_ceil_log2
* Sparta.MathUtils.C30_is_power_of_2
* Sparta.MathUtils.C30_next_power_of_2
* Sparta.MathUtils.C30_pow2_ones
* Sparta.MathUtils.C54_abs
* Sparta.MemIf.C101_bytewise
* Sparta.MemIf.C101_mapping_stays
* Sparta.MemIf.C101_no_throw
* Sparta.MemIf.C101_poke
* Sparta.MemIf.C101_refinement
* Sparta.MemIf.C101_translate
* Sparta.MemIf.C101_write
* Sparta.MemIf.C102_note_data
* Sparta.MemIf.C102_notifications
* Sparta.MemIf.C102_transparent
* Sparta.MemIf.C103_poke_partial
* Sparta.MemIf.C103_unchanged
* Sparta.MemIf.C104_invalidated
* Sparta.MemIf.C104_obtained
* Sparta.MemIf.C104_write
* Sparta.MemIf.C105_reason_object
* Sparta.MemIf.C105_success
* Sparta.MemoryMap.C100_verify_partial
* Sparta.MemoryMap.C97_findInterface
* Sparta.MemoryMap.C97_findMapping
* Sparta.MemoryMap.C97_history
* Sparta.MemoryMap.C97_mapAddress
* Sparta.MemoryMap.C98_accept_partial
* Sparta.MemoryMap.C98_in_range_partial
* Sparta.MemoryMap.C98_large_block_violated
* Sparta.MemoryMap.C99_lookup_cost
* Sparta.Notify.C131_global_child_violated
* Sparta.Notify.C131_list_violated
* Sparta.Notify.C131_nested_partial
* Sparta.Notify.C131_post_calls_partial
* Sparta.Notify.C131_private_violated
* Sparta.Notify.C132_observed_partial
* Sparta.Notify.C133_deregister_partial
* Sparta.Notify.C133_list_check_violated
* Sparta.Notify.C133_malformed_violated
* Sparta.Notify.C133_register_partial
* Sparta.Notify.C133_tap_partial
* Sparta.Notify.C134_attach_violated
* Sparta.Notify.C134_deregister_events_partial
* Sparta.Notify.C134_register_events_partial
* Sparta.Notify.C135_log_exact_partial
* Sparta.Notify.C135_log_sound_partial
* Sparta.Notify.C135_nested_violated
* Sparta.Notify.C136_tap_count_partial
* Sparta.Notify.C137_list_partial
* Sparta.Notify.C137_trailing_comma_violated
* Sparta.PFile.C231_roundtrip
* Sparta.PFile.C232_truncated
* Sparta.PFile.C233_before_partial
* Sparta.PTree.C124_names
* Sparta.PTree.C124_pattern
* Sparta.PTree.C124_plain
* Sparta.PTree.C124_special_violated
* Sparta.PTree.C125_exists_violated
* Sparta.PTree.C125_get_latest
* Sparta.PTree.C125_get_node
* Sparta.PTree.C125_get_stable
* Sparta.PTree.C126_copy
* Sparta.PTree.C126_copy_violated
* Sparta.PTree.C126_failed_merge_violated
* Sparta.PTree.C126_merge
* Sparta.PTree.C126_merge_fails
* Sparta.PTree.C126_self_assign_violated
* Sparta.PTree.C127_isRead_complete_partial
* Sparta.PTree.C127_isRead_sound
* Sparta.PTree.C127_nodup
* Sparta.PTree.C127_reported
* Sparta.PTree.C127_rewritten_violated
* Sparta.PTree.C127_root_violated
* Sparta.PTree.C127_unread_reported_partial
* Sparta.PTree.C128_failed_set_violated
* Sparta.PTree.C128_not_cleared_violated
* Sparta.PTree.C128_not_required
* Sparta.PTree.C128_required_partial
* Sparta.PTree.C128_unrequire
* Sparta.PTree.C128_unrequire_below_violated
* Sparta.PTree.C128_unrequire_found
* Sparta.PTree.C129_false_iff
* Sparta.PTree.C129_node_set
* Sparta.PTree.C129_refused
* Sparta.PTree.C129_set_get
* Sparta.PTree.C130_index_sound_partial
* Sparta.PTree.C130_index_violated
* Sparta.Param.C160_call_returns
* Sparta.Param.C160_calls_return
* Sparta.Param.C164_failed_write_keeps_partial
* Sparta.Param.C165_accepted_value_partial
* Sparta.Param.C166_earlier_unchanged_partial
* Sparta.Param.C167_lock_balanced
* Sparta.Param.C167_locked_for_ever
* Sparta.Param.C172_equal_is_default_partial
* Sparta.Param.C172_scalar_exact
* Sparta.PayloadEvent.C85_delivered_partial
* Sparta.PayloadEvent.C85_only_scheduled_partial
* Sparta.PayloadEvent.C85_refines_partial
* Sparta.PayloadEvent.C86_cancelIf_spares_partial
* Sparta.PayloadEvent.C86_cancelIf_stops_partial
* Sparta.PayloadEvent.C86_count_partial
* Sparta.PayloadEvent.C86_isScheduledAt_partial
* Sparta.Pipe.C19_pipe_delay_line
* Sparta.Pipe.C19_pipe_stages
* Sparta.Pipe.C20_pipe_num_valid_partial
* Sparta.Pipe.C55_pipe_own_updates_partial
* Sparta.Pipeline.C21_after_stall
* Sparta.Pipeline.C21_before_stall
* Sparta.Pipeline.C21_bubbles
* Sparta.Pipeline.C21_duration
* Sparta.Pipeline.C21_held
* Sparta.Pipeline.C21_order
* Sparta.Pipeline.C21_refines
* Sparta.Pipeline.C80_exact
* Sparta.Pipeline.C80_handlers_partial
* Sparta.Pipeline.Prec.C81_between
* Sparta.Pipeline.Prec.C81_consistent
* Sparta.Pipeline.Prec.C81_default_partial
* Sparta.Pipeline.Prec.C81_stage_order
* Sparta.Queue.C11_queue_fifo
* Sparta.Queue.C12_queue_backwards_partial
* Sparta.Queue.C12_queue_iteration_partial
* Sparta.Queue.C12_queue_iterator_partial
* Sparta.Queue.C12_queue_iterator_violated
* Sparta.Rational.C33_add
* Sparta.Rational.C33_div
* Sparta.Rational.C33_eq
* Sparta.Rational.C33_inv
* Sparta.Rational.C33_make
* Sparta.Rational.C33_mul
* Sparta.Rational.C33_sub_partial
* Sparta.Rational.C33_sub_violated
* Sparta.RegBank.C251_lookup_partial
* Sparta.RegBank.C251_results_partial
* Sparta.RegBank.C252_counts_partial
* Sparta.RegView.C228_refines_partial
* Sparta.RegView.C229_copy_partial
* Sparta.RegView.C229_independent
* Sparta.RegView.C230_move_partial
* Sparta.Register.C93_any_partial
* Sparta.Register.C93_data_as
* Sparta.Register.C93_not
* Sparta.Register.C93_shift_left
* Sparta.Register.C93_shift_left_assign_partial
* Sparta.Register.C93_shift_right_partial
* Sparta.Register.C94_bounds
* Sparta.Register.C94_make
* Sparta.Register.C94_read
* Sparta.Register.C94_read_only
* Sparta.Register.C94_unmasked
* Sparta.Register.C94_write_partial
* Sparta.Register.C95_read_back_partial
* Sparta.Register.C95_read_partial
* Sparta.Register.C95_reject_partial
* Sparta.Register.C95_write_partial
* Sparta.STimer.C200_destroy
* Sparta.STimer.C200_query
* Sparta.STimer.C201_drop
* Sparta.STimer.C201_whole
* Sparta.STimer.C202_fresh
* Sparta.STimer.C202_start
* Sparta.STimer.C202_stop
* Sparta.STimer.C203_refused
* Sparta.STimer.C204_allocate
* Sparta.STimer.C204_bound
* Sparta.STimer.C205_outlive
* Sparta.STimer.C205_undefined
* Sparta.STimer.C206_again
* Sparta.Scheduler.C01_fires_at_due_tick
* Sparta.Scheduler.C01_ticks_monotone
* Sparta.Scheduler.C02_group_then_fifo
* Sparta.Scheduler.C03_fired_was_waiting
* Sparta.Scheduler.C03_no_loss_no_duplicate
* Sparta.Scheduler.C04_backwards_rejected
* Sparta.Scheduler.C05_cancelled_never_fires
* Sparta.Scheduler.C06_exact_run_partial
* Sparta.Scheduler.C07_limited_run_partial
* Sparta.Scheduler.C07_run_until_no_continuing_partial
* Sparta.Scheduler.C59_unique_added_when_not_waiting
* Sparta.Scheduler.C59_unique_not_added_twice
* Sparta.Scheduler.C60_is_scheduled
* Sparta.Scheduler.C60_is_scheduled_in_handler_partial
* Sparta.Scheduler.C60_next_event_tick
* Sparta.Scheduler.C61_elapsed_ticks_partial
* Sparta.Scheduler.C62_cleared_never_fires
* Sparta.Scheduler.C62_restart_forgets
* Sparta.Scheduler.C63_precedence_is_firing_order
* Sparta.Scheduler.C63_successor_accepted
* Sparta.Scoreboard.C25_ready_callbacks
* Sparta.Scoreboard.C26_agree_partial
* Sparta.Scoreboard.C26_never_early_partial
* Sparta.Scoreboard.C78_latency
* Sparta.SharedData.C27_latch_partial
* Sparta.SharedData.C27_manual
* Sparta.SharedData.C27_two_writes_violated
* Sparta.SharedData.C27_visible_next_cycle_partial
* Sparta.SharedPtr.C35_destroyed_once
* Sparta.SharedPtr.C35_no_undefined_behaviour
* Sparta.SharedPtr.C35_ownership
* Sparta.SharedPtr.C36_lock_expired_partial
* Sparta.SharedPtr.C37_allocator
* Sparta.SharedPtr.C37_block_not_in_use
* Sparta.SharedPtr.C37_bounded
* Sparta.SharedPtr.C37_callback_violated
* Sparta.SharedPtr.C37_outstanding
* Sparta.SigPort.C240_arrives
* Sparta.SigPort.C240_once
* Sparta.SigPort.C240_only_sent
* Sparta.SigPort.C240_progress
* Sparta.SigPort.C240_send_partial
* Sparta.SigPort.C241_held
* Sparta.SigPort.C241_stays
* Sparta.StHist.C244_bins_partial
* Sparta.StHist.C244_state
* Sparta.StHist.C244_total_partial
* Sparta.Stat.C186_add
* Sparta.Stat.C186_duplicate
* Sparta.Stat.C186_names
* Sparta.Stat.C186_subs
* Sparta.Stat.C187_copy_partial
* Sparta.Stat.C189_assign_partial
* Sparta.Stat.C189_stale_violated
* Sparta.StateM.C208_marks
* Sparta.StateM.C210_once_per_enrolment
* Sparta.Strings.C39_lines
* Sparta.Strings.C39_single
* Sparta.Strings.C39_tokenize
* Sparta.Strings.C74_pattern
* Sparta.Strings.C74_strip_partial
* Sparta.Strings.C74_tokenize_strip_partial
* Sparta.Strings.C74_tokenize_strip_violated
* Sparta.Strings.C74_words
* Sparta.SyncPort.C90_delivered
* Sparta.SyncPort.C90_isDriven_any
* Sparta.SyncPort.C90_one_per_cycle
* Sparta.SyncPort.C90_order_partial
* Sparta.SyncPort.C90_send_delay
* Sparta.SyncPort.C90_slide_partial
* Sparta.SyncPort.C91_isDriven
* Sparta.SyncPort.C91_isReady_false
* Sparta.SyncPort.C91_protocol_partial
* Sparta.SyncPort.C91_setReady
* Sparta.SyncPort.C92_available
* Sparta.SyncPort.C92_exact
* Sparta.SyncPort.C92_if_sent
* Sparta.SyncPort.C92_no_throw
* Sparta.SyncPort.cross_agrees
* Sparta.SyncPort.reverse_agrees
* Sparta.TFilter.C217_characters
* Sparta.TFilter.C217_decimal
* Sparta.TFilter.C217_grammar
* Sparta.TFilter.C217_hyphen_violated
* Sparta.TFilter.C217_not_violated
* Sparta.TFilter.C217_number_violated
* Sparta.TFilter.C217_pattern_violated
* Sparta.TFilter.C217_precedence
* Sparta.TFilter.C217_quoted_violated
* Sparta.TFilter.C217_statdef_violated
* Sparta.TFilter.C217_unique
* Sparta.TFilter.C218_parsed
* Sparta.TNode.C149_tree
* Sparta.TNode.C150_add_child_partial
* Sparta.TNode.C150_effect
* Sparta.TNode.C150_group_alias_violated
* Sparta.TNode.C150_second_parent_violated
* Sparta.TNode.C151_anonymous_violated
* Sparta.TNode.C151_destroyed_child_violated
* Sparta.TNode.C151_location_exists_partial
* Sparta.TNode.C151_location_round_trip_partial
* Sparta.TNode.C151_locations_differ_partial
* Sparta.TNode.C151_second_home_violated
* Sparta.TNode.C152_dot
* Sparta.TNode.C152_found_is_path_partial
* Sparta.TNode.C152_has_iff_get_partial
* Sparta.TNode.C152_in_parts
* Sparta.TNode.C152_path_found_partial
* Sparta.TNode.C153_leading_dot
* Sparta.TNode.C153_search_exact_partial
* Sparta.TNode.C153_search_tidy_partial
* Sparta.TNode.C154_in_order_partial
* Sparta.TNode.C154_order_violated
* Sparta.TNode.C154_replacements_partial
* Sparta.TNode.C155_agrees_with_search_partial
* Sparta.TNode.C155_empty_pattern
* Sparta.TNode.C155_group_violated
* Sparta.TNode.C155_location_matches_partial
* Sparta.TNode.C156_names_partial
* Sparta.TNode.C156_underscores_violated
* Sparta.TNode.C157_get_children
* Sparta.TNode.C157_levels_violated
* Sparta.TNode.C157_lookup_partial
* Sparta.TNode.C157_not_searched_partial
* Sparta.TNode.C157_same_level_iff
* Sparta.TNode.C157_stays_private_partial
* Sparta.TNode.C158_deepest_path_partial
* Sparta.TNode.C158_full_match_violated
* Sparta.TNode.C158_root_violated
* Sparta.TNode.C159_way_up
* Sparta.Tag.C41_identity_partial
* Sparta.Tag.C41_text_equal_partial
* Sparta.Tag.C41_text_partial
* Sparta.TieredMap.C34_finite_map
* Sparta.TieredMap.C34_tiers
* Sparta.TrigMan.C138_counter_triggers_partial
* Sparta.TrigMan.C140_nothing_fails_partial
* Sparta.TrigMan.C141_a_tick_runs_what_is_due_partial
* Sparta.TrigMan.C141_no_due_trigger_is_missed_partial
* Sparta.TrigMan.C142_reported_state_partial
* Sparta.TrigMan.C143_startup_activates
* Sparta.TrigMan.C144_only_triggers_of_the_clock_partial
* Sparta.UniqEv.C215_progress
* Sparta.UniqEv.C215_refused
* Sparta.UniqEv.C215_unique
* Sparta.UniqEv.C216_debug
* Sparta.UniqEv.C216_single
* Sparta.Values.C42_add_sub_partial
* Sparta.Values.C42_assign
* Sparta.Values.C42_history_partial
* Sparta.Values.C42_incr_decr
* Sparta.Values.C42_make_fits
* Sparta.Values.C42_make_partial
* Sparta.Values.C42_make_upper
* Sparta.Values.C72_bounded_int_partial

## Quot.sound, propext

* Sparta.Argos.C223_no_strings_violated
* Sparta.Argos.C223_second_violated
* Sparta.Argos.C224_documented_violated
* Sparta.Argos.C224_last_tick_violated
* Sparta.Argos.C225_first_violated
* Sparta.Argos.C226_colon_violated
* Sparta.Argos.C226_first_string_violated
* Sparta.Argos.C226_max_violated
* Sparta.Argos.C226_name_violated
* Sparta.Argos.C226_size_violated
* Sparta.Argos.C226_text_partial
* Sparta.Argos.C227_new_location_violated
* Sparta.Argos.C227_no_transaction_violated
* Sparta.Argos.C227_size_violated
* Sparta.BHist.C238_one_counter
* Sparta.Backoff.C250_one
* Sparta.BitArray.C32_and_or
* Sparta.BitArray.C32_and_or_same_size
* Sparta.BitArray.C32_shiftRight
* Sparta.BitArray.C70_assign_value
* Sparta.BitArray.C70_independent_partial
* Sparta.BitArray.C70_independent_violated
* Sparta.ByteOrder.C38_int16_violated
* Sparta.Cache.C47_range
* Sparta.Cache.C48_free_way_partial
* Sparta.Cache.C68_read_after_write
* Sparta.CachedMem.C106_single
* Sparta.CachedMem.C110_lookup
* Sparta.CachedMem.C110_pending
* Sparta.CachedMem.C110_unique
* Sparta.Checkpoint.C49_clean_violated
* Sparta.Checkpoint.C49_forget_violated
* Sparta.Checkpoint.C49_raw_write_violated
* Sparta.Checkpoint.C50_delete_current_violated
* Sparta.Checkpoint.C50_deleted_found_violated
* Sparta.Checkpoint.C51_threshold_one_violated
* Sparta.Checkpoint.C84_order_violated
* Sparta.Cherry.C220_counts_violated
* Sparta.Cherry.C220_deleted_violated
* Sparta.Cherry.C221_open_violated
* Sparta.CircularBuffer.C18_window_violated
* Sparta.Clock.C87_normalize_violated
* Sparta.Clock.C89_absolute_partial
* Sparta.Clock.C89_tick_cycle
* Sparta.Collect.C191_initialize_lost_violated
* Sparta.Collect.C191_initialize_open_violated
* Sparta.Collect.C191_long_violated
* Sparta.Collect.C191_started_twice_violated
* Sparta.Collect.C191_value
* Sparta.Collect.C192_restart_violated
* Sparta.Collect.C195_overlap_violated
* Sparta.Collect.C196_boundary_violated
* Sparta.Collect.C196_later_violated
* Sparta.Collect.C196_same_tick_violated
* Sparta.Collect.C197_before_start_violated
* Sparta.Collect.C197_pairs_violated
* Sparta.Collect.C197_reactivate
* Sparta.Collect.C197_restart_violated
* Sparta.Collect.C197_stop_all_violated
* Sparta.Collect.C199_variable
* Sparta.Counter.C113_cycles
* Sparta.Counter.C113_monotone
* Sparta.Counter.C113_value
* Sparta.CycTrig.C145_one_slot_partial
* Sparta.CycTrig.C146_no_callback_without_setting_partial
* Sparta.CycTrig.C147_time_of_the_callback_partial
* Sparta.CycTrig.C148_a_set_trigger_runs_partial
* Sparta.CycTrig.C148_isActive_partial
* Sparta.CycTrig.C148_nothing_fails_partial
* Sparta.EnumT.C246_make
* Sparta.ExPort.C254_search
* Sparta.ExPort.C254_sound
* Sparta.ExPort.C254_unique_partial
* Sparta.FrontArray.C24_read_valid_stuck
* Sparta.FrontArray.C24_read_valid_violated
* Sparta.GOP.C249_phase_name_violated
* Sparta.Histogram.C114_range_violated
* Sparta.Histogram.C115_names_violated
* Sparta.Lexical.C40_int16_int8_partial
* Sparta.Lexical.C40_int64_negative_partial
* Sparta.Lexical.C40_int64_positive
* Sparta.Lexical.C40_point_without_unit
* Sparta.Lexical.C40_too_large
* Sparta.Lexical.C40_unsigned
* Sparta.MathUtils.C28_floor_log2_iter
* Sparta.MathUtils.C28_floor_log2_zero
* Sparta.MathUtils.C29_lcm_zero_violated
* Sparta.MathUtils.C30_next_power_of_2_unrepresentable
* Sparta.MathUtils.C31_safe_power_partial
* Sparta.MemIf.C102_counter_violated
* Sparta.MemIf.C103_poke_violated
* Sparta.MemIf.C104_map_address_violated
* Sparta.MemIf.C104_outside_violated
* Sparta.MemIf.C104_reacquire_violated
* Sparta.MemIf.C105_wrap_violated
* Sparta.MemoryMap.C98_create
* Sparta.Notify.C135_order
* Sparta.Notify.C136_destination_counts
* Sparta.PFile.C232_unchanged_violated
* Sparta.PFile.C233_delta_violated
* Sparta.Param.C161_clear_after_read_violated
* Sparta.Param.C161_item_after_read_violated
* Sparta.Param.C161_read_refuses_write_partial
* Sparta.Param.C161_reads_agree_partial
* Sparta.Param.C162_read_counts
* Sparta.Param.C162_silent
* Sparta.Param.C162_write_counts
* Sparta.Param.C163_verify_exact
* Sparta.Param.C163_write_needs_read
* Sparta.Param.C164_counts_violated
* Sparta.Param.C164_failed_insert
* Sparta.Param.C164_item_violated
* Sparta.Param.C164_other_exception_violated
* Sparta.Param.C165_insert_value
* Sparta.Param.C165_own_callback_violated
* Sparta.Param.C166_announce_violated
* Sparta.Param.C166_associate_single
* Sparta.Param.C166_insert_violated
* Sparta.Param.C167_exception_locks_violated
* Sparta.Param.C168_clear_violated
* Sparta.Param.C168_lockdown_partial
* Sparta.Param.C168_visible
* Sparta.Param.C169_overridden_for_ever
* Sparta.Param.C169_override_after_read_violated
* Sparta.Param.C169_override_keeps_value
* Sparta.Param.C169_override_takes
* Sparta.Param.C169_resize_default_violated
* Sparta.Param.C169_writes_keep_default
* Sparta.Param.C170_item_accepted
* Sparta.Param.C170_item_roundtrip
* Sparta.Param.C170_resize_violated
* Sparta.Param.C171_final_assign
* Sparta.Param.C171_final_no_callbacks
* Sparta.Param.C172_differs_violated
* Sparta.Param.C172_string_vector_violated
* Sparta.Param.C173_add
* Sparta.Param.C173_shared_copy_violated
* Sparta.Param.C173_validate_partial
* Sparta.Param.C174_finalized_violated
* Sparta.Param.C174_teardown_clear_violated
* Sparta.Param.C174_teardown_partial
* Sparta.PriorityQueue.C22_priority_queue_contents
* Sparta.PriorityQueue.C22_priority_queue_sorted_stable
* Sparta.Rational.C33_toInt
* Sparta.RegView.C228_constant_data
* Sparta.Register.C93_and
* Sparta.Register.C93_eq
* Sparta.Register.C93_none_partial
* Sparta.Register.C93_none_violated
* Sparta.Register.C93_or
* Sparta.Register.C93_or_assign
* Sparta.Register.C93_shift_left_assign_violated
* Sparta.Register.C93_undefined_violated
* Sparta.Register.C94_write_violated
* Sparta.Register.C95_reject_violated
* Sparta.Register.C95_wide_violated
* Sparta.Register.C96_notify
* Sparta.Register.C96_write_unmasked_violated
* Sparta.STimer.C200_violated
* Sparta.STimer.C201_split_violated
* Sparta.STimer.C203_collision_violated
* Sparta.STimer.C203_cycle0_violated
* Sparta.STimer.C204_zero_violated
* Sparta.Scheduler.C04_accepted_waits
* Sparta.Scheduler.C04_delayed_always_accepted
* Sparta.Scheduler.C05_cancel_withdraws_only_that_event
* Sparta.Scheduler.C06_exact_run_violated
* Sparta.Scheduler.C07_run_until_no_continuing_violated
* Sparta.Scheduler.C64_async_delivered_once_partial
* Sparta.Scheduler.C64_async_not_lost
* Sparta.Scheduler.C64_cancel_async
* Sparta.Scoreboard.C25_at_most_once
* Sparta.Scoreboard.C25_fires_iff
* Sparta.Scoreboard.C26_clear_in_flight_violated
* Sparta.Scoreboard.C26_empty_violated
* Sparta.Scoreboard.C26_new_view_violated
* Sparta.Scoreboard.C26_no_latency_violated
* Sparta.Scoreboard.C79_last_range_violated
* Sparta.Scoreboard.C79_ranges_partial
* Sparta.SharedPtr.C36_gone_for_ever_partial
* Sparta.SigPort.C240_long_delay_violated
* Sparta.SigPort.C240_midway_violated
* Sparta.SigPort.C240_twice_violated
* Sparta.StHist.C244_make
* Sparta.StHist.C244_one_state_violated
* Sparta.Stat.C175_no_exception
* Sparta.Stat.C175_node_context
* Sparta.Stat.C175_window
* Sparta.Stat.C176_ticks
* Sparta.Stat.C177_frozen
* Sparta.Stat.C178_future
* Sparta.Stat.C178_reversed
* Sparta.Stat.C179_accumulate
* Sparta.Stat.C180_gone
* Sparta.Stat.C181_laps
* Sparta.Stat.C181_sum
* Sparta.Stat.C183_moved_from
* Sparta.Stat.C185_report
* Sparta.Stat.C185_values
* Sparta.StateM.C207_joint_transition
* Sparta.StateM.C207_set_twice
* Sparta.StateM.C208_clear
* Sparta.StateM.C208_new_marker
* Sparta.StateM.C209_only
* Sparta.StateM.C209_taken
* Sparta.StateM.C210_enrol
* Sparta.StateM.C210_joint
* Sparta.StateM.C210_set_value
* Sparta.StateM.C211_report
* Sparta.StateM.C212_time_in_state
* Sparta.StateM.C213_attach_detach
* Sparta.StateM.C214_create
* Sparta.StateM.C214_initial_kept
* Sparta.StateM.C214_reset
* Sparta.StateM.C214_reset_to
* Sparta.Strings.C74_eliminate
* Sparta.Strings.C75_empty_violated
* Sparta.Strings.C75_replace_partial
* Sparta.Strings.C76_bound_partial
* Sparta.Strings.C76_distance_violated
* Sparta.Strings.C76_equal_partial
* Sparta.TFilter.C218_holds
* Sparta.TFilter.C218_throws
* Sparta.TieredMap.C34_size_one_violated
* Sparta.TieredMap.C34_sizes
* Sparta.TrigMan.C139_no_unjustified_callback_partial
* Sparta.TrigMan.C139_no_unjustified_callback_violated
* Sparta.UniqEv.C215_async_violated
* Sparta.UniqEv.C215_restart_violated
* Sparta.UniqEv.C216_cancel_violated
* Sparta.UniqEv.C216_other_clock_violated
* Sparta.UniqEv.C216_refused
* Sparta.UniqEv.C216_restart_violated
* Sparta.UniqEv.C216_tick_zero_violated

## propext

* Sparta.ArchData.C52_past_end_violated
* Sparta.ArchData.C82_untouched_line_violated
* Sparta.ArchData.Layout.C53_subset_offset_violated
* Sparta.ArchData.Layout.C83_overflow_violated
* Sparta.BHist.C239_description_violated
* Sparta.Cache.C47_sets_violated
* Sparta.Cache.C47_stride_violated
* Sparta.Cache.C48_normal
* Sparta.Cache.C48_older_violated
* Sparta.Cache.C65_crossing_violated
* Sparta.CachedMem.C107_commit_violated
* Sparta.CachedMem.C109_commit_violated
* Sparta.CachedMem.C109_cross_violated
* Sparta.CachedMem.C109_device_violated
* Sparta.CachedMem.C111_miss_violated
* Sparta.CachedMem.C111_other_violated
* Sparta.CachedMem.C111_pending_violated
* Sparta.CircularBuffer.C77_order_reversed_violated
* Sparta.CircularBuffer.C77_stale_end_clear_violated
* Sparta.CircularBuffer.C77_stale_end_violated
* Sparta.Clock.C89_absolute_violated
* Sparta.Counter.C112_monotone_partial
* Sparta.Counter.C112_value
* Sparta.CycTrig.C145_align_zero_violated
* Sparta.CycTrig.C145_deactivate_before_startup_violated
* Sparta.CycTrig.C145_new_time_in_callback_violated
* Sparta.CycTrig.C145_past_cycle_violated
* Sparta.CycTrig.C145_prepared_twice_violated
* Sparta.CycTrig.C145_set_while_old_event_pending_violated
* Sparta.CycTrig.C145_switch_to_absolute_violated
* Sparta.CycTrig.C146_deactivated_before_startup_violated
* Sparta.DataPort.C119_long_delay_violated
* Sparta.DataPort.C119_overtaking_violated
* Sparta.DataPort.C119_refused_midway_violated
* Sparta.DataPort.C120_count_in_handler_violated
* Sparta.DataPort.C120_other_out_port_violated
* Sparta.DataPort.C121_current_cycle_violated
* Sparta.DataPort.C122_continuing_overwritten_violated
* Sparta.EnumT.C245_round_trip_violated
* Sparta.EnumT.C245_size_violated
* Sparta.ExPort.C254_complete
* Sparta.Intern.C242_content_violated
* Sparta.MemoryMap.C100_wrap_violated
* Sparta.MemoryMap.C98_alignment_violated
* Sparta.MemoryMap.C98_range_violated
* Sparta.Pipe.C20_pipe_num_valid_violated
* Sparta.Pipe.C55_pipe_own_updates_violated
* Sparta.Pipeline.C21_invalidated_stall_violated
* Sparta.Pipeline.C80_reactivated_violated
* Sparta.Pipeline.C80_stuck_item_violated
* Sparta.Pipeline.Prec.C81_phase_gap_violated
* Sparta.RegBank.C251_twice_violated
* Sparta.RegBank.C252_min_bank_violated
* Sparta.RegView.C228_in_place_violated
* Sparta.RegView.C228_wide_violated
* Sparta.RegView.C229_window_violated
* Sparta.RegView.C230_window_violated
* Sparta.Scheduler.C01_clock_in_handler
* Sparta.Scheduler.C04_after_recovery_violated
* Sparta.Scheduler.C59_unique_once_per_tick_violated
* Sparta.Scheduler.C60_is_scheduled_in_handler_violated
* Sparta.Scheduler.C61_elapsed_ticks_violated
* Sparta.Scheduler.C64_async_delivered_once_violated
* Sparta.SharedData.C27_copy_violated
* Sparta.SharedPtr.C36_dangling_violated
* Sparta.SharedPtr.C36_resurrection_violated
* Sparta.SharedPtr.C36_unexpired_violated
* Sparta.SharedPtr.C37_throwing_constructor_violated
* Sparta.SharedPtr.C37_watermark
* Sparta.StHist.C244_early_violated
* Sparta.StHist.C244_refused_violated
* Sparta.StHist.C244_set_after_next_violated
* Sparta.Stat.C179_first_start_violated
* Sparta.Stat.C180_failed_start_violated
* Sparta.Stat.C182_raw
* Sparta.Stat.C182_raw_violated
* Sparta.Stat.C183_assign
* Sparta.Stat.C183_assign_violated
* Sparta.Stat.C183_move
* Sparta.Stat.C184_context
* Sparta.Stat.C186_no_scheduler_violated
* Sparta.Stat.C186_subs_violated
* Sparta.Stat.C187_copy_violated
* Sparta.Stat.C188_move_violated
* Sparta.Stat.C188_twice_violated
* Sparta.Stat.C189_assign_violated
* Sparta.Stat.C189_self_violated
* Sparta.StateM.C207_others
* Sparta.StateM.C207_threshold_doc_violated
* Sparta.StateM.C208_reset_in_monitor_violated
* Sparta.StateM.C209_initial_violated
* Sparta.StateM.C211_after_report_violated
* Sparta.StateM.C211_joint_violated
* Sparta.StateM.C211_living_violated
* Sparta.StateM.C211_reset_violated
* Sparta.StateM.C212_joint_violated
* Sparta.StateM.C212_off
* Sparta.StateM.C212_raw_time_violated
* Sparta.StateM.C213_monitor_decides
* Sparta.StateM.C213_monitors
* Sparta.StateM.C213_not_due_violated
* Sparta.StateM.C214_bool_violated
* Sparta.Strings.C74_strip_violated
* Sparta.Strings.C75_replaced_unique
* Sparta.SyncPort.C90_lost_violated
* Sparta.SyncPort.C90_order_violated
* Sparta.SyncPort.C91_isReady_twice_violated
* Sparta.SyncPort.C92_available_violated
* Sparta.TFilter.C218_ne_violated
* Sparta.TFilter.C219_combined
* Sparta.TFilter.C219_inverted
* Sparta.TFilter.C219_self_violated
* Sparta.Tag.C41_copy_violated
* Sparta.Tag.C41_reset_violated
* Sparta.TrigMan.C138_counter_triggers_violated
* Sparta.TrigMan.C138_self_assignment_violated
* Sparta.TrigMan.C140_deactivate_other_violated
* Sparta.TrigMan.C140_destroy_fired_violated
* Sparta.TrigMan.C140_last_trigger_violated
* Sparta.TrigMan.C140_set_and_deactivate_violated
* Sparta.TrigMan.C140_set_before_startup_violated
* Sparta.TrigMan.C142_reported_state_violated
* Sparta.Values.C42_make_violated
* Sparta.Values.C42_overflow_violated
* Sparta.Values.C43_locked_partial
* Sparta.Values.C43_unlocked
* Sparta.Values.C71_compare_partial
* Sparta.Values.C71_compare_value
* Sparta.Values.C72_bounded_int_violated
* Sparta.Values.C73_once
