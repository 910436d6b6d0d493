{
 "claims": [
  {
   "property": "C01",
   "status": "proved",
   "theorems": [
    "Sparta.Scheduler.C01_fires_at_due_tick",
    "Sparta.Scheduler.C01_ticks_monotone",
    "Sparta.Scheduler.C01_clock_in_handler"
   ],
   "note": "ticks are unbounded naturals; handlers are an arbitrary function from the state to calls"
  },
  {
   "property": "C02",
   "status": "proved",
   "theorems": [
    "Sparta.Scheduler.C02_group_then_fifo"
   ],
   "note": ""
  },
  {
   "property": "C03",
   "status": "proved",
   "theorems": [
    "Sparta.Scheduler.C03_no_loss_no_duplicate",
    "Sparta.Scheduler.C03_fired_was_waiting"
   ],
   "note": ""
  },
  {
   "property": "C04",
   "status": "partial",
   "theorems": [
    "Sparta.Scheduler.C04_backwards_rejected",
    "Sparta.Scheduler.C04_accepted_waits",
    "Sparta.Scheduler.C04_delayed_always_accepted",
    "Sparta.Scheduler.C04_after_recovery_violated"
   ],
   "note": "proved during firing; after an exception and the documented recovery a zero-delay request is wrongly rejected (witness proved)"
  },
  {
   "property": "C05",
   "status": "proved",
   "theorems": [
    "Sparta.Scheduler.C05_cancelled_never_fires",
    "Sparta.Scheduler.C05_cancel_withdraws_only_that_event"
   ],
   "note": ""
  },
  {
   "property": "C06",
   "status": "partial",
   "theorems": [
    "Sparta.Scheduler.C06_exact_run_partial",
    "Sparta.Scheduler.C06_exact_run_violated"
   ],
   "note": "proved when no stop event of an earlier run is left in the queue and no stop/exception happens; a left-over stop event of an earlier inexact run ends a later run early (witness proved)"
  },
  {
   "property": "C07",
   "status": "partial",
   "theorems": [
    "Sparta.Scheduler.C07_run_until_no_continuing_partial",
    "Sparta.Scheduler.C07_limited_run_partial",
    "Sparta.Scheduler.C07_run_until_no_continuing_violated"
   ],
   "note": "as for C06: a left-over stop event ends an unlimited run while continuing events wait (witness proved)"
  },
  {
   "property": "C08",
   "status": "proved",
   "theorems": [
    "Sparta.DAG.C08_groups_respect_precedence"
   ],
   "note": "a precedence of an event to itself is ignored by the code"
  },
  {
   "property": "C09",
   "status": "proved",
   "theorems": [
    "Sparta.DAG.C09_sort_fails_iff_cyclic"
   ],
   "note": ""
  },
  {
   "property": "C10",
   "status": "proved",
   "theorems": [
    "Sparta.DAG.C10_detect_cycle"
   ],
   "note": ""
  },
  {
   "property": "C100",
   "status": "partial",
   "theorems": [
    "Sparta.MemoryMap.C100_verify_partial",
    "Sparta.MemoryMap.C100_wrap_violated"
   ],
   "note": "For accesses that end below 2^64; beyond, the end wraps and a huge access is accepted (witness proved)."
  },
  {
   "property": "C101",
   "status": "proved",
   "theorems": [
    "Sparta.MemIf.C101_refinement",
    "Sparta.MemIf.C101_no_throw",
    "Sparta.MemIf.C101_bytewise",
    "Sparta.MemIf.C101_write",
    "Sparta.MemIf.C101_poke",
    "Sparta.MemIf.C101_mapping_stays",
    "Sparta.MemIf.C101_translate"
   ],
   "note": "Refinement of memories that are functions from offsets to bytes, with addresses resolved through the list of accepted mappings; on the red-black tree of the map and the lazily allocated lines of the memory."
  },
  {
   "property": "C102",
   "status": "partial",
   "theorems": [
    "Sparta.MemIf.C102_notifications",
    "Sparta.MemIf.C102_note_data",
    "Sparta.MemIf.C102_transparent",
    "Sparta.MemIf.C102_counter_violated"
   ],
   "note": "Results are independent of observers; the write counters behind an observed interface are not (a failed write is not passed on, witness)."
  },
  {
   "property": "C103",
   "status": "partial",
   "theorems": [
    "Sparta.MemIf.C103_unchanged",
    "Sparta.MemIf.C103_poke_partial",
    "Sparta.MemIf.C103_poke_violated"
   ],
   "note": "A poke that fails may have written the bytes before the first unmapped address (witness), and exactly those."
  },
  {
   "property": "C104",
   "status": "partial",
   "theorems": [
    "Sparta.MemIf.C104_obtained",
    "Sparta.MemIf.C104_write",
    "Sparta.MemIf.C104_invalidated",
    "Sparta.MemIf.C104_reacquire_violated",
    "Sparta.MemIf.C104_map_address_violated",
    "Sparta.MemIf.C104_outside_violated"
   ],
   "note": "Requests at addresses that denote a byte. Violated: outside the memory getDMI throws; a map hands out an interface in the addresses of the memory; after an invalidation the invalid interface is handed out for ever (witnesses proved)."
  },
  {
   "property": "C105",
   "status": "partial",
   "theorems": [
    "Sparta.MemIf.C105_success",
    "Sparta.MemIf.C105_reason_object",
    "Sparta.MemIf.C105_wrap_violated"
   ],
   "note": "For accesses that end below 2^64; a wrapping access passes the window check (witness)."
  },
  {
   "property": "C106",
   "status": "proved",
   "theorems": [
    "Sparta.CachedMem.C106_peek",
    "Sparta.CachedMem.C106_read",
    "Sparta.CachedMem.C106_single"
   ],
   "note": "On the MemoryObject of the cache with its lazily allocated lines; C106_single: with one cache and without pokes every history is covered."
  },
  {
   "property": "C107",
   "status": "proved",
   "theorems": [
    "Sparta.CachedMem.C107_memory",
    "Sparta.CachedMem.C107_results",
    "Sparta.CachedMem.C107_pending",
    "Sparta.CachedMem.C107_commit_violated"
   ],
   "note": "C107_commit_violated is outside the quantifier: with smaller blocks downstream the commit succeeds and the write is lost."
  },
  {
   "property": "C108",
   "status": "proved",
   "theorems": [
    "Sparta.CachedMem.C108_drop",
    "Sparta.CachedMem.C108_previous",
    "Sparta.CachedMem.C108_undo"
   ],
   "note": ""
  },
  {
   "property": "C109",
   "status": "partial",
   "theorems": [
    "Sparta.CachedMem.C109_commit_partial",
    "Sparta.CachedMem.C109_device_partial",
    "Sparta.CachedMem.C109_commit_violated",
    "Sparta.CachedMem.C109_device_violated",
    "Sparta.CachedMem.C109_cross_violated"
   ],
   "note": "Only when every other cache holds the block (it has written in it before). Otherwise the merge makes a line of zeros and the cache shows 0 for bytes nobody wrote (witness); a write over two blocks of the cache throws (witness)."
  },
  {
   "property": "C11",
   "status": "proved",
   "theorems": [
    "Sparta.Queue.C11_queue_fifo"
   ],
   "note": "capacity up to 2^30"
  },
  {
   "property": "C110",
   "status": "proved",
   "theorems": [
    "Sparta.CachedMem.C110_pending",
    "Sparta.CachedMem.C110_unique",
    "Sparta.CachedMem.C110_lookup"
   ],
   "note": ""
  },
  {
   "property": "C111",
   "status": "partial",
   "theorems": [
    "Sparta.CachedMem.C111_poke_partial",
    "Sparta.CachedMem.C111_miss_violated",
    "Sparta.CachedMem.C111_other_violated",
    "Sparta.CachedMem.C111_pending_violated"
   ],
   "note": "Only when this cache holds the blocks, has no pending write over the bytes, and no other cache holds them. Otherwise: the rest of the block is erased in memory, other caches are stale, a later drop brings back the old byte (witnesses)."
  },
  {
   "property": "C112",
   "status": "partial",
   "theorems": [
    "Sparta.Counter.C112_value",
    "Sparta.Counter.C112_monotone_partial",
    "Sparta.Counter.C112_overflow_violated"
   ],
   "note": "The value is the sum modulo 2^64. Overflow is not detected although the documentation says so: the counter wraps (witness)."
  },
  {
   "property": "C113",
   "status": "proved",
   "theorems": [
    "Sparta.Counter.C113_value",
    "Sparta.Counter.C113_cycles",
    "Sparta.Counter.C113_monotone"
   ],
   "note": "C113_cycles: without delays, the sum over the ended cycles of the multiplier in force."
  },
  {
   "property": "C114",
   "status": "partial",
   "theorems": [
    "Sparta.Histogram.C114_counts_partial",
    "Sparta.Histogram.C114_range_violated"
   ],
   "note": "Not for the histogram of all 64 bit numbers with one value per bin: it is constructed without bins and every value throws (witness)."
  },
  {
   "property": "C115",
   "status": "partial",
   "theorems": [
    "Sparta.Histogram.C115_names_partial",
    "Sparta.Histogram.C115_names_violated"
   ],
   "note": "Not when upper limit plus width exceeds 2^64: the end in the name of the last bin wraps (witness)."
  },
  {
   "property": "C116",
   "status": "proved",
   "theorems": [
    "Sparta.Histogram.C116_greatest"
   ],
   "note": ""
  },
  {
   "property": "C117",
   "status": "proved",
   "theorems": [
    "Sparta.Histogram.C117_cycles"
   ],
   "note": ""
  },
  {
   "property": "C118",
   "status": "proved",
   "theorems": [
    "Sparta.Histogram.C118_total"
   ],
   "note": ""
  },
  {
   "property": "C119",
   "status": "partial",
   "theorems": [
    "Sparta.DataPort.C119_refines_partial",
    "Sparta.DataPort.C119_delivered_partial",
    "Sparta.DataPort.C119_in_time_partial",
    "Sparta.DataPort.C119_exactly_once_partial",
    "Sparta.DataPort.C119_each_port_partial",
    "Sparta.DataPort.C119_all_ports_partial",
    "Sparta.DataPort.C119_long_delay_violated",
    "Sparta.DataPort.C119_overtaking_violated",
    "Sparta.DataPort.C119_refused_midway_violated"
   ],
   "note": "For total delays below 2^32 and fewer than 1098 data on their way to an in port (the capacity of payload events). Violated: the total delay is kept in 32 bits; data handed over at once overtakes data sent earlier for the same cycle; when one in port refuses, those bound earlier keep the data (witnesses proved)."
  },
  {
   "property": "C12",
   "status": "partial",
   "theorems": [
    "Sparta.Queue.C12_queue_iterator_partial",
    "Sparta.Queue.C12_queue_iteration_partial",
    "Sparta.Queue.C12_queue_backwards_partial",
    "Sparta.Queue.C12_queue_iterator_violated"
   ],
   "note": "proved for histories with fewer than 2^32 pushes; beyond that the code violates the claim (ids are truncated to 32 bits), shown by a witness"
  },
  {
   "property": "C120",
   "status": "partial",
   "theorems": [
    "Sparta.DataPort.C120_count_partial",
    "Sparta.DataPort.C120_count_out_partial",
    "Sparta.DataPort.C120_never_delivered",
    "Sparta.DataPort.C120_others_delivered_partial",
    "Sparta.DataPort.C120_other_out_port_violated",
    "Sparta.DataPort.C120_count_in_handler_violated"
   ],
   "note": "Violated: cancelling on an out port also takes away what other out ports sent to the same in port; inside the handler its own argument is counted (witnesses)."
  },
  {
   "property": "C121",
   "status": "partial",
   "theorems": [
    "Sparta.DataPort.C121_driven_partial",
    "Sparta.DataPort.C121_driven_at_partial",
    "Sparta.DataPort.C121_current_cycle_violated"
   ],
   "note": "isDriven() outside of handlers; isDriven(0) only where nothing was delivered in the cycle yet. Otherwise isDriven(0) says yes for data due later (witness)."
  },
  {
   "property": "C122",
   "status": "partial",
   "theorems": [
    "Sparta.DataPort.C122_bind",
    "Sparta.DataPort.C122_continuing_overwritten_violated"
   ],
   "note": "Binding overwrites setContinuing of the in port (witness)."
  },
  {
   "property": "C123",
   "status": "proved",
   "theorems": [
    "Sparta.DataPort.C123_held"
   ],
   "note": ""
  },
  {
   "property": "C124",
   "status": "partial",
   "theorems": [
    "Sparta.PTree.C124_pattern",
    "Sparta.PTree.C124_plain",
    "Sparta.PTree.C124_names",
    "Sparta.PTree.C124_special_violated"
   ],
   "note": "For names without ( ) [ ] . | ^ $ { } and backslash; those keep their meaning in regular expressions, so that a name with one of the last six need not match itself (witness)."
  },
  {
   "property": "C125",
   "status": "partial",
   "theorems": [
    "Sparta.PTree.C125_get_latest",
    "Sparta.PTree.C125_get_node",
    "Sparta.PTree.C125_get_stable",
    "Sparta.PTree.C125_exists_violated"
   ],
   "note": "Everything but the sentence on exists: an inner node without value is found directly under the root but not deeper (witness)."
  },
  {
   "property": "C126",
   "status": "partial",
   "theorems": [
    "Sparta.PTree.C126_merge",
    "Sparta.PTree.C126_copy",
    "Sparta.PTree.C126_merge_fails",
    "Sparta.PTree.C126_copy_violated",
    "Sparta.PTree.C126_failed_merge_violated",
    "Sparta.PTree.C126_self_assign_violated"
   ],
   "note": "Violated: a tree in which an inner node got a value after its children cannot be copied, even into an empty tree; a failed merge leaves a part behind; self-assignment loses everything (witnesses)."
  },
  {
   "property": "C127",
   "status": "partial",
   "theorems": [
    "Sparta.PTree.C127_reported",
    "Sparta.PTree.C127_unread_reported_partial",
    "Sparta.PTree.C127_nodup",
    "Sparta.PTree.C127_isRead_sound",
    "Sparta.PTree.C127_isRead_complete_partial",
    "Sparta.PTree.C127_rewritten_violated",
    "Sparta.PTree.C127_root_violated"
   ],
   "note": "Reported values are unread; a path never looked up is reported. Violated: a value written over one that was read is not reported; the root is reported after get(\"\") showed it (witnesses)."
  },
  {
   "property": "C128",
   "status": "partial",
   "theorems": [
    "Sparta.PTree.C128_required_partial",
    "Sparta.PTree.C128_not_required",
    "Sparta.PTree.C128_unrequire",
    "Sparta.PTree.C128_unrequire_found",
    "Sparta.PTree.C128_unrequire_below_violated",
    "Sparta.PTree.C128_not_cleared_violated",
    "Sparta.PTree.C128_failed_set_violated"
   ],
   "note": "Required: for paths at and below which nothing else was created. Violated: \"not required\" does not take back an earlier \"required\"; unrequiring a subtree misses older patterns; a failed set creates nodes that hide the requirement (witnesses)."
  },
  {
   "property": "C129",
   "status": "proved",
   "theorems": [
    "Sparta.PTree.C129_refused",
    "Sparta.PTree.C129_false_iff",
    "Sparta.PTree.C129_set_get",
    "Sparta.PTree.C129_node_set"
   ],
   "note": "For names as in C124."
  },
  {
   "property": "C13",
   "status": "proved",
   "theorems": [
    "Sparta.Buffer.C13_sequence"
   ],
   "note": ""
  },
  {
   "property": "C130",
   "status": "partial",
   "theorems": [
    "Sparta.PTree.C130_index_sound_partial",
    "Sparta.PTree.C130_index_violated"
   ],
   "note": "A value reached is the right one. Violated: indexing takes the newest matching child at every level and throws where get finds a value (witness)."
  },
  {
   "property": "C131",
   "status": "partial",
   "theorems": [
    "Sparta.Notify.C131_post_calls_partial",
    "Sparta.Notify.C131_nested_partial",
    "Sparta.Notify.C131_list_violated",
    "Sparta.Notify.C131_global_child_violated",
    "Sparta.Notify.C131_private_violated"
   ],
   "note": "For single names, no children of the virtual global node, and either no private subtrees or only observers of all nodes. Violated: an observer of a list of names misses sources made later; sources directly under the virtual global node call its observers twice or never; observers of public nodes get private sources attached later, and stay called after deregistering if the subtree became private in between (witnesses)."
  },
  {
   "property": "C132",
   "status": "partial",
   "theorems": [
    "Sparta.Notify.C132_observed_partial"
   ],
   "note": "For the histories of C131."
  },
  {
   "property": "C133",
   "status": "partial",
   "theorems": [
    "Sparta.Notify.C133_register_partial",
    "Sparta.Notify.C133_deregister_partial",
    "Sparta.Notify.C133_tap_partial",
    "Sparta.Notify.C133_malformed_violated",
    "Sparta.Notify.C133_list_check_violated"
   ],
   "note": "For the histories of C131; the check always fails at the virtual global node. Violated: a malformed list of names fails but leaves the observer registered for ever; a list is refused by the check though every name has its source (witnesses)."
  },
  {
   "property": "C134",
   "status": "partial",
   "theorems": [
    "Sparta.Notify.C134_register_events_partial",
    "Sparta.Notify.C134_deregister_events_partial",
    "Sparta.Notify.C134_attach_violated"
   ],
   "note": "For the histories of C131. Violated: a source that is attached below an observer becomes observed without a callback (witness)."
  },
  {
   "property": "C135",
   "status": "partial",
   "theorems": [
    "Sparta.Notify.C135_log_exact_partial",
    "Sparta.Notify.C135_log_sound_partial",
    "Sparta.Notify.C135_order",
    "Sparta.Notify.C135_nested_violated"
   ],
   "note": "For the histories of C131 in which no observer posts a log message while one is delivered. Violated otherwise: the outer message is dropped as a duplicate (witness). That nothing else is written, nothing twice and everything in order holds in any case."
  },
  {
   "property": "C136",
   "status": "partial",
   "theorems": [
    "Sparta.Notify.C136_destination_counts",
    "Sparta.Notify.C136_tap_count_partial"
   ],
   "note": "Destinations: any history; taps: the histories of C131."
  },
  {
   "property": "C137",
   "status": "partial",
   "theorems": [
    "Sparta.Notify.C137_list_partial",
    "Sparta.Notify.C137_trailing_comma_violated"
   ],
   "note": "Violated: a comma at the end stands for all names (witness)."
  },
  {
   "property": "C138",
   "status": "partial",
   "theorems": [
    "Sparta.TrigMan.C138_counter_triggers_partial",
    "Sparta.TrigMan.C138_counter_triggers_violated",
    "Sparta.TrigMan.C138_self_assignment_violated"
   ],
   "note": "For programs that stay clear of the calls the code mishandles: before startup only construction; taking a trigger off the manager only if another of its clock stays active, in a tick of its clock only if it was neither activated in that tick nor is still to be looked at; no self-assignment. Violated otherwise (witnesses)."
  },
  {
   "property": "C139",
   "status": "partial",
   "theorems": [
    "Sparta.TrigMan.C139_no_unjustified_callback_partial",
    "Sparta.TrigMan.C139_no_unjustified_callback_violated"
   ],
   "note": "For every program that, before startup, only constructs triggers. Violated: a trigger deactivated before startup runs nevertheless (witness)."
  },
  {
   "property": "C14",
   "status": "proved",
   "theorems": [
    "Sparta.Buffer.C14_no_alias"
   ],
   "note": ""
  },
  {
   "property": "C140",
   "status": "partial",
   "theorems": [
    "Sparta.TrigMan.C140_nothing_fails_partial",
    "Sparta.TrigMan.C140_deactivate_other_violated",
    "Sparta.TrigMan.C140_set_and_deactivate_violated",
    "Sparta.TrigMan.C140_last_trigger_violated",
    "Sparta.TrigMan.C140_destroy_fired_violated",
    "Sparta.TrigMan.C140_set_before_startup_violated"
   ],
   "note": "For the programs of C138. Violated otherwise: five witnesses, two of them calls into a deleted object."
  },
  {
   "property": "C141",
   "status": "partial",
   "theorems": [
    "Sparta.TrigMan.C141_a_tick_runs_what_is_due_partial",
    "Sparta.TrigMan.C141_no_due_trigger_is_missed_partial"
   ],
   "note": "For the programs of C138 that build, finalize, start, and then go on in any way."
  },
  {
   "property": "C142",
   "status": "partial",
   "theorems": [
    "Sparta.TrigMan.C142_reported_state_partial",
    "Sparta.TrigMan.C142_reported_state_violated"
   ],
   "note": "For the programs of C141. Violated otherwise: the two answers can differ (witness)."
  },
  {
   "property": "C143",
   "status": "proved",
   "theorems": [
    "Sparta.TrigMan.C143_startup_activates"
   ],
   "note": ""
  },
  {
   "property": "C144",
   "status": "partial",
   "theorems": [
    "Sparta.TrigMan.C144_only_triggers_of_the_clock_partial"
   ],
   "note": "For the programs of C141."
  },
  {
   "property": "C145",
   "status": "partial",
   "theorems": [
    "Sparta.CycTrig.C145_one_slot_partial",
    "Sparta.CycTrig.C145_switch_to_absolute_violated",
    "Sparta.CycTrig.C145_prepared_twice_violated",
    "Sparta.CycTrig.C145_deactivate_before_startup_violated",
    "Sparta.CycTrig.C145_new_time_in_callback_violated",
    "Sparta.CycTrig.C145_past_cycle_violated",
    "Sparta.CycTrig.C145_align_zero_violated",
    "Sparta.CycTrig.C145_set_while_old_event_pending_violated"
   ],
   "note": "For programs that keep the documented obligation (not set again while the event of a deactivated setting is pending) and stay clear of what the code mishandles: a trigger is always relative or always absolute, an absolute cycle is not over, an aligned delay is not 0, callbacks only set and deactivate, a trigger set before startup is not deactivated before it. Violated otherwise (a witness for each)."
  },
  {
   "property": "C146",
   "status": "partial",
   "theorems": [
    "Sparta.CycTrig.C146_no_callback_without_setting_partial",
    "Sparta.CycTrig.C146_deactivated_before_startup_violated"
   ],
   "note": "For every program that deactivates nothing before startup. Violated otherwise (witness)."
  },
  {
   "property": "C147",
   "status": "partial",
   "theorems": [
    "Sparta.CycTrig.C147_time_of_the_callback_partial"
   ],
   "note": "For the programs of C145."
  },
  {
   "property": "C148",
   "status": "partial",
   "theorems": [
    "Sparta.CycTrig.C148_a_set_trigger_runs_partial",
    "Sparta.CycTrig.C148_isActive_partial",
    "Sparta.CycTrig.C148_nothing_fails_partial"
   ],
   "note": "For the programs of C145."
  },
  {
   "property": "C149",
   "status": "proved",
   "theorems": [
    "Sparta.TNode.C149_tree"
   ],
   "note": ""
  },
  {
   "property": "C15",
   "status": "partial",
   "theorems": [
    "Sparta.Buffer.C15_growth_partial",
    "Sparta.Buffer.C15_never_full_partial",
    "Sparta.Buffer.C15_growth_violated",
    "Sparta.Buffer.C15_iteration_violated"
   ],
   "note": "holds when nothing is inserted before the end; otherwise growing corrupts the contents, and growing always loses the positions used by iterators (witnesses proved)"
  },
  {
   "property": "C150",
   "status": "partial",
   "theorems": [
    "Sparta.TNode.C150_add_child_partial",
    "Sparta.TNode.C150_effect",
    "Sparta.TNode.C150_group_alias_violated",
    "Sparta.TNode.C150_second_parent_violated"
   ],
   "note": "Exact, for histories in which no node with a group is destroyed while it has a parent. Violated: group and index of the new child are not compared (accepted or refused depending on the order); a child with another parent is entered before the call fails (witnesses)."
  },
  {
   "property": "C151",
   "status": "partial",
   "theorems": [
    "Sparta.TNode.C151_location_round_trip_partial",
    "Sparta.TNode.C151_locations_differ_partial",
    "Sparta.TNode.C151_location_exists_partial",
    "Sparta.TNode.C151_anonymous_violated",
    "Sparta.TNode.C151_second_home_violated",
    "Sparta.TNode.C151_destroyed_child_violated"
   ],
   "note": "For nodes with names on the way, histories as in C150; existence without destructions. Violated: anonymous nodes share locations; an orphan attached to a new parent has no location; a destroyed node is found under its group and index (witnesses)."
  },
  {
   "property": "C152",
   "status": "partial",
   "theorems": [
    "Sparta.TNode.C152_path_found_partial",
    "Sparta.TNode.C152_found_is_path_partial",
    "Sparta.TNode.C152_in_parts",
    "Sparta.TNode.C152_dot",
    "Sparta.TNode.C152_has_iff_get_partial",
    "Sparta.TNode.C151_destroyed_child_violated"
   ],
   "note": "For histories as in C150 (walking in parts and dots: any history). Violated otherwise (witness)."
  },
  {
   "property": "C153",
   "status": "partial",
   "theorems": [
    "Sparta.TNode.C153_search_exact_partial",
    "Sparta.TNode.C153_search_tidy_partial",
    "Sparta.TNode.C153_leading_dot"
   ],
   "note": "Exact without destructions; with destructions as in C150, complete for names and aliases."
  },
  {
   "property": "C154",
   "status": "partial",
   "theorems": [
    "Sparta.TNode.C154_replacements_partial",
    "Sparta.TNode.C154_in_order_partial",
    "Sparta.TNode.C154_order_violated"
   ],
   "note": "The texts are right and complete; their order is, if there is at most one wildcard after the first level. Violated otherwise (witness)."
  },
  {
   "property": "C155",
   "status": "partial",
   "theorems": [
    "Sparta.TNode.C155_location_matches_partial",
    "Sparta.TNode.C155_agrees_with_search_partial",
    "Sparta.TNode.C155_empty_pattern",
    "Sparta.TNode.C155_group_violated"
   ],
   "note": "Exact in terms of names and aliases; agrees with a search that may see private nodes if there are no groups. Violated: group with index, leading dots (witness)."
  },
  {
   "property": "C156",
   "status": "partial",
   "theorems": [
    "Sparta.TNode.C156_names_partial",
    "Sparta.TNode.C156_underscores_violated"
   ],
   "note": "Both directions but for names with adjacent underscores that do not begin with them. Violated there (witness)."
  },
  {
   "property": "C157",
   "status": "partial",
   "theorems": [
    "Sparta.TNode.C157_lookup_partial",
    "Sparta.TNode.C157_same_level_iff",
    "Sparta.TNode.C157_stays_private_partial",
    "Sparta.TNode.C157_not_searched_partial",
    "Sparta.TNode.C157_get_children",
    "Sparta.TNode.C157_levels_violated"
   ],
   "note": "For descendants, histories as in C150. Violated for paths that go up: privacy is a number (witness)."
  },
  {
   "property": "C158",
   "status": "partial",
   "theorems": [
    "Sparta.TNode.C158_deepest_path_partial",
    "Sparta.TNode.C158_full_match_violated",
    "Sparta.TNode.C158_root_violated"
   ],
   "note": "For paths of names that end before the path given does, in trees without groups. Violated: if the whole path exists, its last name comes twice; a leading dot at the top (witnesses)."
  },
  {
   "property": "C159",
   "status": "proved",
   "theorems": [
    "Sparta.TNode.C159_way_up"
   ],
   "note": ""
  },
  {
   "property": "C16",
   "status": "proved",
   "theorems": [
    "Sparta.Array.C16_array_map"
   ],
   "note": "both NORMAL and AGED arrays"
  },
  {
   "property": "C160",
   "status": "proved",
   "theorems": [
    "Sparta.Param.C160_calls_return",
    "Sparta.Param.C160_call_returns"
   ],
   "note": ""
  },
  {
   "property": "C161",
   "status": "partial",
   "theorems": [
    "Sparta.Param.C161_read_refuses_write_partial",
    "Sparta.Param.C161_reads_agree_partial",
    "Sparta.Param.C161_item_after_read_violated",
    "Sparta.Param.C161_clear_after_read_violated"
   ],
   "note": "For assignment, writing from text, insertion and restoring. Violated: an item is changed before the call throws; clearing (and resizing, poking) is not checked (witnesses)."
  },
  {
   "property": "C162",
   "status": "proved",
   "theorems": [
    "Sparta.Param.C162_silent",
    "Sparta.Param.C162_read_counts",
    "Sparta.Param.C162_write_counts"
   ],
   "note": "The write is that of a parameter without callback, without a final configuration."
  },
  {
   "property": "C163",
   "status": "proved",
   "theorems": [
    "Sparta.Param.C163_verify_exact",
    "Sparta.Param.C163_write_needs_read"
   ],
   "note": ""
  },
  {
   "property": "C164",
   "status": "partial",
   "theorems": [
    "Sparta.Param.C164_failed_write_keeps_partial",
    "Sparta.Param.C164_failed_insert",
    "Sparta.Param.C164_other_exception_violated",
    "Sparta.Param.C164_item_violated",
    "Sparta.Param.C164_counts_violated"
   ],
   "note": "The value, for SpartaExceptions and calls that replace it. Violated: other exceptions leave the new value, a failed item write grows the vector, the write has been counted (witnesses)."
  },
  {
   "property": "C165",
   "status": "partial",
   "theorems": [
    "Sparta.Param.C165_accepted_value_partial",
    "Sparta.Param.C165_insert_value",
    "Sparta.Param.C165_own_callback_violated"
   ],
   "note": "For callbacks that write by assignment or from text. Violated: a callback that inserts into its own parameter (witness)."
  },
  {
   "property": "C166",
   "status": "partial",
   "theorems": [
    "Sparta.Param.C166_earlier_unchanged_partial",
    "Sparta.Param.C166_associate_single",
    "Sparta.Param.C166_insert_violated",
    "Sparta.Param.C166_announce_violated"
   ],
   "note": "For callbacks that write by assignment or from text. Violated: insertion (restoring, clearing, items) into earlier parameters is not checked; of several announced parameters only the first is looked at (witnesses)."
  },
  {
   "property": "C167",
   "status": "partial",
   "theorems": [
    "Sparta.Param.C167_lock_balanced",
    "Sparta.Param.C167_exception_locks_violated",
    "Sparta.Param.C167_locked_for_ever"
   ],
   "note": "For calls that return. Violated: a callback that throws leaves the set locked, for ever, and the first parameter cannot be written again."
  },
  {
   "property": "C168",
   "status": "partial",
   "theorems": [
    "Sparta.Param.C168_lockdown_partial",
    "Sparta.Param.C168_visible",
    "Sparta.Param.C168_clear_violated"
   ],
   "note": "Unless the vector is cleared. Violated there (witness)."
  },
  {
   "property": "C169",
   "status": "partial",
   "theorems": [
    "Sparta.Param.C169_writes_keep_default",
    "Sparta.Param.C169_override_keeps_value",
    "Sparta.Param.C169_override_takes",
    "Sparta.Param.C169_overridden_for_ever",
    "Sparta.Param.C169_override_after_read_violated",
    "Sparta.Param.C169_resize_default_violated"
   ],
   "note": "Violated: an override after a read throws but has changed the default; resizing and clearing a default does not mark it (witnesses)."
  },
  {
   "property": "C17",
   "status": "proved",
   "theorems": [
    "Sparta.Array.C17_array_age",
    "Sparta.Array.C17_array_compare",
    "Sparta.Array.C17_array_aged_iteration"
   ],
   "note": ""
  },
  {
   "property": "C170",
   "status": "partial",
   "theorems": [
    "Sparta.Param.C170_item_roundtrip",
    "Sparta.Param.C170_item_accepted",
    "Sparta.Param.C170_resize_violated"
   ],
   "note": "For accepted item writes. Violated: a resizing that throws has grown the vector (witness)."
  },
  {
   "property": "C171",
   "status": "proved",
   "theorems": [
    "Sparta.Param.C171_final_assign",
    "Sparta.Param.C171_final_no_callbacks"
   ],
   "note": ""
  },
  {
   "property": "C172",
   "status": "partial",
   "theorems": [
    "Sparta.Param.C172_equal_is_default_partial",
    "Sparta.Param.C172_scalar_exact",
    "Sparta.Param.C172_string_vector_violated",
    "Sparta.Param.C172_differs_violated"
   ],
   "note": "Exact for scalars whose values print differently; for equal values unless it is a vector of strings without quote. Violated for every non-empty vector of strings, and in the other direction (witness)."
  },
  {
   "property": "C173",
   "status": "partial",
   "theorems": [
    "Sparta.Param.C173_validate_partial",
    "Sparta.Param.C173_add",
    "Sparta.Param.C173_shared_copy_violated"
   ],
   "note": "For callbacks that leave the value they are shown alone. Violated otherwise: they share one copy (witness)."
  },
  {
   "property": "C174",
   "status": "partial",
   "theorems": [
    "Sparta.Param.C174_teardown_partial",
    "Sparta.Param.C174_finalized_violated",
    "Sparta.Param.C174_teardown_clear_violated"
   ],
   "note": "From teardown on, for the counted writes. Violated: writing is accepted in a finalized tree; clearing and poking are accepted in teardown (witnesses)."
  },
  {
   "property": "C175",
   "status": "proved",
   "theorems": [
    "Sparta.Stat.C175_window",
    "Sparta.Stat.C175_no_exception",
    "Sparta.Stat.C175_node_context"
   ],
   "note": ""
  },
  {
   "property": "C176",
   "status": "proved",
   "theorems": [
    "Sparta.Stat.C176_ticks"
   ],
   "note": ""
  },
  {
   "property": "C177",
   "status": "proved",
   "theorems": [
    "Sparta.Stat.C177_frozen"
   ],
   "note": ""
  },
  {
   "property": "C178",
   "status": "proved",
   "theorems": [
    "Sparta.Stat.C178_future",
    "Sparta.Stat.C178_reversed"
   ],
   "note": ""
  },
  {
   "property": "C179",
   "status": "partial",
   "theorems": [
    "Sparta.Stat.C179_accumulate",
    "Sparta.Stat.C179_first_start_violated"
   ],
   "note": "It counts from the last start before it was told to accumulate. Violated: not from the first start (witness)."
  },
  {
   "property": "C18",
   "status": "partial",
   "theorems": [
    "Sparta.CircularBuffer.C18_contents_partial",
    "Sparta.CircularBuffer.C18_size_partial",
    "Sparta.CircularBuffer.C18_insert_violated",
    "Sparta.CircularBuffer.C18_window_violated"
   ],
   "note": "Proved for every capacity and every history without an insert into a full buffer, as long as fewer than 2^32 window positions are consumed. Violated otherwise: an insert into a full buffer exceeds the capacity and every later append grows the buffer; after 2^32 + capacity appends every read throws."
  },
  {
   "property": "C180",
   "status": "partial",
   "theorems": [
    "Sparta.Stat.C180_gone",
    "Sparta.Stat.C180_failed_start_violated"
   ],
   "note": "Violated: a start that throws loses the value of the window that had ended (witness)."
  },
  {
   "property": "C181",
   "status": "proved",
   "theorems": [
    "Sparta.Stat.C181_laps",
    "Sparta.Stat.C181_sum"
   ],
   "note": ""
  },
  {
   "property": "C182",
   "status": "partial",
   "theorems": [
    "Sparta.Stat.C182_raw",
    "Sparta.Stat.C182_raw_violated"
   ],
   "note": "For counters and parameters. Violated for statistics with an expression (witness)."
  },
  {
   "property": "C183",
   "status": "partial",
   "theorems": [
    "Sparta.Stat.C183_assign",
    "Sparta.Stat.C183_move",
    "Sparta.Stat.C183_moved_from",
    "Sparta.Stat.C183_assign_violated",
    "Sparta.Stat.C183_move_subs_violated"
   ],
   "note": "For instances that have something to compute. Violated: an empty expression is not assigned; a move loses the sub-statistics (witnesses)."
  },
  {
   "property": "C184",
   "status": "proved",
   "theorems": [
    "Sparta.Stat.C184_context"
   ],
   "note": ""
  },
  {
   "property": "C185",
   "status": "proved",
   "theorems": [
    "Sparta.Stat.C185_report",
    "Sparta.Stat.C185_values"
   ],
   "note": ""
  },
  {
   "property": "C186",
   "status": "partial",
   "theorems": [
    "Sparta.Stat.C186_names",
    "Sparta.Stat.C186_add",
    "Sparta.Stat.C186_duplicate",
    "Sparta.Stat.C186_subs",
    "Sparta.Stat.C186_no_scheduler_violated",
    "Sparta.Stat.C186_subs_violated"
   ],
   "note": "Violated: an addition that throws for want of a scheduler or for the name of a sub-statistic has added the statistic (witnesses)."
  },
  {
   "property": "C187",
   "status": "partial",
   "theorems": [
    "Sparta.Stat.C187_copy_partial",
    "Sparta.Stat.C187_copy_violated"
   ],
   "note": "For statistics without sub-statistics. Violated: with them the copy throws or has more statistics (witnesses)."
  },
  {
   "property": "C188",
   "status": "partial",
   "theorems": [
    "Sparta.Stat.C188_move_partial",
    "Sparta.Stat.C188_move_violated",
    "Sparta.Stat.C188_twice_violated"
   ],
   "note": "Violated for every report: no name is found after a move."
  },
  {
   "property": "C189",
   "status": "partial",
   "theorems": [
    "Sparta.Stat.C189_assign_partial",
    "Sparta.Stat.C189_assign_violated",
    "Sparta.Stat.C189_stale_violated",
    "Sparta.Stat.C189_self_violated"
   ],
   "note": "For disjoint names and no sub-statistics. Violated: common names throw, old names stay, self-assignment loses everything."
  },
  {
   "property": "C19",
   "status": "proved",
   "theorems": [
    "Sparta.Pipe.C19_pipe_stages",
    "Sparta.Pipe.C19_pipe_delay_line"
   ],
   "note": "stage arguments below 2^31"
  },
  {
   "property": "C190",
   "status": "proved",
   "theorems": [
    "Sparta.Collect.C190_ids"
   ],
   "note": ""
  },
  {
   "property": "C191",
   "status": "partial",
   "theorems": [
    "Sparta.Collect.C191_shown",
    "Sparta.Collect.C191_flushed",
    "Sparta.Collect.C191_never_wrong",
    "Sparta.Collect.C191_value",
    "Sparta.Collect.C191_started_twice_violated",
    "Sparta.Collect.C191_initialize_open_violated",
    "Sparta.Collect.C191_initialize_lost_violated",
    "Sparta.Collect.C191_long_violated"
   ],
   "note": "Under the conditions on the calls. Violated without them: a second start loses values, initialize changes the past or is not shown, long annotations are cut (witnesses)."
  },
  {
   "property": "C192",
   "status": "partial",
   "theorems": [
    "Sparta.Collect.C192_intervals_partial",
    "Sparta.Collect.C192_count",
    "Sparta.Collect.C192_restart_violated"
   ],
   "note": "If collection begins again only at ticks that are not multiples of the interval. Violated otherwise (witness)."
  },
  {
   "property": "C193",
   "status": "proved",
   "theorems": [
    "Sparta.Collect.C193_no_exception"
   ],
   "note": "For the calls described by View.legal; C196 says what happens outside it."
  },
  {
   "property": "C194",
   "status": "proved",
   "theorems": [
    "Sparta.Collect.C194_continued"
   ],
   "note": ""
  },
  {
   "property": "C195",
   "status": "partial",
   "theorems": [
    "Sparta.Collect.C195_duration_partial",
    "Sparta.Collect.C195_overlap_violated"
   ],
   "note": "If no end of an earlier collection is pending. Violated otherwise (witness)."
  },
  {
   "property": "C196",
   "status": "partial",
   "theorems": [
    "Sparta.Collect.C196_destroy_partial",
    "Sparta.Collect.C196_boundary_violated",
    "Sparta.Collect.C196_same_tick_violated",
    "Sparta.Collect.C196_later_violated"
   ],
   "note": "If no open value began in the same tick and the tick is not a multiple of the interval. Violated otherwise: throws or loses values; collecting afterwards throws (witnesses)."
  },
  {
   "property": "C197",
   "status": "partial",
   "theorems": [
    "Sparta.Collect.C197_other_files_partial",
    "Sparta.Collect.C197_reactivate",
    "Sparta.Collect.C197_restart_violated",
    "Sparta.Collect.C197_stop_all_violated",
    "Sparta.Collect.C197_pairs_violated",
    "Sparta.Collect.C197_before_start_violated"
   ],
   "note": "Other files are kept. Violated: starting again into the same file loses it, stopCollection() leaves collection active, pairs lose their open record and are undefined before the start (witnesses)."
  },
  {
   "property": "C198",
   "status": "proved",
   "theorems": [
    "Sparta.Collect.C198_container"
   ],
   "note": ""
  },
  {
   "property": "C199",
   "status": "proved",
   "theorems": [
    "Sparta.Collect.C199_automatic",
    "Sparta.Collect.C199_variable"
   ],
   "note": ""
  },
  {
   "property": "C20",
   "status": "partial",
   "theorems": [
    "Sparta.Pipe.C20_pipe_num_valid_partial",
    "Sparta.Pipe.C20_pipe_num_valid_violated"
   ],
   "note": "false when flushIf matches the item appended in the same cycle (witness proved)"
  },
  {
   "property": "C200",
   "status": "partial",
   "theorems": [
    "Sparta.STimer.C200_query",
    "Sparta.STimer.C200_destroy",
    "Sparta.STimer.C200_violated"
   ],
   "note": "If no state outside its enum class is entered. Violated otherwise: the refused call has already given the current state its time, which is counted twice (witness)."
  },
  {
   "property": "C201",
   "status": "partial",
   "theorems": [
    "Sparta.STimer.C201_drop",
    "Sparta.STimer.C201_whole",
    "Sparta.STimer.C201_split_violated"
   ],
   "note": "The value is the time since the last query; all the time if there was none. Violated: a query splits it into several values (witness)."
  },
  {
   "property": "C202",
   "status": "proved",
   "theorems": [
    "Sparta.STimer.C202_start",
    "Sparta.STimer.C202_stop",
    "Sparta.STimer.C202_fresh"
   ],
   "note": ""
  },
  {
   "property": "C203",
   "status": "partial",
   "theorems": [
    "Sparta.STimer.C203_refused",
    "Sparta.STimer.C203_cycle0_violated",
    "Sparta.STimer.C203_collision_violated"
   ],
   "note": "Refused calls change nothing if the state exists (otherwise C200_violated). Violated: a state entered in cycle 0 cannot be followed by another; classes are told apart by 32 bits of a hash (witnesses)."
  },
  {
   "property": "C204",
   "status": "partial",
   "theorems": [
    "Sparta.STimer.C204_allocate",
    "Sparta.STimer.C204_bound",
    "Sparta.STimer.C204_zero_violated"
   ],
   "note": "For units made with at least one timer. Violated for units made with none: undefined behaviour (witness)."
  },
  {
   "property": "C205",
   "status": "proved",
   "theorems": [
    "Sparta.STimer.C205_outlive",
    "Sparta.STimer.C205_undefined"
   ],
   "note": ""
  },
  {
   "property": "C206",
   "status": "proved",
   "theorems": [
    "Sparta.STimer.C206_again"
   ],
   "note": ""
  },
  {
   "property": "C207",
   "status": "partial",
   "theorems": [
    "Sparta.StateM.C207_joint_transition",
    "Sparta.StateM.C207_set_twice",
    "Sparta.StateM.C207_others",
    "Sparta.StateM.C207_threshold_doc_violated"
   ],
   "note": "If no monitor resets the state. Violated: the threshold is the number of markers that may be missing, not the number that must call in (witness)."
  },
  {
   "property": "C208",
   "status": "partial",
   "theorems": [
    "Sparta.StateM.C208_marks",
    "Sparta.StateM.C208_clear",
    "Sparta.StateM.C208_new_marker",
    "Sparta.StateM.C208_reset_in_monitor_violated"
   ],
   "note": "If no monitor resets the state. Violated otherwise: clearing a marked marker throws (witness)."
  },
  {
   "property": "C209",
   "status": "partial",
   "theorems": [
    "Sparta.StateM.C209_taken",
    "Sparta.StateM.C209_only",
    "Sparta.StateM.C209_initial_violated"
   ],
   "note": "For changes by setting and by markers. Violated: the initial value and the value of a reset do not count as set (witness)."
  },
  {
   "property": "C21",
   "status": "partial",
   "theorems": [
    "Sparta.Pipeline.C21_refines",
    "Sparta.Pipeline.C21_order",
    "Sparta.Pipeline.C21_after_stall",
    "Sparta.Pipeline.C21_before_stall",
    "Sparta.Pipeline.C21_bubbles",
    "Sparta.Pipeline.C21_held",
    "Sparta.Pipeline.C21_duration",
    "Sparta.Pipeline.C21_invalidated_stall_violated"
   ],
   "note": "Every history in which the stalling stage itself is not invalidated (flushing it is allowed). Violated otherwise: with own updates the stall then never ends by itself."
  },
  {
   "property": "C210",
   "status": "proved",
   "theorems": [
    "Sparta.StateM.C210_set_value",
    "Sparta.StateM.C210_joint",
    "Sparta.StateM.C210_enrol",
    "Sparta.StateM.C210_once_per_enrolment",
    "Sparta.StateM.C207_others"
   ],
   "note": ""
  },
  {
   "property": "C211",
   "status": "partial",
   "theorems": [
    "Sparta.StateM.C211_report",
    "Sparta.StateM.C211_joint_violated",
    "Sparta.StateM.C211_reset_violated",
    "Sparta.StateM.C211_living_violated",
    "Sparta.StateM.C211_after_report_violated"
   ],
   "note": "If all states have gone by the time of the report and no state is changed by markers or a reset. Violated otherwise (witnesses)."
  },
  {
   "property": "C212",
   "status": "partial",
   "theorems": [
    "Sparta.StateM.C212_time_in_state",
    "Sparta.StateM.C212_off",
    "Sparta.StateM.C212_joint_violated",
    "Sparta.StateM.C212_raw_time_violated"
   ],
   "note": "If no state is changed by markers or a reset. Violated otherwise (witness)."
  },
  {
   "property": "C213",
   "status": "partial",
   "theorems": [
    "Sparta.StateM.C213_monitors",
    "Sparta.StateM.C213_monitor_decides",
    "Sparta.StateM.C213_attach_detach",
    "Sparta.StateM.C213_not_due_violated"
   ],
   "note": "Violated: monitors are signalled for every marker, also when no transition is due (witness)."
  },
  {
   "property": "C214",
   "status": "partial",
   "theorems": [
    "Sparta.StateM.C214_create",
    "Sparta.StateM.C214_reset",
    "Sparta.StateM.C214_reset_to",
    "Sparta.StateM.C214_initial_kept",
    "Sparta.StateM.C214_bool_violated"
   ],
   "note": "For enums. Violated for bool: the initial value true is ignored (witness)."
  },
  {
   "property": "C215",
   "status": "partial",
   "theorems": [
    "Sparta.UniqEv.C215_unique",
    "Sparta.UniqEv.C215_refused",
    "Sparta.UniqEv.C215_progress",
    "Sparta.UniqEv.C215_async_violated",
    "Sparta.UniqEv.C215_restart_violated"
   ],
   "note": "Without asynchronous requests and restarts. Violated otherwise (witnesses)."
  },
  {
   "property": "C216",
   "status": "partial",
   "theorems": [
    "Sparta.UniqEv.C216_single",
    "Sparta.UniqEv.C216_refused",
    "Sparta.UniqEv.C216_debug",
    "Sparta.UniqEv.C216_tick_zero_violated",
    "Sparta.UniqEv.C216_cancel_violated",
    "Sparta.UniqEv.C216_other_clock_violated",
    "Sparta.UniqEv.C216_restart_violated"
   ],
   "note": "For requests at ticks of its clock, without cancellation or restart, and in tick 0 not for the present cycle after the next. Violated otherwise (witnesses)."
  },
  {
   "property": "C217",
   "status": "partial",
   "theorems": [
    "Sparta.TFilter.C217_grammar",
    "Sparta.TFilter.C217_unique",
    "Sparta.TFilter.C217_precedence",
    "Sparta.TFilter.C217_decimal",
    "Sparta.TFilter.C217_characters",
    "Sparta.TFilter.C217_statdef_violated",
    "Sparta.TFilter.C217_pattern_violated",
    "Sparta.TFilter.C217_hyphen_violated",
    "Sparta.TFilter.C217_number_violated",
    "Sparta.TFilter.C217_quoted_violated",
    "Sparta.TFilter.C217_not_violated"
   ],
   "note": "The grammar proved is that of the code. The documented one differs (witnesses): statdef and statisticdef are refused, a pattern takes a parenthesis or ^^ that follows it, - is refused in patterns, blanks inside numbers are dropped and a leading zero means octal, double inversion is refused."
  },
  {
   "property": "C218",
   "status": "proved",
   "theorems": [
    "Sparta.TFilter.C218_holds",
    "Sparta.TFilter.C218_throws",
    "Sparta.TFilter.C218_parsed",
    "Sparta.TFilter.C218_ne_violated"
   ],
   "note": "C218_ne_violated shows that != on visibility or type is not the inversion of ==."
  },
  {
   "property": "C219",
   "status": "partial",
   "theorems": [
    "Sparta.TFilter.C219_combined",
    "Sparta.TFilter.C219_inverted",
    "Sparta.TFilter.C219_operand_violated",
    "Sparta.TFilter.C219_self_violated"
   ],
   "note": "For two different objects. Violated: && and ! change their operand; an expression combined with itself cannot be evaluated (witnesses)."
  },
  {
   "property": "C22",
   "status": "proved",
   "theorems": [
    "Sparta.PriorityQueue.C22_priority_queue_sorted_stable",
    "Sparta.PriorityQueue.C22_priority_queue_contents"
   ],
   "note": "order holds for histories without forceFront, which by design bypasses the order"
  },
  {
   "property": "C220",
   "status": "partial",
   "theorems": [
    "Sparta.Cherry.C220_refines_partial",
    "Sparta.Cherry.C220_deleted_violated",
    "Sparta.Cherry.C220_counts_violated"
   ],
   "note": "For histories without deletions and wipes of memories. Violated: after deleting a checkpoint that others need, commits fail; checkpoints discarded by a forced commit are still counted (witnesses)."
  },
  {
   "property": "C221",
   "status": "partial",
   "theorems": [
    "Sparta.Cherry.C221_loader",
    "Sparta.Cherry.C221_start",
    "Sparta.Cherry.C221_restores",
    "Sparta.Cherry.C221_open_violated"
   ],
   "note": "For loaders opened after preTeardown. Violated before it: the checkpoints of the last tick are missing (witness)."
  },
  {
   "property": "C222",
   "status": "proved",
   "theorems": [
    "Sparta.Cherry.C222_replay"
   ],
   "note": ""
  },
  {
   "property": "C223",
   "status": "partial",
   "theorems": [
    "Sparta.Argos.C223_round_trip_partial",
    "Sparta.Argos.C223_everything",
    "Sparta.Argos.C223_no_strings_violated",
    "Sparta.Argos.C223_second_violated"
   ],
   "note": "For the first Outputter of a process, if some value has a string, and names and strings have no colons or line breaks, values fit their sizes and there is one string per value. Violated: a database without strings cannot be opened; that of a second Outputter cannot be read (witnesses)."
  },
  {
   "property": "C224",
   "status": "partial",
   "theorems": [
    "Sparta.Argos.C224_window",
    "Sparta.Argos.C224_complete",
    "Sparta.Argos.C224_annotations",
    "Sparta.Argos.C224_documented_violated",
    "Sparta.Argos.C224_last_tick_violated"
   ],
   "note": "For ends up to 2^64 minus an interval. Violated: the documented inclusion of transactions that end at start; a range up to the last tick is empty (witnesses)."
  },
  {
   "property": "C225",
   "status": "partial",
   "theorems": [
    "Sparta.Argos.C225_first_last_partial",
    "Sparta.Argos.C225_first_violated"
   ],
   "note": "The last cycle, if the ends of the transactions do not decrease. Violated: the first cycle is the start of the transaction written first (witness)."
  },
  {
   "property": "C226",
   "status": "partial",
   "theorems": [
    "Sparta.Argos.C223_round_trip_partial",
    "Sparta.Argos.C226_text_partial",
    "Sparta.Argos.C226_max_violated",
    "Sparta.Argos.C226_colon_violated",
    "Sparta.Argos.C226_first_string_violated",
    "Sparta.Argos.C226_name_violated",
    "Sparta.Argos.C226_size_violated"
   ],
   "note": "For values below 2^64-1 that fit their sizes, one string per value, no colons. Violated otherwise (witnesses)."
  },
  {
   "property": "C227",
   "status": "partial",
   "theorems": [
    "Sparta.Argos.C227_update_partial",
    "Sparta.Argos.C227_size_violated",
    "Sparta.Argos.C227_new_location_violated",
    "Sparta.Argos.C227_no_transaction_violated"
   ],
   "note": "For windows before the last but one index, locations, kinds and strings known when the database was opened, and a transaction after the last index. Violated otherwise (witnesses)."
  },
  {
   "property": "C228",
   "status": "partial",
   "theorems": [
    "Sparta.RegView.C228_refines_partial",
    "Sparta.RegView.C228_constant_data",
    "Sparta.RegView.C228_in_place_violated",
    "Sparta.RegView.C228_wide_violated"
   ],
   "note": "For data handed over as constant. Violated: data handed over by a pointer that is not constant is changed in place, and setting more bytes than the size changes what follows (witnesses)."
  },
  {
   "property": "C229",
   "status": "partial",
   "theorems": [
    "Sparta.RegView.C229_copy_partial",
    "Sparta.RegView.C229_independent",
    "Sparta.RegView.C229_window_violated"
   ],
   "note": "Violated: copies of objects made for up to 8 bytes of data that is not constant show uninitialised bytes (witness)."
  },
  {
   "property": "C23",
   "status": "proved",
   "theorems": [
    "Sparta.FastList.C23_fastlist",
    "Sparta.FastList.C23_fastlist_stable"
   ],
   "note": "iterator arguments must denote elements of the list"
  },
  {
   "property": "C230",
   "status": "partial",
   "theorems": [
    "Sparta.RegView.C230_move_partial",
    "Sparta.RegView.C230_window_violated"
   ],
   "note": "Violated: objects made for data that is not constant lose it when moved (witness)."
  },
  {
   "property": "C231",
   "status": "proved",
   "theorems": [
    "Sparta.PFile.C231_roundtrip"
   ],
   "note": ""
  },
  {
   "property": "C232",
   "status": "partial",
   "theorems": [
    "Sparta.PFile.C232_truncated",
    "Sparta.PFile.C232_unchanged_violated"
   ],
   "note": "Every proper prefix is refused. Violated: the memories are not left as they were (witness)."
  },
  {
   "property": "C233",
   "status": "partial",
   "theorems": [
    "Sparta.PFile.C233_before_partial",
    "Sparta.PFile.C233_delta_violated"
   ],
   "note": "For files restored before the first checkpoint and histories covered by C49. Violated: a delta checkpoint created after a restore leaves out the restored lines (witness)."
  },
  {
   "property": "C234",
   "status": "partial",
   "theorems": [
    "Sparta.DView.C234_read_partial",
    "Sparta.DView.C234_write_partial",
    "Sparta.DView.C234_assign_partial",
    "Sparta.DView.C234_last_write_partial",
    "Sparta.DView.C234_overlap_violated"
   ],
   "note": "Not for big-endian int16_t. Violated: big-endian int16_t is not read back; assigning overlapping views is undefined (witnesses)."
  },
  {
   "property": "C235",
   "status": "partial",
   "theorems": [
    "Sparta.DView.C235_padded_partial",
    "Sparta.DView.C235_truncated_partial",
    "Sparta.DView.C235_index_violated",
    "Sparta.DView.C235_narrow_violated"
   ],
   "note": "At index 0, for little-endian reads or types as wide as the view. Violated: at other indexes another view is read and written; narrower types read the wrong bytes or clear the bytes after the value (witnesses)."
  },
  {
   "property": "C236",
   "status": "proved",
   "theorems": [
    "Sparta.DView.C236_bytes",
    "Sparta.DView.C236_value",
    "Sparta.DView.C236_initial"
   ],
   "note": ""
  },
  {
   "property": "C237",
   "status": "proved",
   "theorems": [
    "Sparta.BHist.C237_count32",
    "Sparta.BHist.C237_count64"
   ],
   "note": ""
  },
  {
   "property": "C238",
   "status": "partial",
   "theorems": [
    "Sparta.BHist.C238_counts",
    "Sparta.BHist.C238_one_counter",
    "Sparta.BHist.C238_make",
    "Sparta.BHist.C238_no_buckets_violated"
   ],
   "note": "Violated without buckets: adding a value is undefined (witness); proved with at least one."
  },
  {
   "property": "C239",
   "status": "partial",
   "theorems": [
    "Sparta.BHist.C239_described_partial",
    "Sparta.BHist.C239_description_violated"
   ],
   "note": "Holds for values that are bucket values or below the first. Violated for all values between bucket values: the counter below is charged (witness)."
  },
  {
   "property": "C24",
   "status": "partial",
   "theorems": [
    "Sparta.FrontArray.C24_write_front",
    "Sparta.FrontArray.C24_write_back",
    "Sparta.FrontArray.C24_read_valid_partial",
    "Sparta.FrontArray.C24_read_valid_violated",
    "Sparta.FrontArray.C24_read_valid_stuck"
   ],
   "note": "writeFront/writeBack proved; readValid never returns when a position at or below n is free (witness proved)"
  },
  {
   "property": "C240",
   "status": "partial",
   "theorems": [
    "Sparta.SigPort.C240_send_partial",
    "Sparta.SigPort.C240_arrives",
    "Sparta.SigPort.C240_progress",
    "Sparta.SigPort.C240_once",
    "Sparta.SigPort.C240_only_sent",
    "Sparta.SigPort.C240_long_delay_violated",
    "Sparta.SigPort.C240_twice_violated",
    "Sparta.SigPort.C240_midway_violated"
   ],
   "note": "For delays below 2^32. Violated: longer delays are cut to 32 bits; a port can receive the event and a direct call in one cycle; a refused send has reached some ports (witnesses)."
  },
  {
   "property": "C241",
   "status": "proved",
   "theorems": [
    "Sparta.SigPort.C241_held",
    "Sparta.SigPort.C241_stays"
   ],
   "note": ""
  },
  {
   "property": "C242",
   "status": "partial",
   "theorems": [
    "Sparta.Intern.C242_not_null",
    "Sparta.Intern.C242_pointers",
    "Sparta.Intern.C242_find",
    "Sparta.Intern.C242_is_interned",
    "Sparta.Intern.C242_content_partial",
    "Sparta.Intern.C242_content_violated"
   ],
   "note": "That the pointer is to an equal string holds as long as the caller does not assign to it, which the type of the pointer allows (witness)."
  },
  {
   "property": "C243",
   "status": "partial",
   "theorems": [
    "Sparta.Intern.C243_number",
    "Sparta.Intern.C243_listing",
    "Sparta.Intern.C243_columns_partial"
   ],
   "note": "The number modulo 2^32; the columns for strings shorter than 2^31 - 4."
  },
  {
   "property": "C244",
   "status": "partial",
   "theorems": [
    "Sparta.StHist.C244_make",
    "Sparta.StHist.C244_bins_partial",
    "Sparta.StHist.C244_state",
    "Sparta.StHist.C244_total_partial",
    "Sparta.StHist.C244_one_state_violated",
    "Sparta.StHist.C244_early_violated",
    "Sparta.StHist.C244_set_after_next_violated",
    "Sparta.StHist.C244_refused_violated"
   ],
   "note": "Proved for histories in which states are values of the enumeration and the state is not set in a cycle in which the next state was changed. Violated: enumerations of one value are refused; after setNextState the current cycle is counted before it ends; setState after setNextState in the same cycle throws; a refused value leaves a histogram that counts nothing (witnesses)."
  },
  {
   "property": "C245",
   "status": "partial",
   "theorems": [
    "Sparta.EnumT.C245_name",
    "Sparta.EnumT.C245_lookup",
    "Sparta.EnumT.C245_round_trip_partial",
    "Sparta.EnumT.C245_iterate_partial",
    "Sparta.EnumT.C245_round_trip_violated",
    "Sparta.EnumT.C245_size_violated"
   ],
   "note": "Values are got back from names that only they have; the size for enumerations that start at 0. Violated: two values can have one name, values without names are found by the empty name, the size counts from 0 (witnesses)."
  },
  {
   "property": "C246",
   "status": "partial",
   "theorems": [
    "Sparta.EnumT.C246_make",
    "Sparta.EnumT.C246_counts",
    "Sparta.EnumT.C246_cumulative"
   ],
   "note": "For enumerations of at least two values; C246_make shows that one value is refused."
  },
  {
   "property": "C247",
   "status": "proved",
   "theorems": [
    "Sparta.CtxCounter.C247_contexts",
    "Sparta.CtxCounter.C247_refused",
    "Sparta.CtxCounter.C247_aggregate"
   ],
   "note": "For at least one context; the constructor is undefined for none."
  },
  {
   "property": "C248",
   "status": "partial",
   "theorems": [
    "Sparta.CtxCounter.C247_refused",
    "Sparta.CtxCounter.C248_weights",
    "Sparta.CtxCounter.C248_average",
    "Sparta.CtxCounter.C248_average_between_partial",
    "Sparta.CtxCounter.C248_average_between_violated",
    "Sparta.CtxCounter.C248_maximum_partial",
    "Sparta.CtxCounter.C248_maximum_violated"
   ],
   "note": "In exact arithmetic. The average lies between the contexts if the weights are not negative and add up to the number of contexts; violated for others, as the sum of the weights is not divided by (witness). The maximum is right once something is charged; before, it is the least positive double and not 0 (witness)."
  },
  {
   "property": "C249",
   "status": "partial",
   "theorems": [
    "Sparta.GOP.C249_point",
    "Sparta.GOP.C249_order",
    "Sparta.GOP.C249_sorts",
    "Sparta.GOP.C249_phase_name_violated"
   ],
   "note": "Without early cycle detection and before finalization. That every name can be used is violated: the names of the seven phases denote the points of the phases (witness)."
  },
  {
   "property": "C25",
   "status": "proved",
   "theorems": [
    "Sparta.Scoreboard.C25_ready_callbacks",
    "Sparta.Scoreboard.C25_fires_iff",
    "Sparta.Scoreboard.C25_at_most_once"
   ],
   "note": "For every latency table and every history with non-empty sets and no view created while no register is ready (both fail an assertion in the code)."
  },
  {
   "property": "C250",
   "status": "partial",
   "theorems": [
    "Sparta.Backoff.C250_powers_partial",
    "Sparta.Backoff.C250_one",
    "Sparta.Backoff.C250_two_violated",
    "Sparta.Backoff.C250_ten_violated"
   ],
   "note": "Holds for multipliers of at least 2 up to the last power below 2^32. Violated beyond: the 32-bit threshold overflows, with multiplier 2 to 0, so that the action is performed at every encounter (witnesses). With multiplier 1 it is performed at every encounter that is no multiple of 2^32."
  },
  {
   "property": "C251",
   "status": "partial",
   "theorems": [
    "Sparta.RegBank.C251_results_partial",
    "Sparta.RegBank.C251_lookup_partial",
    "Sparta.RegBank.C251_twice_violated"
   ],
   "note": "For registers that name no bank twice. Violated otherwise: adding such a register fails in an internal assertion after it was put into the bank, where it is found (witness)."
  },
  {
   "property": "C252",
   "status": "partial",
   "theorems": [
    "Sparta.RegBank.C252_counts_partial",
    "Sparta.RegBank.C252_min_bank_violated"
   ],
   "note": "For registers that name no bank twice; the number of registers modulo 2^32. Requiring the bank with the largest index makes no bank (witness)."
  },
  {
   "property": "C253",
   "status": "partial",
   "theorems": [
    "Sparta.Bus.C253_key",
    "Sparta.Bus.C253_underscores",
    "Sparta.Bus.C253_succeeds",
    "Sparta.Bus.C253_pairs",
    "Sparta.Bus.C253_once",
    "Sparta.Bus.C253_nothing_partial",
    "Sparta.Bus.C253_half_violated"
   ],
   "note": "For data ports that are not yet bound. That nothing is bound after a failure holds if equivalent ports have the same type; violated otherwise: the ports before the first mismatch stay bound (witness)."
  },
  {
   "property": "C254",
   "status": "partial",
   "theorems": [
    "Sparta.ExPort.C254_search",
    "Sparta.ExPort.C254_sound",
    "Sparta.ExPort.C254_complete",
    "Sparta.ExPort.C254_unique_partial",
    "Sparta.ExPort.C254_ambiguous_violated"
   ],
   "note": "That there is no other candidate holds if the exported port has the internal name and lies below the search path. Violated otherwise: of two ports of the internal name the last is taken (witness)."
  },
  {
   "property": "C26",
   "status": "partial",
   "theorems": [
    "Sparta.Scoreboard.C26_agree_partial",
    "Sparta.Scoreboard.C26_never_early_partial",
    "Sparta.Scoreboard.C26_clear_in_flight_violated",
    "Sparta.Scoreboard.C26_new_view_violated",
    "Sparta.Scoreboard.C26_empty_violated",
    "Sparta.Scoreboard.C26_no_latency_violated"
   ],
   "note": "Proved when every latency is defined, no register is cleared while an update for it is under way and views are created while the initially ready registers are ready. Violated otherwise, with one theorem per case."
  },
  {
   "property": "C27",
   "status": "partial",
   "theorems": [
    "Sparta.SharedData.C27_latch_partial",
    "Sparta.SharedData.C27_manual",
    "Sparta.SharedData.C27_visible_next_cycle_partial",
    "Sparta.SharedData.C27_two_writes_violated",
    "Sparta.SharedData.C27_copy_violated",
    "Sparta.SharedData.C27_assign_violated"
   ],
   "note": "Proved for any number of objects and histories with at most one write() per object and cycle, no write() to an object that was assigned to, and no copy between a write and the end of the cycle; for manually updated objects every history is covered. Violated otherwise: two writes in a cycle lose the data; a copy made after a write never shows the value; an update after an assignment uses a destroyed temporary."
  },
  {
   "property": "C28",
   "status": "proved",
   "theorems": [
    "Sparta.MathUtils.C28_floor_log2_64",
    "Sparta.MathUtils.C28_floor_log2_32",
    "Sparta.MathUtils.C28_floor_log2_iter",
    "Sparta.MathUtils.C28_floor_log2_zero",
    "Sparta.MathUtils.C28_log2_lsb_64",
    "Sparta.MathUtils.C28_log2_lsb_32"
   ],
   "note": ""
  },
  {
   "property": "C29",
   "status": "partial",
   "theorems": [
    "Sparta.MathUtils.C29_gcd_64",
    "Sparta.MathUtils.C29_gcd_32",
    "Sparta.MathUtils.C29_lcm_64_partial",
    "Sparta.MathUtils.C29_lcm_32_partial",
    "Sparta.MathUtils.C29_lcm_zero_violated"
   ],
   "note": "gcd fully proved; lcm proved except lcm(0,0), where the code divides by zero (witness theorem)"
  },
  {
   "property": "C30",
   "status": "proved",
   "theorems": [
    "Sparta.MathUtils.C30_is_power_of_2",
    "Sparta.MathUtils.C30_next_power_of_2",
    "Sparta.MathUtils.C30_next_power_of_2_unrepresentable",
    "Sparta.MathUtils.C30_ceil_log2",
    "Sparta.MathUtils.C30_pow2_ones"
   ],
   "note": "ones/pow2 for exponents below 64; larger exponents are undefined behaviour in C++"
  },
  {
   "property": "C31",
   "status": "partial",
   "theorems": [
    "Sparta.MathUtils.C31_safe_power_partial",
    "Sparta.MathUtils.C31_safe_power_violated"
   ],
   "note": "representable powers are returned exactly; the overflow check is unsound (witness)"
  },
  {
   "property": "C32",
   "status": "partial",
   "theorems": [
    "Sparta.BitArray.C32_shiftLeft",
    "Sparta.BitArray.C32_shiftRight",
    "Sparta.BitArray.C32_and_or",
    "Sparta.BitArray.C32_and_or_same_size",
    "Sparta.BitArray.C32_negate",
    "Sparta.BitArray.C32_eq",
    "Sparta.BitArray.C32_make",
    "Sparta.BitArray.C32_round_trip",
    "Sparta.BitArray.C32_fill"
   ],
   "note": "shift amounts of more than the size (rounded up to bytes) are undefined behaviour in the code (the model returns none, proved in the second half of the shift theorems); everything else is proved for all inputs"
  },
  {
   "property": "C33",
   "status": "partial",
   "theorems": [
    "Sparta.Rational.C33_make",
    "Sparta.Rational.C33_mul",
    "Sparta.Rational.C33_div",
    "Sparta.Rational.C33_add",
    "Sparta.Rational.C33_sub_partial",
    "Sparta.Rational.C33_sub_violated",
    "Sparta.Rational.C33_inv",
    "Sparta.Rational.C33_eq",
    "Sparta.Rational.C33_toInt"
   ],
   "note": "the absolute difference is wrong when it is at least half the range of the type (witness proved); everything else is proved"
  },
  {
   "property": "C34",
   "status": "proved",
   "theorems": [
    "Sparta.TieredMap.C34_finite_map",
    "Sparta.TieredMap.C34_tiers",
    "Sparta.TieredMap.C34_sizes",
    "Sparta.TieredMap.C34_size_one_violated"
   ],
   "note": "node size 1 is accepted by the constructor but storing any key other than 0 never returns (proved)"
  },
  {
   "property": "C35",
   "status": "proved",
   "theorems": [
    "Sparta.SharedPtr.C35_ownership",
    "Sparta.SharedPtr.C35_destroyed_once",
    "Sparta.SharedPtr.C35_no_undefined_behaviour"
   ],
   "note": "Every history of shared pointer calls; weak pointers and allocations may be mixed in as long as lock() is called only on weak pointers that are empty or not expired (see the violations under C36). Destructors of the managed objects use no pointers of the model; counts do not overflow."
  },
  {
   "property": "C36",
   "status": "partial",
   "theorems": [
    "Sparta.SharedPtr.C36_gone_for_ever_partial",
    "Sparta.SharedPtr.C36_lock_expired_partial",
    "Sparta.SharedPtr.C36_resurrection_violated",
    "Sparta.SharedPtr.C36_unexpired_violated",
    "Sparta.SharedPtr.C36_dangling_violated"
   ],
   "note": "Without lock() on expired pointers an object without owners never gets one again; lock() on an expired pointer to an object not from an allocator is empty and harmless if dropped at once. Violated otherwise: lock() on an expired pointer to an allocator object returns the destroyed object, two calls un-expire it, and keeping the empty pointer longer than the weak one is a use after free."
  },
  {
   "property": "C37",
   "status": "proved",
   "theorems": [
    "Sparta.SharedPtr.C37_block_not_in_use",
    "Sparta.SharedPtr.C37_bounded",
    "Sparta.SharedPtr.C37_outstanding",
    "Sparta.SharedPtr.C37_allocator",
    "Sparta.SharedPtr.C37_watermark",
    "Sparta.SharedPtr.C37_callback_violated",
    "Sparta.SharedPtr.C37_throwing_constructor_violated"
   ],
   "note": "For constructors that do not throw and histories legal in the sense of C35. Two defects are stated beside it: with watermark equal to the maximum the custom over-allocation callback is never called; a constructor that throws loses a reused block."
  },
  {
   "property": "C38",
   "status": "partial",
   "theorems": [
    "Sparta.ByteOrder.C38_swap_partial",
    "Sparta.ByteOrder.C38_round_trip_partial",
    "Sparta.ByteOrder.C38_memory_order",
    "Sparta.ByteOrder.C38_int16_violated"
   ],
   "note": "all types except int16_t; byte_swap of a negative int16_t is wrong (witness proved)"
  },
  {
   "property": "C39",
   "status": "proved",
   "theorems": [
    "Sparta.Strings.C39_tokenize",
    "Sparta.Strings.C39_single",
    "Sparta.Strings.C39_lines"
   ],
   "note": ""
  },
  {
   "property": "C40",
   "status": "partial",
   "theorems": [
    "Sparta.Lexical.C40_decimal_partial",
    "Sparta.Lexical.C40_radix_partial",
    "Sparta.Lexical.C40_characters",
    "Sparta.Lexical.C40_too_large",
    "Sparta.Lexical.C40_point_without_unit",
    "Sparta.Lexical.C40_single_number",
    "Sparta.Lexical.C40_u64_violated",
    "Sparta.Lexical.C40_unsigned",
    "Sparta.Lexical.C40_int64_positive",
    "Sparta.Lexical.C40_int64_negative_partial",
    "Sparta.Lexical.C40_int64_min_violated",
    "Sparta.Lexical.C40_int32",
    "Sparta.Lexical.C40_int16_int8_partial",
    "Sparta.Lexical.C40_int16_int8_violated"
   ],
   "note": "proved: decimal and prefixed literals with separators, units and several summands whose value fits give their value; unsigned and 32-bit types reject exactly the values that do not fit. Not: values over 2^64 after the unit wrap, fractions with zeros or many places, the smallest int64, int16 and int8 near their range (witnesses proved)"
  },
  {
   "property": "C41",
   "status": "partial",
   "theorems": [
    "Sparta.Tag.C41_identity_partial",
    "Sparta.Tag.C41_text_partial",
    "Sparta.Tag.C41_text_equal_partial",
    "Sparta.Tag.C41_copy_violated",
    "Sparta.Tag.C41_reset_violated"
   ],
   "note": "proved for histories in which copies do not become parents and the global number is not reset; otherwise different tags compare equal (witnesses proved)"
  },
  {
   "property": "C42",
   "status": "partial",
   "theorems": [
    "Sparta.Values.C42_make_fits",
    "Sparta.Values.C42_make_partial",
    "Sparta.Values.C42_make_upper",
    "Sparta.Values.C42_make_violated",
    "Sparta.Values.C42_assign",
    "Sparta.Values.C42_incr_decr",
    "Sparta.Values.C42_add_sub_partial",
    "Sparta.Values.C42_overflow_violated",
    "Sparta.Values.C42_history_partial"
   ],
   "note": "the constructor does not compare the lower bound with the type when all signs agree, and += can overflow a signed difference (witnesses proved); otherwise proved"
  },
  {
   "property": "C43",
   "status": "partial",
   "theorems": [
    "Sparta.Values.C43_locked_partial",
    "Sparta.Values.C43_unlocked",
    "Sparta.Values.C43_reference_violated"
   ],
   "note": "proved for histories that do not write through the non-const reference, which changes a locked value (witness proved)"
  },
  {
   "property": "C44",
   "status": "proved",
   "theorems": [
    "Sparta.Cache.C44_touchMRU",
    "Sparta.Cache.C44_touchLRU",
    "Sparta.Cache.C44_legal",
    "Sparta.Cache.C44_protected",
    "Sparta.Cache.C44_display"
   ],
   "note": ""
  },
  {
   "property": "C45",
   "status": "proved",
   "theorems": [
    "Sparta.Cache.C45_lru_oldest"
   ],
   "note": ""
  },
  {
   "property": "C46",
   "status": "proved",
   "theorems": [
    "Sparta.Cache.C46_hit_iff",
    "Sparta.Cache.C46_unique",
    "Sparta.Cache.C46_no_duplicate",
    "Sparta.Cache.C46_policies"
   ],
   "note": ""
  },
  {
   "property": "C47",
   "status": "partial",
   "theorems": [
    "Sparta.Cache.C47_unique_partial",
    "Sparta.Cache.C47_unique_proper_partial",
    "Sparta.Cache.C47_range",
    "Sparta.Cache.C47_split",
    "Sparta.Cache.C47_stride_violated",
    "Sparta.Cache.C47_sets_violated"
   ],
   "note": "holds when the stride is at most the line size, or for addresses inside items, and for power-of-two numbers of sets; the constructor also accepts other geometries, for which two blocks share tag and index (witnesses proved)"
  },
  {
   "property": "C48",
   "status": "partial",
   "theorems": [
    "Sparta.Cache.C48_free_way_partial",
    "Sparta.Cache.C48_normal",
    "Sparta.Cache.C48_older_violated"
   ],
   "note": "when both ways are non-temporal the code offers the one filled last, against its own comment (witness proved)"
  },
  {
   "property": "C49",
   "status": "partial",
   "theorems": [
    "Sparta.Checkpoint.C49_refines_partial",
    "Sparta.Checkpoint.C49_load_restores_partial",
    "Sparta.Checkpoint.C49_clean_violated",
    "Sparta.Checkpoint.C49_raw_write_violated",
    "Sparta.Checkpoint.C49_forget_violated"
   ],
   "note": "Proved for any number of memories and every history of reads, writes, ticks, creations (forced or by threshold), loads along any branch and deletions in which, once there is a checkpoint, memories are not cleaned, reset or written through raw pointers and forgetCurrent is not called, deleted ids are not used again, and while the current checkpoint is itself deleted others are deleted only if there was never a load. Each excluded case has a theorem with a history that restores wrong bytes."
  },
  {
   "property": "C50",
   "status": "partial",
   "theorems": [
    "Sparta.Checkpoint.C50_delete_partial",
    "Sparta.Checkpoint.C50_counts_partial",
    "Sparta.Checkpoint.C49_refines_partial",
    "Sparta.Checkpoint.C50_delete_current_violated",
    "Sparta.Checkpoint.C50_deleted_found_violated"
   ],
   "note": "Same histories as C49. Violated otherwise: deleting the current checkpoint and then a sibling frees deltas that later checkpoints depend on; deleted ids that are still needed are found and loaded; deleting the head does not throw."
  },
  {
   "property": "C51",
   "status": "partial",
   "theorems": [
    "Sparta.Checkpoint.C51_threshold_partial",
    "Sparta.Checkpoint.C51_threshold_one_violated"
   ],
   "note": "Same histories as C49. The documentation also says a threshold of 1 makes all checkpoints snapshots; they alternate (witness proved)."
  },
  {
   "property": "C52",
   "status": "partial",
   "theorems": [
    "Sparta.ArchData.C52_refines",
    "Sparta.ArchData.C52_last_write",
    "Sparta.ArchData.C52_memory_object",
    "Sparta.ArchData.C52_past_end_violated"
   ],
   "note": "Every line size, fill pattern, size up to 2^63 and history of reads, peeks, writes, cleans and resets, with buffers below 2^63 bytes. Violated: an access that begins inside the memory but ends past its size is accepted when the last line is long enough (the memory object, whose size is a multiple of the line, is not affected)."
  },
  {
   "property": "C53",
   "status": "partial",
   "theorems": [
    "Sparta.ArchData.Layout.C53_layout_partial",
    "Sparta.ArchData.Layout.C53_layout_exists",
    "Sparta.ArchData.Layout.C53_subset_offset_violated",
    "Sparta.ArchData.Layout.C53_cyclic_violated"
   ],
   "note": "Proved for every list of segments with subset offsets below 2^62 and a total size below 2^62. Violated otherwise: a subset offset near 2^64 passes the check and the segment lands on an unrelated one; mutual subsets recurse without end."
  },
  {
   "property": "C54",
   "status": "proved",
   "theorems": [
    "Sparta.MathUtils.C54_abs"
   ],
   "note": ""
  },
  {
   "property": "C55",
   "status": "partial",
   "theorems": [
    "Sparta.Pipe.C55_pipe_own_updates_partial",
    "Sparta.Pipe.C55_pipe_own_updates_violated"
   ],
   "note": "false when flushIf matches the item appended in the same cycle (witness proved)"
  },
  {
   "property": "C56",
   "status": "proved",
   "theorems": [
    "Sparta.DAG.C56_phases_in_order"
   ],
   "note": ""
  },
  {
   "property": "C57",
   "status": "proved",
   "theorems": [
    "Sparta.DAG.C57_reported_cycle_is_real",
    "Sparta.DAG.C57_early_detection"
   ],
   "note": ""
  },
  {
   "property": "C58",
   "status": "proved",
   "theorems": [
    "Sparta.DAG.C58_group_is_longest_chain",
    "Sparta.DAG.C58_order_independent"
   ],
   "note": ""
  },
  {
   "property": "C59",
   "status": "proved",
   "theorems": [
    "Sparta.Scheduler.C59_unique_not_added_twice",
    "Sparta.Scheduler.C59_unique_added_when_not_waiting",
    "Sparta.Scheduler.C59_unique_once_per_tick_violated"
   ],
   "note": "the stronger reading of the property is shown false"
  },
  {
   "property": "C60",
   "status": "proved",
   "theorems": [
    "Sparta.Scheduler.C60_is_scheduled",
    "Sparta.Scheduler.C60_is_scheduled_in_handler_partial",
    "Sparta.Scheduler.C60_is_scheduled_in_handler_violated",
    "Sparta.Scheduler.C60_next_event_tick"
   ],
   "note": "inside a handler only one direction holds: isScheduled may also report an event that already ran in the current group"
  },
  {
   "property": "C61",
   "status": "partial",
   "theorems": [
    "Sparta.Scheduler.C61_elapsed_ticks_partial",
    "Sparta.Scheduler.C61_elapsed_ticks_violated"
   ],
   "note": "fails after restartAt(t) with t > 0 on a scheduler that has run (witness proved)"
  },
  {
   "property": "C62",
   "status": "proved",
   "theorems": [
    "Sparta.Scheduler.C62_restart_forgets",
    "Sparta.Scheduler.C62_cleared_never_fires"
   ],
   "note": ""
  },
  {
   "property": "C63",
   "status": "proved",
   "theorems": [
    "Sparta.Scheduler.C63_precedence_is_firing_order",
    "Sparta.Scheduler.C63_successor_accepted"
   ],
   "note": ""
  },
  {
   "property": "C64",
   "status": "partial",
   "theorems": [
    "Sparta.Scheduler.C64_async_delivered_once_partial",
    "Sparta.Scheduler.C64_async_not_lost",
    "Sparta.Scheduler.C64_cancel_async",
    "Sparta.Scheduler.C64_async_delivered_once_violated"
   ],
   "note": "fails when one request is a zero-delay request for an earlier group: run throws and the list is not cleared (witness proved)"
  },
  {
   "property": "C65",
   "status": "proved",
   "theorems": [
    "Sparta.Cache.C65_transparent",
    "Sparta.Cache.C65_memory",
    "Sparta.Cache.C65_crossing_violated"
   ],
   "note": "for accesses inside a line; a crossing write miss without allocation is not rejected and breaks transparency (witness proved)"
  },
  {
   "property": "C66",
   "status": "proved",
   "theorems": [
    "Sparta.Cache.C66_invalidateLine",
    "Sparta.Cache.C66_castout",
    "Sparta.Cache.C66_reuse"
   ],
   "note": ""
  },
  {
   "property": "C67",
   "status": "proved",
   "theorems": [
    "Sparta.Cache.C67_cold_miss",
    "Sparta.Cache.C67_open_way"
   ],
   "note": ""
  },
  {
   "property": "C68",
   "status": "proved",
   "theorems": [
    "Sparta.Cache.C68_read_after_write"
   ],
   "note": ""
  },
  {
   "property": "C69",
   "status": "partial",
   "theorems": [
    "Sparta.Buffer.C69_iterators",
    "Sparta.Buffer.C69_new_entry",
    "Sparta.Buffer.C69_follows",
    "Sparta.Buffer.C69_erase",
    "Sparta.Buffer.C69_insert",
    "Sparta.Buffer.C69_stale_violated",
    "Sparta.Buffer.C69_insert_at_end_violated"
   ],
   "note": "everything except: an iterator to an erased entry becomes valid again when the slot is reused, erase through it removes another entry, and insert(end()) always throws (proved)"
  },
  {
   "property": "C70",
   "status": "partial",
   "theorems": [
    "Sparta.BitArray.C70_independent_partial",
    "Sparta.BitArray.C70_assign_value",
    "Sparta.BitArray.C70_independent_violated"
   ],
   "note": "proved for histories without assignment; assignment makes the two objects share storage (witness proved)"
  },
  {
   "property": "C71",
   "status": "partial",
   "theorems": [
    "Sparta.Values.C71_get",
    "Sparta.Values.C71_compare_value",
    "Sparta.Values.C71_compare_partial",
    "Sparta.Values.C71_compare_violated"
   ],
   "note": "comparison with a right-hand side that is not valid uses its old value, and a move assignment leaves the source valid (witness proved)"
  },
  {
   "property": "C72",
   "status": "partial",
   "theorems": [
    "Sparta.Values.C72_bounded_int_partial",
    "Sparta.Values.C72_bounded_int_violated"
   ],
   "note": "proved for argument types of the same signedness; mixed signs convert before comparing (witnesses proved)"
  },
  {
   "property": "C73",
   "status": "proved",
   "theorems": [
    "Sparta.Values.C73_once",
    "Sparta.Values.C73_second_throws"
   ],
   "note": ""
  },
  {
   "property": "C74",
   "status": "partial",
   "theorems": [
    "Sparta.Strings.C74_strip_partial",
    "Sparta.Strings.C74_strip_violated",
    "Sparta.Strings.C74_tokenize_strip_partial",
    "Sparta.Strings.C74_tokenize_strip_violated",
    "Sparta.Strings.C74_words",
    "Sparta.Strings.C74_eliminate",
    "Sparta.Strings.C74_pattern"
   ],
   "note": "strip_whitespace and tokenize_strip_whitespace throw std::out_of_range for a string or piece that is empty or blank (witnesses proved); everything else is proved"
  },
  {
   "property": "C75",
   "status": "partial",
   "theorems": [
    "Sparta.Strings.C75_replace_partial",
    "Sparta.Strings.C75_replaced_unique",
    "Sparta.Strings.C75_empty_violated"
   ],
   "note": "proved for a nonempty searched text; with an empty one the call never ends (proved)"
  },
  {
   "property": "C76",
   "status": "partial",
   "theorems": [
    "Sparta.Strings.C76_equal_partial",
    "Sparta.Strings.C76_bound_partial",
    "Sparta.Strings.C76_distance_violated"
   ],
   "note": "the function is not the edit distance: the first row and column are zero and one of the three moves is missing (witnesses proved); proved are only: 0 for equal strings, at most the shorter length"
  },
  {
   "property": "C77",
   "status": "partial",
   "theorems": [
    "Sparta.CircularBuffer.C77_iterators_partial",
    "Sparta.CircularBuffer.C77_defined_partial",
    "Sparta.CircularBuffer.C77_stale_end_violated",
    "Sparta.CircularBuffer.C77_stale_end_clear_violated",
    "Sparta.CircularBuffer.C77_order_reversed_violated"
   ],
   "note": "Proved for all histories that do not use a past-the-end iterator after a later change, do not insert into a full buffer and consume fewer than 2^32 window positions. Violated: an end() iterator becomes \"valid\" after an append (or clear and append) and dereferencing it is undefined; operators < and > are reversed."
  },
  {
   "property": "C78",
   "status": "proved",
   "theorems": [
    "Sparta.Scoreboard.C78_latency"
   ],
   "note": "Every latency table; histories as in C25."
  },
  {
   "property": "C79",
   "status": "partial",
   "theorems": [
    "Sparta.Scoreboard.C79_ranges_partial",
    "Sparta.Scoreboard.C79_last_range_violated"
   ],
   "note": "Proved for all sets in which no range of two or more bits reaches the last position. Violated otherwise: such a range is printed like its first element alone."
  },
  {
   "property": "C80",
   "status": "partial",
   "theorems": [
    "Sparta.Pipeline.C80_handlers_partial",
    "Sparta.Pipeline.C80_exact",
    "Sparta.Pipeline.C80_reactivated_violated",
    "Sparta.Pipeline.C80_stuck_item_violated"
   ],
   "note": "Proved when the user does not (de)activate handlers of stages affected by a stall. Violated otherwise: the end of a stall re-enables deactivated handlers, and with bubble crushing a stuck item runs its handler every cycle."
  },
  {
   "property": "C81",
   "status": "partial",
   "theorems": [
    "Sparta.Pipeline.Prec.C81_default_partial",
    "Sparta.Pipeline.Prec.C81_stage_order",
    "Sparta.Pipeline.Prec.C81_between",
    "Sparta.Pipeline.Prec.C81_consistent",
    "Sparta.Pipeline.Prec.C81_phase_gap_violated"
   ],
   "note": "Proved when every stage with handlers between the two stages has one in that phase; acyclicity and the rest without that assumption. Violated otherwise: a stage whose handlers are all in another phase breaks the chain."
  },
  {
   "property": "C82",
   "status": "partial",
   "theorems": [
    "Sparta.ArchData.C82_update_from_partial",
    "Sparta.ArchData.C82_untouched_line_violated"
   ],
   "note": "Lines that exist in the source are copied exactly and all others are unchanged; lines the source never touched are not copied, so the memories can differ (witness proved)."
  },
  {
   "property": "C83",
   "status": "partial",
   "theorems": [
    "Sparta.ArchData.Layout.C83_waste_partial",
    "Sparta.ArchData.Layout.C83_overflow_violated"
   ],
   "note": "Under the conditions of C53 and for sizes below 2^32; beyond, the 32-bit line waste counter overflows (witness proved)."
  },
  {
   "property": "C84",
   "status": "partial",
   "theorems": [
    "Sparta.Checkpoint.C84_chain_partial",
    "Sparta.Checkpoint.C84_order_violated"
   ],
   "note": "Proved in the reverse order, for the histories of C49; the documented order is violated."
  },
  {
   "property": "C85",
   "status": "partial",
   "theorems": [
    "Sparta.PayloadEvent.C85_refines_partial",
    "Sparta.PayloadEvent.C85_delivered_partial",
    "Sparta.PayloadEvent.C85_only_scheduled_partial",
    "Sparta.PayloadEvent.C85_argument_destroyed_violated",
    "Sparta.PayloadEvent.C85_moved_handle_violated",
    "Sparta.PayloadEvent.C85_self_assigned_violated"
   ],
   "note": "Every history in which handles are used only while held and are not moved or self-assigned, the calls for a given cycle are not made for the current one after a delivery in it, and the handler does not read its argument after giving up or cancelling the payload. Each excluded case has a witness."
  },
  {
   "property": "C86",
   "status": "partial",
   "theorems": [
    "Sparta.PayloadEvent.C85_refines_partial",
    "Sparta.PayloadEvent.C86_cancelIf_spares_partial",
    "Sparta.PayloadEvent.C86_cancelIf_stops_partial",
    "Sparta.PayloadEvent.C86_count_partial",
    "Sparta.PayloadEvent.C86_isScheduledAt_partial",
    "Sparta.PayloadEvent.C86_stale_cancel_violated",
    "Sparta.PayloadEvent.C86_stale_early_violated",
    "Sparta.PayloadEvent.C86_cancelAt_count_violated"
   ],
   "note": "Same histories as C85. Violated: calls for the current cycle after a delivery act on another payload; cancel(rel_cycle) returns the number in flight."
  },
  {
   "property": "C87",
   "status": "partial",
   "theorems": [
    "Sparta.Clock.C87_normalize_partial",
    "Sparta.Clock.C87_zero_rejected",
    "Sparta.Clock.C87_normalize_violated"
   ],
   "note": "Every clock tree whose products of ratios stay below 2^32 (hypothesis Fits); beyond, periods are silently wrong (witness proved)."
  },
  {
   "property": "C88",
   "status": "proved",
   "theorems": [
    "Sparta.Clock.C88_crossing",
    "Sparta.Clock.C88_reverse",
    "Sparta.Clock.C88_agree"
   ],
   "note": "All ticks, delays and periods without 64-bit overflow."
  },
  {
   "property": "C89",
   "status": "partial",
   "theorems": [
    "Sparta.Clock.C89_tick_cycle",
    "Sparta.Clock.C89_cycle_tick",
    "Sparta.Clock.C89_absolute_partial",
    "Sparta.Clock.C89_absolute_violated"
   ],
   "note": "getAbsoluteTick gives a tick of the cycle before (witness proved); the rest holds."
  },
  {
   "property": "C90",
   "status": "partial",
   "theorems": [
    "Sparta.SyncPort.C90_delivered",
    "Sparta.SyncPort.C90_one_per_cycle",
    "Sparta.SyncPort.C90_isDriven_any",
    "Sparta.SyncPort.C90_send_delay",
    "Sparta.SyncPort.C90_order_partial",
    "Sparta.SyncPort.C90_slide_partial",
    "Sparta.SyncPort.cross_agrees",
    "Sparta.SyncPort.reverse_agrees",
    "Sparta.SyncPort.C90_order_violated",
    "Sparta.SyncPort.C90_lost_violated",
    "Sparta.SyncPort.C90_thrown_violated"
   ],
   "note": "Delivery and ticks for every history without exceptions; order only while the receiver is ready whenever data comes. Violated otherwise: held data is overtaken; data is lost when it cannot be sent again; an exception leaves the data in flight."
  },
  {
   "property": "C91",
   "status": "partial",
   "theorems": [
    "Sparta.SyncPort.C91_isDriven",
    "Sparta.SyncPort.C91_isReady_false",
    "Sparta.SyncPort.C91_setReady",
    "Sparta.SyncPort.C91_protocol_partial",
    "Sparta.SyncPort.C91_isReady_violated",
    "Sparta.SyncPort.C91_isReady_twice_violated"
   ],
   "note": "isDriven for a sender not slower than the receiver. isReady alone does not protect from exceptions (witnesses proved); together with isDriven it does, for equal periods and port delay 0 or 1."
  },
  {
   "property": "C92",
   "status": "partial",
   "theorems": [
    "Sparta.SyncPort.C92_no_throw",
    "Sparta.SyncPort.C92_available",
    "Sparta.SyncPort.C92_if_sent",
    "Sparta.SyncPort.C92_exact",
    "Sparta.SyncPort.C92_available_violated"
   ],
   "note": "For a sender not slower than the receiver; violated from a slow to a fast clock."
  },
  {
   "property": "C93",
   "status": "partial",
   "theorems": [
    "Sparta.Register.C93_and",
    "Sparta.Register.C93_or",
    "Sparta.Register.C93_or_assign",
    "Sparta.Register.C93_not",
    "Sparta.Register.C93_shift_left",
    "Sparta.Register.C93_eq",
    "Sparta.Register.C93_data_as",
    "Sparta.Register.C93_shift_right_partial",
    "Sparta.Register.C93_shift_left_assign_partial",
    "Sparta.Register.C93_none_partial",
    "Sparta.Register.C93_any_partial",
    "Sparta.Register.C93_none_violated",
    "Sparta.Register.C93_shift_left_assign_violated",
    "Sparta.Register.C93_undefined_violated"
   ],
   "note": ">> needs an assumption on the undefined -1 >> k for values of more than 8 bytes; <<= is wrong for values of more than 16 bytes shifted by 64 or more; none is true for any value whose bytes are all equal (witnesses proved)."
  },
  {
   "property": "C94",
   "status": "partial",
   "theorems": [
    "Sparta.Register.C94_make",
    "Sparta.Register.C94_read",
    "Sparta.Register.C94_bounds",
    "Sparta.Register.C94_write_partial",
    "Sparta.Register.C94_unmasked",
    "Sparta.Register.C94_read_only",
    "Sparta.Register.C94_write_violated"
   ],
   "note": "Writes of 1, 2, 4, 8 or 8k bytes; other sizes are undefined (witness). For registers of more than 8 bytes it is assumed that -1 >> k gives -1."
  },
  {
   "property": "C95",
   "status": "partial",
   "theorems": [
    "Sparta.Register.C95_read_partial",
    "Sparta.Register.C95_write_partial",
    "Sparta.Register.C95_read_back_partial",
    "Sparta.Register.C95_reject_partial",
    "Sparta.Register.C95_wide_violated",
    "Sparta.Register.C95_reject_violated"
   ],
   "note": "Not for fields of registers of 32 bytes or more whose low bit is at 64 or above and below half the register (they use other bits, witness). Values that do not fit are rejected except in the low byte of 8-byte registers and when the excess bits lie beyond the register (witnesses)."
  },
  {
   "property": "C96",
   "status": "partial",
   "theorems": [
    "Sparta.Register.C96_notify",
    "Sparta.Register.C96_write_unmasked_violated"
   ],
   "note": "Register::writeUnmasked<T> tells no observer and takes its index as a byte offset (witness)."
  },
  {
   "property": "C97",
   "status": "proved",
   "theorems": [
    "Sparta.MemoryMap.C97_history",
    "Sparta.MemoryMap.C97_findMapping",
    "Sparta.MemoryMap.C97_findInterface",
    "Sparta.MemoryMap.C97_mapAddress"
   ],
   "note": "On the heap of nodes with parent pointers, rotations and colours as in the code."
  },
  {
   "property": "C98",
   "status": "partial",
   "theorems": [
    "Sparta.MemoryMap.C98_accept_partial",
    "Sparta.MemoryMap.C98_in_range_partial",
    "Sparta.MemoryMap.C98_create",
    "Sparta.MemoryMap.C98_range_violated",
    "Sparta.MemoryMap.C98_alignment_violated",
    "Sparta.MemoryMap.C98_large_block_violated"
   ],
   "note": "For block sizes that are powers of two and size plus destination below 2^64. Violated: the range test wraps, block sizes that are not powers of two are accepted and then tested with another alignment, block sizes from 2^31 on are undefined behaviour (witnesses proved)."
  },
  {
   "property": "C99",
   "status": "proved",
   "theorems": [
    "Sparta.MemoryMap.C99_lookup_cost"
   ],
   "note": "From the red-black invariants of the tree."
  }
 ]
}