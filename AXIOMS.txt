'Steit.C01_unsigned_roundtrip' depends on axioms: [propext, Classical.choice, Quot.sound]
'Steit.C02_unsigned_size' depends on axioms: [propext, Classical.choice, Quot.sound]
'Steit.C02_signed_size' depends on axioms: [propext, Classical.choice, Quot.sound]
'Steit.C03_prefix_free' depends on axioms: [propext, Classical.choice, Quot.sound]
'Steit.C04_signed_roundtrip_iff' depends on axioms: [propext, Classical.choice, Quot.sound]
'Steit.C04_signed_roundtrip_partial' depends on axioms: [propext, Classical.choice, Quot.sound]
'Steit.C04_signed_roundtrip_false' depends on axioms: [propext, Quot.sound]
'Steit.C05_every_varint' depends on axioms: [propext, Classical.choice, Quot.sound]
'Steit.C06_bool_roundtrip' depends on axioms: [propext, Quot.sound]
'Steit.C06_bool_any_varint' depends on axioms: [propext, Classical.choice, Quot.sound]
'Steit.C07_tag' depends on axioms: [propext, Classical.choice, Quot.sound]
'Steit.C07_parse_tag' depends on axioms: [propext, Classical.choice, Quot.sound]
'Steit.C07_parse_tag_refuses' depends on axioms: [propext, Classical.choice, Quot.sound]
'Steit.C08_size_exact' depends on axioms: [propext, Classical.choice, Quot.sound]
'Steit.C08_nested_size_exact' depends on axioms: [propext, Classical.choice, Quot.sound]
'Steit.C08_large_key_panics' depends on axioms: [propext, Quot.sound]
'Steit.C09_bytes_only_depend_on_data' depends on axioms: [propext, Classical.choice, Quot.sound]
'Steit.C10_concurrent_to_bytes' depends on axioms: [propext, Classical.choice, Quot.sound]
'Steit.C10_concurrent_to_bytes_relaxed' depends on axioms: [propext, Classical.choice, Quot.sound]
'Steit.C11_roundtrip' depends on axioms: [propext, Classical.choice, Quot.sound]
'Steit.C11_roundtrip_needs_range' depends on axioms: [propext, Quot.sound]
'Steit.C12_nested_roundtrip' depends on axioms: [propext, Classical.choice, Quot.sound]
'Steit.C12_sequences' depends on axioms: [propext, Classical.choice, Quot.sound]
'Steit.C12_unique_parsing' depends on axioms: [propext, Classical.choice, Quot.sound]
'Steit.C13_omitted_is_default' depends on axioms: [propext, Classical.choice, Quot.sound]
'Steit.C13_nondefault_is_written' depends on axioms: [propext, Classical.choice, Quot.sound]
'Steit.C14_false_debug' depends on axioms: [propext, Quot.sound]
'Steit.C14_unknown_skipped_partial' depends on axioms: [propext, Classical.choice, Quot.sound]
'Steit.C14_unknown_skipped_release' depends on axioms: [propext, Classical.choice, Quot.sound]
'Steit.C14_inserted_skipped_partial' depends on axioms: [propext, Classical.choice, Quot.sound]
'Steit.C14_unknown_skipped_enum_partial' depends on axioms: [propext, Classical.choice, Quot.sound]
'Steit.C15_order_irrelevant' depends on axioms: [propext, Classical.choice, Quot.sound]
'Steit.C15_permuted' depends on axioms: [propext, Classical.choice, Quot.sound]
'Steit.C16_sequential' depends on axioms: [propext, Classical.choice, Quot.sound]
'Steit.C16_after_value' depends on axioms: [propext, Classical.choice, Quot.sound]
'Steit.C16_vec_append' depends on axioms: [propext, Classical.choice, Quot.sound]
'Steit.C16_list_append' depends on axioms: [propext, Classical.choice, Quot.sound]
'Steit.C17_old_reads_new_partial' depends on axioms: [propext, Classical.choice, Quot.sound]
'Steit.C17_old_reads_new_release' depends on axioms: [propext, Classical.choice, Quot.sound]
'Steit.C17_old_reads_new_false_debug' depends on axioms: [propext, Quot.sound]
'Steit.C17_new_reads_old' depends on axioms: [propext, Classical.choice, Quot.sound]
'Steit.C18_false_debug' depends on axioms: [propext, Quot.sound]
'Steit.C18_false_release' depends on axioms: [propext, Quot.sound]
'Steit.C18_total_partial' depends on axioms: [propext, Classical.choice, Quot.sound]
'Steit.C18_deserialize_total_partial' depends on axioms: [propext, Classical.choice, Quot.sound]
'Steit.C18_small_bytes_never_panic' depends on axioms: [propext, Classical.choice, Quot.sound]
'Steit.C19_field_isolated' depends on axioms: [propext, Classical.choice, Quot.sound]
'Steit.C19_confined' depends on axioms: [propext, Classical.choice, Quot.sound]
'Steit.C19_independent' depends on axioms: [propext, Classical.choice, Quot.sound]
'Steit.C20_false' depends on axioms: [propext, Quot.sound]
'Steit.C20_truncated_reads_shorter_payload' depends on axioms: [propext, Classical.choice, Quot.sound]
'Steit.C20_truncated_prefix_fails_partial' depends on axioms: [propext, Quot.sound]
'Steit.C20_truncated_unsigned_fails' depends on axioms: [propext, Classical.choice, Quot.sound]
'Steit.C20_truncated_signed_fails' depends on axioms: [propext, Classical.choice, Quot.sound]
'Steit.C20_truncated_bool_fails' depends on axioms: [propext, Quot.sound]
'Steit.C21_accepts_utf8' depends on axioms: [propext, Classical.choice, Quot.sound]
'Steit.C21_rejects_other' depends on axioms: [propext, Classical.choice, Quot.sound]
'Steit.C21_text_unique' depends on axioms: [propext, Quot.sound]
'Steit.C21_every_string_is_text' depends on axioms: [propext, Classical.choice, Quot.sound]
'Steit.C21_nested' depends on axioms: [propext, Classical.choice, Quot.sound]
'Steit.C22_array_short' depends on axioms: [propext, Quot.sound]
'Steit.C22_array_long' depends on axioms: [propext, Quot.sound]
'Steit.C22_written_items' depends on axioms: [propext, Classical.choice, Quot.sound]
'Steit.C22_tuple_full' depends on axioms: [propext, Quot.sound]
'Steit.C22_tuple_short' depends on axioms: [propext, Quot.sound]
'Steit.C22_array_from_scratch' depends on axioms: [propext, Quot.sound]
'Steit.C23_log_bytes_parse_back' depends on axioms: [propext, Classical.choice, Quot.sound]
'Steit.C23_log_bytes_injective' depends on axioms: [propext, Classical.choice, Quot.sound]
'Steit.C23_entry_parts' depends on axioms: [propext, Quot.sound]
'Steit.C24_replica_follows' depends on axioms: [propext, Classical.choice, Quot.sound]
'Steit.C24_replica_follows_in_rounds' depends on axioms: [propext, Classical.choice, Quot.sound]
'Steit.C25_construction' depends on axioms: [propext, Classical.choice, Quot.sound]
'Steit.C25_replay' depends on axioms: [propext, Classical.choice, Quot.sound]
'Steit.C25_calls' depends on axioms: [propext, Classical.choice, Quot.sound]
'Steit.C25_logs_where_it_sits' depends on axioms: [propext, Classical.choice, Quot.sound]
'Steit.C26_replay_does_not_log' depends on axioms: [propext, Quot.sound]
'Steit.C26_replay_takes_no_lock' depends on axioms: [propext, Quot.sound]
'Steit.C26_reading_does_not_log' depends on axioms: [propext, Quot.sound]
'Steit.C26_no_echo' depends on axioms: [propext, Quot.sound]
'Steit.C27_pausing_nests' depends on axioms: [propext, Quot.sound]
'Steit.C27_active_iff_matched' depends on axioms: [propext, Quot.sound]
'Steit.C27_entry_recorded_iff' depends on axioms: [propext, Quot.sound]
'Steit.C27_log_multi' depends on axioms: [propext]
'Steit.C27_overflow' does not depend on any axioms
'Steit.C28_push_with' depends on axioms: [propext]
'Steit.C28_insert_with' depends on axioms: [propext]
'Steit.C28_set_with' depends on axioms: [propext]
'Steit.C28_api_calls_are_quiet' depends on axioms: [propext, Quot.sound]
'Steit.C28_building_is_admissible' depends on axioms: [propext, Classical.choice, Quot.sound]
'Steit.C28_panic_leaves_logger_paused' depends on axioms: [propext]
'Steit.C29_replay_incremental' depends on axioms: [propext, Classical.choice, Quot.sound]
'Steit.C29_any_chunking' depends on axioms: [propext, Classical.choice, Quot.sound]
'Steit.C29_logs_are_chunks' depends on axioms: [propext, Classical.choice, Quot.sound]
'Steit.C30_stops_at_failing_entry' depends on axioms: [propext, Classical.choice, Quot.sound]
'Steit.C30_prim_update_atomic' depends on axioms: [propext, Quot.sound]
'Steit.C30_update_not_atomic' depends on axioms: [propext, Quot.sound]
'Steit.C31_refused_below_root' depends on axioms: [propext, Quot.sound]
'Steit.C31_accepted_at_root' depends on axioms: [propext, Quot.sound]
'Steit.C31_boxed_enum_always_refused' depends on axioms: [propext, Quot.sound]
'Steit.C31_prim_panics' depends on axioms: [propext, Quot.sound]
'Steit.C32_replay_preserves_addresses' depends on axioms: [propext, Classical.choice, Quot.sound]
'Steit.C32_keys_can_leave_their_type' depends on axioms: [propext, Quot.sound]
'Steit.C33_push' depends on axioms: [propext, Classical.choice, Quot.sound]
'Steit.C33_pop' depends on axioms: [propext]
'Steit.C33_pop_empty' depends on axioms: [propext]
'Steit.C33_swap_remove_out_of_range' depends on axioms: [propext]
'Steit.C33_swap_remove_last' depends on axioms: [propext, Quot.sound]
'Steit.C33_swap_remove' depends on axioms: [propext, Classical.choice, Quot.sound]
'Steit.C33_get_mut' depends on axioms: [propext, Quot.sound]
'Steit.C33_history' depends on axioms: [propext, Classical.choice, Quot.sound]
'Steit.C33_from_iter' depends on axioms: [propext, Classical.choice, Quot.sound]
'Steit.C34_get' depends on axioms: [propext, Quot.sound]
'Steit.C34_contains' depends on axioms: [propext, Quot.sound]
'Steit.C34_len' depends on axioms: [propext, Classical.choice, Quot.sound]
'Steit.C34_index' depends on axioms: [propext]
'Steit.C34_insert' depends on axioms: [propext, Classical.choice, Quot.sound]
'Steit.C34_insert_with' depends on axioms: [propext, Classical.choice, Quot.sound]
'Steit.C34_remove' depends on axioms: [propext, Classical.choice, Quot.sound]
'Steit.C34_remove_order' depends on axioms: [propext, Classical.choice, Quot.sound]
'Steit.C34_get_mut' depends on axioms: [propext, Quot.sound]
'Steit.C34_history' depends on axioms: [propext, Classical.choice, Quot.sound]
'Steit.C34_from_iter' depends on axioms: [propext, Classical.choice, Quot.sound]
'Steit.C35_absent_remove_logs' depends on axioms: [propext, Quot.sound]
'Steit.C35_absent_remove_stops_replay' depends on axioms: [propext, Classical.choice, Quot.sound]
'Steit.C35_replica_left_behind' depends on axioms: [propext, Classical.choice, Quot.sound]
'Steit.C35_present_remove_partial' depends on axioms: [propext, Classical.choice, Quot.sound]
'Steit.C36_inserted_value_logs_elsewhere' depends on axioms: [propext, Classical.choice, Quot.sound]
'Steit.C36_insert_loses_later_changes_false' depends on axioms: [propext, Quot.sound]
'Steit.C36_partial' depends on axioms: [propext, Classical.choice, Quot.sound]
'Steit.C37_enum_item_misplaced_false' depends on axioms: [propext, Classical.choice, Quot.sound]
'Steit.C37_moved_enum_logs_elsewhere' depends on axioms: [propext, Classical.choice, Quot.sound]
'Steit.C37_replica_fails_false' depends on axioms: [propext, Quot.sound]
'Steit.C37_partial' depends on axioms: [propext, Classical.choice, Quot.sound]
'Steit.C38_setter_logs_nothing' depends on axioms: [propext, Quot.sound]
'Steit.C38_entry_is_noop' depends on axioms: [propext, Quot.sound]
'Steit.C38_replica_keeps_old_value' depends on axioms: [propext, Classical.choice, Quot.sound]
'Steit.C39_enum_setter' depends on axioms: [propext, Classical.choice, Quot.sound]
'Steit.C39_struct_setter' depends on axioms: [propext, Classical.choice, Quot.sound]
'Steit.C40_whole_update_overwrites' depends on axioms: [propext, Classical.choice, Quot.sound]
'Steit.C40_update_overwrites_anywhere' depends on axioms: [propext, Classical.choice, Quot.sound]
'Steit.C41_lost_entry_false' depends on axioms: [propext, Quot.sound]
'Steit.C41_no_deadlock' depends on axioms: [propext, Classical.choice, Quot.sound]
'Steit.C41_schedules_end' depends on axioms: [propext]
'Steit.C41_all_return' depends on axioms: [propext, Classical.choice, Quot.sound]
'Steit.C41_without_windows_partial' depends on axioms: [propext, Classical.choice, Quot.sound]
'Steit.C41_with_windows_partial' depends on axioms: [propext, Classical.choice, Quot.sound]
'Steit.C41_replicas_follow_partial' depends on axioms: [propext, Classical.choice, Quot.sound]
'Steit.C42_eq_decides_equality' depends on axioms: [propext, Classical.choice, Quot.sound]
'Steit.C42_equivalence' depends on axioms: [propext, Classical.choice, Quot.sound]
'Steit.C42_runtimes_ignored' depends on axioms: [propext, Quot.sound]
'Steit.C42_equal_values_hash_alike' depends on axioms: [propext, Classical.choice, Quot.sound]
'Steit.C42_hash_covers_everything_compared' depends on axioms: [propext, Classical.choice, Quot.sound]
'Steit.C42_carried_values_qualify' depends on axioms: [propext, Classical.choice, Quot.sound]
'Steit.C42_equal_values_may_be_written_differently' depends on axioms: [propext, Quot.sound]
'Steit.C43_no_loss_no_duplication' depends on axioms: [propext, Classical.choice, Quot.sound]
'Steit.C43_bytes_only_reads' depends on axioms: [propext, Classical.choice, Quot.sound]
'Steit.C44_unsigned' depends on axioms: [propext, Classical.choice, Quot.sound]
'Steit.C44_bool' depends on axioms: [propext, Quot.sound]
'Steit.C44_signed_partial' depends on axioms: [propext, Classical.choice, Quot.sound]
'Steit.C44_int64_iff' depends on axioms: [propext, Classical.choice, Quot.sound]
'Steit.C44_disagreement' depends on axioms: [propext, Classical.choice, Quot.sound]
'Steit.C44_any_varint' depends on axioms: [propext, Classical.choice, Quot.sound]
'Steit.C44_overlong_varint' depends on axioms: [propext, Quot.sound]
'Steit.C45_decodes_partial' depends on axioms: [propext, Classical.choice, Quot.sound]
'Steit.C45_decodes_like_rust' depends on axioms: [propext, Classical.choice, Quot.sound]
'Steit.C45_generic_string_dropped' depends on axioms: [propext, Quot.sound]
'Steit.C45_empty_string_null' depends on axioms: [propext, Quot.sound]
'Steit.C45_root_option' depends on axioms: [propext, Classical.choice, Quot.sound]
'Steit.C45_size_limit' depends on axioms: [propext, Classical.choice, Quot.sound]
'Steit.C45_unknown_skipped' depends on axioms: [propext, Classical.choice, Quot.sound]
'Steit.C45_reads_newer' depends on axioms: [propext, Classical.choice, Quot.sound]
'Steit.C45_unknown_variant' depends on axioms: [propext, Classical.choice, Quot.sound]
'Steit.C46_client_follows_partial' depends on axioms: [propext, Classical.choice, Quot.sound]
'Steit.C46_like_rust_partial' depends on axioms: [propext, Classical.choice, Quot.sound]
'Steit.C46_joins_late_partial' depends on axioms: [propext, Classical.choice, Quot.sound]
'Steit.C46_in_rounds_partial' depends on axioms: [propext, Classical.choice, Quot.sound]
'Steit.C46_absent_key' depends on axioms: [propext, Classical.choice, Quot.sound]
'Steit.C46_unknown_entry_resets_root' depends on axioms: [propext, Classical.choice, Quot.sound]
'Steit.C46_unknown_field_ignored' depends on axioms: [propext, Classical.choice, Quot.sound]
'Steit.C46_variant_entry' depends on axioms: [propext, Classical.choice, Quot.sound]
'Steit.Derive.C47_accepts_exactly' depends on axioms: [propext, Classical.choice, Quot.sound]
'Steit.Derive.C47_code_is_generated' depends on axioms: [propext, Classical.choice, Quot.sound]
'Steit.Derive.C47_schema_is_well_formed' depends on axioms: [propext, Classical.choice, Quot.sound]
'Steit.Gen.C48_terminates' depends on axioms: [propext, Classical.choice, Quot.sound]
'Steit.Gen.C48_only_reachable' depends on axioms: [propext, Quot.sound]
'Steit.Gen.C48_complete_partial' depends on axioms: [propext, Classical.choice, Quot.sound]
'Steit.Gen.C48_exactly_once_partial' depends on axioms: [propext, Classical.choice, Quot.sound]
'Steit.Gen.C48_generated_partial' depends on axioms: [propext, Classical.choice, Quot.sound]
'Steit.Gen.C48_types_tell_recursive_boxes' depends on axioms: [propext, Classical.choice, Quot.sound]
'Steit.Gen.C48_types_tell_without_box' depends on axioms: [propext, Classical.choice, Quot.sound]
'Steit.Gen.C48_behind_a_box_false' depends on axioms: [propext]
'Steit.Gen.C48_same_name_false' depends on axioms: [propext]
'Steit.Gen.C49_writer' depends on axioms: [propext, Quot.sound]
'Steit.Gen.C49_well_bracketed' depends on axioms: [propext, Classical.choice, Quot.sound]
'Steit.Gen.C49_generates_iff' depends on axioms: [propext, Classical.choice, Quot.sound]
'Steit.Gen.C49_camel_case' depends on axioms: [propext]
'Steit.Gen.C49_snake_camel_snake' depends on axioms: [propext]
'Steit.Gen.C49_camel_snake_camel' depends on axioms: [propext]
'Steit.Gen.C49_snake_case_names_stay_distinct' depends on axioms: [propext]
'Steit.Gen.C49_other_names_collide' depends on axioms: [propext, Classical.choice, Quot.sound]
'Steit.Gen.C49_keyword_as_variable' depends on axioms: [propext, Classical.choice, Quot.sound]
'Steit.Gen.C49_map_behind_alias' depends on axioms: [propext, Classical.choice, Quot.sound]
'Steit.Gen.C49_boxed_primitive' depends on axioms: [propext, Classical.choice, Quot.sound]
'Steit.C50_entry_acts_on_its_object' depends on axioms: [propext, Quot.sound]
'Steit.C50_other_objects_untouched' depends on axioms: [propext, Quot.sound]
'Steit.C50_unrelated_entries_commute' depends on axioms: [propext, Quot.sound]
'Steit.C50_log_order_of_unrelated_entries' depends on axioms: [propext, Classical.choice, Quot.sound]
'Steit.C51_call_on_an_object_inside' depends on axioms: [propext, Classical.choice, Quot.sound]
'Steit.C52_option_roundtrip' depends on axioms: [propext]
'Steit.C52_compares_like_option' depends on axioms: [propext, Classical.choice, Quot.sound]
'Steit.C52_written_like_option' depends on axioms: [propext, Quot.sound]
'Steit.C53_constructors_misplaced_false' depends on axioms: [propext, Classical.choice, Quot.sound]
'Steit.C53_root_replay_panics' depends on axioms: [propext, Quot.sound]
'Steit.C53_root_setter_panics' depends on axioms: [propext, Quot.sound]
'Steit.C53_nested_setter_overwrites_container' depends on axioms: [propext, Classical.choice, Quot.sound]
'Steit.C53_set_runtime_repairs_partial' depends on axioms: [propext, Classical.choice, Quot.sound]
'Steit.C53_replica_fails_false' depends on axioms: [propext, Quot.sound]
'Steit.C54_decoding_ends' depends on axioms: [propext, Quot.sound]
'Steit.C54_fuel_independent' depends on axioms: [propext, Quot.sound]
'Steit.C54_replay_ends' depends on axioms: [propext, Quot.sound]
'Steit.C55_other_revision_partial' depends on axioms: [propext, Classical.choice, Quot.sound]
'Steit.C55_other_revision_nested_partial' depends on axioms: [propext, Classical.choice, Quot.sound]
'Steit.C55_false_debug' depends on axioms: [propext, Quot.sound]
'Steit.C55_narrower_truncates' depends on axioms: [propext, Quot.sound]
'Steit.C55_unknown_variant' depends on axioms: [propext, Classical.choice, Quot.sound]
'Steit.C56_other_revision_follows_partial' depends on axioms: [propext, Classical.choice, Quot.sound]
'Steit.C56_total' depends on axioms: [propext, Quot.sound]
'Steit.C56_in_rounds_partial' depends on axioms: [propext, Classical.choice, Quot.sound]
'Steit.C56_joins_late_partial' depends on axioms: [propext, Classical.choice, Quot.sound]
'Steit.C56_unknown_refused' depends on axioms: [propext, Quot.sound]
'Steit.C56_stops_at_unknown' depends on axioms: [propext, Classical.choice, Quot.sound]
'Steit.C56_stateless_ignored' depends on axioms: [propext, Quot.sound]
'Steit.C56_false_stateless' depends on axioms: [propext, Quot.sound]
'Steit.C56_retyped_misread' depends on axioms: [propext, Quot.sound]
'Steit.Gen.C57_struct' depends on axioms: [propext, Classical.choice, Quot.sound]
'Steit.Gen.C57_enum' depends on axioms: [propext, Classical.choice, Quot.sound]
'Steit.Gen.C57_client_wire_types' depends on axioms: [propext]
'Steit.Gen.C57_false_generic_string' depends on axioms: [propext, Classical.choice, Quot.sound]
'Steit.C58_paths' depends on axioms: [propext, Classical.choice, Quot.sound]
'Steit.C58_deserialize_quiet' depends on axioms: [propext, Classical.choice, Quot.sound]
'Steit.C58_changes_announced' depends on axioms: [propext, Classical.choice, Quot.sound]
'Steit.C58_narrated_partial' depends on axioms: [propext, Classical.choice, Quot.sound]
'Steit.C58_variant_event_never' depends on axioms: [propext, Classical.choice, Quot.sound]
'Steit.C58_root_silent' depends on axioms: [propext, Classical.choice, Quot.sound]
'Steit.C59_reads_other_revision_partial' depends on axioms: [propext, Classical.choice, Quot.sound]
'Steit.C59_client_follows_partial' depends on axioms: [propext, Classical.choice, Quot.sound]
'Steit.C59_in_rounds_partial' depends on axioms: [propext, Classical.choice, Quot.sound]
'Steit.C59_joins_late_partial' depends on axioms: [propext, Classical.choice, Quot.sound]
'Steit.C59_retyped_misread' depends on axioms: [propext, Quot.sound]
'Steit.C59_array_missing' depends on axioms: [propext, Quot.sound]
'Steit.C59_list_to_vec' depends on axioms: [propext, Quot.sound]
'Steit.C60_returned_call_is_complete' depends on axioms: [propext, Quot.sound]
'Steit.C60_without_failures' depends on axioms: [propext, Quot.sound]
'Steit.C60_failed_call_changes_nothing_partial' depends on axioms: [propext, Classical.choice, Quot.sound]
'Steit.C60_replica_follows_survivor_partial' depends on axioms: [propext, Classical.choice, Quot.sound]
'Steit.C60_client_follows_survivor_partial' depends on axioms: [propext, Classical.choice, Quot.sound]
'Steit.C60_poisoned_logger_freezes' depends on axioms: [propext, Quot.sound]
'Steit.C60_torn_swap_remove_false' depends on axioms: [propext, Classical.choice, Quot.sound]
'Steit.C60_setter_not_atomic_false' depends on axioms: [propext, Quot.sound]
'Steit.C60_panicking_closure_false' depends on axioms: [propext, Quot.sound]
'Steit.C60_client_after_break_partial' depends on axioms: [propext, Classical.choice, Quot.sound]
'Steit.C60_after_torn_entry_false' depends on axioms: [propext, Classical.choice, Quot.sound]
'Steit.C61_at_most_one_entry_misread' depends on axioms: [propext, Classical.choice, Quot.sound]
'Steit.C61_cut_update_resets_false' depends on axioms: [propext, Classical.choice, Quot.sound]
'Steit.C61_replica_of_cut_log_partial' depends on axioms: [propext, Classical.choice, Quot.sound]
'Steit.C61_client_of_cut_log' depends on axioms: [propext, Classical.choice, Quot.sound]
'Steit.C61_client_stops_at_first_bad_entry' depends on axioms: [propext, Quot.sound]
'Steit.C61_cut_update_misread_false' depends on axioms: [propext, Classical.choice, Quot.sound]
'Steit.C62_decode_from_any_source' depends on axioms: [propext, Classical.choice, Quot.sound]
'Steit.C62_replay_from_any_source' depends on axioms: [propext, Classical.choice, Quot.sound]
'Steit.C62_failing_source_reported' depends on axioms: [propext, Quot.sound]
'Steit.C62_failing_replay_reported' depends on axioms: [propext, Quot.sound]
'Steit.C62_broken_source' depends on axioms: [propext, Classical.choice, Quot.sound]
'Steit.C62_replica_over_broken_connection' depends on axioms: [propext, Classical.choice, Quot.sound]
'Steit.C62_as_mut_read_after_eof_false' does not depend on any axioms
'Steit.C63_serialize_to_any_sink' depends on axioms: [propext, Classical.choice, Quot.sound]
'Steit.C63_reliable_sink' depends on axioms: [propext, Classical.choice, Quot.sound]
'Steit.C63_through_any_pipe' depends on axioms: [propext, Classical.choice, Quot.sound]
'Steit.C63_to_bytes' depends on axioms: [propext, Quot.sound]
'Steit.C63_log_to_any_sink' depends on axioms: [propext, Classical.choice, Quot.sound]
'Steit.C63_client_behind_any_sink' depends on axioms: [propext, Classical.choice, Quot.sound]
'Steit.C64_well_formed' depends on axioms: [propext, Quot.sound]
'Steit.C64_values' depends on axioms: [propext]
'Steit.C64_deeper' depends on axioms: [propext, Classical.choice, Quot.sound]
'Steit.C64_values_bottom' depends on axioms: [propext]
'Steit.C64_encode' depends on axioms: [propext, Classical.choice, Quot.sound]
'Steit.C64_equality' depends on axioms: [propext]
'Steit.C64_new' depends on axioms: [propext, Classical.choice, Quot.sound]
'Steit.C64_decode' depends on axioms: [propext, Classical.choice, Quot.sound]
'Steit.C64_deserialize' depends on axioms: [propext, Classical.choice, Quot.sound]
'Steit.C64_decode_shallow' depends on axioms: [propext, Quot.sound]
'Steit.C64_round_trip' depends on axioms: [propext, Classical.choice, Quot.sound]
'Steit.C64_nesting_unlimited' depends on axioms: [propext, Classical.choice, Quot.sound]
'Steit.C64_nesting_bound' depends on axioms: [propext, Classical.choice, Quot.sound]
'Steit.C64_replay' depends on axioms: [propext, Classical.choice, Quot.sound]
'Steit.C64_calls' depends on axioms: [propext, Classical.choice, Quot.sound]
'Steit.C65_cut_value_remains' depends on axioms: [propext, Classical.choice, Quot.sound]
'Steit.C65_all_remains_read' depends on axioms: [propext, Classical.choice, Quot.sound]
'Steit.C65_cut_nested_value_remains' depends on axioms: [propext, Classical.choice, Quot.sound]
'Steit.C65_cut_entry' depends on axioms: [propext, Classical.choice, Quot.sound]
'Steit.C65_cut_log' depends on axioms: [propext, Classical.choice, Quot.sound]
'Steit.Gen.C66_done_partial' depends on axioms: [propext, Classical.choice, Quot.sound]
'Steit.Gen.C66_stopped' depends on axioms: [propext, Classical.choice, Quot.sound]
'Steit.Gen.C66_working_disk' depends on axioms: [propext, Classical.choice, Quot.sound]
'Steit.Gen.C66_order_does_not_matter' depends on axioms: [propext, Classical.choice, Quot.sound]
'Steit.Gen.C66_again' depends on axioms: [propext, Classical.choice, Quot.sound]
'Steit.Gen.C66_from_root_partial' depends on axioms: [propext, Classical.choice, Quot.sound]
'Steit.Gen.C66_ok_means_complete_false' depends on axioms: [propext, Classical.choice, Quot.sound]
'Steit.Gen.C66_nothing_is_removed' depends on axioms: [propext, Classical.choice, Quot.sound]
'Steit.Gen.C67_parameters' depends on axioms: [propext, Classical.choice, Quot.sound]
'Steit.Gen.C67_struct' depends on axioms: [propext, Classical.choice, Quot.sound]
'Steit.Gen.C67_enum' depends on axioms: [propext, Classical.choice, Quot.sound]
'Steit.Gen.C67_names_are_found' depends on axioms: [propext, Classical.choice, Quot.sound]
'Steit.Gen.C67_arguments_are_reached' depends on axioms: [propext, Quot.sound]
'Steit.Gen.C67_files_are_closed_partial' depends on axioms: [propext, Classical.choice, Quot.sound]
'Steit.Gen.C67_supported' depends on axioms: [propext]
'Steit.Gen.C67_alias_type' depends on axioms: [propext]
'Steit.Gen.C67_describes' depends on axioms: [propext, Quot.sound]
'Steit.Gen.C67_variant_hides_message' depends on axioms: [propext, Classical.choice, Quot.sound]
'Steit.Gen.C67_message_named_like_builtin' depends on axioms: [propext, Classical.choice, Quot.sound]
'Steit.Gen.C68_struct' depends on axioms: [propext, Classical.choice, Quot.sound]
'Steit.Gen.C68_enum' depends on axioms: [propext, Classical.choice, Quot.sound]
'Steit.Gen.C68_struct_clean_iff' depends on axioms: [propext, Classical.choice, Quot.sound]
'Steit.Gen.C68_enum_clean_iff' depends on axioms: [propext, Classical.choice, Quot.sound]
'Steit.Gen.C68_false_path' depends on axioms: [propext, Classical.choice, Quot.sound]
'Steit.Gen.C68_false_class' depends on axioms: [propext, Classical.choice, Quot.sound]
'Steit.Gen.C68_false_underscores' depends on axioms: [propext, Classical.choice, Quot.sound]
'Steit.Gen.C68_false_event' depends on axioms: [propext, Classical.choice, Quot.sound]
'Steit.Gen.C68_false_param' depends on axioms: [propext, Classical.choice, Quot.sound]
'Steit.Gen.C68_false_tag' depends on axioms: [propext, Classical.choice, Quot.sound]
'Steit.Gen.C68_false_new' depends on axioms: [propext, Classical.choice, Quot.sound]
'Steit.Gen.C69_struct_bodies' depends on axioms: [propext, Classical.choice, Quot.sound]
'Steit.Gen.C69_enum_bodies' depends on axioms: [propext, Classical.choice, Quot.sound]
'Steit.Gen.C69_values' depends on axioms: [propext]
'Steit.Gen.C69_constructs' depends on axioms: [propext, Classical.choice, Quot.sound]
'Steit.Gen.C69_reads' depends on axioms: [propext, Classical.choice, Quot.sound]
'Steit.Gen.C69_replays' depends on axioms: [propext, Classical.choice, Quot.sound]
'Steit.Gen.C69_follows_rust_partial' depends on axioms: [propext, Classical.choice, Quot.sound]
'Steit.Gen.C69_log_entries' depends on axioms: [propext, Classical.choice, Quot.sound]
'Steit.Gen.C69_generic_enum' depends on axioms: [propext, Classical.choice, Quot.sound]
'Steit.Gen.C69_false_generic_enum' depends on axioms: [propext, Classical.choice, Quot.sound]
'Steit.Gen.C69_log_entry_file' depends on axioms: [propext, Classical.choice, Quot.sound]
'Steit.Gen.C69_log_entries_as_shipped' depends on axioms: [propext, Classical.choice, Quot.sound]
'Steit.Gen.C69_entry_read_as_shipped' depends on axioms: [propext, Classical.choice, Quot.sound]
'Steit.Gen.C69_maybe_file' depends on axioms: [propext, Classical.choice, Quot.sound]
'Steit.Gen.C69_false_maybe_as_shipped' depends on axioms: [propext, Classical.choice, Quot.sound]
'Steit.Gen.C69_struct_constructor' depends on axioms: [propext, Classical.choice, Quot.sound]
'Steit.Gen.C69_enum_constructor' depends on axioms: [propext, Classical.choice, Quot.sound]
'Steit.Gen.C69_replays_as_shipped' depends on axioms: [propext, Classical.choice, Quot.sound]
'Steit.Gen.C69_follows_rust_as_shipped_partial' depends on axioms: [propext, Classical.choice, Quot.sound]
'Steit.C70_cut_value_shown' depends on axioms: [propext, Classical.choice, Quot.sound]
'Steit.C70_first_parts_shown' depends on axioms: [propext, Classical.choice, Quot.sound]
'Steit.C70_cut_nested_noticed' depends on axioms: [propext, Classical.choice, Quot.sound]
'Steit.C70_rust_reads_more' depends on axioms: [propext, Quot.sound]
'Steit.Gen.C70_generated_classes' depends on axioms: [propext, Classical.choice, Quot.sound]
'Steit.Gen.C71_metadata' depends on axioms: [propext, Classical.choice, Quot.sound]
'Steit.Gen.C71_accepts_text' depends on axioms: [propext, Classical.choice, Quot.sound]
'Steit.Gen.C71_well_formed' depends on axioms: [propext, Classical.choice, Quot.sound]
'Steit.Gen.C71_mirrored' depends on axioms: [propext, Classical.choice, Quot.sound]
'Steit.Gen.C71_models' depends on axioms: [propext, Classical.choice, Quot.sound]
'Steit.Gen.C71_client' depends on axioms: [propext, Classical.choice, Quot.sound]
'Steit.Gen.C71_follows_rust_partial' depends on axioms: [propext, Classical.choice, Quot.sound]
'Steit.Derive.C72_struct' depends on axioms: [propext, Classical.choice, Quot.sound]
'Steit.Derive.C72_struct_eq' depends on axioms: [propext, Classical.choice, Quot.sound]
'Steit.Derive.C72_struct_hash' depends on axioms: [propext, Classical.choice, Quot.sound]
'Steit.Derive.C72_enum' depends on axioms: [propext, Classical.choice, Quot.sound]
'Steit.Derive.C72_enum_hash' depends on axioms: [propext, Classical.choice, Quot.sound]
'Steit.Derive.C72_enum_eq_partial' depends on axioms: [propext, Classical.choice, Quot.sound]
'Steit.Derive.C72_listed' depends on axioms: [propext]
'Steit.Derive.C72_false_enum_eq' depends on axioms: [propext, Classical.choice, Quot.sound]
'Steit.C73_decoded' depends on axioms: [propext, Classical.choice, Quot.sound]
'Steit.C73_merged' depends on axioms: [propext, Classical.choice, Quot.sound]
'Steit.C73_iterates' depends on axioms: [propext, Classical.choice, Quot.sound]
'Steit.C73_passed_on' depends on axioms: [propext, Classical.choice, Quot.sound]
'Steit.C73_hops' depends on axioms: [propext, Classical.choice, Quot.sound]
'Steit.C73_passed_on_to_client' depends on axioms: [propext, Classical.choice, Quot.sound]
'Steit.C73_replayed' depends on axioms: [propext, Classical.choice, Quot.sound]
'Steit.C73_false_replayed_key' depends on axioms: [propext, Quot.sound]
'Steit.C74_decoded' depends on axioms: [propext, Classical.choice, Quot.sound]
'Steit.C74_merged' depends on axioms: [propext, Classical.choice, Quot.sound]
'Steit.C74_replayed' depends on axioms: [propext, Classical.choice, Quot.sound]
'Steit.C74_encoded' depends on axioms: [propext, Classical.choice, Quot.sound]
'Steit.Bounds.C75_supertraits' depends on axioms: [propext, Classical.choice, Quot.sound]
'Steit.Bounds.C75_instances' depends on axioms: [propext, Classical.choice, Quot.sound]
'Steit.Bounds.C75_state_iff_deserialize' depends on axioms: [propext, Classical.choice, Quot.sound]
'Steit.Bounds.C75_compiles_exactly' depends on axioms: [propext, Classical.choice, Quot.sound]
'Steit.Bounds.C75_states_compile' depends on axioms: [propext, Classical.choice, Quot.sound]
'Steit.Bounds.C75_struct_needs_bounds' depends on axioms: [propext, Classical.choice, Quot.sound]
'Steit.Bounds.C75_default_needs_ctors' depends on axioms: [propext, Classical.choice, Quot.sound]
'Steit.Bounds.C75_enum_setters_need_ctors' depends on axioms: [propext, Classical.choice, Quot.sound]
'Steit.Bounds.C75_compiles_as_written' depends on axioms: [propext, Classical.choice, Quot.sound]
'Steit.Bounds.C75_accepted' depends on axioms: [propext, Classical.choice, Quot.sound]
'Steit.C76_states_follow' depends on axioms: [propext, Classical.choice, Quot.sound]
'Steit.C76_clients_follow' depends on axioms: [propext, Classical.choice, Quot.sound]
'Steit.C76_popped_item_keeps_address' depends on axioms: [propext, Quot.sound]
'Steit.C76_removed_value_keeps_address' depends on axioms: [propext, Classical.choice, Quot.sound]
'Steit.C76_rerooted' depends on axioms: [propext, Classical.choice, Quot.sound]
'Steit.C76_popped_item_stops_replay_false' depends on axioms: [propext, Classical.choice, Quot.sound]
'Steit.C76_removed_value_stops_replay_false' depends on axioms: [propext, Classical.choice, Quot.sound]
'Steit.C76_removed_enum_comes_back_false' depends on axioms: [propext, Classical.choice, Quot.sound]
'Steit.C76_swap_removed_item_misleads_false' depends on axioms: [propext, Classical.choice, Quot.sound]
'Steit.C76_replica_follows_clone_false' depends on axioms: [propext, Classical.choice, Quot.sound]
'Steit.C76_shared_logger_false' depends on axioms: [propext, Classical.choice, Quot.sound]
'Steit.C77_unlogged_change' depends on axioms: [propext, Quot.sound]
'Steit.C77_drift_stays' depends on axioms: [propext, Classical.choice, Quot.sound]
'Steit.C77_assigned' depends on axioms: [propext, Classical.choice, Quot.sound]
'Steit.C77_client_drift_stays' depends on axioms: [propext, Classical.choice, Quot.sound]
'Steit.C77_call_heals' depends on axioms: [propext, Classical.choice, Quot.sound]
'Steit.C77_setter_heals' depends on axioms: [propext, Classical.choice, Quot.sound]
'Steit.C77_assigned_object_is_silent' depends on axioms: [propext, Classical.choice, Quot.sound]
'Steit.C77_call_inside_misleads_false' depends on axioms: [propext, Classical.choice, Quot.sound]
'Steit.C77_call_inside_stops_replay_false' depends on axioms: [propext, Classical.choice, Quot.sound]
'Steit.C78_decoded' depends on axioms: [propext, Quot.sound]
'Steit.C78_decoded_root' depends on axioms: [propext, Quot.sound]
'Steit.C78_new' depends on axioms: [propext, Quot.sound]
'Steit.C78_replayed' depends on axioms: [propext, Classical.choice, Quot.sound]
'Steit.C78_replay_ok' depends on axioms: [propext, Classical.choice, Quot.sound]
'Steit.C79_redo' depends on axioms: [propext, Classical.choice, Quot.sound]
'Steit.C79_overlap' depends on axioms: [propext, Classical.choice, Quot.sound]
'Steit.C79_repeats' depends on axioms: [propext, Classical.choice, Quot.sound]
'Steit.C79_client_redo' depends on axioms: [propext, Classical.choice, Quot.sound]
'Steit.C79_client_overlap' depends on axioms: [propext, Classical.choice, Quot.sound]
'Steit.C79_client_repeats' depends on axioms: [propext, Classical.choice, Quot.sound]
'Steit.C79_client_shows' depends on axioms: [propext]
'Steit.C79_push_false' depends on axioms: [propext, Classical.choice, Quot.sound]
'Steit.C79_pop_false' depends on axioms: [propext, Classical.choice, Quot.sound]
'Steit.C79_remove_false' depends on axioms: [propext, Classical.choice, Quot.sound]
'Steit.C79_redo_refused' depends on axioms: [propext, Classical.choice, Quot.sound]
'Steit.C80_merge' depends on axioms: [propext, Quot.sound]
'Steit.C80_merge_modes' depends on axioms: [propext, Quot.sound]
'Steit.C80_replay' depends on axioms: [propext, Quot.sound]
'Steit.C80_stay' depends on axioms: [propext, Classical.choice, Quot.sound]
'Steit.C80_modes' depends on axioms: [propext, Classical.choice, Quot.sound]
'Steit.C80_modes_false' depends on axioms: [propext, Classical.choice, Quot.sound]
'Steit.C80_restarted' depends on axioms: [propext, Classical.choice, Quot.sound]
'Steit.C80_late_joiner' depends on axioms: [propext, Classical.choice, Quot.sound]
'Steit.C80_clients_stay' depends on axioms: [propext, Classical.choice, Quot.sound]
'Steit.C81_relay' depends on axioms: [propext, Classical.choice, Quot.sound]
'Steit.C81_end_to_end' depends on axioms: [propext, Classical.choice, Quot.sound]
'Steit.C81_chain' depends on axioms: [propext, Classical.choice, Quot.sound]
'Steit.C81_from_value' depends on axioms: [propext, Classical.choice, Quot.sound]
'Steit.C81_into_raw' depends on axioms: [propext, Classical.choice, Quot.sound]
'Steit.C81_false_for_varints' depends on axioms: [propext, Quot.sound]
'Steit.C81_merged' depends on axioms: [propext, Classical.choice, Quot.sound]
'Steit.C81_false_repeated_string' depends on axioms: [propext, Quot.sound]
'Steit.C81_client_partial' depends on axioms: [propext, Classical.choice, Quot.sound]
'Steit.C81_str' depends on axioms: [propext, Classical.choice, Quot.sound]
'Steit.C82_equal' depends on axioms: [propext, Classical.choice, Quot.sound]
'Steit.C82_written' depends on axioms: [propext, Classical.choice, Quot.sound]
'Steit.C82_false_bytes' depends on axioms: [propext, Quot.sound]
'Steit.C82_roundtrip' depends on axioms: [propext, Classical.choice, Quot.sound]
'Steit.C82_merge' depends on axioms: [propext, Classical.choice, Quot.sound]
'Steit.C82_relayed' depends on axioms: [propext, Classical.choice, Quot.sound]
'Steit.C82_stay' depends on axioms: [propext, Classical.choice, Quot.sound]
'Steit.C82_replica_follows' depends on axioms: [propext, Classical.choice, Quot.sound]
'Steit.C83_release_writes' depends on axioms: [propext, Classical.choice, Quot.sound]
'Steit.C83_release_roundtrip' depends on axioms: [propext, Classical.choice, Quot.sound]
'Steit.C83_debug_writes' depends on axioms: [propext, Classical.choice, Quot.sound]
'Steit.C83_debug_exact' depends on axioms: [propext, Classical.choice, Quot.sound]
'Steit.C83_false_lost' depends on axioms: [propext, Classical.choice, Quot.sound]
'Steit.C83_false_sum' depends on axioms: [propext, Classical.choice, Quot.sound]
'Steit.C83_false_injection' depends on axioms: [propext, Classical.choice, Quot.sound]
'Steit.C84_exact' depends on axioms: [propext, Classical.choice, Quot.sound]
'Steit.C84_history' depends on axioms: [propext, Classical.choice, Quot.sound]
'Steit.C84_brief' depends on axioms: [propext, Quot.sound]
'Steit.C84_bytes' depends on axioms: [propext, Classical.choice, Quot.sound]
'Steit.C85_overwritten' depends on axioms: [propext, Classical.choice, Quot.sound]
'Steit.C85_reorder' depends on axioms: [propext, Classical.choice, Quot.sound]
'Steit.C85_replica' depends on axioms: [propext, Classical.choice, Quot.sound]
'Steit.C85_absent_false' depends on axioms: [propext, Classical.choice, Quot.sound]
'Steit.C85_order_false' depends on axioms: [propext, Classical.choice, Quot.sound]
'Steit.C85_client_overwritten' depends on axioms: [propext, Classical.choice, Quot.sound]
'Steit.C85_client_reorder' depends on axioms: [propext, Classical.choice, Quot.sound]
'Steit.C85_client_follows' depends on axioms: [propext, Classical.choice, Quot.sound]
'Steit.C85_client_variant_false' depends on axioms: [propext, Classical.choice, Quot.sound]
'Steit.C85_compacted' depends on axioms: [propext, Classical.choice, Quot.sound]
'Steit.C85_compacted_replica' depends on axioms: [propext, Classical.choice, Quot.sound]
'Steit.C85_client_compacted' depends on axioms: [propext, Classical.choice, Quot.sound]
'Steit.C86_peers_agree' depends on axioms: [propext, Classical.choice, Quot.sound]
'Steit.C86_all_read' depends on axioms: [propext, Classical.choice, Quot.sound]
'Steit.C86_same_bytes' depends on axioms: [propext, Classical.choice, Quot.sound]
'Steit.C86_replica' depends on axioms: [propext, Classical.choice, Quot.sound]
'Steit.C86_client' depends on axioms: [propext, Classical.choice, Quot.sound]
'Steit.C86_same_object_false' depends on axioms: [propext, Classical.choice, Quot.sound]
'Steit.C86_replaced_false' depends on axioms: [propext, Classical.choice, Quot.sound]
'Steit.C87_peers_agree' depends on axioms: [propext, Classical.choice, Quot.sound]
'Steit.C87_all_read' depends on axioms: [propext, Classical.choice, Quot.sound]
'Steit.C87_replica' depends on axioms: [propext, Classical.choice, Quot.sound]
'Steit.C87_client' depends on axioms: [propext, Classical.choice, Quot.sound]
'Steit.C87_order_false' depends on axioms: [propext, Classical.choice, Quot.sound]
'Steit.C87_same_key_false' depends on axioms: [propext, Classical.choice, Quot.sound]
'Steit.C88_restarts' depends on axioms: [propext, Classical.choice, Quot.sound]
'Steit.C88_joins' depends on axioms: [propext, Classical.choice, Quot.sound]
'Steit.C88_client_joins' depends on axioms: [propext, Classical.choice, Quot.sound]
'Steit.C88_unread_false' depends on axioms: [propext, Classical.choice, Quot.sound]
'Steit.C88_again_false' depends on axioms: [propext, Classical.choice, Quot.sound]
'Steit.Gen.C89_enum_members' depends on axioms: [propext, Classical.choice, Quot.sound]
'Steit.Gen.C89_enum_makes' depends on axioms: [propext, Classical.choice, Quot.sound]
'Steit.Gen.C90_opening' depends on axioms: [propext, Classical.choice, Quot.sound]
'Steit.Gen.C90_order' depends on axioms: [propext, Classical.choice, Quot.sound]
'Steit.Gen.C91_struct' depends on axioms: [propext, Classical.choice, Quot.sound]
'Steit.Gen.C91_enum' depends on axioms: [propext, Classical.choice, Quot.sound]
