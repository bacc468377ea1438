{
 "claims": [
  {
   "property": "C01",
   "status": "proved",
   "theorems": [
    "Steit.C01_unsigned_roundtrip"
   ],
   "note": "All widths, values, suffixes and build modes."
  },
  {
   "property": "C02",
   "status": "proved",
   "theorems": [
    "Steit.C02_unsigned_size",
    "Steit.C02_signed_size"
   ],
   "note": "Sizes of signed and unsigned integers; minimality against every varint denoting the same number."
  },
  {
   "property": "C03",
   "status": "proved",
   "theorems": [
    "Steit.C03_prefix_free"
   ],
   "note": "Corollary of C01 with arbitrary suffixes."
  },
  {
   "property": "C04",
   "status": "partial",
   "theorems": [
    "Steit.C04_signed_roundtrip_iff",
    "Steit.C04_signed_roundtrip_partial",
    "Steit.C04_signed_roundtrip_false"
   ],
   "note": "False of the code as stated: exact range proved (iff), negation proved with a witness per width, positive half as _partial."
  },
  {
   "property": "C05",
   "status": "proved",
   "theorems": [
    "Steit.C05_every_varint"
   ],
   "note": "Every byte stream, both build modes."
  },
  {
   "property": "C06",
   "status": "proved",
   "theorems": [
    "Steit.C06_bool_roundtrip",
    "Steit.C06_bool_any_varint"
   ],
   "note": "Both values; every byte stream."
  },
  {
   "property": "C07",
   "status": "proved",
   "theorems": [
    "Steit.C07_tag",
    "Steit.C07_parse_tag",
    "Steit.C07_parse_tag_refuses"
   ],
   "note": "Every u32 and both wire types."
  },
  {
   "property": "C08",
   "status": "proved",
   "theorems": [
    "Steit.C08_size_exact",
    "Steit.C08_nested_size_exact",
    "Steit.C08_large_key_panics"
   ],
   "note": "Every type, value and prior cache content; hypotheses: map keys are legal field numbers, encoding shorter than 2^32 bytes (as in the statement)."
  },
  {
   "property": "C09",
   "status": "proved",
   "theorems": [
    "Steit.C09_bytes_only_depend_on_data"
   ],
   "note": "Bytes equal the independently written encoding; independent of caches, runtimes and build mode."
  },
  {
   "property": "C10",
   "status": "proved",
   "theorems": [
    "Steit.C10_concurrent_to_bytes",
    "Steit.C10_concurrent_to_bytes_relaxed"
   ],
   "note": "Any number of threads, any schedule; interleaving semantics and relaxed atomics."
  },
  {
   "property": "C11",
   "status": "proved",
   "theorems": [
    "Steit.C11_roundtrip",
    "Steit.C11_roundtrip_needs_range"
   ],
   "note": "Every type and value whose signed integers are in the range of C04; map keys legal for key type and wire."
  },
  {
   "property": "C12",
   "status": "proved",
   "theorems": [
    "Steit.C12_nested_roundtrip",
    "Steit.C12_sequences",
    "Steit.C12_unique_parsing"
   ],
   "note": "Arbitrary suffix; sequences of any length; unique parsing."
  },
  {
   "property": "C13",
   "status": "proved",
   "theorems": [
    "Steit.C13_omitted_is_default",
    "Steit.C13_nondefault_is_written"
   ],
   "note": "Omitted implies default for every value; non-default is always written."
  },
  {
   "property": "C14",
   "status": "partial",
   "theorems": [
    "Steit.C14_false_debug",
    "Steit.C14_unknown_skipped_partial",
    "Steit.C14_unknown_skipped_release",
    "Steit.C14_inserted_skipped_partial",
    "Steit.C14_unknown_skipped_enum_partial"
   ],
   "note": "False in debug builds as stated: negation with a witness. Proved for every sequence of well-formed fields whose unknown ones the build can skip (all varints in release); structs and enums; exact equality of outcomes."
  },
  {
   "property": "C15",
   "status": "proved",
   "theorems": [
    "Steit.C15_order_irrelevant",
    "Steit.C15_permuted"
   ],
   "note": "Every interleaving of fields, known and unknown, any target; corollary for permutations of a written value."
  },
  {
   "property": "C16",
   "status": "proved",
   "theorems": [
    "Steit.C16_sequential",
    "Steit.C16_after_value",
    "Steit.C16_vec_append",
    "Steit.C16_list_append"
   ],
   "note": "All loop-style types, arbitrary continuation, errors included; corollaries for written values, vectors and lists."
  },
  {
   "property": "C17",
   "status": "partial",
   "theorems": [
    "Steit.C17_old_reads_new_partial",
    "Steit.C17_old_reads_new_release",
    "Steit.C17_old_reads_new_false_debug",
    "Steit.C17_new_reads_old"
   ],
   "note": "Adding fields at the top level of a struct. Old readers: proved for release builds and for skippable additions in debug builds, negation for debug. New readers: proved without exception. Changes at any depth: C55."
  },
  {
   "property": "C18",
   "status": "partial",
   "theorems": [
    "Steit.C18_false_debug",
    "Steit.C18_false_release",
    "Steit.C18_total_partial",
    "Steit.C18_deserialize_total_partial",
    "Steit.C18_small_bytes_never_panic"
   ],
   "note": "False as stated in both build modes (panic witnesses). Proved: termination for all input, and panics only on a long run of continuation bytes."
  },
  {
   "property": "C19",
   "status": "proved",
   "theorems": [
    "Steit.C19_field_isolated",
    "Steit.C19_confined",
    "Steit.C19_independent"
   ],
   "note": "Arbitrary payload and suffix for any type; sequences of payloads; isolation of message fields."
  },
  {
   "property": "C20",
   "status": "partial",
   "theorems": [
    "Steit.C20_false",
    "Steit.C20_truncated_reads_shorter_payload",
    "Steit.C20_truncated_prefix_fails_partial",
    "Steit.C20_truncated_unsigned_fails",
    "Steit.C20_truncated_signed_fails",
    "Steit.C20_truncated_bool_fails"
   ],
   "note": "False as stated (truncated nested payloads are silently accepted): negation. Proved where truncation cuts a varint. What is accepted is characterised exactly by C65."
  },
  {
   "property": "C21",
   "status": "proved",
   "theorems": [
    "Steit.C21_accepts_utf8",
    "Steit.C21_rejects_other",
    "Steit.C21_text_unique",
    "Steit.C21_every_string_is_text",
    "Steit.C21_nested"
   ],
   "note": "Every byte string; independent definition of UTF-8 by scalar values."
  },
  {
   "property": "C22",
   "status": "proved",
   "theorems": [
    "Steit.C22_array_short",
    "Steit.C22_array_long",
    "Steit.C22_written_items",
    "Steit.C22_tuple_full",
    "Steit.C22_tuple_short",
    "Steit.C22_array_from_scratch"
   ],
   "note": "Every element type, length and payload; tuples; written items qualify."
  },
  {
   "property": "C23",
   "status": "proved",
   "theorems": [
    "Steit.C23_log_bytes_parse_back",
    "Steit.C23_log_bytes_injective",
    "Steit.C23_entry_parts"
   ],
   "note": "All entry sequences whose entries are below the 4 GiB limit; unique parsing."
  },
  {
   "property": "C24",
   "status": "proved",
   "theorems": [
    "Steit.C24_replica_follows",
    "Steit.C24_replica_follows_in_rounds"
   ],
   "note": "Every state type, any history of calls at any depth (closures of *_with calls included), any cut into rounds, both build modes. Side conditions on calls as named in the statement (absent keys, insert of foreign values, swap_remove of enums, no_state fields), plus: values the wire can carry and entries below 4 GiB."
  },
  {
   "property": "C25",
   "status": "proved",
   "theorems": [
    "Steit.C25_construction",
    "Steit.C25_replay",
    "Steit.C25_calls",
    "Steit.C25_logs_where_it_sits"
   ],
   "note": "Construction, decoding (complete or not), set_runtime, replay of arbitrary bytes, and any history of API calls within the side conditions of the statement."
  },
  {
   "property": "C26",
   "status": "proved",
   "theorems": [
    "Steit.C26_replay_does_not_log",
    "Steit.C26_replay_takes_no_lock",
    "Steit.C26_reading_does_not_log",
    "Steit.C26_no_echo"
   ],
   "note": "Stated for a second transcription of everything replay runs (reading, handle, constructors), as code that may use any logger at any point; it is proved to perform no action and to return what the plain model returns."
  },
  {
   "property": "C27",
   "status": "proved",
   "theorems": [
    "Steit.C27_pausing_nests",
    "Steit.C27_active_iff_matched",
    "Steit.C27_entry_recorded_iff",
    "Steit.C27_log_multi",
    "Steit.C27_overflow"
   ],
   "note": "Exact u32 counter; all call sequences with fewer than 2^32 pauses, overflow exhibited."
  },
  {
   "property": "C28",
   "status": "proved",
   "theorems": [
    "Steit.C28_push_with",
    "Steit.C28_insert_with",
    "Steit.C28_set_with",
    "Steit.C28_api_calls_are_quiet",
    "Steit.C28_building_is_admissible",
    "Steit.C28_panic_leaves_logger_paused"
   ],
   "note": "Arbitrary closures that leave a paused logger as it is; API calls, nested closures included, are shown to do so. A panicking closure leaves the logger paused (proved)."
  },
  {
   "property": "C29",
   "status": "proved",
   "theorems": [
    "Steit.C29_replay_incremental",
    "Steit.C29_any_chunking",
    "Steit.C29_logs_are_chunks"
   ],
   "note": "Entries may be arbitrary length-prefixed bytes; failures included; any chunking."
  },
  {
   "property": "C30",
   "status": "proved",
   "theorems": [
    "Steit.C30_stops_at_failing_entry",
    "Steit.C30_prim_update_atomic",
    "Steit.C30_update_not_atomic"
   ],
   "note": "Arbitrary entry bytes; first failing entry, earlier ones applied, later ones without influence; non-update entries and primitive updates atomic; non-atomic update exhibited."
  },
  {
   "property": "C31",
   "status": "proved",
   "theorems": [
    "Steit.C31_refused_below_root",
    "Steit.C31_accepted_at_root",
    "Steit.C31_boxed_enum_always_refused",
    "Steit.C31_prim_panics"
   ],
   "note": "All types and inputs. Integers and bools panic; boxed enums are refused even at the root (defect)."
  },
  {
   "property": "C32",
   "status": "proved",
   "theorems": [
    "Steit.C32_replay_preserves_addresses",
    "Steit.C32_keys_can_leave_their_type"
   ],
   "note": "Addresses (and distinct keys) for all byte strings; the key-range part is false: negation with witness."
  },
  {
   "property": "C33",
   "status": "proved",
   "theorems": [
    "Steit.C33_push",
    "Steit.C33_pop",
    "Steit.C33_pop_empty",
    "Steit.C33_swap_remove_out_of_range",
    "Steit.C33_swap_remove_last",
    "Steit.C33_swap_remove",
    "Steit.C33_get_mut",
    "Steit.C33_history",
    "Steit.C33_from_iter"
   ],
   "note": "All item types, lists, arguments; histories of any length refine operations on plain sequences; logged entries given explicitly (push, pop, swap_remove); from_iter."
  },
  {
   "property": "C34",
   "status": "proved",
   "theorems": [
    "Steit.C34_get",
    "Steit.C34_contains",
    "Steit.C34_len",
    "Steit.C34_index",
    "Steit.C34_insert",
    "Steit.C34_insert_with",
    "Steit.C34_remove",
    "Steit.C34_remove_order",
    "Steit.C34_get_mut",
    "Steit.C34_history",
    "Steit.C34_from_iter"
   ],
   "note": "All value types, maps, keys; refinement of a finite partial function plus order; distinct keys in every history; from_iter."
  },
  {
   "property": "C35",
   "status": "partial",
   "theorems": [
    "Steit.C35_absent_remove_logs",
    "Steit.C35_absent_remove_stops_replay",
    "Steit.C35_replica_left_behind",
    "Steit.C35_present_remove_partial"
   ],
   "note": "False as expected: negation for every state, position of the map, key and continuation of the log (the replay stops there). Positive half for present keys as _partial."
  },
  {
   "property": "C36",
   "status": "partial",
   "theorems": [
    "Steit.C36_inserted_value_logs_elsewhere",
    "Steit.C36_insert_loses_later_changes_false",
    "Steit.C36_partial"
   ],
   "note": "False as expected: the general behaviour of insert is proved, with a concrete divergence. Positive half (insert_with, integers and bools) as _partial."
  },
  {
   "property": "C37",
   "status": "partial",
   "theorems": [
    "Steit.C37_enum_item_misplaced_false",
    "Steit.C37_moved_enum_logs_elsewhere",
    "Steit.C37_replica_fails_false",
    "Steit.C37_partial"
   ],
   "note": "False for enums: proved for every enum list and position; concrete failing replay. Positive half for all other item types as _partial."
  },
  {
   "property": "C38",
   "status": "proved",
   "theorems": [
    "Steit.C38_setter_logs_nothing",
    "Steit.C38_entry_is_noop",
    "Steit.C38_replica_keeps_old_value"
   ],
   "note": "Every struct; the enclosing whole-value update is C40 (it carries all fields, no_state ones included)."
  },
  {
   "property": "C39",
   "status": "proved",
   "theorems": [
    "Steit.C39_enum_setter",
    "Steit.C39_struct_setter"
   ],
   "note": "Enums: every variant and field, current or not; entries given explicitly; replicas follow. Structs: likewise, one entry."
  },
  {
   "property": "C40",
   "status": "proved",
   "theorems": [
    "Steit.C40_whole_update_overwrites",
    "Steit.C40_update_overwrites_anywhere"
   ],
   "note": "All types, any prior content, real serialized bytes."
  },
  {
   "property": "C41",
   "status": "partial",
   "theorems": [
    "Steit.C41_lost_entry_false",
    "Steit.C41_no_deadlock",
    "Steit.C41_schedules_end",
    "Steit.C41_all_return",
    "Steit.C41_without_windows_partial",
    "Steit.C41_with_windows_partial",
    "Steit.C41_replicas_follow_partial"
   ],
   "note": "False of the code as stated: a concrete schedule of a push and a pop on different items loses the pop, and the replica diverges (lost_entry_false). Proved for any number of threads, any schedule: no deadlock and termination; without pause windows the log is an interleaving of what the threads log alone (swap_remove entries stay together) and every replica of the whole state follows; with windows, entries may be lost but are never reordered within a thread, duplicated or invented, and the pause counter is restored."
  },
  {
   "property": "C42",
   "status": "proved",
   "theorems": [
    "Steit.C42_eq_decides_equality",
    "Steit.C42_equivalence",
    "Steit.C42_runtimes_ignored",
    "Steit.C42_equal_values_hash_alike",
    "Steit.C42_hash_covers_everything_compared",
    "Steit.C42_carried_values_qualify",
    "Steit.C42_equal_values_may_be_written_differently"
   ],
   "note": "Equality of every type in the model; hash is a token stream, so Hasher implementations are out of scope. Equality is a specification of its own (Equal), with keyed hash maps assumed to have distinct keys, as in Rust."
  },
  {
   "property": "C43",
   "status": "proved",
   "theorems": [
    "Steit.C43_no_loss_no_duplication",
    "Steit.C43_bytes_only_reads"
   ],
   "note": "All call sequences."
  },
  {
   "property": "C44",
   "status": "partial",
   "theorems": [
    "Steit.C44_unsigned",
    "Steit.C44_bool",
    "Steit.C44_signed_partial",
    "Steit.C44_int64_iff",
    "Steit.C44_disagreement",
    "Steit.C44_any_varint",
    "Steit.C44_overlong_varint"
   ],
   "note": "Every width, value and continuation, against the same model of the Rust writer. long outside [-2^62, 2^62) is proved not to survive (iff), with the same wrong value as in Rust; the disagreement with Rust on the smaller widths is proved for all values concerned. Overlong varints: exact up to ten bytes, false with eleven."
  },
  {
   "property": "C45",
   "status": "partial",
   "theorems": [
    "Steit.C45_decodes_partial",
    "Steit.C45_decodes_like_rust",
    "Steit.C45_generic_string_dropped",
    "Steit.C45_empty_string_null",
    "Steit.C45_root_option",
    "Steit.C45_size_limit",
    "Steit.C45_unknown_skipped",
    "Steit.C45_reads_newer",
    "Steit.C45_unknown_variant"
   ],
   "note": "Every type with a C# class (no tuples, HashMaps, boxed primitives as fields, strings under type parameters) and every value below 2^31 bytes; data written by newer programs included. Each exclusion is either shown false (generic strings, root options, sizes from 2^31, i64) or does not compile (C49_boxed_primitive)."
  },
  {
   "property": "C46",
   "status": "partial",
   "theorems": [
    "Steit.C46_client_follows_partial",
    "Steit.C46_like_rust_partial",
    "Steit.C46_joins_late_partial",
    "Steit.C46_in_rounds_partial",
    "Steit.C46_absent_key",
    "Steit.C46_unknown_entry_resets_root",
    "Steit.C46_unknown_field_ignored",
    "Steit.C46_variant_entry"
   ],
   "note": "Every type with a C# class (Mirrored), every history of calls (side conditions of C24), any rounds, clients that start from the same data or from a snapshot. Each exclusion is either proved to break the claim (removal of absent keys: C46_absent_key; entries and fields from newer programs: C46_unknown_entry_resets_root, C46_unknown_field_ignored; types: see C45) or is a size of 2 GiB."
  },
  {
   "property": "C47",
   "status": "proved",
   "theorems": [
    "Steit.Derive.C47_accepts_exactly",
    "Steit.Derive.C47_code_is_generated",
    "Steit.Derive.C47_schema_is_well_formed"
   ],
   "note": "Every declaration: acceptance is equivalent to the conditions (attribute syntax included), accepted declarations yield code for exactly the declared fields and variants, and the declared type meets the well-formedness condition used by all other theorems (given that the compiler accepts the field types). Field names, generics other than const generics and clashes found by the Rust compiler are not modelled."
  },
  {
   "property": "C48",
   "status": "partial",
   "theorems": [
    "Steit.Gen.C48_terminates",
    "Steit.Gen.C48_only_reachable",
    "Steit.Gen.C48_complete_partial",
    "Steit.Gen.C48_exactly_once_partial",
    "Steit.Gen.C48_generated_partial",
    "Steit.Gen.C48_types_tell_recursive_boxes",
    "Steit.Gen.C48_types_tell_without_box",
    "Steit.Gen.C48_behind_a_box_false",
    "Steit.Gen.C48_same_name_false"
   ],
   "note": "False of the code as stated, in two ways (behind a Box; same names in different modules), each with a concrete program. Proved on every graph: termination with a bound on the recursion depth, no message twice, none unreachable. Proved where equal types have equal messages behind them: all reachable messages, and exactly the files generated from them. Programs whose messages can be told apart by name and that use Box for recursion only (no Box<T> can be reached but through T), or not at all, are shown to be of that kind."
  },
  {
   "property": "C49",
   "status": "proved",
   "theorems": [
    "Steit.Gen.C49_writer",
    "Steit.Gen.C49_well_bracketed",
    "Steit.Gen.C49_generates_iff",
    "Steit.Gen.C49_camel_case",
    "Steit.Gen.C49_snake_camel_snake",
    "Steit.Gen.C49_camel_snake_camel",
    "Steit.Gen.C49_snake_case_names_stay_distinct",
    "Steit.Gen.C49_other_names_collide",
    "Steit.Gen.C49_keyword_as_variable",
    "Steit.Gen.C49_map_behind_alias",
    "Steit.Gen.C49_boxed_primitive"
   ],
   "note": "Every metadata and setting whose names contain no brackets, spaces or line breaks; the case tables of the standard library are a parameter (required to keep names names), with ASCII as an instance. That the text is accepted by a C# compiler is not claimed, and false in the cases exhibited."
  },
  {
   "property": "C50",
   "status": "proved",
   "theorems": [
    "Steit.C50_entry_acts_on_its_object",
    "Steit.C50_other_objects_untouched",
    "Steit.C50_unrelated_entries_commute",
    "Steit.C50_log_order_of_unrelated_entries"
   ],
   "note": "Every position at any depth, every entry, failures included."
  },
  {
   "property": "C51",
   "status": "proved",
   "theorems": [
    "Steit.C51_call_on_an_object_inside"
   ],
   "note": "Every position at any depth and every call within the side conditions of C24."
  },
  {
   "property": "C52",
   "status": "proved",
   "theorems": [
    "Steit.C52_option_roundtrip",
    "Steit.C52_compares_like_option",
    "Steit.C52_written_like_option"
   ],
   "note": "Every value type, with the equality of C42."
  },
  {
   "property": "C53",
   "status": "partial",
   "theorems": [
    "Steit.C53_constructors_misplaced_false",
    "Steit.C53_root_replay_panics",
    "Steit.C53_root_setter_panics",
    "Steit.C53_nested_setter_overwrites_container",
    "Steit.C53_set_runtime_repairs_partial",
    "Steit.C53_replica_fails_false"
   ],
   "note": "False of the code: the constructors store the runtime without the variant tag. Proved: they never sit at the runtime given, replay and setters panic at the root, setters below the root log an update of the container, a concrete replica fails; the partial theorem says set_runtime repairs the position."
  },
  {
   "property": "C54",
   "status": "proved",
   "theorems": [
    "Steit.C54_decoding_ends",
    "Steit.C54_fuel_independent",
    "Steit.C54_replay_ends"
   ],
   "note": "Every type, input and object."
  },
  {
   "property": "C55",
   "status": "partial",
   "theorems": [
    "Steit.C55_other_revision_partial",
    "Steit.C55_other_revision_nested_partial",
    "Steit.C55_false_debug",
    "Steit.C55_narrower_truncates",
    "Steit.C55_unknown_variant"
   ],
   "note": "Every pair of types related by Rev (fields and variants added, dropped or retyped at any depth, wider integers, containers of the same wire shape), every value the reader has a chance with (Seen). Left out, and proved necessary: unknown varints of three or more bytes for debug readers (C55_false_debug), variants the reader does not know (C55_unknown_variant), narrower integers (C55_narrower_truncates)."
  },
  {
   "property": "C56",
   "status": "partial",
   "theorems": [
    "Steit.C56_other_revision_follows_partial",
    "Steit.C56_total",
    "Steit.C56_in_rounds_partial",
    "Steit.C56_joins_late_partial",
    "Steit.C56_unknown_refused",
    "Steit.C56_stops_at_unknown",
    "Steit.C56_stateless_ignored",
    "Steit.C56_false_stateless",
    "Steit.C56_retyped_misread"
   ],
   "note": "Every pair of types related by Rev and every history within the side conditions of C24, as long as every entry is addressed to an object the replica knows. Proved for the rest: entries for fields or variants the replica does not have are refused and replay stops there, having applied everything before (C56_unknown_refused, C56_stops_at_unknown); entries for fields the replica has marked no_state are silently ignored (C56_stateless_ignored, C56_false_stateless). Fields whose wire type changed: reading skips them, replaying takes the bytes for the new type (C56_retyped_misread)."
  },
  {
   "property": "C57",
   "status": "proved",
   "theorems": [
    "Steit.Gen.C57_struct",
    "Steit.Gen.C57_enum",
    "Steit.Gen.C57_client_wire_types",
    "Steit.Gen.C57_false_generic_string"
   ],
   "note": "Every message whose names contain no brackets, spaces or line breaks; the tables are read off the generated text itself by a reader in the specification. Metadata of fields is related to types by DescribesField (what field_type_meta yields). Fields the client does not support (GoodField) are excluded, with a counterexample (C57_false_generic_string)."
  },
  {
   "property": "C58",
   "status": "partial",
   "theorems": [
    "Steit.C58_paths",
    "Steit.C58_deserialize_quiet",
    "Steit.C58_changes_announced",
    "Steit.C58_narrated_partial",
    "Steit.C58_variant_event_never",
    "Steit.C58_root_silent"
   ],
   "note": "Paths and \"one fitting event or no change\" hold for every type, root and bytes (lists below 2^32 items). One event per entry holds for every history of Rust calls within the side conditions of C46. False of the code: entries replacing the root change everything silently (C58_root_silent), and the event generated enums declare for changes of variant is never raised by logs Rust writes (C58_variant_event_never)."
  },
  {
   "property": "C59",
   "status": "partial",
   "theorems": [
    "Steit.C59_reads_other_revision_partial",
    "Steit.C59_client_follows_partial",
    "Steit.C59_in_rounds_partial",
    "Steit.C59_joins_late_partial",
    "Steit.C59_retyped_misread",
    "Steit.C59_array_missing",
    "Steit.C59_list_to_vec"
   ],
   "note": "Every pair of types related by Rev with a C# class, every value and every history within the side conditions of C46, any rounds, late joiners. Left out, and each shown to break the claim: fields whose wire type changed (C59_retyped_misread; for logs only, snapshots are covered), Lists that became Vecs (C59_list_to_vec; logs only), arrays the writer does not have (C59_array_missing); and the types and sizes excluded in C45."
  },
  {
   "property": "C60",
   "status": "partial",
   "theorems": [
    "Steit.C60_returned_call_is_complete",
    "Steit.C60_without_failures",
    "Steit.C60_failed_call_changes_nothing_partial",
    "Steit.C60_replica_follows_survivor_partial",
    "Steit.C60_client_follows_survivor_partial",
    "Steit.C60_poisoned_logger_freezes",
    "Steit.C60_torn_swap_remove_false",
    "Steit.C60_setter_not_atomic_false",
    "Steit.C60_panicking_closure_false",
    "Steit.C60_client_after_break_partial",
    "Steit.C60_after_torn_entry_false"
   ],
   "note": "Every type, every history of calls (side conditions of C24), every pattern of failures, Rust replicas and C# clients. False of the code, and proved so: a swap_remove of whose two entries only the first is recorded leaves a log with a pop that did not happen (C60_torn_swap_remove_false, for all lists); setters that switch a variant are not atomic (C60_setter_not_atomic_false; the log agrees with what is left); a closure that panics leaves the logger paused (C60_panicking_closure_false). Connections that break in the middle of an entry: the client shows what the program is left with (C60_client_after_break_partial); sending more afterwards misleads replicas silently (C60_after_torn_entry_false)."
  },
  {
   "property": "C61",
   "status": "partial",
   "theorems": [
    "Steit.C61_at_most_one_entry_misread",
    "Steit.C61_cut_update_resets_false",
    "Steit.C61_replica_of_cut_log_partial",
    "Steit.C61_client_of_cut_log",
    "Steit.C61_client_stops_at_first_bad_entry",
    "Steit.C61_cut_update_misread_false"
   ],
   "note": "Every type whose objects can be roots, every history (side conditions of C24) and every cut. Proved in full for C# clients, and for Rust replicas unless the cut falls in the payload of an entry and leaves something: then the whole entries are applied and at most one entry, the cut one, is misread (C61_at_most_one_entry_misread). That part is false of the code: any log of a struct, list or map that ends with an update can be cut so that the replica is silently reset (C61_cut_update_resets_false, for all logs), and further outcomes are exhibited (C61_cut_update_misread_false); all outcomes are characterised by C65_cut_log. For clients, exceptions in the middle of a whole entry do not arise here and are not modelled."
  },
  {
   "property": "C62",
   "status": "proved",
   "theorems": [
    "Steit.C62_decode_from_any_source",
    "Steit.C62_replay_from_any_source",
    "Steit.C62_failing_source_reported",
    "Steit.C62_failing_replay_reported",
    "Steit.C62_broken_source",
    "Steit.C62_replica_over_broken_connection",
    "Steit.C62_as_mut_read_after_eof_false"
   ],
   "note": "Every well-formed type, every target, every source: reads may return any number of bytes, fail at any call. iowrap::Eof, io::Take and read_to_end are modelled after their documentation (they are outside the repository); sources do not return Interrupted. C62_failing_source_reported is about sized types (integers and bools stop reading by themselves). C62_as_mut_read_after_eof_false: the public as_mut_read, called after eof, skips a byte; no code of the library does that."
  },
  {
   "property": "C63",
   "status": "proved",
   "theorems": [
    "Steit.C63_serialize_to_any_sink",
    "Steit.C63_reliable_sink",
    "Steit.C63_through_any_pipe",
    "Steit.C63_to_bytes",
    "Steit.C63_log_to_any_sink",
    "Steit.C63_client_behind_any_sink"
   ],
   "note": "Every well-formed type, every value that can be written (Writable, encoding below 2^32 bytes), every cache content, every sink that honours the contract of io::Write::write (a failing call takes nothing; Interrupted is not modelled). C63_to_bytes ties the call-by-call model to the one used elsewhere, for every value. C63_client_behind_any_sink joins it to C61."
  },
  {
   "property": "C64",
   "status": "proved",
   "theorems": [
    "Steit.C64_well_formed",
    "Steit.C64_values",
    "Steit.C64_deeper",
    "Steit.C64_values_bottom",
    "Steit.C64_encode",
    "Steit.C64_equality",
    "Steit.C64_new",
    "Steit.C64_decode",
    "Steit.C64_deserialize",
    "Steit.C64_decode_shallow",
    "Steit.C64_round_trip",
    "Steit.C64_nesting_unlimited",
    "Steit.C64_nesting_bound",
    "Steit.C64_replay",
    "Steit.C64_calls"
   ],
   "note": "Programs are families of declarations mentioning each other by number (any number of them, mutual recursion included). Decls.WF: the conditions of Ty.WF and that default values can be built (a mention by name is inside Option, Vec, HashMap, List, Map or a non-default variant; others can be written out). Unrollings may stop at any messages (Stub). C64_nesting_unlimited is the disagreement: no depth limit. The Rust functions and Rust API calls are covered; the C# client is modelled on Ty and its behaviour on unrollings is not compared here."
  },
  {
   "property": "C65",
   "status": "proved",
   "theorems": [
    "Steit.C65_cut_value_remains",
    "Steit.C65_all_remains_read",
    "Steit.C65_cut_nested_value_remains",
    "Steit.C65_cut_entry",
    "Steit.C65_cut_log"
   ],
   "note": "Every type and value (Carried, below 4 GiB, as C11). Remains/Blank (Spec/Cut.lean) are defined over types only; C65_cut_value_remains and C65_all_remains_read together say they are exactly what can be read. C65_cut_log completes C61 for Rust replicas: it says what the one misread entry is (CutEntry). Which of EOF and InvalidData is returned is not said (InvalidData arises from texts cut inside a character). Cuts seen by C# clients: C61."
  },
  {
   "property": "C66",
   "status": "partial",
   "theorems": [
    "Steit.Gen.C66_done_partial",
    "Steit.Gen.C66_stopped",
    "Steit.Gen.C66_working_disk",
    "Steit.Gen.C66_order_does_not_matter",
    "Steit.Gen.C66_again",
    "Steit.Gen.C66_from_root_partial",
    "Steit.Gen.C66_ok_means_complete_false",
    "Steit.Gen.C66_nothing_is_removed"
   ],
   "note": "Ok does not mean complete files (C66_ok_means_complete_false, on a full disk); C66_done_partial says how much can be missing, C66_working_disk that nothing is on a working disk. C66_from_root_partial adds the assumptions of C48 (types tell what is behind them, distinct names). Err and panics: C66_stopped. Different paths are different files (no links, no case-insensitive file systems); names with path separators are not treated specially."
  },
  {
   "property": "C67",
   "status": "partial",
   "theorems": [
    "Steit.Gen.C67_parameters",
    "Steit.Gen.C67_struct",
    "Steit.Gen.C67_enum",
    "Steit.Gen.C67_names_are_found",
    "Steit.Gen.C67_arguments_are_reached",
    "Steit.Gen.C67_files_are_closed_partial",
    "Steit.Gen.C67_supported",
    "Steit.Gen.C67_alias_type",
    "Steit.Gen.C67_describes",
    "Steit.Gen.C67_variant_hides_message",
    "Steit.Gen.C67_message_named_like_builtin"
   ],
   "note": "False in the cases C67_variant_hides_message and C67_message_named_like_builtin (and C49_map_behind_alias); proved where messages have names of their own (OwnNames), variants and type parameters are not named like what the fields mention (Clear), and declarations compile in Rust (Compiles). C67_files_are_closed_partial adds the assumption of C48 on boxes. What a Rust path stands for is taken as resolved; lookup of names in C# (Finds) covers type parameters, nested classes, messages in one namespace, System and the library. Wire types of primitive map keys are not looked at. C67_parameters: names and type parameters of classes."
  },
  {
   "property": "C68",
   "status": "partial",
   "theorems": [
    "Steit.Gen.C68_struct",
    "Steit.Gen.C68_enum",
    "Steit.Gen.C68_struct_clean_iff",
    "Steit.Gen.C68_enum_clean_iff",
    "Steit.Gen.C68_false_path",
    "Steit.Gen.C68_false_class",
    "Steit.Gen.C68_false_underscores",
    "Steit.Gen.C68_false_event",
    "Steit.Gen.C68_false_param",
    "Steit.Gen.C68_false_tag",
    "Steit.Gen.C68_false_new"
   ],
   "note": "What is declared is proved for all metadata whose names are identifiers (C68_struct, C68_enum). That this is valid C# as far as names of members go is false in general (C68_false_path, _class, _underscores, _event, _param, _tag, _new) and characterised exactly by C68_struct_clean_iff and C68_enum_clean_iff. Spec/Members.lean reads declarations line by line and knows the rules CS0102, CS0111 (by name only), CS0542 and CS1520; bodies of methods, keywords as names and members inherited from object are not looked at."
  },
  {
   "property": "C69",
   "status": "partial",
   "theorems": [
    "Steit.Gen.C69_struct_bodies",
    "Steit.Gen.C69_enum_bodies",
    "Steit.Gen.C69_values",
    "Steit.Gen.C69_constructs",
    "Steit.Gen.C69_reads",
    "Steit.Gen.C69_replays",
    "Steit.Gen.C69_follows_rust_partial",
    "Steit.Gen.C69_log_entries",
    "Steit.Gen.C69_generic_enum",
    "Steit.Gen.C69_false_generic_enum",
    "Steit.Gen.C69_log_entry_file",
    "Steit.Gen.C69_log_entries_as_shipped",
    "Steit.Gen.C69_entry_read_as_shipped",
    "Steit.Gen.C69_maybe_file",
    "Steit.Gen.C69_false_maybe_as_shipped",
    "Steit.Gen.C69_struct_constructor",
    "Steit.Gen.C69_enum_constructor",
    "Steit.Gen.C69_replays_as_shipped",
    "Steit.Gen.C69_follows_rust_as_shipped_partial"
   ],
   "note": "C69_log_entries: the class generated for LogEntry reads entries as the client model does; C69_log_entry_file, C69_log_entries_as_shipped, C69_entry_read_as_shipped: so does the class in steit-csharp/src/State/LogEntry.cs, whose text, character by character, is what the generator writes (so is that of Builtins/Maybe.cs, C69_maybe_file; C69_false_maybe_as_shipped: that class returns a type that does not exist). Every set of declarations that compile in Rust, whose names fit (OwnNames, Clear, C68) and whose enums have no type parameters (Ready); every type reached and every unrolling deep enough for the input (Models); every input, good or bad. False for generic enums (C69_generic_enum, all of them but for coincidences of names; C69_false_generic_enum, an instance). C69_replays_as_shipped, C69_follows_rust_as_shipped_partial: replay with log entries read by the shipped class. C69_follows_rust_partial has the side conditions of C46. What is read off the text and what is not is said in Model/Classes.lean; the lines of the methods that are not read are the ones meant, whatever the declaration (C69_struct_bodies, C69_enum_bodies, C69_struct_constructor, C69_enum_constructor); the C# compiler is trusted to accept what is read."
  },
  {
   "property": "C70",
   "status": "proved",
   "theorems": [
    "Steit.C70_cut_value_shown",
    "Steit.C70_first_parts_shown",
    "Steit.C70_cut_nested_noticed",
    "Steit.C70_rust_reads_more",
    "Steit.Gen.C70_generated_classes"
   ],
   "note": "Types with a C# counterpart (Mirrored, Rooted) and values whose encoding C# can read (Legible, below 2 GiB), as in C45; C70_first_parts_shown is the converse; C70_cut_nested_noticed for values with a length in front; C70_generated_classes for classes read off the generated text. C70_rust_reads_more: a cut that Rust accepts and the client refuses."
  },
  {
   "property": "C71",
   "status": "partial",
   "theorems": [
    "Steit.Gen.C71_metadata",
    "Steit.Gen.C71_accepts_text",
    "Steit.Gen.C71_well_formed",
    "Steit.Gen.C71_mirrored",
    "Steit.Gen.C71_models",
    "Steit.Gen.C71_client",
    "Steit.Gen.C71_follows_rust_partial"
   ],
   "note": "C71_metadata, C71_accepts_text, C71_well_formed, C71_mirrored, C71_models and C71_client hold for every accepted program (Accepted: what macro and compiler check, plus field types the generator has a class for, C49/C68). C71_follows_rust_partial: with C69_follows_rust_partial and what is missing there (histories outside CallsSync, an option of a non-primitive as the root, what C# cannot represent). Recursive messages are unrolled, as in C64: the number of unrollings needed for an input is linear in its length."
  },
  {
   "property": "C72",
   "status": "partial",
   "theorems": [
    "Steit.Derive.C72_struct",
    "Steit.Derive.C72_struct_eq",
    "Steit.Derive.C72_struct_hash",
    "Steit.Derive.C72_enum",
    "Steit.Derive.C72_enum_hash",
    "Steit.Derive.C72_enum_eq_partial",
    "Steit.Derive.C72_listed",
    "Steit.Derive.C72_false_enum_eq"
   ],
   "note": "C72_struct, C72_struct_eq, C72_struct_hash, C72_enum and C72_enum_hash are exact: the text compiles if and only if names are as said, and then it is Ty.dict, Ty.eq, Ty.hash. C72_enum_eq_partial says exactly when == of an enum compiles, and that it is Ty.eq if no compared field is called other_ and the name of another; it is false otherwise (C72_false_enum_eq, for every type with unequal values). Only names are looked up: types, bounds and paths in the text are not modelled (Model/DeriveCode.lean)."
  },
  {
   "property": "C73",
   "status": "partial",
   "theorems": [
    "Steit.C73_decoded",
    "Steit.C73_merged",
    "Steit.C73_iterates",
    "Steit.C73_passed_on",
    "Steit.C73_hops",
    "Steit.C73_passed_on_to_client",
    "Steit.C73_replayed",
    "Steit.C73_false_replayed_key"
   ],
   "note": "C73_decoded, C73_merged, C73_iterates, C73_passed_on, C73_hops and C73_passed_on_to_client hold for every type and all bytes, up to an explicit size (24 * growth * (length + 1) < 2^32, for the client 2^31). C73_replayed needs the keys on the paths of the log to be keys of the maps; without this it is false (C73_false_replayed_key, C32_keys_can_leave_their_type). The bytes sent on are the same for types without HashMap; with one the value is, up to the order of entries (C82)."
  },
  {
   "property": "C74",
   "status": "proved",
   "theorems": [
    "Steit.C74_decoded",
    "Steit.C74_merged",
    "Steit.C74_replayed",
    "Steit.C74_encoded"
   ],
   "note": "weight counts objects and string bytes; growth is the size of the declaration, arrays counted with their items. All theorems hold for all bytes, on success and on failure. What Vec and HashMap reserve beyond their length is not modelled."
  },
  {
   "property": "C75",
   "status": "proved",
   "theorems": [
    "Steit.Bounds.C75_supertraits",
    "Steit.Bounds.C75_instances",
    "Steit.Bounds.C75_state_iff_deserialize",
    "Steit.Bounds.C75_compiles_exactly",
    "Steit.Bounds.C75_states_compile",
    "Steit.Bounds.C75_struct_needs_bounds",
    "Steit.Bounds.C75_default_needs_ctors",
    "Steit.Bounds.C75_enum_setters_need_ctors",
    "Steit.Bounds.C75_compiles_as_written",
    "Steit.Bounds.C75_accepted"
   ],
   "note": "C75_compiles_exactly says which declarations compile; C75_supertraits, C75_instances, C75_state_iff_deserialize, C75_states_compile and C75_accepted hold for all programs that do. The exceptions in the statement: C75_struct_needs_bounds, C75_default_needs_ctors, C75_enum_setters_need_ctors (and Eq without PartialEq, in Good). Modelled are impl headers, and what the code asks of field types by trait; lifetimes, where clauses written by the user, associated types, the order of derives and Debug/Clone/Copy are not (Model/Bounds.lean)."
  },
  {
   "property": "C76",
   "status": "partial",
   "theorems": [
    "Steit.C76_states_follow",
    "Steit.C76_clients_follow",
    "Steit.C76_popped_item_keeps_address",
    "Steit.C76_removed_value_keeps_address",
    "Steit.C76_rerooted",
    "Steit.C76_popped_item_stops_replay_false",
    "Steit.C76_removed_value_stops_replay_false",
    "Steit.C76_removed_enum_comes_back_false",
    "Steit.C76_swap_removed_item_misleads_false",
    "Steit.C76_replica_follows_clone_false",
    "Steit.C76_shared_logger_false"
   ],
   "note": "Proved in full: C76_states_follow, C76_clients_follow (any number of states), C76_rerooted, C76_popped_item_keeps_address, C76_removed_value_keeps_address. That objects which left a state (or clones) do not disturb its replicas is false: C76_popped_item_stops_replay_false and C76_removed_value_stops_replay_false (lists and maps anywhere), C76_swap_removed_item_misleads_false, C76_removed_enum_comes_back_false, C76_replica_follows_clone_false, C76_shared_logger_false."
  },
  {
   "property": "C77",
   "status": "partial",
   "theorems": [
    "Steit.C77_unlogged_change",
    "Steit.C77_drift_stays",
    "Steit.C77_assigned",
    "Steit.C77_client_drift_stays",
    "Steit.C77_call_heals",
    "Steit.C77_setter_heals",
    "Steit.C77_assigned_object_is_silent",
    "Steit.C77_call_inside_misleads_false",
    "Steit.C77_call_inside_stops_replay_false"
   ],
   "note": "Proved in full: C77_unlogged_change, C77_drift_stays, C77_client_drift_stays (C# clients), C77_assigned, C77_call_heals, C77_setter_heals (messages whose field has its address), C77_assigned_object_is_silent. That replicas follow calls on or inside the assigned object is false: C77_call_inside_misleads_false, C77_call_inside_stops_replay_false."
  },
  {
   "property": "C78",
   "status": "proved",
   "theorems": [
    "Steit.C78_decoded",
    "Steit.C78_decoded_root",
    "Steit.C78_new",
    "Steit.C78_replayed",
    "Steit.C78_replay_ok"
   ],
   "note": "csWeight counts objects and string bytes in UTF-8. Asked of .NET: no invalid byte becomes more than one U+FFFD (Replaces). What List<T> and Dictionary reserve beyond their length, paths, and the memory of readers are not modelled."
  },
  {
   "property": "C79",
   "status": "partial",
   "theorems": [
    "Steit.C79_redo",
    "Steit.C79_overlap",
    "Steit.C79_repeats",
    "Steit.C79_client_redo",
    "Steit.C79_client_overlap",
    "Steit.C79_client_repeats",
    "Steit.C79_client_shows",
    "Steit.C79_push_false",
    "Steit.C79_pop_false",
    "Steit.C79_remove_false",
    "Steit.C79_redo_refused"
   ],
   "note": "Proved in full for logs of updates: C79_repeats, C79_redo, C79_overlap and, for C# clients, C79_client_repeats, C79_client_redo, C79_client_overlap (with C79_client_shows: what a client shows does not depend on the order of a dictionary). Of other entries it is false: C79_push_false, C79_pop_false, C79_remove_false; C79_redo_refused: a second replay of updates that Rust refuses and C# accepts."
  },
  {
   "property": "C80",
   "status": "partial",
   "theorems": [
    "Steit.C80_merge",
    "Steit.C80_merge_modes",
    "Steit.C80_replay",
    "Steit.C80_stay",
    "Steit.C80_modes",
    "Steit.C80_modes_false",
    "Steit.C80_restarted",
    "Steit.C80_late_joiner",
    "Steit.C80_clients_stay"
   ],
   "note": "Proved in full for replicas in one build mode: C80_merge, C80_replay, C80_stay (no assumption on the messages), C80_restarted, C80_late_joiner, and C80_clients_stay for C# clients. Across build modes it is proved as long as the debug build does not panic (C80_merge_modes, C80_modes) and false otherwise (C80_modes_false). With HashMaps in different orders: C82_stay."
  },
  {
   "property": "C81",
   "status": "partial",
   "theorems": [
    "Steit.C81_relay",
    "Steit.C81_end_to_end",
    "Steit.C81_chain",
    "Steit.C81_from_value",
    "Steit.C81_into_raw",
    "Steit.C81_false_for_varints",
    "Steit.C81_merged",
    "Steit.C81_false_repeated_string",
    "Steit.C81_client_partial",
    "Steit.C81_str"
   ],
   "note": "Proved in full for length-prefixed parts: C81_relay, C81_end_to_end, C81_chain, C81_from_value, C81_into_raw, C81_merged, C81_str. False of integers and bools (C81_false_for_varints) and of messages that repeat a hidden string field (C81_false_repeated_string). C81_client_partial: C# clients, under the conditions of C45. Byte for byte is for relays without a HashMap of their own; with one it is the value up to order, C82_relayed."
  },
  {
   "property": "C82",
   "status": "partial",
   "theorems": [
    "Steit.C82_equal",
    "Steit.C82_written",
    "Steit.C82_false_bytes",
    "Steit.C82_roundtrip",
    "Steit.C82_merge",
    "Steit.C82_relayed",
    "Steit.C82_stay",
    "Steit.C82_replica_follows"
   ],
   "note": "Everything but sameness of bytes is proved in full: C82_equal, C82_written, C82_roundtrip, C82_merge, C82_relayed, C82_stay, C82_replica_follows. Sameness of bytes is false: C82_false_bytes."
  },
  {
   "property": "C83",
   "status": "partial",
   "theorems": [
    "Steit.C83_release_writes",
    "Steit.C83_release_roundtrip",
    "Steit.C83_debug_writes",
    "Steit.C83_debug_exact",
    "Steit.C83_false_lost",
    "Steit.C83_false_sum",
    "Steit.C83_false_injection"
   ],
   "note": "What happens at any size is proved in full: C83_release_writes, C83_release_roundtrip, C83_debug_writes, C83_debug_exact. That a value which is too large is refused is false: C83_false_lost (both builds), C83_false_sum (release), C83_false_injection (both builds)."
  },
  {
   "property": "C84",
   "status": "proved",
   "theorems": [
    "Steit.C84_exact",
    "Steit.C84_history",
    "Steit.C84_brief",
    "Steit.C84_bytes"
   ],
   "note": "C84_exact and C84_history name the entries; C84_brief and C84_bytes draw the bounds from them."
  },
  {
   "property": "C85",
   "status": "proved",
   "theorems": [
    "Steit.C85_overwritten",
    "Steit.C85_reorder",
    "Steit.C85_replica",
    "Steit.C85_absent_false",
    "Steit.C85_order_false",
    "Steit.C85_client_overwritten",
    "Steit.C85_client_reorder",
    "Steit.C85_client_follows",
    "Steit.C85_client_variant_false",
    "Steit.C85_compacted",
    "Steit.C85_compacted_replica",
    "Steit.C85_client_compacted"
   ],
   "note": "C85_absent_false and C85_order_false mark where the property ends: objects that do not exist at the start. C85_client_variant_false: on clients, also updates addressed to a variant of an enum, which are never logged."
  },
  {
   "property": "C86",
   "status": "proved",
   "theorems": [
    "Steit.C86_peers_agree",
    "Steit.C86_all_read",
    "Steit.C86_same_bytes",
    "Steit.C86_replica",
    "Steit.C86_client",
    "Steit.C86_same_object_false",
    "Steit.C86_replaced_false"
   ],
   "note": "Calls within the side conditions of C24, entries below 4 GiB (C# clients: 2 GiB). The objects exist at the start. C86_same_object_false and C86_replaced_false mark where the property ends."
  },
  {
   "property": "C87",
   "status": "proved",
   "theorems": [
    "Steit.C87_peers_agree",
    "Steit.C87_all_read",
    "Steit.C87_replica",
    "Steit.C87_client",
    "Steit.C87_order_false",
    "Steit.C87_same_key_false"
   ],
   "note": "Calls within the side conditions of C24, entries below 4 GiB (C# clients: 2 GiB). The maps exist at the start, the values need not. C87_order_false and C87_same_key_false mark where the property ends."
  },
  {
   "property": "C88",
   "status": "proved",
   "theorems": [
    "Steit.C88_restarts",
    "Steit.C88_joins",
    "Steit.C88_client_joins",
    "Steit.C88_unread_false",
    "Steit.C88_again_false"
   ],
   "note": "Calls within the side conditions of C24, entries and snapshots below 4 GiB (C# clients: 2 GiB). C88_unread_false and C88_again_false mark where the property ends."
  },
  {
   "property": "C89",
   "status": "proved",
   "theorems": [
    "Steit.Gen.C89_enum_members",
    "Steit.Gen.C89_enum_makes"
   ],
   "note": "C89_enum_members is about all enums; C89_enum_makes adds what constructor and ReplaceAt do with the same numbers, for enums with distinct tags (Rust: C47) and names without spaces and punctuation. The methods New‹Variant› of enums with type parameters have the stated lines, and these are not valid C# (C69_false_generic_enum)."
  },
  {
   "property": "C90",
   "status": "proved",
   "theorems": [
    "Steit.Gen.C90_opening",
    "Steit.Gen.C90_order"
   ],
   "note": "C90_opening: what is in the file; C90_order: independence of the order. A namespace that is given twice, or is one of the library, gets two using lines, which C# accepts with a warning."
  },
  {
   "property": "C91",
   "status": "proved",
   "theorems": [
    "Steit.Gen.C91_struct",
    "Steit.Gen.C91_enum"
   ],
   "note": "About the lines of the methods. The events are those of C68, one for each property; C57 says which handler a change is told."
  }
 ]
}