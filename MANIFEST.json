{
 "claims": [
  {
   "property": "C01",
   "status": "proved",
   "theorems": [
    "Lev.Props.c01_standard_min_ops"
   ],
   "note": ""
  },
  {
   "property": "C02",
   "status": "proved",
   "theorems": [
    "Lev.Props.c02_mergeAndSplit_min_ops"
   ],
   "note": ""
  },
  {
   "property": "C03",
   "status": "proved",
   "theorems": [
    "Lev.Props.c03_transposition_min_alignment"
   ],
   "note": ""
  },
  {
   "property": "C04",
   "status": "partial",
   "theorems": [
    "Lev.Props.c04_documented_claim_false",
    "Lev.Props.c04_not_below_min_ops_partial",
    "Lev.Props.c04_at_most_three_halves_partial",
    "Lev.Props.c04_three_halves_is_sharp",
    "Lev.Props.c04_single_operation_partial"
   ],
   "note": "The documented claim is false; the negation is proved on the witness CA/ABC. The partial theorems are what holds: between the least number of operations and 3/2 of it; the factor is sharp."
  },
  {
   "property": "C05",
   "status": "proved",
   "theorems": [
    "Lev.Props.c05_zero_iff_eq"
   ],
   "note": ""
  },
  {
   "property": "C06",
   "status": "proved",
   "theorems": [
    "Lev.Props.c06_symmetric",
    "Lev.Props.c06_symmetric_same_object"
   ],
   "note": ""
  },
  {
   "property": "C07",
   "status": "proved",
   "theorems": [
    "Lev.Props.c07_triangle"
   ],
   "note": ""
  },
  {
   "property": "C08",
   "status": "partial",
   "theorems": [
    "Lev.Props.c08_triangle_false",
    "Lev.Props.c08_triangle_three_halves_partial",
    "Lev.Props.c08_three_halves_is_sharp"
   ],
   "note": "The documented triangle inequality is false; the negation is proved on CA/AC/ABC. The partial theorem has the factor 3/2, which is sharp."
  },
  {
   "property": "C09",
   "status": "proved",
   "theorems": [
    "Lev.Props.c09_left_invariant",
    "Lev.Props.c09_right_invariant"
   ],
   "note": ""
  },
  {
   "property": "C10",
   "status": "proved",
   "theorems": [
    "Lev.Props.c10_length_bounds",
    "Lev.Props.c10_comparison"
   ],
   "note": ""
  },
  {
   "property": "C11",
   "status": "proved",
   "theorems": [
    "Lev.Props.c11_history_independent"
   ],
   "note": ""
  },
  {
   "property": "C12",
   "status": "proved",
   "theorems": [
    "Lev.Props.c12_concurrent_answers",
    "Lev.Props.c12_no_data_race",
    "Lev.Props.c12_no_deadlock"
   ],
   "note": "Interleaving semantics with the shared mutex; table accesses inside the lock are atomic steps, justified by the race-freedom theorem."
  },
  {
   "property": "C13",
   "status": "proved",
   "theorems": [
    "Lev.Props.c13_bounded_accesses",
    "Lev.Props.c13_executions_finite"
   ],
   "note": "Bound on table accesses of one call for arbitrary answers, and finiteness of every execution of any number of threads."
  },
  {
   "property": "C14",
   "status": "proved",
   "theorems": [
    "Lev.Props.c14_unordered_pair",
    "Lev.Props.c14_hash_respects_eq"
   ],
   "note": ""
  },
  {
   "property": "C15",
   "status": "proved",
   "theorems": [
    "Lev.Props.c15_contains_exactly_terms"
   ],
   "note": ""
  },
  {
   "property": "C16",
   "status": "proved",
   "theorems": [
    "Lev.Props.c16_rejects_exactly_unsorted"
   ],
   "note": ""
  },
  {
   "property": "C17",
   "status": "proved",
   "theorems": [
    "Lev.Props.c17_size",
    "Lev.Props.c17_size_counts_repetitions"
   ],
   "note": "size() is proved to be the length of the input; it is the number of terms exactly when none is repeated; the unconditional claim is refuted."
  },
  {
   "property": "C18",
   "status": "proved",
   "theorems": [
    "Lev.Props.c18_iteration",
    "Lev.Props.c18_each_term_once"
   ],
   "note": ""
  },
  {
   "property": "C19",
   "status": "proved",
   "theorems": [
    "Lev.Props.c19_order"
   ],
   "note": ""
  },
  {
   "property": "C20",
   "status": "proved",
   "theorems": [
    "Lev.Props.c20_minimal"
   ],
   "note": ""
  },
  {
   "property": "C21",
   "status": "proved",
   "theorems": [
    "Lev.Props.c21_equality"
   ],
   "note": ""
  },
  {
   "property": "C22",
   "status": "proved",
   "theorems": [
    "Lev.Props.c22_hash_respects_equality"
   ],
   "note": ""
  },
  {
   "property": "C23",
   "status": "proved",
   "theorems": [
    "Lev.Props.c23_no_leak_no_double_free"
   ],
   "note": ""
  },
  {
   "property": "C24",
   "status": "proved",
   "theorems": [
    "Lev.Props.c24_rejected_add_changes_nothing"
   ],
   "note": ""
  },
  {
   "property": "C25",
   "status": "proved",
   "theorems": [
    "Lev.Props.c25_remove_does_nothing"
   ],
   "note": ""
  },
  {
   "property": "C26",
   "status": "partial",
   "theorems": [
    "Lev.Props.c26_add_after_build_undefined",
    "Lev.Props.c26_add_after_build_unsafe",
    "Lev.Props.c26_add_after_build_partial",
    "Lev.Props.c26_add_after_read_undefined"
   ],
   "note": "The claim of safety is refuted: every non-empty term not smaller than the last is undefined behaviour. The partial theorem is what holds."
  },
  {
   "property": "C27",
   "status": "proved",
   "theorems": [
    "Lev.Props.c27_round_trip",
    "Lev.Props.c27_round_trip_of_built",
    "Lev.Props.c27_read_anywhere"
   ],
   "note": "In the same process (both dictionaries in one memory), for built dictionaries, and across platforms with different signedness of char."
  },
  {
   "property": "C28",
   "status": "proved",
   "theorems": [
    "Lev.Props.c28_same_answers"
   ],
   "note": "Read into any memory on a platform with the same signedness of char; with the other signedness the order differs (an example shows it)."
  },
  {
   "property": "C29",
   "status": "proved",
   "theorems": [
    "Lev.Props.c29_lists_everything_once"
   ],
   "note": ""
  },
  {
   "property": "C30",
   "status": "proved",
   "theorems": [
    "Lev.Props.c30_labels_survive"
   ],
   "note": ""
  },
  {
   "property": "C31",
   "status": "partial",
   "theorems": [
    "Lev.Props.c31_unlisted_root",
    "Lev.Props.c31_unlisted_source",
    "Lev.Props.c31_foreign_messages_unsafe",
    "Lev.Props.c31_repeated_edge_deletes_target",
    "Lev.Props.c31_well_formed_messages_partial"
   ],
   "note": "The claim is refuted (empty message, unlisted sources, repeated edges). The partial theorem covers messages that list all nodes used, repeat no edge and have no cycle."
  },
  {
   "property": "C32",
   "status": "proved",
   "theorems": [
    "Lev.Props.c32_standard_query_exact"
   ],
   "note": ""
  },
  {
   "property": "C33",
   "status": "proved",
   "theorems": [
    "Lev.Props.c33_transposition_query_exact"
   ],
   "note": ""
  },
  {
   "property": "C34",
   "status": "proved",
   "theorems": [
    "Lev.Props.c34_mergeAndSplit_query_exact"
   ],
   "note": ""
  },
  {
   "property": "C35",
   "status": "proved",
   "theorems": [
    "Lev.Props.c35_no_duplicates"
   ],
   "note": ""
  },
  {
   "property": "C36",
   "status": "proved",
   "theorems": [
    "Lev.Props.c36_string_results"
   ],
   "note": ""
  },
  {
   "property": "C37",
   "status": "proved",
   "theorems": [
    "Lev.Props.c37_subsequence_of_iteration",
    "Lev.Props.c37_order"
   ],
   "note": ""
  },
  {
   "property": "C38",
   "status": "proved",
   "theorems": [
    "Lev.Props.c38_terminates_and_stays_finished"
   ],
   "note": ""
  },
  {
   "property": "C39",
   "status": "proved",
   "theorems": [
    "Lev.Props.c39_no_wraparound",
    "Lev.Props.c39_no_wraparound_result"
   ],
   "note": "Proved with a copy of the model in which every size_t operation is checked: the checked query succeeds for every max_distance and yields what the unchecked one does."
  },
  {
   "property": "C40",
   "status": "proved",
   "theorems": [
    "Lev.Props.c40_monotone"
   ],
   "note": ""
  },
  {
   "property": "C41",
   "status": "proved",
   "theorems": [
    "Lev.Props.c41_distance_zero"
   ],
   "note": ""
  },
  {
   "property": "C42",
   "status": "proved",
   "theorems": [
    "Lev.Props.c42_queries_independent",
    "Lev.Props.c42_no_leak"
   ],
   "note": "Pointer-level model: states and positions of all queries in one memory, any allocator that hands out free addresses; the dictionary is a read-only parameter."
  },
  {
   "property": "C43",
   "status": "proved",
   "theorems": [
    "Lev.Props.c43_empty_term"
   ],
   "note": ""
  },
  {
   "property": "C44",
   "status": "proved",
   "theorems": [
    "Lev.Props.c44_agrees_with_distance"
   ],
   "note": ""
  },
  {
   "property": "C45",
   "status": "proved",
   "theorems": [
    "Lev.Props.c45_query_states",
    "Lev.Props.c45_states_well_formed"
   ],
   "note": ""
  },
  {
   "property": "C46",
   "status": "proved",
   "theorems": [
    "Lev.Props.c46_sort_stable",
    "Lev.Props.c46_library_comparators",
    "Lev.Props.c46_sort_in_memory"
   ],
   "note": ""
  },
  {
   "property": "C47",
   "status": "proved",
   "theorems": [
    "Lev.Props.c47_merge",
    "Lev.Props.c47_merge_frees_duplicates"
   ],
   "note": "On lists, and in memory: the duplicates are freed."
  },
  {
   "property": "C48",
   "status": "proved",
   "theorems": [
    "Lev.Props.c48_documented_claim_false",
    "Lev.Props.c48_unsubsume_removes_nothing"
   ],
   "note": "The documented claim is false; its negation is proved."
  },
  {
   "property": "C49",
   "status": "proved",
   "theorems": [
    "Lev.Props.c49_unsubsume_is_sieve",
    "Lev.Props.c49_unsubsume_ascending",
    "Lev.Props.c49_unsubsume_in_memory"
   ],
   "note": ""
  },
  {
   "property": "C50",
   "status": "proved",
   "theorems": [
    "Lev.Props.c50_compare_total_order"
   ],
   "note": ""
  },
  {
   "property": "C51",
   "status": "partial",
   "theorems": [
    "Lev.Props.c51_standard_false",
    "Lev.Props.c51_transposition_false",
    "Lev.Props.c51_mergeAndSplit_false",
    "Lev.Props.c51_same_flag_sound_partial"
   ],
   "note": "False in general; the partial theorem is what holds."
  },
  {
   "property": "C52",
   "status": "proved",
   "theorems": [
    "Lev.Props.c52_operations",
    "Lev.Props.c52_construct_destroy",
    "Lev.Props.c52_iterators",
    "Lev.Props.c52_insert_without_position",
    "Lev.Props.c52_transition",
    "Lev.Props.c52_distance"
   ],
   "note": "Programs of any length on a state in memory against a specification on sequences; iterators against a cursor. Insertion with an iterator that is at no position is outside the documented conventions; what it does is proved separately."
  },
  {
   "property": "C53",
   "status": "proved",
   "theorems": [
    "Lev.Props.c53_query_prefixes",
    "Lev.Props.c53_prefix_spells_path",
    "Lev.Props.c53_intersection_spells_path"
   ],
   "note": ""
  },
  {
   "property": "C54",
   "status": "proved",
   "theorems": [
    "Lev.Props.c54_query_windows",
    "Lev.Props.c54_iterations_succeed",
    "Lev.Props.c54_characteristic_vector",
    "Lev.Props.c54_index_of",
    "Lev.Props.c54_reads_in_range"
   ],
   "note": ""
  },
  {
   "property": "C55",
   "status": "proved",
   "theorems": [
    "Lev.Props.c55_lifetimes",
    "Lev.Props.c55_no_leak",
    "Lev.Props.c55_complete_needs_nothing",
    "Lev.Props.c55_next_without_dictionary",
    "Lev.Props.c55_next_without_transducer",
    "Lev.Props.c55_dangling_pointer_misleads"
   ],
   "note": "The order of destruction is arbitrary; the limits are theorems too. The theorem on a destroyed transducer assumes that the address is not handed out again; an example shows the wrong answer that may come otherwise."
  },
  {
   "property": "C56",
   "status": "proved",
   "theorems": [
    "Lev.Props.c56_copied_query",
    "Lev.Props.c56_copied_transducer",
    "Lev.Props.c56_copied_dictionary",
    "Lev.Props.c56_copied_iterator"
   ],
   "note": "Undefined behaviour is proved for every object of the kind named, not on a witness."
  },
  {
   "property": "C57",
   "status": "proved",
   "theorems": [
    "Lev.Props.c57_dictionary_iterators",
    "Lev.Props.c57_equal_iterators_show_equal_false",
    "Lev.Props.c57_query_equality"
   ],
   "note": "The claim across dictionaries is refuted; within one dictionary equality is characterised."
  },
  {
   "property": "C58",
   "status": "proved",
   "theorems": [
    "Lev.Props.c58_build_and_query"
   ],
   "note": ""
  },
  {
   "property": "C59",
   "status": "partial",
   "theorems": [
    "Lev.Props.c59_add_after_finish_adds_wrong_term",
    "Lev.Props.c59_add_after_finish_partial"
   ],
   "note": "Negation proved on a witness; c59_add_after_finish_partial says what holds."
  },
  {
   "property": "C60",
   "status": "proved",
   "theorems": [
    "Lev.Props.c60_unreachable_nodes_leak",
    "Lev.Props.c60_cycles_never_end"
   ],
   "note": "Both defects are proved for all messages of the kind."
  },
  {
   "property": "C61",
   "status": "proved",
   "theorems": [
    "Lev.Props.c61_messages_survive",
    "Lev.Props.c61_bytes_round_trip",
    "Lev.Props.c61_small_enough"
   ],
   "note": "Bytes of proto3 messages as the format prescribes them; the protobuf library itself is assumed to follow it."
  },
  {
   "property": "C62",
   "status": "partial",
   "theorems": [
    "Lev.Props.c62_truncation_unnoticed",
    "Lev.Props.c62_truncated_files_partial",
    "Lev.Props.c62_noticed_cuts"
   ],
   "note": "The claim is refuted on a witness; the partial theorem classifies all cuts."
  },
  {
   "property": "C63",
   "status": "proved",
   "theorems": [
    "Lev.Props.c63_first_run",
    "Lev.Props.c63_later_run",
    "Lev.Props.c63_second_run_same_terms"
   ],
   "note": ""
  },
  {
   "property": "C64",
   "status": "proved",
   "theorems": [
    "Lev.Props.c64_state_size",
    "Lev.Props.c64_progress",
    "Lev.Props.c64_visits_viable_prefixes",
    "Lev.Props.c64_iterations_bound",
    "Lev.Props.c64_whole_query"
   ],
   "note": ""
  },
  {
   "property": "C65",
   "status": "partial",
   "theorems": [
    "Lev.Props.c65_candidates_need_at_most_distance_operations",
    "Lev.Props.c65_no_term_missed",
    "Lev.Props.c65_transposition_misses_terms",
    "Lev.Props.c65_transposition_partial"
   ],
   "note": "False for TRANSPOSITION (negation proved on ABC/CA); the partial theorem says which terms are certainly found."
  },
  {
   "property": "C66",
   "status": "proved",
   "theorems": [
    "Lev.Props.c66_options",
    "Lev.Props.c66_refused",
    "Lev.Props.c66_all_cases",
    "Lev.Props.c66_refused_changes_nothing",
    "Lev.Props.c66_decimal_distance",
    "Lev.Props.c66_all_distances",
    "Lev.Props.c66_bad_distances_accepted"
   ],
   "note": "The values of --max-distance are specified by a relation on texts that does not mention the parser."
  },
  {
   "property": "C67",
   "status": "partial",
   "theorems": [
    "Lev.Props.c67_unterminated_line_never_ends",
    "Lev.Props.c67_rootless_file_undefined",
    "Lev.Props.c67_empty_file_undefined",
    "Lev.Props.c67_too_large_leaves_empty_file",
    "Lev.Props.c67_not_total",
    "Lev.Props.c67_ends_partial"
   ],
   "note": "The claim is refuted: an unterminated last line, an empty serialization file. The partial theorem says for which inputs the program ends."
  },
  {
   "property": "C68",
   "status": "proved",
   "theorems": [
    "Lev.Props.c68_library_exact"
   ],
   "note": "Composition of C55, C33 and the construction theorems; the specification is the edit distance (IsMinCost) and membership in the list of terms."
  },
  {
   "property": "C69",
   "status": "proved",
   "theorems": [
    "Lev.Props.c69_threads",
    "Lev.Props.c69_terminates",
    "Lev.Props.c69_candidates",
    "Lev.Props.c69_shared_transducer_destroyed"
   ],
   "note": "Accesses to positions, states, intersections and nodes interleave; containers and members of a LazyQuery belong to its thread. Sequential consistency, justified by the absence of races."
  },
  {
   "property": "C70",
   "status": "proved",
   "theorems": [
    "Lev.Props.c70_same_run",
    "Lev.Props.c70_first_run",
    "Lev.Props.c70_answers_readable",
    "Lev.Props.c70_config_readable",
    "Lev.Props.c70_refused",
    "Lev.Props.c70_no_files",
    "Lev.Props.c70_complaint_exists",
    "Lev.Props.c70_newline_ambiguous"
   ],
   "note": "The specification of the texts is by literal strings; the theorems on reading them back do not depend on the wording alone."
  },
  {
   "property": "C71",
   "status": "proved",
   "theorems": [
    "Lev.Props.c71_dawg_node",
    "Lev.Props.c71_transition_prefix",
    "Lev.Props.c71_contains_expected_terms",
    "Lev.Props.c71_rejects_unsorted_terms"
   ],
   "note": ""
  },
  {
   "property": "C72",
   "status": "proved",
   "theorems": [
    "Lev.Props.c72_states",
    "Lev.Props.c72_discarded"
   ],
   "note": ""
  },
  {
   "property": "C73",
   "status": "proved",
   "theorems": [
    "Lev.Props.c73_distances",
    "Lev.Props.c73_symmetric_pair",
    "Lev.Props.c73_transducers",
    "Lev.Props.c73_serializer",
    "Lev.Props.c73_serializer_unwritable"
   ],
   "note": ""
  },
  {
   "property": "C74",
   "status": "proved",
   "theorems": [
    "Lev.Props.c74_transposition_triangle_fails",
    "Lev.Props.c74_transposition_triangle_iff",
    "Lev.Props.c74_hash_assertion_fails"
   ],
   "note": ""
  },
  {
   "property": "C75",
   "status": "proved",
   "theorems": [
    "Lev.Props.c75_read",
    "Lev.Props.c75_delete",
    "Lev.Props.c75_contains",
    "Lev.Props.c75_dictionary",
    "Lev.Props.c75_queries",
    "Lev.Props.c75_any_bytes"
   ],
   "note": ""
  },
  {
   "property": "C76",
   "status": "proved",
   "theorems": [
    "Lev.Props.c76_iterations",
    "Lev.Props.c76_built",
    "Lev.Props.c76_message",
    "Lev.Props.c76_exponential"
   ],
   "note": ""
  },
  {
   "property": "C77",
   "status": "proved",
   "theorems": [
    "Lev.Props.c77_between",
    "Lev.Props.c77_again",
    "Lev.Props.c77_history",
    "Lev.Props.c77_attained"
   ],
   "note": ""
  },
  {
   "property": "C78",
   "status": "proved",
   "theorems": [
    "Lev.Props.c78_meaning",
    "Lev.Props.c78_unsound",
    "Lev.Props.c78_incomplete",
    "Lev.Props.c78_wrapped",
    "Lev.Props.c78_repaired"
   ],
   "note": ""
  },
  {
   "property": "C79",
   "status": "proved",
   "theorems": [
    "Lev.Props.c79_node",
    "Lev.Props.c79_node_readable",
    "Lev.Props.c79_dictionary_readable",
    "Lev.Props.c79_pair_readable",
    "Lev.Props.c79_pair_ambiguous"
   ],
   "note": ""
  },
  {
   "property": "C80",
   "status": "proved",
   "theorems": [
    "Lev.Props.c80_exact",
    "Lev.Props.c80_undefined",
    "Lev.Props.c80_all_there",
    "Lev.Props.c80_messages"
   ],
   "note": ""
  },
  {
   "property": "C81",
   "status": "proved",
   "theorems": [
    "Lev.Props.c81_dictionaries",
    "Lev.Props.c81_outcome",
    "Lev.Props.c81_copy",
    "Lev.Props.c81_same_answers",
    "Lev.Props.c81_foreign"
   ],
   "note": ""
  },
  {
   "property": "C82",
   "status": "proved",
   "theorems": [
    "Lev.Props.c82_inputs",
    "Lev.Props.c82_undefined",
    "Lev.Props.c82_stuck",
    "Lev.Props.c82_cycle",
    "Lev.Props.c82_ends",
    "Lev.Props.c82_exactly",
    "Lev.Props.c82_next_run"
   ],
   "note": ""
  },
  {
   "property": "C83",
   "status": "proved",
   "theorems": [
    "Lev.Props.c83_hash",
    "Lev.Props.c83_eq",
    "Lev.Props.c83_built",
    "Lev.Props.c83_exponential"
   ],
   "note": ""
  },
  {
   "property": "C84",
   "status": "proved",
   "theorems": [
    "Lev.Props.c84_work",
    "Lev.Props.c84_codes",
    "Lev.Props.c84_word",
    "Lev.Props.c84_quadratic"
   ],
   "note": ""
  },
  {
   "property": "C85",
   "status": "proved",
   "theorems": [
    "Lev.Props.c85_hash",
    "Lev.Props.c85_eq",
    "Lev.Props.c85_serialize",
    "Lev.Props.c85_built",
    "Lev.Props.c85_word",
    "Lev.Props.c85_prefix",
    "Lev.Props.c85_intersection",
    "Lev.Props.c85_state",
    "Lev.Props.c85_query_state",
    "Lev.Props.c85_between",
    "Lev.Props.c85_between_attained"
   ],
   "note": ""
  },
  {
   "property": "C86",
   "status": "proved",
   "theorems": [
    "Lev.Props.c86_reached",
    "Lev.Props.c86_undefined",
    "Lev.Props.c86_endless",
    "Lev.Props.c86_cases",
    "Lev.Props.c86_range",
    "Lev.Props.c86_range_undefined",
    "Lev.Props.c86_range_endless",
    "Lev.Props.c86_range_dictionary",
    "Lev.Props.c86_past_the_end",
    "Lev.Props.c86_messages"
   ],
   "note": ""
  },
  {
   "property": "C87",
   "status": "proved",
   "theorems": [
    "Lev.Props.c87_hash",
    "Lev.Props.c87_hash_undefined",
    "Lev.Props.c87_hash_endless",
    "Lev.Props.c87_hash_cases",
    "Lev.Props.c87_hash_cycle",
    "Lev.Props.c87_unequal",
    "Lev.Props.c87_undefined",
    "Lev.Props.c87_endless",
    "Lev.Props.c87_equal",
    "Lev.Props.c87_equal_symm",
    "Lev.Props.c87_cases",
    "Lev.Props.c87_alive",
    "Lev.Props.c87_self",
    "Lev.Props.c87_messages",
    "Lev.Props.c87_asymmetric"
   ],
   "note": ""
  },
  {
   "property": "C88",
   "status": "proved",
   "theorems": [
    "Lev.Props.c88_random",
    "Lev.Props.c88_random_all",
    "Lev.Props.c88_temp_path",
    "Lev.Props.c88_temp_ends",
    "Lev.Props.c88_temp_endless",
    "Lev.Props.c88_temp_twice",
    "Lev.Props.c88_tidy",
    "Lev.Props.c88_settings",
    "Lev.Props.c88_settings_space"
   ],
   "note": ""
  },
  {
   "property": "C89",
   "status": "proved",
   "theorems": [
    "Lev.Props.c89_assignments",
    "Lev.Props.c89_assigned_query",
    "Lev.Props.c89_self",
    "Lev.Props.c89_swapped_queries",
    "Lev.Props.c89_assigned_transducer",
    "Lev.Props.c89_assigned_dictionary",
    "Lev.Props.c89_assigned_iterator",
    "Lev.Props.c89_example_query",
    "Lev.Props.c89_example_swap",
    "Lev.Props.c89_example_transducer"
   ],
   "note": ""
  },
  {
   "property": "C90",
   "status": "proved",
   "theorems": [
    "Lev.Props.c90_retry",
    "Lev.Props.c90_cut_text",
    "Lev.Props.c90_goes_on",
    "Lev.Props.c90_constructor",
    "Lev.Props.c90_after_throw",
    "Lev.Props.c90_no_failure",
    "Lev.Props.c90_loses"
   ],
   "note": "Which terms an exception costs is specified by prefixes (Misses), independently of queue and states. That trying again finds everything is refuted on a witness (c90_loses)."
  },
  {
   "property": "C91",
   "status": "proved",
   "theorems": [
    "Lev.Props.c91_no_failure",
    "Lev.Props.c91_safe_calls",
    "Lev.Props.c91_dictionary",
    "Lev.Props.c91_early_is_safe",
    "Lev.Props.c91_words",
    "Lev.Props.c91_exact",
    "Lev.Props.c91_clash",
    "Lev.Props.c91_retry",
    "Lev.Props.c91_factory",
    "Lev.Props.c91_case_retry",
    "Lev.Props.c91_case_other_word",
    "Lev.Props.c91_case_lost",
    "Lev.Props.c91_case_uncounted",
    "Lev.Props.c91_case_stray",
    "Lev.Props.c91_case_factory"
   ],
   "note": "Which words are left is specified by Progress, AddOut and FinishOut (words and prefixes only). That trying a word again is safe is refuted for all dictionaries and words (c91_retry), not only on a witness."
  },
  {
   "property": "C92",
   "status": "proved",
   "theorems": [
    "Lev.Props.c92_answers",
    "Lev.Props.c92_no_data_race",
    "Lev.Props.c92_no_deadlock",
    "Lev.Props.c92_executions_finite",
    "Lev.Props.c92_afterwards"
   ],
   "note": ""
  },
  {
   "property": "C93",
   "status": "proved",
   "theorems": [
    "Lev.Props.c93_any_caller",
    "Lev.Props.c93_retry",
    "Lev.Props.c93_repeats",
    "Lev.Props.c93_constructor",
    "Lev.Props.c93_no_failure",
    "Lev.Props.c93_loses"
   ],
   "note": ""
  },
  {
   "property": "C94",
   "status": "partial",
   "theorems": [
    "Lev.Props.c94_any_bytes",
    "Lev.Props.c94_load",
    "Lev.Props.c94_retry",
    "Lev.Props.c94_save",
    "Lev.Props.c94_no_failure",
    "Lev.Props.c94_no_failure_loading",
    "Lev.Props.c94_true_incomplete",
    "Lev.Props.c94_true_partial",
    "Lev.Props.c94_load_after_save",
    "Lev.Props.c94_next_run"
   ],
   "note": "When a call throws and what it loses is specified by numbers (Strikes, lost), independently of the run. That a save that returned true is complete is refuted (c94_true_incomplete); c94_true_partial is what holds."
  },
  {
   "property": "C95",
   "status": "proved",
   "theorems": [
    "Lev.Props.c95_nodes",
    "Lev.Props.c95_waste"
   ],
   "note": ""
  },
  {
   "property": "C96",
   "status": "proved",
   "theorems": [
    "Lev.Props.c96_memory",
    "Lev.Props.c96_held_unique",
    "Lev.Props.c96_waste"
   ],
   "note": ""
  },
  {
   "property": "C97",
   "status": "proved",
   "theorems": [
    "Lev.Props.c97_hash_defined",
    "Lev.Props.c97_hash_short",
    "Lev.Props.c97_hash_first",
    "Lev.Props.c97_hash_4GiB",
    "Lev.Props.c97_right",
    "Lev.Props.c97_defined",
    "Lev.Props.c97_undefined",
    "Lev.Props.c97_empty"
   ],
   "note": ""
  },
  {
   "property": "C98",
   "status": "proved",
   "theorems": [
    "Lev.Props.c98_contains",
    "Lev.Props.c98_query",
    "Lev.Props.c98_first"
   ],
   "note": ""
  },
  {
   "property": "C99",
   "status": "proved",
   "theorems": [
    "Lev.Props.c99_alone",
    "Lev.Props.c99_threads",
    "Lev.Props.c99_ends",
    "Lev.Props.c99_clean",
    "Lev.Props.c99_shared",
    "Lev.Props.c99_reader_and_writer",
    "Lev.Props.c99_two_writers",
    "Lev.Props.c99_reader_and_destroyer"
   ],
   "note": ""
  },
  {
   "property": "C100",
   "status": "proved",
   "theorems": [
    "Lev.Props.c100_message",
    "Lev.Props.c100_unique",
    "Lev.Props.c100_file",
    "Lev.Props.c100_written",
    "Lev.Props.c100_unknown_fields"
   ],
   "note": ""
  },
  {
   "property": "C101",
   "status": "proved",
   "theorems": [
    "Lev.Props.c101_second_wins",
    "Lev.Props.c101_twice",
    "Lev.Props.c101_second_read",
    "Lev.Props.c101_wrong_size"
   ],
   "note": ""
  },
  {
   "property": "C102",
   "status": "proved",
   "theorems": [
    "Lev.Props.c102_resume",
    "Lev.Props.c102_resume_shared",
    "Lev.Props.c102_resume_loses_term",
    "Lev.Props.c102_resume_undefined"
   ],
   "note": ""
  },
  {
   "property": "C103",
   "status": "proved",
   "theorems": [
    "Lev.Props.c103_life",
    "Lev.Props.c103_life_loses_terms",
    "Lev.Props.c103_life_undefined"
   ],
   "note": ""
  },
  {
   "property": "C104",
   "status": "proved",
   "theorems": [
    "Lev.Props.c104_held",
    "Lev.Props.c104_end",
    "Lev.Props.c104_steps",
    "Lev.Props.c104_built",
    "Lev.Props.c104_exponential"
   ],
   "note": ""
  },
  {
   "property": "C105",
   "status": "proved",
   "theorems": [
    "Lev.Props.c105_under_construction",
    "Lev.Props.c105_clean_up",
    "Lev.Props.c105_query",
    "Lev.Props.c105_query_cleaned",
    "Lev.Props.c105_added_not_contained",
    "Lev.Props.c105_iterates_others"
   ],
   "note": ""
  },
  {
   "property": "C106",
   "status": "proved",
   "theorems": [
    "Lev.Props.c106_query",
    "Lev.Props.c106_iterator",
    "Lev.Props.c106_not_when_begun",
    "Lev.Props.c106_after_clean_up"
   ],
   "note": ""
  },
  {
   "property": "C107",
   "status": "proved",
   "theorems": [
    "Lev.Props.c107_words",
    "Lev.Props.c107_delete_early",
    "Lev.Props.c107_undefined",
    "Lev.Props.c107_defined_iff",
    "Lev.Props.c107_results",
    "Lev.Props.c107_right_iff",
    "Lev.Props.c107_right"
   ],
   "note": ""
  },
  {
   "property": "C108",
   "status": "proved",
   "theorems": [
    "Lev.Props.c108_sittings",
    "Lev.Props.c108_query",
    "Lev.Props.c108_finished",
    "Lev.Props.c108_lost"
   ],
   "note": ""
  },
  {
   "property": "C109",
   "status": "proved",
   "theorems": [
    "Lev.Props.c109_undefined",
    "Lev.Props.c109_words",
    "Lev.Props.c109_defined_iff",
    "Lev.Props.c109_lost",
    "Lev.Props.c109_apart"
   ],
   "note": ""
  },
  {
   "property": "C110",
   "status": "proved",
   "theorems": [
    "Lev.Props.c110_increment",
    "Lev.Props.c110_range",
    "Lev.Props.c110_reused"
   ],
   "note": ""
  },
  {
   "property": "C111",
   "status": "proved",
   "theorems": [
    "Lev.Props.c111_without_transducer",
    "Lev.Props.c111_longer",
    "Lev.Props.c111_without_both"
   ],
   "note": ""
  },
  {
   "property": "C112",
   "status": "proved",
   "theorems": [
    "Lev.Props.c112_undefined",
    "Lev.Props.c112_words",
    "Lev.Props.c112_defined_iff"
   ],
   "note": ""
  },
  {
   "property": "C113",
   "status": "proved",
   "theorems": [
    "Lev.Props.c113_any_cursor",
    "Lev.Props.c113_from_the_middle",
    "Lev.Props.c113_wrong_removal",
    "Lev.Props.c113_first_wrong"
   ],
   "note": ""
  },
  {
   "property": "C114",
   "status": "proved",
   "theorems": [
    "Lev.Props.c114_nested",
    "Lev.Props.c114_untold"
   ],
   "note": ""
  },
  {
   "property": "C115",
   "status": "proved",
   "theorems": [
    "Lev.Props.c115_copied_state",
    "Lev.Props.c115_assigned_state",
    "Lev.Props.c115_self_assigned",
    "Lev.Props.c115_copied_position",
    "Lev.Props.c115_copied_intersection",
    "Lev.Props.c115_assigned_later_position",
    "Lev.Props.c115_assigned_earlier_position",
    "Lev.Props.c115_assigned_foreign_position",
    "Lev.Props.c115_assigned_intersection"
   ],
   "note": ""
  },
  {
   "property": "C116",
   "status": "proved",
   "theorems": [
    "Lev.Props.c116_fewer_terms",
    "Lev.Props.c116_more_terms",
    "Lev.Props.c116_standard_found",
    "Lev.Props.c116_found_by_standard",
    "Lev.Props.c116_exchanged",
    "Lev.Props.c116_reversed",
    "Lev.Props.c116_renamed",
    "Lev.Props.c116_affixes",
    "Lev.Props.c116_other_word",
    "Lev.Props.c116_other_word_transposition_false"
   ],
   "note": ""
  },
  {
   "property": "C117",
   "status": "proved",
   "theorems": [
    "Lev.Props.c117_concatenation",
    "Lev.Props.c117_subsequence",
    "Lev.Props.c117_only_subsequences",
    "Lev.Props.c117_nothing_in_common",
    "Lev.Props.c117_thirds",
    "Lev.Props.c117_places"
   ],
   "note": ""
  },
  {
   "property": "C118",
   "status": "proved",
   "theorems": [
    "Lev.Spec.c118_prefix",
    "Lev.Spec.c118_intersection",
    "Lev.Spec.c118_node",
    "Lev.Spec.c118_dictionary",
    "Lev.Spec.c118_pair",
    "Lev.Spec.c118_plain",
    "Lev.Spec.c118_length",
    "Lev.Spec.c118_not_in_field",
    "Lev.Spec.c118_failed"
   ],
   "note": ""
  },
  {
   "property": "C119",
   "status": "proved",
   "theorems": [
    "Lev.c119_cut_off",
    "Lev.c119_not_cut_off",
    "Lev.c119_errors",
    "Lev.c119_first_run"
   ],
   "note": ""
  },
  {
   "property": "C120",
   "status": "proved",
   "theorems": [
    "Lev.Spec.c120_prefix",
    "Lev.Spec.c120_intersection",
    "Lev.Spec.c120_node",
    "Lev.Spec.c120_dictionary",
    "Lev.Spec.c120_pair",
    "Lev.Spec.c120_same_text"
   ],
   "note": ""
  }
 ]
}