'c01_standard_min_ops' depends on axioms: [propext, Classical.choice, Quot.sound]
'c02_mergeAndSplit_min_ops' depends on axioms: [propext, Classical.choice, Quot.sound]
'c03_transposition_min_alignment' depends on axioms: [propext, Classical.choice, Quot.sound]
'c04_at_most_three_halves_partial' depends on axioms: [propext, Classical.choice, Quot.sound]
'c04_documented_claim_false' depends on axioms: [propext, Classical.choice, Quot.sound]
'c04_not_below_min_ops_partial' depends on axioms: [propext, Classical.choice, Quot.sound]
'c04_single_operation_partial' depends on axioms: [propext, Classical.choice, Quot.sound]
'c04_three_halves_is_sharp' depends on axioms: [propext, Classical.choice, Quot.sound]
'c05_zero_iff_eq' depends on axioms: [propext, Classical.choice, Quot.sound]
'c06_symmetric' depends on axioms: [propext, Classical.choice, Quot.sound]
'c06_symmetric_same_object' depends on axioms: [propext, Classical.choice, Quot.sound]
'c07_triangle' depends on axioms: [propext, Classical.choice, Quot.sound]
'c08_three_halves_is_sharp' depends on axioms: [propext, Classical.choice, Quot.sound]
'c08_triangle_false' depends on axioms: [propext, Classical.choice, Quot.sound]
'c08_triangle_three_halves_partial' depends on axioms: [propext, Classical.choice, Quot.sound]
'c09_left_invariant' depends on axioms: [propext, Classical.choice, Quot.sound]
'c09_right_invariant' depends on axioms: [propext, Classical.choice, Quot.sound]
'c100_file' depends on axioms: [propext, Classical.choice, Quot.sound]
'c100_message' depends on axioms: [propext, Classical.choice, Quot.sound]
'c100_unique' depends on axioms: [propext, Classical.choice, Quot.sound]
'c100_unknown_fields' depends on axioms: [propext, Quot.sound]
'c100_written' depends on axioms: [propext, Classical.choice, Quot.sound]
'c101_second_read' depends on axioms: [propext, Quot.sound]
'c101_second_wins' depends on axioms: [propext, Classical.choice, Quot.sound]
'c101_twice' depends on axioms: [propext, Classical.choice, Quot.sound]
'c101_wrong_size' depends on axioms: [propext, Classical.choice, Quot.sound]
'c102_resume' depends on axioms: [propext, Classical.choice, Quot.sound]
'c102_resume_loses_term' depends on axioms: [propext, Classical.choice, Quot.sound]
'c102_resume_shared' depends on axioms: [propext, Classical.choice, Quot.sound]
'c102_resume_undefined' depends on axioms: [propext, Quot.sound]
'c103_life' depends on axioms: [propext, Classical.choice, Quot.sound]
'c103_life_loses_terms' depends on axioms: [propext, Quot.sound]
'c103_life_undefined' depends on axioms: [propext, Quot.sound]
'c104_built' depends on axioms: [propext, Classical.choice, Quot.sound]
'c104_end' depends on axioms: [propext, Classical.choice, Quot.sound]
'c104_exponential' depends on axioms: [propext, Classical.choice, Quot.sound]
'c104_held' depends on axioms: [propext, Classical.choice, Quot.sound]
'c104_steps' depends on axioms: [propext, Classical.choice, Quot.sound]
'c105_added_not_contained' depends on axioms: [propext, Quot.sound]
'c105_clean_up' depends on axioms: [propext, Classical.choice, Quot.sound]
'c105_iterates_others' depends on axioms: [propext, Quot.sound]
'c105_query' depends on axioms: [propext, Classical.choice, Quot.sound]
'c105_query_cleaned' depends on axioms: [propext, Classical.choice, Quot.sound]
'c105_under_construction' depends on axioms: [propext, Classical.choice, Quot.sound]
'c106_after_clean_up' depends on axioms: [propext, Classical.choice, Quot.sound]
'c106_iterator' depends on axioms: [propext, Classical.choice, Quot.sound]
'c106_not_when_begun' depends on axioms: [propext, Classical.choice, Quot.sound]
'c106_query' depends on axioms: [propext, Classical.choice, Quot.sound]
'c107_defined_iff' depends on axioms: [propext, Classical.choice, Quot.sound]
'c107_delete_early' depends on axioms: [propext, Classical.choice, Quot.sound]
'c107_results' depends on axioms: [propext, Classical.choice, Quot.sound]
'c107_right' depends on axioms: [propext, Classical.choice, Quot.sound]
'c107_right_iff' depends on axioms: [propext, Classical.choice, Quot.sound]
'c107_undefined' depends on axioms: [propext, Classical.choice, Quot.sound]
'c107_words' depends on axioms: [propext, Classical.choice, Quot.sound]
'c108_finished' depends on axioms: [propext, Classical.choice, Quot.sound]
'c108_lost' depends on axioms: [propext, Classical.choice, Quot.sound]
'c108_query' depends on axioms: [propext, Classical.choice, Quot.sound]
'c108_sittings' depends on axioms: [propext, Classical.choice, Quot.sound]
'c109_apart' does not depend on any axioms
'c109_defined_iff' depends on axioms: [propext, Classical.choice, Quot.sound]
'c109_lost' depends on axioms: [propext, Classical.choice, Quot.sound]
'c109_undefined' depends on axioms: [propext, Classical.choice, Quot.sound]
'c109_words' depends on axioms: [propext, Classical.choice, Quot.sound]
'c10_comparison' depends on axioms: [propext, Classical.choice, Quot.sound]
'c10_length_bounds' depends on axioms: [propext, Classical.choice, Quot.sound]
'c110_increment' depends on axioms: [propext, Classical.choice, Quot.sound]
'c110_range' depends on axioms: [propext, Classical.choice, Quot.sound]
'c110_reused' depends on axioms: [propext, Quot.sound]
'c111_longer' depends on axioms: [propext, Classical.choice, Quot.sound]
'c111_without_both' depends on axioms: [propext, Classical.choice, Quot.sound]
'c111_without_transducer' depends on axioms: [propext, Classical.choice, Quot.sound]
'c112_defined_iff' depends on axioms: [propext, Classical.choice, Quot.sound]
'c112_undefined' depends on axioms: [propext, Classical.choice, Quot.sound]
'c112_words' depends on axioms: [propext, Classical.choice, Quot.sound]
'c113_any_cursor' depends on axioms: [propext, Classical.choice, Quot.sound]
'c113_first_wrong' depends on axioms: [propext, Quot.sound]
'c113_from_the_middle' depends on axioms: [propext, Classical.choice, Quot.sound]
'c113_wrong_removal' depends on axioms: [propext, Classical.choice, Quot.sound]
'c114_nested' depends on axioms: [propext, Classical.choice, Quot.sound]
'c114_untold' depends on axioms: [propext, Classical.choice, Quot.sound]
'c115_assigned_earlier_position' depends on axioms: [propext, Classical.choice, Quot.sound]
'c115_assigned_foreign_position' depends on axioms: [propext, Classical.choice, Quot.sound]
'c115_assigned_intersection' depends on axioms: [propext, Classical.choice, Quot.sound]
'c115_assigned_later_position' depends on axioms: [propext, Classical.choice, Quot.sound]
'c115_assigned_state' depends on axioms: [propext, Classical.choice, Quot.sound]
'c115_copied_intersection' depends on axioms: [propext, Classical.choice, Quot.sound]
'c115_copied_position' depends on axioms: [propext, Classical.choice, Quot.sound]
'c115_copied_state' depends on axioms: [propext, Classical.choice, Quot.sound]
'c115_self_assigned' depends on axioms: [propext, Classical.choice, Quot.sound]
'c116_affixes' depends on axioms: [propext, Classical.choice, Quot.sound]
'c116_exchanged' depends on axioms: [propext, Classical.choice, Quot.sound]
'c116_fewer_terms' depends on axioms: [propext, Classical.choice, Quot.sound]
'c116_found_by_standard' depends on axioms: [propext, Classical.choice, Quot.sound]
'c116_more_terms' depends on axioms: [propext, Classical.choice, Quot.sound]
'c116_other_word' depends on axioms: [propext, Classical.choice, Quot.sound]
'c116_other_word_transposition_false' depends on axioms: [propext, Classical.choice, Quot.sound]
'c116_renamed' depends on axioms: [propext, Classical.choice, Quot.sound]
'c116_reversed' depends on axioms: [propext, Classical.choice, Quot.sound]
'c116_standard_found' depends on axioms: [propext, Classical.choice, Quot.sound]
'c117_concatenation' depends on axioms: [propext, Classical.choice, Quot.sound]
'c117_nothing_in_common' depends on axioms: [propext, Classical.choice, Quot.sound]
'c117_only_subsequences' depends on axioms: [propext, Classical.choice, Quot.sound]
'c117_places' depends on axioms: [propext, Classical.choice, Quot.sound]
'c117_subsequence' depends on axioms: [propext, Classical.choice, Quot.sound]
'c117_thirds' depends on axioms: [propext, Classical.choice, Quot.sound]
'c118_dictionary' depends on axioms: [propext, Classical.choice, Quot.sound]
'c118_failed' depends on axioms: [propext, Quot.sound]
'c118_intersection' depends on axioms: [propext, Classical.choice, Quot.sound]
'c118_length' depends on axioms: [propext, Quot.sound]
'c118_node' depends on axioms: [propext, Classical.choice, Quot.sound]
'c118_not_in_field' depends on axioms: [propext, Quot.sound]
'c118_pair' depends on axioms: [propext, Classical.choice, Quot.sound]
'c118_plain' depends on axioms: [propext, Quot.sound]
'c118_prefix' depends on axioms: [propext, Classical.choice, Quot.sound]
'c119_cut_off' depends on axioms: [propext, Classical.choice, Quot.sound]
'c119_errors' depends on axioms: [propext, Classical.choice, Quot.sound]
'c119_first_run' depends on axioms: [propext, Classical.choice, Quot.sound]
'c119_not_cut_off' depends on axioms: [propext, Classical.choice, Quot.sound]
'c11_history_independent' depends on axioms: [propext, Classical.choice, Quot.sound]
'c120_dictionary' depends on axioms: [propext, Classical.choice, Quot.sound]
'c120_intersection' depends on axioms: [propext, Classical.choice, Quot.sound]
'c120_node' depends on axioms: [propext, Classical.choice, Quot.sound]
'c120_pair' depends on axioms: [propext, Classical.choice, Quot.sound]
'c120_prefix' depends on axioms: [propext, Classical.choice, Quot.sound]
'c120_same_text' depends on axioms: [propext, Classical.choice, Quot.sound]
'c12_concurrent_answers' depends on axioms: [propext, Classical.choice, Quot.sound]
'c12_no_data_race' depends on axioms: [propext, Classical.choice, Quot.sound]
'c12_no_deadlock' depends on axioms: [propext, Classical.choice, Quot.sound]
'c13_bounded_accesses' depends on axioms: [propext, Classical.choice, Quot.sound]
'c13_executions_finite' depends on axioms: [propext, Classical.choice, Quot.sound]
'c14_hash_respects_eq' depends on axioms: [propext, Quot.sound]
'c14_unordered_pair' depends on axioms: [propext, Classical.choice, Quot.sound]
'c15_contains_exactly_terms' depends on axioms: [propext, Classical.choice, Quot.sound]
'c16_rejects_exactly_unsorted' depends on axioms: [propext, Classical.choice, Quot.sound]
'c17_size' depends on axioms: [propext, Classical.choice, Quot.sound]
'c17_size_counts_repetitions' depends on axioms: [propext, Classical.choice, Quot.sound]
'c18_each_term_once' depends on axioms: [propext, Classical.choice, Quot.sound]
'c18_iteration' depends on axioms: [propext, Classical.choice, Quot.sound]
'c19_order' depends on axioms: [propext, Classical.choice, Quot.sound]
'c20_minimal' depends on axioms: [propext, Classical.choice, Quot.sound]
'c21_equality' depends on axioms: [propext, Classical.choice, Quot.sound]
'c22_hash_respects_equality' depends on axioms: [propext, Classical.choice, Quot.sound]
'c23_no_leak_no_double_free' depends on axioms: [propext, Classical.choice, Quot.sound]
'c24_rejected_add_changes_nothing' depends on axioms: [propext, Classical.choice, Quot.sound]
'c25_remove_does_nothing' depends on axioms: [propext, Quot.sound]
'c26_add_after_build_partial' depends on axioms: [propext, Classical.choice, Quot.sound]
'c26_add_after_build_undefined' depends on axioms: [propext, Classical.choice, Quot.sound]
'c26_add_after_build_unsafe' depends on axioms: [propext, Classical.choice, Quot.sound]
'c26_add_after_read_undefined' depends on axioms: [propext, Classical.choice, Quot.sound]
'c27_read_anywhere' depends on axioms: [propext, Classical.choice, Quot.sound]
'c27_round_trip' depends on axioms: [propext, Classical.choice, Quot.sound]
'c27_round_trip_of_built' depends on axioms: [propext, Classical.choice, Quot.sound]
'c28_same_answers' depends on axioms: [propext, Classical.choice, Quot.sound]
'c29_lists_everything_once' depends on axioms: [propext, Classical.choice, Quot.sound]
'c30_labels_survive' depends on axioms: [propext, Quot.sound]
'c31_foreign_messages_unsafe' depends on axioms: [propext, Quot.sound]
'c31_repeated_edge_deletes_target' depends on axioms: [propext, Quot.sound]
'c31_unlisted_root' depends on axioms: [propext, Quot.sound]
'c31_unlisted_source' depends on axioms: [propext, Quot.sound]
'c31_well_formed_messages_partial' depends on axioms: [propext, Classical.choice, Quot.sound]
'c32_standard_query_exact' depends on axioms: [propext, Classical.choice, Quot.sound]
'c33_transposition_query_exact' depends on axioms: [propext, Classical.choice, Quot.sound]
'c34_mergeAndSplit_query_exact' depends on axioms: [propext, Classical.choice, Quot.sound]
'c35_no_duplicates' depends on axioms: [propext, Classical.choice, Quot.sound]
'c36_string_results' depends on axioms: [propext, Classical.choice, Quot.sound]
'c37_order' depends on axioms: [propext, Classical.choice, Quot.sound]
'c37_subsequence_of_iteration' depends on axioms: [propext, Classical.choice, Quot.sound]
'c38_terminates_and_stays_finished' depends on axioms: [propext, Classical.choice, Quot.sound]
'c39_no_wraparound' depends on axioms: [propext, Classical.choice, Quot.sound]
'c39_no_wraparound_result' depends on axioms: [propext, Classical.choice, Quot.sound]
'c40_monotone' depends on axioms: [propext, Classical.choice, Quot.sound]
'c41_distance_zero' depends on axioms: [propext, Classical.choice, Quot.sound]
'c42_no_leak' depends on axioms: [propext, Classical.choice, Quot.sound]
'c42_queries_independent' depends on axioms: [propext, Classical.choice, Quot.sound]
'c43_empty_term' depends on axioms: [propext, Classical.choice, Quot.sound]
'c44_agrees_with_distance' depends on axioms: [propext, Classical.choice, Quot.sound]
'c45_query_states' depends on axioms: [propext, Classical.choice, Quot.sound]
'c45_states_well_formed' depends on axioms: [propext, Classical.choice, Quot.sound]
'c46_library_comparators' depends on axioms: [propext, Classical.choice, Quot.sound]
'c46_sort_in_memory' depends on axioms: [propext, Classical.choice, Quot.sound]
'c46_sort_stable' depends on axioms: [propext, Classical.choice, Quot.sound]
'c47_merge' depends on axioms: [propext, Quot.sound]
'c47_merge_frees_duplicates' depends on axioms: [propext, Classical.choice, Quot.sound]
'c48_documented_claim_false' depends on axioms: [propext, Quot.sound]
'c48_unsubsume_removes_nothing' depends on axioms: [propext, Quot.sound]
'c49_unsubsume_ascending' depends on axioms: [propext, Quot.sound]
'c49_unsubsume_in_memory' depends on axioms: [propext, Classical.choice, Quot.sound]
'c49_unsubsume_is_sieve' depends on axioms: [propext, Quot.sound]
'c50_compare_total_order' depends on axioms: [propext, Classical.choice, Quot.sound]
'c51_mergeAndSplit_false' depends on axioms: [propext, Classical.choice, Quot.sound]
'c51_same_flag_sound_partial' depends on axioms: [propext, Classical.choice, Quot.sound]
'c51_standard_false' depends on axioms: [propext]
'c51_transposition_false' depends on axioms: [propext, Classical.choice, Quot.sound]
'c52_construct_destroy' depends on axioms: [propext, Classical.choice, Quot.sound]
'c52_distance' depends on axioms: [propext, Classical.choice, Quot.sound]
'c52_insert_without_position' depends on axioms: [propext]
'c52_iterators' depends on axioms: [propext, Classical.choice, Quot.sound]
'c52_operations' depends on axioms: [propext, Classical.choice, Quot.sound]
'c52_transition' depends on axioms: [propext, Classical.choice, Quot.sound]
'c53_intersection_spells_path' depends on axioms: [propext, Quot.sound]
'c53_prefix_spells_path' depends on axioms: [propext, Quot.sound]
'c53_query_prefixes' depends on axioms: [propext, Classical.choice, Quot.sound]
'c54_characteristic_vector' depends on axioms: [propext, Quot.sound]
'c54_index_of' depends on axioms: [propext, Quot.sound]
'c54_iterations_succeed' depends on axioms: [propext, Classical.choice, Quot.sound]
'c54_query_windows' depends on axioms: [propext, Classical.choice, Quot.sound]
'c54_reads_in_range' depends on axioms: [propext, Classical.choice, Quot.sound]
'c55_complete_needs_nothing' depends on axioms: [propext, Classical.choice, Quot.sound]
'c55_dangling_pointer_misleads' depends on axioms: [propext, Quot.sound]
'c55_lifetimes' depends on axioms: [propext, Classical.choice, Quot.sound]
'c55_next_without_dictionary' depends on axioms: [propext, Classical.choice, Quot.sound]
'c55_next_without_transducer' depends on axioms: [propext, Classical.choice, Quot.sound]
'c55_no_leak' depends on axioms: [propext, Classical.choice, Quot.sound]
'c56_copied_dictionary' depends on axioms: [propext, Classical.choice, Quot.sound]
'c56_copied_iterator' depends on axioms: [propext, Classical.choice, Quot.sound]
'c56_copied_query' depends on axioms: [propext, Classical.choice, Quot.sound]
'c56_copied_transducer' depends on axioms: [propext, Classical.choice, Quot.sound]
'c57_dictionary_iterators' depends on axioms: [propext, Classical.choice, Quot.sound]
'c57_equal_iterators_show_equal_false' depends on axioms: [propext, Classical.choice, Quot.sound]
'c57_query_equality' depends on axioms: [propext, Classical.choice, Quot.sound]
'c58_build_and_query' depends on axioms: [propext, Classical.choice, Quot.sound]
'c59_add_after_finish_adds_wrong_term' depends on axioms: [propext, Quot.sound]
'c59_add_after_finish_partial' depends on axioms: [propext, Classical.choice, Quot.sound]
'c60_cycles_never_end' depends on axioms: [propext, Classical.choice, Quot.sound]
'c60_unreachable_nodes_leak' depends on axioms: [propext, Classical.choice, Quot.sound]
'c61_bytes_round_trip' depends on axioms: [propext, Classical.choice, Quot.sound]
'c61_messages_survive' depends on axioms: [propext, Quot.sound]
'c61_small_enough' depends on axioms: [propext, Classical.choice, Quot.sound]
'c62_noticed_cuts' depends on axioms: [propext, Classical.choice, Quot.sound]
'c62_truncated_files_partial' depends on axioms: [propext, Classical.choice, Quot.sound]
'c62_truncation_unnoticed' depends on axioms: [propext, Quot.sound]
'c63_first_run' depends on axioms: [propext, Classical.choice, Quot.sound]
'c63_later_run' depends on axioms: [propext, Classical.choice, Quot.sound]
'c63_second_run_same_terms' depends on axioms: [propext, Classical.choice, Quot.sound]
'c64_iterations_bound' depends on axioms: [propext, Classical.choice, Quot.sound]
'c64_progress' depends on axioms: [propext, Classical.choice, Quot.sound]
'c64_state_size' depends on axioms: [propext, Classical.choice, Quot.sound]
'c64_visits_viable_prefixes' depends on axioms: [propext, Classical.choice, Quot.sound]
'c64_whole_query' depends on axioms: [propext, Classical.choice, Quot.sound]
'c65_candidates_need_at_most_distance_operations' depends on axioms: [propext, Classical.choice, Quot.sound]
'c65_no_term_missed' depends on axioms: [propext, Classical.choice, Quot.sound]
'c65_transposition_misses_terms' depends on axioms: [propext, Classical.choice, Quot.sound]
'c65_transposition_partial' depends on axioms: [propext, Classical.choice, Quot.sound]
'c66_all_cases' depends on axioms: [propext, Classical.choice, Quot.sound]
'c66_all_distances' depends on axioms: [propext, Classical.choice, Quot.sound]
'c66_bad_distances_accepted' depends on axioms: [propext, Classical.choice, Quot.sound]
'c66_decimal_distance' depends on axioms: [propext, Classical.choice, Quot.sound]
'c66_options' depends on axioms: [propext, Classical.choice, Quot.sound]
'c66_refused' depends on axioms: [propext, Classical.choice, Quot.sound]
'c66_refused_changes_nothing' depends on axioms: [propext, Classical.choice, Quot.sound]
'c67_empty_file_undefined' depends on axioms: [propext, Classical.choice, Quot.sound]
'c67_ends_partial' depends on axioms: [propext, Classical.choice, Quot.sound]
'c67_not_total' depends on axioms: [propext, Classical.choice, Quot.sound]
'c67_rootless_file_undefined' depends on axioms: [propext, Classical.choice, Quot.sound]
'c67_too_large_leaves_empty_file' depends on axioms: [propext, Quot.sound]
'c67_unterminated_line_never_ends' depends on axioms: [propext, Classical.choice, Quot.sound]
'c68_library_exact' depends on axioms: [propext, Classical.choice, Quot.sound]
'c69_candidates' depends on axioms: [propext, Classical.choice, Quot.sound]
'c69_shared_transducer_destroyed' depends on axioms: [propext, Quot.sound]
'c69_terminates' depends on axioms: [propext, Classical.choice, Quot.sound]
'c69_threads' depends on axioms: [propext, Classical.choice, Quot.sound]
'c70_answers_readable' depends on axioms: [propext, Classical.choice, Quot.sound]
'c70_complaint_exists' depends on axioms: [propext, Classical.choice, Quot.sound]
'c70_config_readable' depends on axioms: [propext, Classical.choice, Quot.sound]
'c70_first_run' depends on axioms: [propext, Classical.choice, Quot.sound]
'c70_newline_ambiguous' depends on axioms: [propext, Classical.choice, Quot.sound]
'c70_no_files' depends on axioms: [propext, Classical.choice, Quot.sound]
'c70_refused' depends on axioms: [propext, Classical.choice, Quot.sound]
'c70_same_run' depends on axioms: [propext, Classical.choice, Quot.sound]
'c71_contains_expected_terms' depends on axioms: [propext, Classical.choice, Quot.sound]
'c71_dawg_node' depends on axioms: [propext, Classical.choice, Quot.sound]
'c71_rejects_unsorted_terms' depends on axioms: [propext, Classical.choice, Quot.sound]
'c71_transition_prefix' depends on axioms: [propext, Classical.choice, Quot.sound]
'c72_discarded' depends on axioms: [propext, Quot.sound]
'c72_states' depends on axioms: [propext, Classical.choice, Quot.sound]
'c73_distances' depends on axioms: [propext, Classical.choice, Quot.sound]
'c73_serializer' depends on axioms: [propext, Classical.choice, Quot.sound]
'c73_serializer_unwritable' depends on axioms: [propext, Classical.choice, Quot.sound]
'c73_symmetric_pair' depends on axioms: [propext, Classical.choice, Quot.sound]
'c73_transducers' depends on axioms: [propext, Classical.choice, Quot.sound]
'c74_hash_assertion_fails' depends on axioms: [propext, Classical.choice, Quot.sound]
'c74_transposition_triangle_fails' depends on axioms: [propext, Classical.choice, Quot.sound]
'c74_transposition_triangle_iff' depends on axioms: [propext, Classical.choice, Quot.sound]
'c75_any_bytes' depends on axioms: [propext, Classical.choice, Quot.sound]
'c75_contains' depends on axioms: [propext, Classical.choice, Quot.sound]
'c75_delete' depends on axioms: [propext, Classical.choice, Quot.sound]
'c75_dictionary' depends on axioms: [propext, Classical.choice, Quot.sound]
'c75_queries' depends on axioms: [propext, Classical.choice, Quot.sound]
'c75_read' depends on axioms: [propext, Classical.choice, Quot.sound]
'c76_built' depends on axioms: [propext, Classical.choice, Quot.sound]
'c76_exponential' depends on axioms: [propext, Classical.choice, Quot.sound]
'c76_iterations' depends on axioms: [propext, Classical.choice, Quot.sound]
'c76_message' depends on axioms: [propext, Classical.choice, Quot.sound]
'c77_again' depends on axioms: [propext, Classical.choice, Quot.sound]
'c77_attained' depends on axioms: [propext, Classical.choice, Quot.sound]
'c77_between' depends on axioms: [propext, Classical.choice, Quot.sound]
'c77_history' depends on axioms: [propext, Classical.choice, Quot.sound]
'c78_incomplete' depends on axioms: [propext, Classical.choice, Quot.sound]
'c78_meaning' depends on axioms: [propext, Classical.choice, Quot.sound]
'c78_repaired' depends on axioms: [propext, Classical.choice, Quot.sound]
'c78_unsound' depends on axioms: [propext, Classical.choice, Quot.sound]
'c78_wrapped' depends on axioms: [propext, Classical.choice, Quot.sound]
'c79_dictionary_readable' depends on axioms: [propext, Classical.choice, Quot.sound]
'c79_node' depends on axioms: [propext, Classical.choice, Quot.sound]
'c79_node_readable' depends on axioms: [propext, Classical.choice, Quot.sound]
'c79_pair_ambiguous' depends on axioms: [propext, Classical.choice, Quot.sound]
'c79_pair_readable' depends on axioms: [propext, Classical.choice, Quot.sound]
'c80_all_there' depends on axioms: [propext, Classical.choice, Quot.sound]
'c80_exact' depends on axioms: [propext, Classical.choice, Quot.sound]
'c80_messages' depends on axioms: [propext, Classical.choice, Quot.sound]
'c80_undefined' depends on axioms: [propext, Classical.choice, Quot.sound]
'c81_copy' depends on axioms: [propext, Classical.choice, Quot.sound]
'c81_dictionaries' depends on axioms: [propext, Classical.choice, Quot.sound]
'c81_foreign' depends on axioms: [propext, Classical.choice, Quot.sound]
'c81_outcome' depends on axioms: [propext, Classical.choice, Quot.sound]
'c81_same_answers' depends on axioms: [propext, Classical.choice, Quot.sound]
'c82_cycle' depends on axioms: [propext, Classical.choice, Quot.sound]
'c82_ends' depends on axioms: [propext, Classical.choice, Quot.sound]
'c82_exactly' depends on axioms: [propext, Classical.choice, Quot.sound]
'c82_inputs' depends on axioms: [propext, Quot.sound]
'c82_next_run' depends on axioms: [propext, Classical.choice, Quot.sound]
'c82_stuck' depends on axioms: [propext, Classical.choice, Quot.sound]
'c82_undefined' depends on axioms: [propext, Classical.choice, Quot.sound]
'c83_built' depends on axioms: [propext, Classical.choice, Quot.sound]
'c83_eq' depends on axioms: [propext, Classical.choice, Quot.sound]
'c83_exponential' depends on axioms: [propext, Classical.choice, Quot.sound]
'c83_hash' depends on axioms: [propext, Classical.choice, Quot.sound]
'c84_codes' depends on axioms: [propext, Classical.choice, Quot.sound]
'c84_quadratic' depends on axioms: [propext, Classical.choice, Quot.sound]
'c84_word' depends on axioms: [propext, Classical.choice, Quot.sound]
'c84_work' depends on axioms: [propext, Classical.choice, Quot.sound]
'c85_between' depends on axioms: [propext, Classical.choice, Quot.sound]
'c85_between_attained' depends on axioms: [propext, Classical.choice, Quot.sound]
'c85_built' depends on axioms: [propext, Classical.choice, Quot.sound]
'c85_eq' depends on axioms: [propext, Classical.choice, Quot.sound]
'c85_hash' depends on axioms: [propext, Classical.choice, Quot.sound]
'c85_intersection' depends on axioms: [propext, Quot.sound]
'c85_prefix' depends on axioms: [propext, Quot.sound]
'c85_query_state' depends on axioms: [propext, Classical.choice, Quot.sound]
'c85_serialize' depends on axioms: [propext, Classical.choice, Quot.sound]
'c85_state' depends on axioms: [propext, Classical.choice, Quot.sound]
'c85_word' depends on axioms: [propext, Classical.choice, Quot.sound]
'c86_cases' depends on axioms: [propext, Classical.choice, Quot.sound]
'c86_endless' depends on axioms: [propext, Classical.choice, Quot.sound]
'c86_messages' depends on axioms: [propext, Classical.choice, Quot.sound]
'c86_past_the_end' depends on axioms: [propext, Classical.choice, Quot.sound]
'c86_range' depends on axioms: [propext, Classical.choice, Quot.sound]
'c86_range_dictionary' depends on axioms: [propext, Classical.choice, Quot.sound]
'c86_range_endless' depends on axioms: [propext, Classical.choice, Quot.sound]
'c86_range_undefined' depends on axioms: [propext, Classical.choice, Quot.sound]
'c86_reached' depends on axioms: [propext, Classical.choice, Quot.sound]
'c86_undefined' depends on axioms: [propext, Classical.choice, Quot.sound]
'c87_alive' depends on axioms: [propext, Classical.choice, Quot.sound]
'c87_asymmetric' does not depend on any axioms
'c87_cases' depends on axioms: [propext, Classical.choice, Quot.sound]
'c87_endless' depends on axioms: [propext, Classical.choice, Quot.sound]
'c87_equal' depends on axioms: [propext, Classical.choice, Quot.sound]
'c87_equal_symm' depends on axioms: [propext, Classical.choice, Quot.sound]
'c87_hash' depends on axioms: [propext, Classical.choice, Quot.sound]
'c87_hash_cases' depends on axioms: [propext, Classical.choice, Quot.sound]
'c87_hash_cycle' depends on axioms: [propext, Classical.choice, Quot.sound]
'c87_hash_endless' depends on axioms: [propext, Classical.choice, Quot.sound]
'c87_hash_undefined' depends on axioms: [propext, Classical.choice, Quot.sound]
'c87_messages' depends on axioms: [propext, Classical.choice, Quot.sound]
'c87_self' depends on axioms: [propext, Classical.choice, Quot.sound]
'c87_undefined' depends on axioms: [propext, Classical.choice, Quot.sound]
'c87_unequal' depends on axioms: [propext, Classical.choice, Quot.sound]
'c88_random' depends on axioms: [propext, Classical.choice, Quot.sound]
'c88_random_all' depends on axioms: [propext, Classical.choice, Quot.sound]
'c88_settings' depends on axioms: [propext, Classical.choice, Quot.sound]
'c88_settings_space' depends on axioms: [propext, Classical.choice, Quot.sound]
'c88_temp_endless' depends on axioms: [propext, Classical.choice, Quot.sound]
'c88_temp_ends' depends on axioms: [propext, Classical.choice, Quot.sound]
'c88_temp_path' depends on axioms: [propext, Classical.choice, Quot.sound]
'c88_temp_twice' depends on axioms: [propext, Classical.choice, Quot.sound]
'c88_tidy' depends on axioms: [propext, Classical.choice, Quot.sound]
'c89_assigned_dictionary' depends on axioms: [propext, Classical.choice, Quot.sound]
'c89_assigned_iterator' depends on axioms: [propext, Classical.choice, Quot.sound]
'c89_assigned_query' depends on axioms: [propext, Classical.choice, Quot.sound]
'c89_assigned_transducer' depends on axioms: [propext, Classical.choice, Quot.sound]
'c89_assignments' depends on axioms: [propext, Classical.choice, Quot.sound]
'c89_example_query' depends on axioms: [propext, Quot.sound]
'c89_example_swap' depends on axioms: [propext, Quot.sound]
'c89_example_transducer' depends on axioms: [propext, Quot.sound]
'c89_self' depends on axioms: [propext, Quot.sound]
'c89_swapped_queries' depends on axioms: [propext, Classical.choice, Quot.sound]
'c90_after_throw' depends on axioms: [propext, Classical.choice, Quot.sound]
'c90_constructor' depends on axioms: [propext, Classical.choice, Quot.sound]
'c90_cut_text' depends on axioms: [propext, Classical.choice, Quot.sound]
'c90_goes_on' depends on axioms: [propext, Classical.choice, Quot.sound]
'c90_loses' depends on axioms: [propext]
'c90_no_failure' depends on axioms: [propext, Quot.sound]
'c90_retry' depends on axioms: [propext, Classical.choice, Quot.sound]
'c91_case_factory' depends on axioms: [propext, Quot.sound]
'c91_case_lost' depends on axioms: [propext, Quot.sound]
'c91_case_other_word' depends on axioms: [propext, Quot.sound]
'c91_case_retry' depends on axioms: [propext, Quot.sound]
'c91_case_stray' depends on axioms: [propext, Quot.sound]
'c91_case_uncounted' depends on axioms: [propext, Quot.sound]
'c91_clash' depends on axioms: [propext, Classical.choice, Quot.sound]
'c91_dictionary' depends on axioms: [propext, Classical.choice, Quot.sound]
'c91_early_is_safe' depends on axioms: [propext, Classical.choice, Quot.sound]
'c91_exact' depends on axioms: [propext]
'c91_factory' depends on axioms: [propext, Classical.choice, Quot.sound]
'c91_no_failure' depends on axioms: [propext, Quot.sound]
'c91_retry' depends on axioms: [propext, Classical.choice, Quot.sound]
'c91_safe_calls' depends on axioms: [propext, Classical.choice, Quot.sound]
'c91_words' depends on axioms: [propext, Quot.sound]
'c92_afterwards' depends on axioms: [propext, Classical.choice, Quot.sound]
'c92_answers' depends on axioms: [propext, Classical.choice, Quot.sound]
'c92_executions_finite' depends on axioms: [propext, Classical.choice, Quot.sound]
'c92_no_data_race' depends on axioms: [propext, Classical.choice, Quot.sound]
'c92_no_deadlock' depends on axioms: [propext, Classical.choice, Quot.sound]
'c93_any_caller' depends on axioms: [propext, Classical.choice, Quot.sound]
'c93_constructor' depends on axioms: [propext, Classical.choice, Quot.sound]
'c93_loses' depends on axioms: [propext]
'c93_no_failure' depends on axioms: [propext]
'c93_repeats' depends on axioms: [propext, Classical.choice, Quot.sound]
'c93_retry' depends on axioms: [propext, Classical.choice, Quot.sound]
'c94_any_bytes' depends on axioms: [propext, Classical.choice, Quot.sound]
'c94_load' depends on axioms: [propext, Classical.choice, Quot.sound]
'c94_load_after_save' depends on axioms: [propext, Classical.choice, Quot.sound]
'c94_next_run' depends on axioms: [propext, Classical.choice, Quot.sound]
'c94_no_failure' depends on axioms: [propext, Quot.sound]
'c94_no_failure_loading' depends on axioms: [propext, Classical.choice, Quot.sound]
'c94_retry' depends on axioms: [propext, Classical.choice, Quot.sound]
'c94_save' depends on axioms: [propext, Classical.choice, Quot.sound]
'c94_true_incomplete' depends on axioms: [propext, Classical.choice, Quot.sound]
'c94_true_partial' depends on axioms: [propext, Classical.choice, Quot.sound]
'c95_nodes' depends on axioms: [propext, Classical.choice, Quot.sound]
'c95_waste' depends on axioms: [propext, Classical.choice, Quot.sound]
'c96_held_unique' depends on axioms: [propext, Classical.choice, Quot.sound]
'c96_memory' depends on axioms: [propext, Classical.choice, Quot.sound]
'c96_waste' depends on axioms: [propext, Classical.choice, Quot.sound]
'c97_defined' depends on axioms: [propext, Classical.choice, Quot.sound]
'c97_empty' depends on axioms: [propext, Classical.choice, Quot.sound]
'c97_hash_4GiB' depends on axioms: [propext, Classical.choice, Quot.sound]
'c97_hash_defined' depends on axioms: [propext, Classical.choice, Quot.sound]
'c97_hash_first' depends on axioms: [propext, Classical.choice, Quot.sound]
'c97_hash_short' depends on axioms: [propext, Classical.choice, Quot.sound]
'c97_right' depends on axioms: [propext, Classical.choice, Quot.sound]
'c97_undefined' depends on axioms: [propext, Classical.choice, Quot.sound]
'c98_contains' depends on axioms: [propext, Classical.choice, Quot.sound]
'c98_first' depends on axioms: [propext, Classical.choice, Quot.sound]
'c98_query' depends on axioms: [propext, Classical.choice, Quot.sound]
'c99_alone' depends on axioms: [propext, Quot.sound]
'c99_clean' depends on axioms: [propext, Classical.choice, Quot.sound]
'c99_ends' depends on axioms: [propext, Classical.choice, Quot.sound]
'c99_reader_and_destroyer' depends on axioms: [propext, Quot.sound]
'c99_reader_and_writer' depends on axioms: [propext, Quot.sound]
'c99_shared' depends on axioms: [propext, Classical.choice, Quot.sound]
'c99_threads' depends on axioms: [propext, Classical.choice, Quot.sound]
'c99_two_writers' depends on axioms: [propext, Quot.sound]
