{"claims":[
  {"property": "C01", "status": "proved", "theorems": ["Verif.C01_emd_dp_optimal"], "note": "ℚ arithmetic; minimum over all partial matchings of the two index sets (IsEmd), which the result attains."},
  {"property": "C02", "status": "proved", "theorems": ["Verif.C02_emd_dp_symm"], "note": ""},
  {"property": "C03", "status": "proved", "theorems": ["Verif.C03_emd_dp_perm"], "note": ""},
  {"property": "C04", "status": "proved", "theorems": ["Verif.C04_emd_dp_zero_iff"], "note": ""},
  {"property": "C05", "status": "proved", "theorems": ["Verif.C05_emd_dp_triangle"], "note": ""},
  {"property": "C06", "status": "proved", "theorems": ["Verif.C06_emd_dp_bounds"], "note": ""},
  {"property": "C07", "status": "proved", "theorems": ["Verif.C07_emd_slow_eq_dp", "Verif.C07_emd_slow_sharp"], "note": ""},
  {"property": "C08", "status": "proved", "theorems": ["Verif.C08_emd_hybrid_eq_dp", "Verif.C08_emd_hybrid_sharp", "Verif.C08_emd_hybrid_unit"], "note": ""},
  {"property": "C09", "status": "proved", "theorems": ["Verif.C09_emd_old_differs", "Verif.C09_emd_old_eq_dp", "Verif.C09_emd_old_unit"], "note": ""},
  {"property": "C10", "status": "proved", "theorems": ["Verif.C10_validation"], "note": ""},
  {"property": "C11", "status": "proved", "theorems": ["Verif.C11_sum_of_emd"], "note": ""},
  {"property": "C12", "status": "proved", "theorems": ["Verif.C12_self"], "note": ""},
  {"property": "C13", "status": "proved", "theorems": ["Verif.C13_zero_iff_eq"], "note": ""},
  {"property": "C14", "status": "proved", "theorems": ["Verif.C14_symm"], "note": ""},
  {"property": "C15", "status": "proved", "theorems": ["Verif.C15_triangle"], "note": "Requires every word to have an n-gram (the counts are otherwise non-positive)."},
  {"property": "C16", "status": "proved", "theorems": ["Verif.C16_complement"], "note": ""},
  {"property": "C17", "status": "proved", "theorems": ["Verif.C17_range"], "note": ""},
  {"property": "C18", "status": "proved", "theorems": ["Verif.C18_one_iff_disjoint"], "note": ""},
  {"property": "C19", "status": "proved", "theorems": ["Verif.C19_normalized_not_metric"], "note": "Witness refuting the triangle inequality for the normalised distance."},
  {"property": "C20", "status": "proved", "theorems": ["Verif.C20_bow_optimal"], "note": ""},
  {"property": "C21", "status": "proved", "theorems": ["Verif.C21_bow_order", "Verif.C21_bow_zero_iff"], "note": ""},
  {"property": "C22", "status": "proved", "theorems": ["Verif.C22_bow_complement", "Verif.C22_bow_normalized"], "note": ""},
  {"property": "C23", "status": "proved", "theorems": ["Verif.C23_vocabulary"], "note": ""},
  {"property": "C24", "status": "proved", "theorems": ["Verif.C24_add_word"], "note": ""},
  {"property": "C25", "status": "proved", "theorems": ["Verif.C25_history_independent"], "note": "The state after a history is determined by the effective additions; lookups do not change it."},
  {"property": "C26", "status": "proved", "theorems": ["Verif.C26_lookup_shape"], "note": ""},
  {"property": "C27", "status": "proved", "theorems": ["Verif.C27_score_is_nmd", "Verif.C27_scores_exact"], "note": ""},
  {"property": "C28", "status": "proved", "theorems": ["Verif.C28_power_mean", "Verif.C28_pruning_sound", "Verif.pyMean_monotone"], "note": "For every monotone aggregate; pyMean_monotone shows the power mean is one for every real dim > 0."},
  {"property": "C29", "status": "proved", "theorems": ["Verif.C29_contribution_bounds"], "note": ""},
  {"property": "C30", "status": "proved", "theorems": ["Verif.C30_long_enough", "Verif.C30_zero_division"], "note": "Exact condition for ZeroDivisionError, plus a sufficient length condition for its absence."},
  {"property": "C31", "status": "proved", "theorems": ["Verif.C31_exact_match_first", "Verif.C31_power_mean", "Verif.pyMean_strict", "Verif.pyMean_replicate"], "note": "For every strictly monotone aggregate; pyMean_strict shows the power mean is one. The non-normalised counterexample is beside the theorem."},
  {"property": "C32", "status": "proved", "theorems": ["Verif.C32_arguments", "Verif.C32_constructor", "Verif.C32_filter", "Verif.C32_filter_arguments"], "note": ""},
  {"property": "C33", "status": "proved", "theorems": ["Verif.C33_case_insensitive"], "note": ""},
  {"property": "C34", "status": "proved", "theorems": ["Verif.C34_v5_lookup"], "note": ""},
  {"property": "C35", "status": "proved", "theorems": ["Verif.C35_contains", "Verif.C35_len_iter", "Verif.C35_members", "Verif.C35_refines_set"], "note": ""},
  {"property": "C36", "status": "proved", "theorems": ["Verif.C36_add_errors", "Verif.C36_errors_no_effect"], "note": ""},
  {"property": "C37", "status": "proved", "theorems": ["Verif.C37_remove_keyError_iff", "Verif.C37_remove_present"], "note": ""},
  {"property": "C38", "status": "proved", "theorems": ["Verif.C38_find_no_keyError", "Verif.C38_index_exact"], "note": ""},
  {"property": "C39", "status": "proved", "theorems": ["Verif.C39_best_k_first"], "note": ""},
  {"property": "C40", "status": "proved", "theorems": ["Verif.C40_score_range"], "note": ""},
  {"property": "C41", "status": "proved", "theorems": ["Verif.C41_exact_first", "Verif.C41_short_word_not_found"], "note": ""},
  {"property": "C42", "status": "proved", "theorems": ["Verif.C42_below_threshold_returned", "Verif.C42_min_similarity_ignored", "Verif.C42_min_similarity_validated"], "note": ""},
  {"property": "C43", "status": "proved", "theorems": ["Verif.C43_suggest", "Verif.C43_suggest_members"], "note": ""},
  {"property": "C44", "status": "proved", "theorems": ["Verif.C44_lookup_validation"], "note": ""},
  {"property": "C45", "status": "proved", "theorems": ["Verif.C45_insertion_order", "Verif.C45_insertion_order_errors"], "note": ""},
  {"property": "C46", "status": "proved", "theorems": ["Verif.C46_eq_iff_same_keys", "Verif.C46_eq_not_symmetric"], "note": ""},
  {"property": "C47", "status": "proved", "theorems": ["Verif.C47_history_independent"], "note": ""},
  {"property": "C48", "status": "proved", "theorems": ["Verif.C48_constructor"], "note": ""},
  {"property": "C49", "status": "proved", "theorems": ["Verif.C49_mean_between", "Verif.C49_mean_laws"], "note": ""},
  {"property": "C50", "status": "proved", "theorems": ["Verif.C50_bow_empty", "Verif.C50_bow_raises_iff"], "note": ""},
  {"property": "C51", "status": "proved", "theorems": ["Verif.C51_bow_not_metric", "Verif.C51_bow_single"], "note": ""},
  {"property": "C52", "status": "proved", "theorems": ["Verif.Trie.C52_trie_refines_map", "Verif.Trie.C52_trie_roundtrip_needed"], "note": ""},
  {"property": "C53", "status": "proved", "theorems": ["Verif.Trie.C53_trie_len"], "note": ""},
  {"property": "C54", "status": "proved", "theorems": ["Verif.Trie.C54_trie_no_dead_nodes"], "note": ""},
  {"property": "C55", "status": "proved", "theorems": ["Verif.Trie.C55_trie_items", "Verif.Trie.C55_trie_keys_values"], "note": ""},
  {"property": "C56", "status": "proved", "theorems": ["Verif.Trie.C56_trie_empty_key_stuck"], "note": ""},
  {"property": "C57", "status": "proved", "theorems": ["Verif.Trie.C57_descending_not_reversed", "Verif.Trie.C57_sort_keys_same_map", "Verif.Trie.C57_sort_keys_sorted"], "note": ""},
  {"property": "C58", "status": "proved", "theorems": ["Verif.Trie.C58_del_slice_sorted", "Verif.Trie.C58_open_start_raises", "Verif.Trie.C58_open_stop_raises", "Verif.Trie.C58_slice_casefold_loses", "Verif.Trie.C58_slice_sorted", "Verif.Trie.C58_slice_unsorted_loses"], "note": ""},
  {"property": "C59", "status": "proved", "theorems": ["Verif.Trie.C59_finditer_leftmost_longest", "Verif.Trie.C59_finditer_sound"], "note": ""},
  {"property": "C60", "status": "proved", "theorems": ["Verif.Trie.C60_finditer_overlapping"], "note": ""},
  {"property": "C61", "status": "proved", "theorems": ["Verif.Trie.C61_translate", "Verif.Trie.C61_translate_no_match"], "note": ""},
  {"property": "C62", "status": "proved", "theorems": ["Verif.Trie.C62_findall", "Verif.Trie.C62_overlapping_not_leftmost", "Verif.Trie.C62_overlapping_not_shortest", "Verif.Trie.C62_search", "Verif.Trie.C62_search_overlapping"], "note": ""},
  {"property": "C63", "status": "proved", "theorems": ["Verif.Trie.C63_cheap_transposition_missed", "Verif.Trie.C63_levenshtein_lookup_exact", "Verif.Trie.C63_levenshtein_lookup_sound"], "note": ""},
  {"property": "C64", "status": "proved", "theorems": ["Verif.Trie.C64_damerau_same", "Verif.Trie.C64_lookup_rejects", "Verif.Trie.C64_negative_transposition"], "note": ""},
  {"property": "C65", "status": "proved", "theorems": ["Verif.Trie.C65_findall_longest", "Verif.Trie.C65_longer_than_finditer"], "note": ""},
  {"property": "C66", "status": "proved", "theorems": ["Verif.Edit.C66_edit_distance_least", "Verif.Edit.C66_levenshtein_same"], "note": ""},
  {"property": "C67", "status": "proved", "theorems": ["Verif.Edit.C67_length_bounds", "Verif.Edit.C67_metric"], "note": ""},
  {"property": "C68", "status": "proved", "theorems": ["Verif.Edit.C68_damerau_laws", "Verif.Edit.C68_damerau_no_triangle", "Verif.Edit.C68_damerau_not_minimal", "Verif.Edit.C68_damerau_optimal_alignment"], "note": ""},
  {"property": "C69", "status": "proved", "theorems": ["Verif.Edit.C69_bk_search_exact"], "note": ""},
  {"property": "C70", "status": "proved", "theorems": ["Verif.C70_arguments", "Verif.C70_v3_lookup", "Verif.C70_v3_rejects"], "note": ""},
  {"property": "C71", "status": "proved", "theorems": ["Verif.C71_v3_exact_match_not_first", "Verif.C71_v3_exact_match_score", "Verif.C71_v3_score_range"], "note": ""},
  {"property": "C72", "status": "proved", "theorems": ["Verif.C72_v3_vocabulary_recursion"], "note": ""},
  {"property": "C73", "status": "proved", "theorems": ["Verif.Edit.C73_eed_cheapest_walk"], "note": ""},
  {"property": "C74", "status": "proved", "theorems": ["Verif.Edit.C74_eed_range"], "note": ""},
  {"property": "C75", "status": "proved", "theorems": ["Verif.Edit.C75_eed_identical", "Verif.Edit.C75_eed_identical_not_zero", "Verif.Edit.C75_eed_not_symmetric"], "note": ""},
  {"property": "C76", "status": "proved", "theorems": ["Verif.Auto.C76_empty_never", "Verif.Auto.C76_to_dfa", "Verif.Auto.C76_to_dfa_loses_words"], "note": ""},
  {"property": "C77", "status": "proved", "theorems": ["Verif.Auto.C77_levenshtein_automaton"], "note": ""},
  {"property": "C78", "status": "proved", "theorems": ["Verif.Auto.C78_last_code_point_raises", "Verif.Auto.C78_next_valid_string"], "note": ""},
  {"property": "C79", "status": "proved", "theorems": ["Verif.Auto.C79_empty_entry_lost", "Verif.Auto.C79_find_all_matches"], "note": ""},
  {"property": "C80", "status": "proved", "theorems": ["Verif.Dawg.C80_finalize_twice", "Verif.Dawg.C80_increasing_all_kept", "Verif.Dawg.C80_insert_rejects", "Verif.Dawg.C80_keys_items"], "note": "Characters are any linear order; the recursion limit is an explicit bound; str(node) as a dictionary key is taken to be injective."},
  {"property": "C81", "status": "proved", "theorems": ["Verif.Dawg.C81_index_lookup"], "note": ""},
  {"property": "C82", "status": "proved", "theorems": ["Verif.Dawg.C82_count_edges", "Verif.Dawg.C82_count_nodes", "Verif.Dawg.C82_minimal"], "note": ""},
  {"property": "C83", "status": "proved", "theorems": ["Verif.Dawg.C83_get_index_negative", "Verif.Dawg.C83_index_before_finalize", "Verif.Dawg.C83_insert_after_finalize", "Verif.Dawg.C83_insert_after_finalize_loses"], "note": "The last part is shown by witnesses."},
  {"property": "C84", "status": "proved", "theorems": ["Verif.C84_v5b_exact_match_first", "Verif.C84_v5b_lookup"], "note": ""},
  {"property": "C85", "status": "proved", "theorems": ["Verif.C85_v5b_agrees_with_v5", "Verif.C85_v5b_same_index"], "note": ""},
  {"property": "C86", "status": "proved", "theorems": ["Verif.C86_v5b_vocabulary"], "note": ""},
  {"property": "C87", "status": "proved", "theorems": ["Verif.C87_v5b_constructor", "Verif.C87_v5b_errors"], "note": ""},
  {"property": "C88", "status": "proved", "theorems": ["Verif.Tok.C88_lossless"], "note": ""},
  {"property": "C89", "status": "proved", "theorems": ["Verif.Tok.C89_piecewise", "Verif.Tok.C89_unique_cut", "Verif.Tok.C89_words_are_maximal_runs"], "note": ""},
  {"property": "C90", "status": "proved", "theorems": ["Verif.Tok.C90_modes_agree"], "note": ""},
  {"property": "C91", "status": "proved", "theorems": ["Verif.Tok.C91_merge_apostrophes", "Verif.Tok.C91_runs"], "note": ""},
  {"property": "C92", "status": "proved", "theorems": ["Verif.Tok.C92_invalid_split", "Verif.Tok.C92_paragraphs", "Verif.Tok.C92_sentences"], "note": ""},
  {"property": "C93", "status": "proved", "theorems": ["Verif.Tok.C93_only_whitespace_lost", "Verif.Tok.C93_separator"], "note": ""},
  {"property": "C94", "status": "proved", "theorems": ["Verif.Tok.C94_positions_in_paragraph", "Verif.Tok.C94_positions_not_in_text"], "note": ""},
  {"property": "C95", "status": "proved", "theorems": ["Verif.Tok.C95_text_n_grams", "Verif.Tok.C95_windows", "Verif.Tok.C95_word_n_grams", "Verif.Tok.C95_word_n_grams_error"], "note": ""},
  {"property": "C96", "status": "proved", "theorems": ["Verif.Regex.C96_fullmatch", "Verif.Regex.C96_never_raises"], "note": ""},
  {"property": "C97", "status": "proved", "theorems": ["Verif.Regex.C97_match_is_longest"], "note": ""},
  {"property": "C98", "status": "proved", "theorems": ["Verif.Regex.C98_finditer"], "note": ""},
  {"property": "C99", "status": "proved", "theorems": ["Verif.Regex.C99_fuzzy_quotes_ignored"], "note": ""},
  {"property": "C100", "status": "proved", "theorems": ["Verif.Regex.C100_escape_space", "Verif.Regex.C100_no_keys", "Verif.Regex.C100_space_class", "Verif.Regex.C100_wildcard_lost"], "note": ""},
  {"property": "C101", "status": "proved", "theorems": ["Verif.Fp.C101_emd_float_exact"], "note": ""},
  {"property": "C102", "status": "proved", "theorems": ["Verif.Fp.C102_emd_float_bounds"], "note": ""},
  {"property": "C103", "status": "proved", "theorems": ["Verif.Fp.C103_emd_float_error"], "note": ""},
  {"property": "C104", "status": "proved", "theorems": ["Verif.Fp.C104_nmd_float_raises", "Verif.Fp.C104_nmd_float_range"], "note": ""},
  {"property": "C105", "status": "proved", "theorems": ["Verif.Fp.C105_nmd_float_disjoint"], "note": ""},
  {"property": "C106", "status": "proved", "theorems": ["Verif.Fp.C106_nmd_float_error"], "note": ""},
  {"property": "C107", "status": "proved", "theorems": ["Verif.Fp.C107_nmd_float_zero_iff"], "note": ""},
  {"property": "C108", "status": "proved", "theorems": ["Verif.Fp.C108_nmd_float_metric", "Verif.Fp.C108_nmd_float_not_symmetric"], "note": ""},
  {"property": "C109", "status": "proved", "theorems": ["Verif.C109_ior", "Verif.C109_isub", "Verif.C109_ixor", "Verif.C109_ixor_distinct", "Verif.C109_ixor_duplicates", "Verif.C109_self", "Verif.C109_stops_at_error"], "note": ""},
  {"property": "C110", "status": "proved", "theorems": ["Verif.C110_comparisons"], "note": ""},
  {"property": "C111", "status": "proved", "theorems": ["Verif.C111_plain_set", "Verif.C111_plain_set_spelling"], "note": ""},
  {"property": "C112", "status": "proved", "theorems": ["Verif.C112_binary_operators_raise"], "note": ""},
  {"property": "C113", "status": "proved", "theorems": ["Verif.Cy.C113_memory_safe"], "note": ""},
  {"property": "C114", "status": "proved", "theorems": ["Verif.Cy.C114_leak", "Verif.Cy.C114_no_leak"], "note": ""},
  {"property": "C115", "status": "proved", "theorems": ["Verif.Cy.C115_empty", "Verif.Cy.C115_exceptions", "Verif.Cy.C115_result", "Verif.Cy.C115_same_as_python"], "note": ""},
  {"property": "C116", "status": "proved", "theorems": ["Verif.Cy.C116_space"], "note": ""},
  {"property": "C117", "status": "proved", "theorems": ["Verif.File.C117_skips_existing"], "note": ""},
  {"property": "C118", "status": "proved", "theorems": ["Verif.File.C118_returns", "Verif.File.C118_success"], "note": ""},
  {"property": "C119", "status": "proved", "theorems": ["Verif.File.C119_every_moment"], "note": ""},
  {"property": "C120", "status": "proved", "theorems": ["Verif.File.C120_gap", "Verif.File.C120_no_partial_file", "Verif.File.C120_output_after_exception"], "note": ""},
  {"property": "C121", "status": "proved", "theorems": ["Verif.File.C121_bare_name", "Verif.File.C121_binary", "Verif.File.C121_input_is_temporary", "Verif.File.C121_line_ends", "Verif.File.C121_masked_exception", "Verif.File.C121_week"], "note": ""},
  {"property": "C122", "status": "proved", "theorems": ["Verif.File.C122_format_bytes", "Verif.File.C122_not_below_1024"], "note": ""},
  {"property": "C123", "status": "proved", "theorems": ["Verif.File.C123_below_a_second", "Verif.File.C123_format_seconds", "Verif.File.C123_raises_iff"], "note": ""},
  {"property": "C124", "status": "proved", "theorems": ["Verif.Fp.C124_float_state"], "note": ""},
  {"property": "C125", "status": "proved", "theorems": ["Verif.Fp.C125_float_score_is_nmd", "Verif.Fp.C125_float_score_range", "Verif.Fp.C125_float_single_n"], "note": ""},
  {"property": "C126", "status": "proved", "theorems": ["Verif.Fp.C126_float_lookup_best", "Verif.Fp.C126_float_lookup_raises"], "note": ""},
  {"property": "C127", "status": "proved", "theorems": ["Verif.Fp.C127_float_lookup_best_normalized"], "note": ""},
  {"property": "C128", "status": "proved", "theorems": ["Verif.Fp.C128_float_lookup_near_best"], "note": ""},
  {"property": "C129", "status": "proved", "theorems": ["Verif.Fp.C129_float_exact_match"], "note": ""},
  {"property": "C130", "status": "proved", "theorems": ["Verif.Fp.C130_float_score_error"], "note": ""},
  {"property": "C131", "status": "proved", "theorems": ["Verif.Fp.C131_float_set_all", "Verif.Fp.C131_float_set_same"], "note": ""},
  {"property": "C132", "status": "proved", "theorems": ["Verif.Fp.C132_float_clamp_idle", "Verif.Fp.C132_float_set_range", "Verif.Fp.C132_float_set_ranking"], "note": ""},
  {"property": "C133", "status": "proved", "theorems": ["Verif.Fp.C133_float_set_error"], "note": ""},
  {"property": "C134", "status": "proved", "theorems": ["Verif.Fp.C134_float_set_exact_first", "Verif.Fp.C134_float_set_first_one", "Verif.Fp.C134_float_set_one_iff"], "note": ""},
  {"property": "C135", "status": "proved", "theorems": ["Verif.Fp.C135_float_set_near_best", "Verif.Fp.C135_float_set_same_words"], "note": ""},
  {"property": "C136", "status": "proved", "theorems": ["Verif.Fp.C136_float_set_not_symmetric", "Verif.Fp.C136_float_set_symm"], "note": ""},
  {"property": "C137", "status": "proved", "theorems": ["Verif.Fp.C137_float_bow_raises", "Verif.Fp.C137_float_bow_range"], "note": ""},
  {"property": "C138", "status": "proved", "theorems": ["Verif.Fp.C138_float_bow_perm_zero", "Verif.Fp.C138_float_bow_zero_perm"], "note": ""},
  {"property": "C139", "status": "proved", "theorems": ["Verif.Fp.C139_float_bow_complement", "Verif.Fp.C139_float_bow_error"], "note": ""},
  {"property": "C140", "status": "proved", "theorems": ["Verif.Fp.C140_float_bow_order", "Verif.Fp.C140_float_bow_order_matters", "Verif.Fp.C140_float_bow_single"], "note": ""},
  {"property": "C141", "status": "proved", "theorems": ["Verif.Dawg.C141_orig_insert_rejects", "Verif.Dawg.C141_orig_lookup"], "note": ""},
  {"property": "C142", "status": "proved", "theorems": ["Verif.Dawg.C142_orig_display", "Verif.Dawg.C142_orig_keys_stable", "Verif.Dawg.C142_orig_minimal"], "note": ""},
  {"property": "C143", "status": "proved", "theorems": ["Verif.Dawg.C143_orig_insert_after_finish", "Verif.Dawg.C143_orig_lookup_unfinished", "Verif.Dawg.C143_orig_lookup_wrong"], "note": ""},
  {"property": "C144", "status": "proved", "theorems": ["Verif.Dawg.C144_orig_str_injective", "Verif.Dawg.C144_orig_str_order", "Verif.Dawg.C144_str_injective"], "note": ""},
  {"property": "C145", "status": "proved", "theorems": ["Verif.Sizeof.C145_sizeof_ends", "Verif.Sizeof.C145_sizeof_sum"], "note": ""},
  {"property": "C146", "status": "proved", "theorems": ["Verif.Sizeof.C146_sizeof_order", "Verif.Sizeof.C146_sizeof_part", "Verif.Sizeof.C146_sizeof_shared"], "note": ""},
  {"property": "C147", "status": "proved", "theorems": ["Verif.Fp.C147_slow_float"], "note": ""},
  {"property": "C148", "status": "proved", "theorems": ["Verif.Fp.C148_hybrid_float"], "note": ""},
  {"property": "C149", "status": "proved", "theorems": ["Verif.Fp.C149_old_float"], "note": ""},
  {"property": "C150", "status": "proved", "theorems": ["Verif.Fp.C150_float_symmetric", "Verif.Fp.C150_float_zero_not_equal"], "note": ""},
  {"property": "C151", "status": "proved", "theorems": ["Verif.Fp.C151_check_passes", "Verif.Fp.C151_float_agree"], "note": ""},
  {"property": "C152", "status": "proved", "theorems": ["Verif.Trie.C152_fromkeys_len", "Verif.Trie.C152_fromkeys_lookup", "Verif.Trie.C152_fromkeys_sorted"], "note": ""},
  {"property": "C153", "status": "proved", "theorems": ["Verif.Trie.C153_case_blind", "Verif.Trie.C153_lower_first", "Verif.Trie.C153_translate_lower"], "note": ""},
  {"property": "C154", "status": "proved", "theorems": ["Verif.Trie.C154_group_is_slice", "Verif.Trie.C154_match_objects", "Verif.Trie.C154_search_truth"], "note": ""},
  {"property": "C155", "status": "proved", "theorems": ["Verif.Trie.C155_nbytes_order", "Verif.Trie.C155_nbytes_same_callable", "Verif.Trie.C155_nbytes_sum"], "note": ""},
  {"property": "C156", "status": "proved", "theorems": ["Verif.Regex.C156_capitals_lost", "Verif.Regex.C156_to_regex"], "note": ""},
  {"property": "C157", "status": "proved", "theorems": ["Verif.Fp.C157_distances_differ", "Verif.Fp.C157_distances_same", "Verif.Fp.C157_lookup_differs", "Verif.Fp.C157_lookup_same", "Verif.Fp.C157_scores_close"], "note": ""},
  {"property": "C158", "status": "proved", "theorems": ["Verif.Fp.C158_compensated_sum", "Verif.Fp.C158_mean_error"], "note": ""},
  {"property": "C159", "status": "proved", "theorems": ["Verif.Conc.C159_find_while_adding"], "note": ""},
  {"property": "C160", "status": "proved", "theorems": ["Verif.Conc.C160_adds_in_order"], "note": ""},
  {"property": "C161", "status": "proved", "theorems": ["Verif.Conc.C161_find_keyError", "Verif.Conc.C161_find_runtimeError", "Verif.Conc.C161_lost_word"], "note": ""},
  {"property": "C162", "status": "proved", "theorems": ["Verif.Conc.C162_find_not_atomic"], "note": ""},
  {"property": "C163", "status": "proved", "theorems": ["Verif.C163_marks_ignored", "Verif.C163_strip_marks"], "note": ""},
  {"property": "C164", "status": "proved", "theorems": ["Verif.C164_accents_ignored", "Verif.C164_found_first", "Verif.C164_iota_subscript", "Verif.C164_needs_letter"], "note": ""},
  {"property": "C165", "status": "proved", "theorems": ["Verif.Fp.C165_double_emd", "Verif.Fp.C165_double_nearest", "Verif.Fp.C165_double_overflow"], "note": ""},
  {"property": "C166", "status": "proved", "theorems": ["Verif.Fp.C166_double_bow", "Verif.Fp.C166_double_nmd"], "note": ""},
  {"property": "C167", "status": "proved", "theorems": ["Verif.Fp.C167_double_word_list"], "note": ""},
  {"property": "C168", "status": "proved", "theorems": ["Verif.Fp.C168_double_word_set"], "note": ""},
  {"property": "C169", "status": "proved", "theorems": ["Verif.C169_block_edit"], "note": ""},
  {"property": "C170", "status": "proved", "theorems": ["Verif.C170_le_damerau", "Verif.C170_le_levenshtein", "Verif.C170_length", "Verif.C170_similarity"], "note": ""},
  {"property": "C171", "status": "proved", "theorems": ["Verif.C171_short_typo_missed", "Verif.C171_transposition_found", "Verif.C171_typo_found"], "note": ""},
  {"property": "C172", "status": "proved", "theorems": ["Verif.C172_typo_found", "Verif.C172_typo_score"], "note": ""},
  {"property": "C173", "status": "proved", "theorems": ["Verif.C173_rename"], "note": ""},
  {"property": "C174", "status": "proved", "theorems": ["Verif.C174_reverse"], "note": ""},
  {"property": "C175", "status": "proved", "theorems": ["Verif.C175_misspelt_text"], "note": ""},
  {"property": "C176", "status": "proved", "theorems": ["Verif.C176_add_word", "Verif.C176_replace_word"], "note": ""},
  {"property": "C177", "status": "proved", "theorems": ["Verif.C177_rename", "Verif.C177_reverse"], "note": ""},
  {"property": "C178", "status": "proved", "theorems": ["Verif.Fp.C178_float_list_typo_found", "Verif.Fp.C178_float_misspelt_text", "Verif.Fp.C178_float_transposition_found", "Verif.Fp.C178_float_typo_found"], "note": ""},
  {"property": "C179", "status": "proved", "theorems": ["Verif.Fp.C179_float_bow_rename", "Verif.Fp.C179_float_rename", "Verif.Fp.C179_float_reverse_differs", "Verif.Fp.C179_float_reverse_near"], "note": ""},
  {"property": "C180", "status": "proved", "theorems": ["Verif.C180_rename", "Verif.C180_reverse", "Verif.Fp.C180_float_rename"], "note": ""},
  {"property": "C181", "status": "proved", "theorems": ["Verif.C181_rename", "Verif.C181_rename_v5", "Verif.C181_reverse", "Verif.C181_reverse_size_one", "Verif.Fp.C181_float_rename"], "note": ""},
  {"property": "C182", "status": "proved", "theorems": ["Verif.Trie.C182_each_key_once", "Verif.Trie.C182_findall", "Verif.Trie.C182_not_whole_words", "Verif.Trie.C182_translate"], "note": ""},
  {"property": "C183", "status": "proved", "theorems": ["Verif.Trie.C183_idempotent", "Verif.Trie.C183_undo"], "note": ""},
  {"property": "C184", "status": "proved", "theorems": ["Verif.Regex.C184_findall_words"], "note": ""},
  {"property": "C185", "status": "proved", "theorems": ["Verif.Regex.C185_boundary_words"], "note": ""},
  {"property": "C186", "status": "proved", "theorems": ["Verif.Conc.C186_writers_in_order"], "note": ""},
  {"property": "C187", "status": "proved", "theorems": ["Verif.Conc.C187_find_while_writing"], "note": ""},
  {"property": "C188", "status": "proved", "theorems": ["Verif.Conc.C188_find_between_discards"], "note": ""},
  {"property": "C189", "status": "proved", "theorems": ["Verif.ListConc.C189_threads_adding"], "note": ""},
  {"property": "C190", "status": "proved", "theorems": ["Verif.ListConc.C190_same_word_counted_twice"], "note": ""},
  {"property": "C191", "status": "proved", "theorems": ["Verif.ListConc.C191_word_lost"], "note": ""},
  {"property": "C192", "status": "proved", "theorems": ["Verif.ListConc.C192_no_more_words"], "note": ""},
  {"property": "C193", "status": "proved", "theorems": ["Verif.ListConc.C193_other_word_missed"], "note": ""},
  {"property": "C194", "status": "proved", "theorems": ["Verif.ListConc.C194_lookup_while_adding"], "note": ""},
  {"property": "C195", "status": "proved", "theorems": ["Verif.ListConc.C195_lookup_returns_nothing"], "note": ""},
  {"property": "C196", "status": "proved", "theorems": ["Verif.ListConc.C196_lookup_undisturbed"], "note": ""},
  {"property": "C197", "status": "proved", "theorems": ["Verif.Memo.C197_caches_invisible_to_lists"], "note": ""},
  {"property": "C198", "status": "proved", "theorems": ["Verif.Memo.C198_caches_invisible"], "note": ""},
  {"property": "C199", "status": "proved", "theorems": ["Verif.Memo.C199_float_sizes", "Verif.Memo.C199_floats_break_other_lists", "Verif.Memo.C199_mixed_sizes"], "note": ""},
  {"property": "C200", "status": "proved", "theorems": ["Verif.Memo.C200_changed_list_spoils_words"], "note": ""},
  {"property": "C201", "status": "proved", "theorems": ["Verif.Memo.C201_how_long_lists_are_kept"], "note": ""},
  {"property": "C202", "status": "proved", "theorems": ["Verif.Memo.C202_when_floats_are_accepted"], "note": ""},
  {"property": "C203", "status": "proved", "theorems": ["Verif.C203_full_scan"], "note": ""},
  {"property": "C204", "status": "proved", "theorems": ["Verif.C204_only_eligible_words", "Verif.C204_only_eligible_words_v5"], "note": ""},
  {"property": "C205", "status": "proved", "theorems": ["Verif.C205_unrelated_words"], "note": ""},
  {"property": "C206", "status": "proved", "theorems": ["Verif.C206_ideal_ranking", "Verif.C206_long_ties", "Verif.C206_prefix"], "note": ""},
  {"property": "C207", "status": "proved", "theorems": ["Verif.C207_prefix"], "note": ""},
  {"property": "C208", "status": "proved", "theorems": ["Verif.C208_add", "Verif.C208_discard"], "note": ""},
  {"property": "C209", "status": "proved", "theorems": ["Verif.C209_added_word", "Verif.C209_displaced"], "note": ""},
  {"property": "C210", "status": "proved", "theorems": ["Verif.C210_common", "Verif.C210_dice"], "note": ""},
  {"property": "C211", "status": "proved", "theorems": ["Verif.C211_common_block"], "note": ""},
  {"property": "C212", "status": "proved", "theorems": ["Verif.C212_block_found", "Verif.C212_score_dice"], "note": ""},
  {"property": "C213", "status": "proved", "theorems": ["Verif.C213_block_found", "Verif.C213_block_score"], "note": ""},
  {"property": "C214", "status": "proved", "theorems": ["Verif.C214_merge"], "note": ""},
  {"property": "C215", "status": "proved", "theorems": ["Verif.C215_merge_pairs", "Verif.C215_merge_scores"], "note": ""},
  {"property": "C216", "status": "proved", "theorems": ["Verif.C216_common_points", "Verif.C216_common_points_variants", "Verif.C216_contained", "Verif.C216_differences"], "note": ""},
  {"property": "C217", "status": "proved", "theorems": ["Verif.C217_isometry", "Verif.C217_moved", "Verif.C217_shift_reflect", "Verif.C217_stretch"], "note": ""},
  {"property": "C218", "status": "proved", "theorems": ["Verif.Trie.C218_searches_agree"], "note": ""},
  {"property": "C219", "status": "proved", "theorems": ["Verif.Trie.C219_dawg_and_trie"], "note": ""},
  {"property": "C220", "status": "proved", "theorems": ["Verif.Fp.C220_add", "Verif.Fp.C220_discard", "Verif.Fp.C220_merge", "Verif.Fp.C220_prefix"], "note": ""},
  {"property": "C221", "status": "proved", "theorems": ["Verif.C221_v5b_full_scan", "Verif.C221_v5b_only_eligible_words", "Verif.C221_v5b_unrelated_words"], "note": ""},
  {"property": "C222", "status": "proved", "theorems": ["Verif.C222_v5b_added_word", "Verif.C222_v5b_merge", "Verif.C222_v5b_prefix"], "note": ""},
  {"property": "C223", "status": "proved", "theorems": ["Verif.C223_v5_and_v5b_agree"], "note": ""},
  {"property": "C224", "status": "proved", "theorems": ["Verif.C224_v3_full_scan", "Verif.C224_v3_only_matching_words", "Verif.C224_v3_unrelated_words"], "note": ""},
  {"property": "C225", "status": "proved", "theorems": ["Verif.C225_v3_added_word", "Verif.C225_v3_merge", "Verif.C225_v3_prefix"], "note": ""},
  {"property": "C226", "status": "proved", "theorems": ["Verif.Fp.C226_float_v5b_full_scan", "Verif.Fp.C226_float_v5b_only_eligible_words", "Verif.Fp.C226_float_v5b_state", "Verif.Fp.C226_float_v5b_unrelated_words"], "note": ""},
  {"property": "C227", "status": "proved", "theorems": ["Verif.Fp.C227_float_v5b_added_word", "Verif.Fp.C227_float_v5b_merge", "Verif.Fp.C227_float_v5b_prefix"], "note": ""},
  {"property": "C228", "status": "proved", "theorems": ["Verif.Fp.C228_float_v5b_score_error", "Verif.Fp.C228_float_v5b_self_score_not_one"], "note": ""},
  {"property": "C229", "status": "proved", "theorems": ["Verif.Fp.C229_float_v5b_exact_match"], "note": ""},
  {"property": "C230", "status": "proved", "theorems": ["Verif.Fp.C230_float_full_scan", "Verif.Fp.C230_float_full_scan_normalized"], "note": ""},
  {"property": "C231", "status": "proved", "theorems": ["Verif.Fp.C231_float_only_eligible_words", "Verif.Fp.C231_float_only_eligible_words_v5", "Verif.Fp.C231_float_unrelated_words"], "note": ""},
  {"property": "C232", "status": "proved", "theorems": ["Verif.Fp.C232_float_v5_full_scan", "Verif.Fp.C232_float_v5_full_scan_normalized", "Verif.Fp.C232_float_v5_not_inverted", "Verif.Fp.C232_float_v6_refines_v5"], "note": ""},
  {"property": "C233", "status": "proved", "theorems": ["Verif.Fp.C233_float_v3_full_scan", "Verif.Fp.C233_float_v3_only_matching_words", "Verif.Fp.C233_float_v3_unrelated_words"], "note": ""},
  {"property": "C234", "status": "proved", "theorems": ["Verif.Fp.C234_float_v3_added_word", "Verif.Fp.C234_float_v3_merge", "Verif.Fp.C234_float_v3_prefix"], "note": ""},
  {"property": "C235", "status": "proved", "theorems": ["Verif.Fp.C235_float_v3_exact_match_not_first", "Verif.Fp.C235_float_v3_exact_match_score", "Verif.Fp.C235_float_v3_score_range"], "note": ""},
  {"property": "C236", "status": "proved", "theorems": ["Verif.Fp.C236_float_v3_order_kept", "Verif.Fp.C236_float_v3_score_error"], "note": ""},
  {"property": "C237", "status": "proved", "theorems": ["Verif.Auto.C237_earlier_word_lost", "Verif.Auto.C237_repeated_search", "Verif.Auto.C237_reused_matcher", "Verif.Auto.C237_sorted_lookups"], "note": ""},
  {"property": "C238", "status": "proved", "theorems": ["Verif.Auto.C238_call", "Verif.Auto.C238_probes"], "note": ""},
  {"property": "C239", "status": "proved", "theorems": ["Verif.Fp.C239_float_block", "Verif.Fp.C239_float_common", "Verif.Fp.C239_float_dice"], "note": ""},
  {"property": "C240", "status": "proved", "theorems": ["Verif.Fp.C240_float_block_found", "Verif.Fp.C240_float_list_block_found", "Verif.Fp.C240_float_list_block_found_normalized", "Verif.Fp.C240_float_set_dice"], "note": ""},
  {"property": "C241", "status": "proved", "theorems": ["Verif.C241_config_fixed", "Verif.C241_normaliser_names", "Verif.C241_repr_iff"], "note": ""},
  {"property": "C242", "status": "proved", "theorems": ["Verif.C242_v3_found", "Verif.C242_v5b_block_found", "Verif.C242_v5b_typo_found"], "note": ""},
  {"property": "C243", "status": "proved", "theorems": ["Verif.C243_v3_rename", "Verif.C243_v3_reverse", "Verif.C243_v5b_rename", "Verif.C243_v5b_reverse"], "note": ""},
  {"property": "C244", "status": "proved", "theorems": ["Verif.Tok.C244_classes", "Verif.Tok.C244_gap", "Verif.Tok.C244_tokens"], "note": ""},
  {"property": "C245", "status": "proved", "theorems": ["Verif.Dawg.C245_clone", "Verif.Dawg.C245_clone_eq", "Verif.Dawg.C245_clone_final", "Verif.Dawg.C245_eq_final", "Verif.Dawg.C245_eq_unfinished"], "note": ""},
  {"property": "C246", "status": "proved", "theorems": ["Verif.Edit.C246_common_ends", "Verif.Edit.C246_concat", "Verif.Edit.C246_fold", "Verif.Edit.C246_rename", "Verif.Edit.C246_reverse", "Verif.Edit.C246_surplus"], "note": ""},
  {"property": "C247", "status": "proved", "theorems": ["Verif.Edit.C247_changes", "Verif.Edit.C247_only_distances", "Verif.Edit.C247_order", "Verif.Edit.C247_order_counts", "Verif.Edit.C247_visited"], "note": ""},
  {"property": "C248", "status": "proved", "theorems": ["Verif.Fp.C248_float_v3_found", "Verif.Fp.C248_float_v5b_found"], "note": ""},
  {"property": "C249", "status": "proved", "theorems": ["Verif.Fp.C249_float_v3_rename", "Verif.Fp.C249_float_v5b_rename"], "note": ""},
  {"property": "C250", "status": "proved", "theorems": ["Verif.Edit.C250_costs", "Verif.Edit.C250_default", "Verif.Edit.C250_infinity", "Verif.Edit.C250_penalty", "Verif.Edit.C250_rename"], "note": ""},
  {"property": "C251", "status": "proved", "theorems": ["Verif.Auto.C251_incomplete", "Verif.Auto.C251_own_classes", "Verif.Auto.C251_sound", "Verif.Auto.C251_unbranched", "Verif.Auto.C251_zero_state"], "note": ""},
  {"property": "C252", "status": "proved", "theorems": ["Verif.Fp.C252_double_variants"], "note": ""},
  {"property": "C253", "status": "proved", "theorems": ["Verif.Trie.C253_exchange", "Verif.Trie.C253_exchange_cheap_transposition", "Verif.Trie.C253_monotone", "Verif.Trie.C253_rename", "Verif.Trie.C253_scale", "Verif.Trie.C253_union"], "note": ""},
  {"property": "C254", "status": "proved", "theorems": ["Verif.Auto.C254_monotone", "Verif.Auto.C254_rename", "Verif.Auto.C254_reverse", "Verif.Auto.C254_same_entries", "Verif.Auto.C254_symmetric", "Verif.Auto.C254_total", "Verif.Auto.C254_triangle", "Verif.Auto.C254_union"], "note": ""},
  {"property": "C255", "status": "proved", "theorems": ["Verif.Trie.C255_levenshtein_lookup_yields"], "note": ""}
]}
