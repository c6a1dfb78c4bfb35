# Axioms of each property theorem (output of `#print axioms`, grouped)

## depends on axioms: [propext, Classical.choice, Quot.sound]

C01_max_cliques_sound, C02_max_cliques_complete, C03_max_cliques_terminates, C04_heuristic_covers, C05_heuristic_pure_children, C06_heuristic_parents, C07_heuristic_recovers, C08_false, C08_false_cycle5, C08_heuristic_returns_partial, C09_false, C09_false_cycle4, C09_heuristic_graph_partial, C100_false, C100_printed_bound_partial, C100_sqrt_exact, C101_heuristic_le_exact, C102_identified, C103_sample_law, C104_mcm_samples, C105_false, C105_likelihood_partial, C105_no_minimum, C105_unbounded, C106_false, C106_unpenalised_partial, C107_penalised, C108_latents, C108_rotation, C108_rotation_l1, C109_latents, C109_sharp, C10_exact_returns, C110_xicorr_pvalue, C111_xi_range, C111_xicorr, C112_not_equal, C112_ties_conservative, C113_dcov_conservative, C114_dcov_psd, C115_dcov_nonneg_partial, C115_false, C116_dcov_independent, C117_dcov_small_sample, C118_fit_identifies, C118_two_children, C119_pipeline, C11_exact_rows_cliques, C120_sfd_triangle, C120_squared_not_triangle, C121_min_perm_distance, C122_min_perm_shapes, C123_converses, C123_min_perm_edges, C123_one_pure_child, C123_scores, C124_dcov_consistent, C124_dcov_zero_iff, C125_dcov_pipeline, C125_errors, C125_recovers, C126_graph_consistent, C127_fit_consistent, C128_mcm_sample_fit, C128_sample_fit, C129_fit_stable, C12_exact_parents, C130_parameters_consistent, C131_causal_order_partial, C131_false, C131_permutation, C132_false, C132_samples_partial, C133_coefficients_partial, C133_distinct, C133_false, C133_noise_only, C134_connected, C134_separated, C135_match_rate, C135_scores, C136_always_fails, C136_false, C136_grid_values, C136_kfold_always_fails, C136_loop_partial, C137_lse_error, C137_mle_error, C137_validation_table, C138_folds, C138_split, C139_false, C139_integers_partial, C139_never, C13_exact_covers_partial, C13_false, C140_false, C140_integers_partial, C141_sfd_numbers, C142_false, C142_false_cancel, C142_weights_partial, C143_false, C143_split_lengths, C143_train_share_partial, C144_edge_count_partial, C144_false, C145_attained, C145_passes, C145_yields, C146_parameters_round_trip, C147_faithful, C147_mcm_weights, C147_study, C148_false, C148_finishes_iff_partial, C148_first_graph, C148_truth, C149_false, C149_kfold_partial, C14_cause_occurs, C14_exact_minimum_partial, C14_false, C14_only_cause_partial, C150_decay_factor, C150_example, C150_masked_weights, C150_not_sparse, C151_any_number_of_epochs, C151_bounded_by_rates, C151_distance, C152_false, C152_partial, C153_initial_values, C154_range_of_the_fit, C155_calls, C155_example, C156_all_effects, C156_false, C156_partial, C157_recovers, C158_all_assignments, C158_false, C158_partial, C159_false, C159_partial, C15_exact_recovers, C160_kernel, C161_dev_sample_law, C162_init_W_history, C162_lse_start, C162_mle_start, C163_metrics, C164_false, C164_partial, C165_sample_iff_fitted, C166_false, C166_validation_partial, C167_dcov_power, C168_default, C168_independent, C168_permutations, C169_default, C169_graph, C169_level, C16_exact_edgeless, C170_xi_mean, C170_xi_variance, C171_discrete, C171_false, C171_level_partial, C171_permutations, C172_xi_piecewise, C172_xicor_edge, C173_normal, C173_roundtrip, C173_structure, C174_graph, C174_xi_dependent, C174_xicor_power, C175_normal, C175_roundtrip, C175_structure, C176_graph, C176_level, C176_permutations, C176_pvalue, C176_roundtrip, C176_structure, C177_law, C177_possible, C177_renaming, C178_false, C178_partial, C179_uniform_graph, C17_exact_zero_diag_partial, C17_false, C180_false, C180_fresh, C180_partial, C180_same_width, C180_what_is_fitted, C181_law, C181_moments, C182_bound_partial, C182_exact_partial, C182_false, C182_near_partial, C182_no_minimum, C182_two_children_partial, C183_estimate_partial, C183_example, C183_false, C183_gaussian_partial, C183_tie, C183_xicorr_partial, C184_exact_order, C184_example, C184_false, C184_fit_partial, C184_heuristic_latents_partial, C184_heuristic_order, C184_one_pure_child_partial, C184_parameters_partial, C184_private_partial, C184_udg_partial, C185_common_factor_partial, C185_exact_partial, C185_false, C185_fit_partial, C185_units, C186_ncfa_units, C187_estimate, C187_structure, C188_dev_columns, C188_dev_rows, C189_example, C189_false, C189_one_sided_partial, C189_standardized_partial, C18_exact_complete_iff, C190_false, C190_passes_exact, C190_passes_partial, C190_trios, C191_all_changes, C191_false, C191_partial, C192_completed_fit, C192_example, C192_init_W_history, C193_ends, C193_refines, C193_result, C193_same, C194_partial, C195_chordal_partial, C195_false, C196_cluster_elimination, C196_two_degenerate, C197_graph_in_any_arithmetic, C197_xicor_in_any_arithmetic, C198_dcov_fast_rounding, C199_gaussian_rounding, C19_idx_edge_inverse, C200_constant_column, C200_double_precision, C200_false, C200_xicor_rounding_partial, C202_result_new_partial, C203_false, C204_false, C204_own_arrays_partial, C205_after_failure, C205_aux_last_partial, C207_any_interleaving, C207_caller_keeps, C208_unchanged_partial, C209_printed_lines, C20_make_aux, C210_false, C210_float_partial, C210_private_partial, C210_sparse_partial, C211_false, C211_widths_partial, C212_false, C212_small_partial, C213_false, C213_minimiser_partial, C214_variance_layer, C215_double, C215_float_matching, C215_underflow, C216_nan_weights, C217_dcov_fast, C217_gaussian, C218_false, C218_hang_partial, C219_dcov_fast_error, C219_double, C21_edits, C220_heuristic, C220_max_cliques, C221_acyclic_partial, C221_false, C221_more_latents, C222_above, C222_false, C222_graph_partial, C222_pure_partial, C223_arrays_unchanged, C223_fit, C223_old_arrays, C223_sample, C223_sample_stable, C224_false, C224_fit_stable_partial, C225_agrees, C225_chi_square_test, C225_other_levels, C226_false, C226_monotone_partial, C227_critical_value, C227_default_test, C227_eight_observations, C227_nine_observations, C228_dcov_fast, C228_gaussian, C228_weights, C229_xicor_order, C22_num_vertices, C22_reduction_coherent, C230_edge, C230_false, C230_missing_partial, C231_cpu_partial, C231_false, C231_gpu, C232_false, C232_shared_memory_partial, C233_false, C233_shapes_partial, C233_square, C234_threads, C235_false, C235_mixed, C235_partial, C236_example, C236_false, C236_partial, C236_paths, C236_returns, C237_example, C237_five_observations, C237_six_observations, C237_structure, C238_cells, C238_example, C238_faithful, C239_attributes, C239_fit, C239_gaussian, C239_ncfa, C23_rule2, C240_example, C240_nine, C240_structure, C241_example, C241_same_dataset, C242_not_serial, C242_samples, C243_mixed, C243_refit, C243_zero_weights, C24_reduce_terminates, C25_rule3_reconstruct, C26_nde_injective, C26_nde_lossless, C28_sfd_zero, C29_sfd_rows, C30_ushd_distance, C31_sfd_ge_ushd, C32_sfd_shapes, C33_min_perm, C34_min_perm_zero, C35_min_perm_invariant, C36_min_perm_abs, C37_false, C37_min_perm_dtype_partial, C38_sample_pure, C39_sample_density, C40_sample_errors, C41_sample_recovered, C42_sample_erdos_renyi, C43_mcm_parameters, C44_default_generators, C44_false, C44_mcm_seeded_partial, C45_dcov_partial, C45_false, C46_dcov_invariance, C47_dcov_fast, C48_pvalue_methods, C49_unknown_method, C50_xicorr_sizes, C51_xicorr_ranks, C52_xi_le_one, C52_xicorr, C53_xi_monotone, C53_xicorr, C54_base_class, C55_fit_structure, C56_false, C56_refit_partial, C57_fitted_parameters, C57_weights_on_structure, C58_objective, C58_signs, C59_false, C59_variances_partial, C60_estimated_graph, C61_false, C61_units_partial, C62_sample, C63_false, C63_sample_partial, C64_dispatch, C64_shape, C64_validation_before_fit, C65_validation_lse, C65_validation_mle, C66_false, C66_partial, C67_histories, C67_outcome, C68_false, C68_partial, C69_false, C69_partial, C70_blocks_do_not_interact, C70_example, C71_decoder_layers, C71_encoder_layers, C71_example, C71_forward, C72_dag, C72_entries, C72_readable, C72_udg, C73_counts_partial, C73_false, C74_constant_no_edge_partial, C74_false, C74_xicor_constant, C75_column_order_partial, C75_false, C76_false, C76_own_rng_partial, C77_fit_recovers, C78_lse_valid, C79_mle_finite, C80_hidden_layers_stay_random, C80_training, C81_false, C81_partial, C82_standardized, C83_batches, C84_false, C84_partial, C85_false, C85_one_measurement, C85_partial, C85_wrong_variance, C86_histories_positive, C86_loss_positive, C87_sample_not_implemented, C87_structure_kept, C88_files_agree, C89_failing_fit, C90_false, C90_partial, C91_false, C91_partial, C92_false, C92_partial, C93_example, C93_reconstruction_error, C93_weighted_error_negative, C94_drawing, C96_one_pure_child_unique, C96_private_recovers, C97_exact_maximal_cliques, C98_decoder_range, C98_residual, C99_examples

## depends on axioms: [propext, Quot.sound]

C194_false, C201_arguments_unchanged, C203_copy_of_graph_partial, C206_other_calls_partial, C212_bool, C238_texts, C238_ticks, C27_recover_ug

## depends on axioms: [propext]

C03_max_cliques_empty, C202_false, C205_false, C205_stale_cover, C206_false, C208_false, C239_example, C95_false, C95_partial

