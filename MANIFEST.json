{
 "claims": [
  {
   "property": "C01",
   "status": "proved",
   "theorems": [
    "Medil.C01_max_cliques_sound"
   ],
   "note": ""
  },
  {
   "property": "C02",
   "status": "proved",
   "theorems": [
    "Medil.C02_max_cliques_complete"
   ],
   "note": "n >= 1; with 0 vertices nothing is yielded"
  },
  {
   "property": "C03",
   "status": "proved",
   "theorems": [
    "Medil.C03_max_cliques_terminates",
    "Medil.C03_max_cliques_empty"
   ],
   "note": ""
  },
  {
   "property": "C04",
   "status": "proved",
   "theorems": [
    "Medil.C04_heuristic_covers"
   ],
   "note": ""
  },
  {
   "property": "C05",
   "status": "proved",
   "theorems": [
    "Medil.C05_heuristic_pure_children"
   ],
   "note": ""
  },
  {
   "property": "C06",
   "status": "proved",
   "theorems": [
    "Medil.C06_heuristic_parents"
   ],
   "note": ""
  },
  {
   "property": "C07",
   "status": "proved",
   "theorems": [
    "Medil.C07_heuristic_recovers"
   ],
   "note": ""
  },
  {
   "property": "C08",
   "status": "partial",
   "theorems": [
    "Medil.C08_false_cycle5",
    "Medil.C08_false",
    "Medil.C08_heuristic_returns_partial"
   ],
   "note": "The claim is false of the code (C08_false: 5-cycle raises TypeError for every set order); the partial theorem characterises exactly when the call returns."
  },
  {
   "property": "C09",
   "status": "partial",
   "theorems": [
    "Medil.C09_false_cycle4",
    "Medil.C09_false",
    "Medil.C09_heuristic_graph_partial"
   ],
   "note": "The claim is false of the code (C09_false: 4-cycle); proved: no dependence is lost, and equality iff every row is a clique."
  },
  {
   "property": "C10",
   "status": "proved",
   "theorems": [
    "Medil.C10_exact_returns"
   ],
   "note": "n >= 1 (with 0 vertices the real loop runs forever)"
  },
  {
   "property": "C11",
   "status": "proved",
   "theorems": [
    "Medil.C11_exact_rows_cliques"
   ],
   "note": ""
  },
  {
   "property": "C12",
   "status": "proved",
   "theorems": [
    "Medil.C12_exact_parents"
   ],
   "note": ""
  },
  {
   "property": "C13",
   "status": "partial",
   "theorems": [
    "Medil.C13_false",
    "Medil.C13_exact_covers_partial"
   ],
   "note": "False of the code (C13_false: rule 3 deletes a vertex and its edges are lost). Proved: it is a cover if the successful path used neither rule 3 nor the depth cap."
  },
  {
   "property": "C14",
   "status": "partial",
   "theorems": [
    "Medil.C14_false",
    "Medil.C14_exact_minimum_partial",
    "Medil.C14_only_cause_partial",
    "Medil.C14_cause_occurs"
   ],
   "note": "False of the code (C14_false: 7 rows where 6 cliques suffice). Proved: the only cause of too many rows is a failed pass that branched at a neighbourhood where covered pairs hid a clique (C14_only_cause_partial, C14_cause_occurs); minimum without such branchings, in particular if the successful path did not branch, and neither rule 3 nor the depth cap was used."
  },
  {
   "property": "C15",
   "status": "proved",
   "theorems": [
    "Medil.C15_exact_recovers"
   ],
   "note": ""
  },
  {
   "property": "C16",
   "status": "proved",
   "theorems": [
    "Medil.C16_exact_edgeless"
   ],
   "note": ""
  },
  {
   "property": "C17",
   "status": "partial",
   "theorems": [
    "Medil.C17_exact_zero_diag_partial",
    "Medil.C17_false"
   ],
   "note": "False of the code (C17_false): with a zero diagonal every graph with an edge raises ValueError; edgeless graphs return the zero matrix."
  },
  {
   "property": "C18",
   "status": "proved",
   "theorems": [
    "Medil.C18_exact_complete_iff"
   ],
   "note": ""
  },
  {
   "property": "C19",
   "status": "proved",
   "theorems": [
    "Medil.C19_idx_edge_inverse"
   ],
   "note": ""
  },
  {
   "property": "C20",
   "status": "proved",
   "theorems": [
    "Medil.C20_make_aux"
   ],
   "note": ""
  },
  {
   "property": "C21",
   "status": "proved",
   "theorems": [
    "Medil.C21_edits"
   ],
   "note": ""
  },
  {
   "property": "C22",
   "status": "proved",
   "theorems": [
    "Medil.C22_reduction_coherent",
    "Medil.C22_num_vertices"
   ],
   "note": ""
  },
  {
   "property": "C23",
   "status": "proved",
   "theorems": [
    "Medil.C23_rule2"
   ],
   "note": ""
  },
  {
   "property": "C24",
   "status": "proved",
   "theorems": [
    "Medil.C24_reduce_terminates"
   ],
   "note": ""
  },
  {
   "property": "C25",
   "status": "proved",
   "theorems": [
    "Medil.C25_rule3_reconstruct"
   ],
   "note": ""
  },
  {
   "property": "C26",
   "status": "proved",
   "theorems": [
    "Medil.C26_nde_lossless",
    "Medil.C26_nde_injective"
   ],
   "note": ""
  },
  {
   "property": "C27",
   "status": "proved",
   "theorems": [
    "Medil.C27_recover_ug"
   ],
   "note": ""
  },
  {
   "property": "C28",
   "status": "proved",
   "theorems": [
    "Medil.C28_sfd_zero"
   ],
   "note": ""
  },
  {
   "property": "C29",
   "status": "proved",
   "theorems": [
    "Medil.C29_sfd_rows"
   ],
   "note": ""
  },
  {
   "property": "C30",
   "status": "proved",
   "theorems": [
    "Medil.C30_ushd_distance"
   ],
   "note": ""
  },
  {
   "property": "C31",
   "status": "proved",
   "theorems": [
    "Medil.C31_sfd_ge_ushd"
   ],
   "note": ""
  },
  {
   "property": "C32",
   "status": "proved",
   "theorems": [
    "Medil.C32_sfd_shapes"
   ],
   "note": ""
  },
  {
   "property": "C33",
   "status": "proved",
   "theorems": [
    "Medil.C33_min_perm"
   ],
   "note": ""
  },
  {
   "property": "C34",
   "status": "proved",
   "theorems": [
    "Medil.C34_min_perm_zero"
   ],
   "note": ""
  },
  {
   "property": "C35",
   "status": "proved",
   "theorems": [
    "Medil.C35_min_perm_invariant"
   ],
   "note": ""
  },
  {
   "property": "C36",
   "status": "proved",
   "theorems": [
    "Medil.C36_min_perm_abs"
   ],
   "note": ""
  },
  {
   "property": "C37",
   "status": "partial",
   "theorems": [
    "Medil.C37_false",
    "Medil.C37_min_perm_dtype_partial"
   ],
   "note": "The claim is false of the code (C37_false): the zero-padded copy of the true matrix takes the predicted matrix's dtype, so an integer predicted matrix truncates the true one."
  },
  {
   "property": "C38",
   "status": "proved",
   "theorems": [
    "Medil.C38_sample_pure"
   ],
   "note": ""
  },
  {
   "property": "C39",
   "status": "proved",
   "theorems": [
    "Medil.C39_sample_density"
   ],
   "note": "density as an exact number; the floating-point product max_num_edges*density is not modelled"
  },
  {
   "property": "C40",
   "status": "proved",
   "theorems": [
    "Medil.C40_sample_errors"
   ],
   "note": ""
  },
  {
   "property": "C41",
   "status": "proved",
   "theorems": [
    "Medil.C41_sample_recovered"
   ],
   "note": ""
  },
  {
   "property": "C42",
   "status": "proved",
   "theorems": [
    "Medil.C42_sample_erdos_renyi"
   ],
   "note": ""
  },
  {
   "property": "C43",
   "status": "proved",
   "theorems": [
    "Medil.C43_mcm_parameters"
   ],
   "note": ""
  },
  {
   "property": "C44",
   "status": "partial",
   "theorems": [
    "Medil.C44_false",
    "Medil.C44_mcm_seeded_partial",
    "Medil.C44_default_generators"
   ],
   "note": "The claim is false of the code (C44_false): mcm does not hand its rng on to biadj, which draws from a module-level default generator. Proved: it holds when the structure is passed explicitly, and the default generator's state is the only channel."
  },
  {
   "property": "C45",
   "status": "partial",
   "theorems": [
    "Medil.C45_false",
    "Medil.C45_dcov_partial"
   ],
   "note": "The claim is false of the code (C45_false): the code sums over pairs k<l only, omitting the diagonal and the factor 2; the exact relation is proved."
  },
  {
   "property": "C46",
   "status": "proved",
   "theorems": [
    "Medil.C46_dcov_invariance"
   ],
   "note": ""
  },
  {
   "property": "C47",
   "status": "proved",
   "theorems": [
    "Medil.C47_dcov_fast"
   ],
   "note": ""
  },
  {
   "property": "C48",
   "status": "proved",
   "theorems": [
    "Medil.C48_pvalue_methods"
   ],
   "note": ""
  },
  {
   "property": "C49",
   "status": "proved",
   "theorems": [
    "Medil.C49_unknown_method"
   ],
   "note": ""
  },
  {
   "property": "C50",
   "status": "proved",
   "theorems": [
    "Medil.C50_xicorr_sizes"
   ],
   "note": ""
  },
  {
   "property": "C51",
   "status": "proved",
   "theorems": [
    "Medil.C51_xicorr_ranks"
   ],
   "note": ""
  },
  {
   "property": "C52",
   "status": "proved",
   "theorems": [
    "Medil.C52_xi_le_one",
    "Medil.C52_xicorr"
   ],
   "note": ""
  },
  {
   "property": "C53",
   "status": "proved",
   "theorems": [
    "Medil.C53_xi_monotone",
    "Medil.C53_xicorr"
   ],
   "note": ""
  },
  {
   "property": "C54",
   "status": "proved",
   "theorems": [
    "Medil.C54_base_class"
   ],
   "note": ""
  },
  {
   "property": "C55",
   "status": "proved",
   "theorems": [
    "Medil.C55_fit_structure"
   ],
   "note": "M >= 2 columns; with one column and no structure the estimate raises ValueError (C60)."
  },
  {
   "property": "C56",
   "status": "partial",
   "theorems": [
    "Medil.C56_refit_partial",
    "Medil.C56_false"
   ],
   "note": "False as stated (C56_false): the structure and graph of the first dataset are kept for ever. Proved: exactly what a refit does."
  },
  {
   "property": "C57",
   "status": "proved",
   "theorems": [
    "Medil.C57_fitted_parameters",
    "Medil.C57_weights_on_structure"
   ],
   "note": ""
  },
  {
   "property": "C58",
   "status": "proved",
   "theorems": [
    "Medil.C58_objective",
    "Medil.C58_signs"
   ],
   "note": ""
  },
  {
   "property": "C59",
   "status": "partial",
   "theorems": [
    "Medil.C59_false",
    "Medil.C59_variances_partial"
   ],
   "note": "False as stated (C59_false, Heywood case): every global minimiser gives a negative error variance for a positive definite covariance. Proved: exact value of the variance at every minimiser."
  },
  {
   "property": "C60",
   "status": "proved",
   "theorems": [
    "Medil.C60_estimated_graph"
   ],
   "note": ""
  },
  {
   "property": "C61",
   "status": "partial",
   "theorems": [
    "Medil.C61_false",
    "Medil.C61_units_partial"
   ],
   "note": "False as stated (C61_false): the test uses cov*corr instead of corr^2. Proved: invariance under shifts and sign changes, monotonicity under scaling."
  },
  {
   "property": "C62",
   "status": "proved",
   "theorems": [
    "Medil.C62_sample"
   ],
   "note": ""
  },
  {
   "property": "C63",
   "status": "partial",
   "theorems": [
    "Medil.C63_sample_partial",
    "Medil.C63_false"
   ],
   "note": "False as stated (C63_false): fit stores W_hat/D_hat but sample reads W_hat_mle/..., so sample raises ValueError after every history (proved)."
  },
  {
   "property": "C64",
   "status": "proved",
   "theorems": [
    "Medil.C64_dispatch",
    "Medil.C64_validation_before_fit",
    "Medil.C64_shape"
   ],
   "note": ""
  },
  {
   "property": "C65",
   "status": "proved",
   "theorems": [
    "Medil.C65_validation_lse",
    "Medil.C65_validation_mle"
   ],
   "note": "also for the likelihood fit"
  },
  {
   "property": "C66",
   "status": "partial",
   "theorems": [
    "Medil.C66_partial",
    "Medil.C66_false"
   ],
   "note": "False as stated: eval mode is never left after the first validation, so only the first epoch trains with noise."
  },
  {
   "property": "C67",
   "status": "proved",
   "theorems": [
    "Medil.C67_outcome",
    "Medil.C67_histories"
   ],
   "note": ""
  },
  {
   "property": "C68",
   "status": "partial",
   "theorems": [
    "Medil.C68_partial",
    "Medil.C68_false"
   ],
   "note": "False as stated: with split_idcs the raw, not the standardized, rows are used."
  },
  {
   "property": "C69",
   "status": "partial",
   "theorems": [
    "Medil.C69_false",
    "Medil.C69_partial"
   ],
   "note": "False as stated: the hidden layers are kept in a plain dict and are not registered."
  },
  {
   "property": "C70",
   "status": "proved",
   "theorems": [
    "Medil.C70_blocks_do_not_interact",
    "Medil.C70_example"
   ],
   "note": ""
  },
  {
   "property": "C71",
   "status": "proved",
   "theorems": [
    "Medil.C71_forward",
    "Medil.C71_example",
    "Medil.C71_encoder_layers",
    "Medil.C71_decoder_layers"
   ],
   "note": ""
  },
  {
   "property": "C72",
   "status": "proved",
   "theorems": [
    "Medil.C72_entries",
    "Medil.C72_dag",
    "Medil.C72_readable",
    "Medil.C72_udg"
   ],
   "note": ""
  },
  {
   "property": "C73",
   "status": "partial",
   "theorems": [
    "Medil.C73_false",
    "Medil.C73_counts_partial"
   ],
   "note": "False of the code (C73_false): rule_1 subtracts an edge between two vertices deleted together twice; proved: never too large, exact initially."
  },
  {
   "property": "C74",
   "status": "partial",
   "theorems": [
    "Medil.C74_xicor_constant",
    "Medil.C74_false",
    "Medil.C74_constant_no_edge_partial"
   ],
   "note": "False for xicor (C74_false, C74_xicor_constant: a constant column gets p-value 0 against every earlier column, in exact arithmetic; for doubles see C200); proved for dcov_fast."
  },
  {
   "property": "C75",
   "status": "partial",
   "theorems": [
    "Medil.C75_false",
    "Medil.C75_column_order_partial"
   ],
   "note": "False for xicor (C75_false: only xi(x_i, x_j) with i<j is tested); proved for dcov_fast and for every symmetric test."
  },
  {
   "property": "C76",
   "status": "partial",
   "theorems": [
    "Medil.C76_false",
    "Medil.C76_own_rng_partial"
   ],
   "note": "False as stated (C76_false): objects created without rng share one default generator. Proved for objects with their own generator."
  },
  {
   "property": "C77",
   "status": "proved",
   "theorems": [
    "Medil.C77_fit_recovers"
   ],
   "note": ""
  },
  {
   "property": "C78",
   "status": "proved",
   "theorems": [
    "Medil.C78_lse_valid"
   ],
   "note": ""
  },
  {
   "property": "C79",
   "status": "proved",
   "theorems": [
    "Medil.C79_mle_finite"
   ],
   "note": ""
  },
  {
   "property": "C80",
   "status": "proved",
   "theorems": [
    "Medil.C80_training",
    "Medil.C80_hidden_layers_stay_random"
   ],
   "note": ""
  },
  {
   "property": "C81",
   "status": "partial",
   "theorems": [
    "Medil.C81_partial",
    "Medil.C81_false"
   ],
   "note": "False as stated: torch's global generator is never seeded; holds for equal generator states."
  },
  {
   "property": "C82",
   "status": "proved",
   "theorems": [
    "Medil.C82_standardized"
   ],
   "note": ""
  },
  {
   "property": "C83",
   "status": "proved",
   "theorems": [
    "Medil.C83_batches"
   ],
   "note": ""
  },
  {
   "property": "C84",
   "status": "partial",
   "theorems": [
    "Medil.C84_partial",
    "Medil.C84_false"
   ],
   "note": "False as stated: average of per-batch averages; holds when all batches have equal size."
  },
  {
   "property": "C85",
   "status": "partial",
   "theorems": [
    "Medil.C85_partial",
    "Medil.C85_false",
    "Medil.C85_wrong_variance",
    "Medil.C85_one_measurement"
   ],
   "note": "False as stated: the determinant is used in place of its logarithm."
  },
  {
   "property": "C86",
   "status": "proved",
   "theorems": [
    "Medil.C86_loss_positive",
    "Medil.C86_histories_positive"
   ],
   "note": ""
  },
  {
   "property": "C87",
   "status": "proved",
   "theorems": [
    "Medil.C87_structure_kept",
    "Medil.C87_sample_not_implemented"
   ],
   "note": ""
  },
  {
   "property": "C88",
   "status": "proved",
   "theorems": [
    "Medil.C88_files_agree"
   ],
   "note": ""
  },
  {
   "property": "C89",
   "status": "proved",
   "theorems": [
    "Medil.C89_failing_fit"
   ],
   "note": ""
  },
  {
   "property": "C90",
   "status": "partial",
   "theorems": [
    "Medil.C90_partial",
    "Medil.C90_false"
   ],
   "note": "False as stated: the log name is path + 'training.log' without separator; holds for paths that end with a slash or are empty."
  },
  {
   "property": "C91",
   "status": "partial",
   "theorems": [
    "Medil.C91_partial",
    "Medil.C91_false"
   ],
   "note": "False as stated: the default path is shared; holds if other objects use files of other names."
  },
  {
   "property": "C92",
   "status": "partial",
   "theorems": [
    "Medil.C92_false",
    "Medil.C92_partial"
   ],
   "note": "False as stated: it is the sum of squares."
  },
  {
   "property": "C93",
   "status": "proved",
   "theorems": [
    "Medil.C93_reconstruction_error",
    "Medil.C93_weighted_error_negative",
    "Medil.C93_example"
   ],
   "note": ""
  },
  {
   "property": "C94",
   "status": "proved",
   "theorems": [
    "Medil.C94_drawing"
   ],
   "note": ""
  },
  {
   "property": "C95",
   "status": "partial",
   "theorems": [
    "Medil.C95_partial",
    "Medil.C95_false"
   ],
   "note": "False as stated: both raise NameError for every argument."
  },
  {
   "property": "C96",
   "status": "proved",
   "theorems": [
    "Medil.C96_private_recovers",
    "Medil.C96_one_pure_child_unique"
   ],
   "note": ""
  },
  {
   "property": "C97",
   "status": "proved",
   "theorems": [
    "Medil.C97_exact_maximal_cliques"
   ],
   "note": ""
  },
  {
   "property": "C98",
   "status": "proved",
   "theorems": [
    "Medil.C98_decoder_range",
    "Medil.C98_residual"
   ],
   "note": ""
  },
  {
   "property": "C99",
   "status": "proved",
   "theorems": [
    "Medil.C99_examples"
   ],
   "note": ""
  },
  {
   "property": "C100",
   "status": "partial",
   "theorems": [
    "Medil.C100_printed_bound_partial",
    "Medil.C100_false",
    "Medil.C100_sqrt_exact"
   ],
   "note": "False as stated (C100_false: K5 minus two disjoint edges prints 3 and returns 4 rows). Proved: the printed number plus one bounds the smallest cover of every graph, the printed number itself in all cases except when p >= t(t+1); and every smallest returned cover obeys it."
  },
  {
   "property": "C101",
   "status": "proved",
   "theorems": [
    "Medil.C101_heuristic_le_exact"
   ],
   "note": ""
  },
  {
   "property": "C102",
   "status": "proved",
   "theorems": [
    "Medil.C102_identified"
   ],
   "note": ""
  },
  {
   "property": "C103",
   "status": "proved",
   "theorems": [
    "Medil.C103_sample_law"
   ],
   "note": ""
  },
  {
   "property": "C104",
   "status": "proved",
   "theorems": [
    "Medil.C104_mcm_samples"
   ],
   "note": ""
  },
  {
   "property": "C105",
   "status": "partial",
   "theorems": [
    "Medil.C105_unbounded",
    "Medil.C105_false",
    "Medil.C105_likelihood_partial",
    "Medil.C105_no_minimum"
   ],
   "note": "False as stated (C105_false, C105_unbounded, C105_no_minimum: error variances are unconstrained, two small negative ones send the loss to minus infinity, so the objective has no minimum on any dataset with two measurements). Proved: the claim on positive definite model covariances, with the exact minimum."
  },
  {
   "property": "C106",
   "status": "partial",
   "theorems": [
    "Medil.C106_unpenalised_partial",
    "Medil.C106_false"
   ],
   "note": "False of the code: abs is applied to the variances after the optimisation, not inside the objective (C106_false). Proved: the optimised weights and variances reproduce the sample covariance, the stored model reproduces all covariances of different measurements and never underestimates a variance, and is exact if the optimised variances are not negative."
  },
  {
   "property": "C107",
   "status": "proved",
   "theorems": [
    "Medil.C107_penalised"
   ],
   "note": ""
  },
  {
   "property": "C108",
   "status": "proved",
   "theorems": [
    "Medil.C108_latents",
    "Medil.C108_rotation",
    "Medil.C108_rotation_l1"
   ],
   "note": ""
  },
  {
   "property": "C109",
   "status": "proved",
   "theorems": [
    "Medil.C109_latents",
    "Medil.C109_sharp"
   ],
   "note": ""
  },
  {
   "property": "C110",
   "status": "proved",
   "theorems": [
    "Medil.C110_xicorr_pvalue"
   ],
   "note": "Phi with values in [0,1] stands for norm.cdf; exact arithmetic."
  },
  {
   "property": "C111",
   "status": "proved",
   "theorems": [
    "Medil.C111_xi_range",
    "Medil.C111_xicorr"
   ],
   "note": ""
  },
  {
   "property": "C112",
   "status": "proved",
   "theorems": [
    "Medil.C112_ties_conservative",
    "Medil.C112_not_equal"
   ],
   "note": "C112_not_equal shows that the stronger reading (same p-value) fails."
  },
  {
   "property": "C113",
   "status": "proved",
   "theorems": [
    "Medil.C113_dcov_conservative"
   ],
   "note": ""
  },
  {
   "property": "C114",
   "status": "proved",
   "theorems": [
    "Medil.C114_dcov_psd"
   ],
   "note": ""
  },
  {
   "property": "C115",
   "status": "partial",
   "theorems": [
    "Medil.C115_false",
    "Medil.C115_dcov_nonneg_partial"
   ],
   "note": "False as stated (C115_false: the 2 x 2 grid gives -1/32). Proved: the diagonal is non-negative, and the exact lower bound off the diagonal."
  },
  {
   "property": "C116",
   "status": "proved",
   "theorems": [
    "Medil.C116_dcov_independent"
   ],
   "note": ""
  },
  {
   "property": "C117",
   "status": "proved",
   "theorems": [
    "Medil.C117_dcov_small_sample"
   ],
   "note": ""
  },
  {
   "property": "C118",
   "status": "proved",
   "theorems": [
    "Medil.C118_fit_identifies",
    "Medil.C118_two_children"
   ],
   "note": "The optimizer is assumed to return a global minimum whenever one exists; exact arithmetic."
  },
  {
   "property": "C119",
   "status": "proved",
   "theorems": [
    "Medil.C119_pipeline"
   ],
   "note": "As C118."
  },
  {
   "property": "C120",
   "status": "proved",
   "theorems": [
    "Medil.C120_sfd_triangle",
    "Medil.C120_squared_not_triangle"
   ],
   "note": "C120_squared_not_triangle: the squared score itself is not a distance."
  },
  {
   "property": "C121",
   "status": "proved",
   "theorems": [
    "Medil.C121_min_perm_distance"
   ],
   "note": "Real matrices; exact arithmetic."
  },
  {
   "property": "C122",
   "status": "proved",
   "theorems": [
    "Medil.C122_min_perm_shapes"
   ],
   "note": "2-dimensional float arrays."
  },
  {
   "property": "C123",
   "status": "proved",
   "theorems": [
    "Medil.C123_min_perm_edges",
    "Medil.C123_scores",
    "Medil.C123_converses",
    "Medil.C123_one_pure_child"
   ],
   "note": "C123_converses: the converses fail in general."
  },
  {
   "property": "C124",
   "status": "proved",
   "theorems": [
    "Medil.C124_dcov_zero_iff",
    "Medil.C124_dcov_consistent"
   ],
   "note": "Any Archimedean ordered field; exact arithmetic."
  },
  {
   "property": "C125",
   "status": "proved",
   "theorems": [
    "Medil.C125_errors",
    "Medil.C125_recovers",
    "Medil.C125_dcov_pipeline"
   ],
   "note": "fit does not call _compute_biadj (C87); at least one measurement."
  },
  {
   "property": "C126",
   "status": "proved",
   "theorems": [
    "Medil.C126_graph_consistent"
   ],
   "note": "exact real arithmetic; for one variable C60 shows that the estimation raises."
  },
  {
   "property": "C127",
   "status": "proved",
   "theorems": [
    "Medil.C127_fit_consistent"
   ],
   "note": "exact real arithmetic."
  },
  {
   "property": "C128",
   "status": "proved",
   "theorems": [
    "Medil.C128_sample_fit",
    "Medil.C128_mcm_sample_fit"
   ],
   "note": "ideal normal generator as in C103."
  },
  {
   "property": "C129",
   "status": "proved",
   "theorems": [
    "Medil.C129_fit_stable"
   ],
   "note": "the optimizer is assumed to find global minima; scipy's BFGS gives no such guarantee."
  },
  {
   "property": "C130",
   "status": "proved",
   "theorems": [
    "Medil.C130_parameters_consistent"
   ],
   "note": "as C129."
  },
  {
   "property": "C131",
   "status": "partial",
   "theorems": [
    "Medil.C131_permutation",
    "Medil.C131_causal_order_partial",
    "Medil.C131_false"
   ],
   "note": "false: the undirected adjacency matrix is used, so degree and not number of parents decides; proved: the order is right exactly for structures in which every latent has at most one child."
  },
  {
   "property": "C132",
   "status": "partial",
   "theorems": [
    "Medil.C132_samples_partial",
    "Medil.C132_false"
   ],
   "note": "false: for a latent with two children np.empty memory is read; proved: right exactly for structures in which every latent has at most one child."
  },
  {
   "property": "C133",
   "status": "partial",
   "theorems": [
    "Medil.C133_coefficients_partial",
    "Medil.C133_distinct",
    "Medil.C133_noise_only",
    "Medil.C133_false"
   ],
   "note": "false: coefficients are stored in a copy of the structure, integer arrays truncate them to 0 (this happens in verify_independence_pattern_GP, whose data is pure noise), boolean arrays turn them into 1; proved for float arrays. As written the script cannot define verify_independence_pattern_GP at all: Tuple is not imported."
  },
  {
   "property": "C134",
   "status": "proved",
   "theorems": [
    "Medil.C134_separated",
    "Medil.C134_connected"
   ],
   "note": "exact real arithmetic; numbers drawn by the generator are independent, latents and noise standard normal."
  },
  {
   "property": "C135",
   "status": "proved",
   "theorems": [
    "Medil.C135_match_rate",
    "Medil.C135_scores"
   ],
   "note": "the test is arbitrary; the counts are modelled from the two graphs."
  },
  {
   "property": "C136",
   "status": "partial",
   "theorems": [
    "Medil.C136_grid_values",
    "Medil.C136_loop_partial",
    "Medil.C136_always_fails",
    "Medil.C136_false",
    "Medil.C136_kfold_always_fails"
   ],
   "note": "false: the metrics read W_hat_mle and W_hat_lse, which fit never sets, so every cell fails; proved: this always happens, and what the loop does for arbitrary outcomes of the cells."
  },
  {
   "property": "C137",
   "status": "proved",
   "theorems": [
    "Medil.C137_validation_table",
    "Medil.C137_lse_error",
    "Medil.C137_mle_error"
   ],
   "note": "external optimizer arbitrary; held-out parts with at least two rows."
  },
  {
   "property": "C138",
   "status": "proved",
   "theorems": [
    "Medil.C138_folds",
    "Medil.C138_split"
   ],
   "note": "sklearn's KFold is modelled from its documented behaviour."
  },
  {
   "property": "C139",
   "status": "partial",
   "theorems": [
    "Medil.C139_integers_partial",
    "Medil.C139_never",
    "Medil.C139_false"
   ],
   "note": "false: with an integer array W[B]=w writes rows number 0 and 1; proved: exactly when mcm returns, what the weights then are, and that the claim fails for every integer array."
  },
  {
   "property": "C140",
   "status": "partial",
   "theorems": [
    "Medil.C140_integers_partial",
    "Medil.C140_false"
   ],
   "note": "false, same cause as C139; proved: exactly when fit returns, and what it then fits."
  },
  {
   "property": "C141",
   "status": "proved",
   "theorems": [
    "Medil.C141_sfd_numbers"
   ],
   "note": "numbers are exact rationals."
  },
  {
   "property": "C142",
   "status": "partial",
   "theorems": [
    "Medil.C142_false",
    "Medil.C142_false_cancel",
    "Medil.C142_weights_partial"
   ],
   "note": "false: weights are truncated by astype(int) and products of weights can cancel; proved: what is computed, and the claim for weights in [1,2) and zeros."
  },
  {
   "property": "C143",
   "status": "partial",
   "theorems": [
    "Medil.C143_false",
    "Medil.C143_train_share_partial",
    "Medil.C143_split_lengths"
   ],
   "note": "false: 90 rows give 62; proved for up to 2^49 rows: 70 percent rounded down, or one less for some multiples of 10; never 0 or all rows."
  },
  {
   "property": "C144",
   "status": "partial",
   "theorems": [
    "Medil.C144_false",
    "Medil.C144_edge_count_partial"
   ],
   "note": "false: density 0.35 of 10 possible edges gives 4 although the double 0.35 is less than 0.35; proved: only products within a relative distance 2^-53 of a half can be rounded wrongly, and the bounds."
  },
  {
   "property": "C145",
   "status": "proved",
   "theorems": [
    "Medil.C145_passes",
    "Medil.C145_yields",
    "Medil.C145_attained"
   ],
   "note": "cost is counted in passes of the while loop, not in machine time."
  },
  {
   "property": "C146",
   "status": "proved",
   "theorems": [
    "Medil.C146_parameters_round_trip"
   ],
   "note": "real numbers; the generator and the optimizer are assumed ideal (specified in the statement)."
  },
  {
   "property": "C147",
   "status": "proved",
   "theorems": [
    "Medil.C147_mcm_weights",
    "Medil.C147_faithful",
    "Medil.C147_study"
   ],
   "note": "real numbers; the draws are assumed independent, non-negative and without atoms."
  },
  {
   "property": "C148",
   "status": "partial",
   "theorems": [
    "Medil.C148_truth",
    "Medil.C148_finishes_iff_partial",
    "Medil.C148_first_graph",
    "Medil.C148_false"
   ],
   "note": "false: the grid search never succeeds (C136), so the next fit gets None as penalties; proved: the driver finishes only for the empty list, otherwise it prints one report with None and raises TypeError."
  },
  {
   "property": "C149",
   "status": "partial",
   "theorems": [
    "Medil.C149_kfold_partial",
    "Medil.C149_false"
   ],
   "note": "false: the distance and SFD tables are nan everywhere (C136); proved: the driver finishes, two figures per structure, with the validation errors of C137."
  },
  {
   "property": "C150",
   "status": "proved",
   "theorems": [
    "Medil.C150_masked_weights",
    "Medil.C150_decay_factor",
    "Medil.C150_not_sparse",
    "Medil.C150_example"
   ],
   "note": "torch's AdamW is modelled from its documentation, gradients are arbitrary except for the stated condition (shown for partial derivatives)."
  },
  {
   "property": "C151",
   "status": "proved",
   "theorems": [
    "Medil.C151_bounded_by_rates",
    "Medil.C151_distance",
    "Medil.C151_any_number_of_epochs"
   ],
   "note": "AdamW and StepLR modelled as in torch; gradients arbitrary."
  },
  {
   "property": "C152",
   "status": "partial",
   "theorems": [
    "Medil.C152_partial",
    "Medil.C152_false"
   ],
   "note": "false: fit does not use the structure; proved: outcome, network, weights and losses are the same for every structure. Counterexample with AdamW at its default rate."
  },
  {
   "property": "C153",
   "status": "proved",
   "theorems": [
    "Medil.C153_initial_values"
   ],
   "note": "kaiming_uniform_ modelled as in torch."
  },
  {
   "property": "C154",
   "status": "proved",
   "theorems": [
    "Medil.C154_range_of_the_fit"
   ],
   "note": "from C151, C153 and C98."
  },
  {
   "property": "C155",
   "status": "proved",
   "theorems": [
    "Medil.C155_calls",
    "Medil.C155_example"
   ],
   "note": "a copy of the model with a call counter; its results are proved equal to those of the model."
  },
  {
   "property": "C156",
   "status": "partial",
   "theorems": [
    "Medil.C156_all_effects",
    "Medil.C156_partial",
    "Medil.C156_false"
   ],
   "note": "false of the code: the files are written one after the other in place; C156_false gives a call after which the model is new and the losses are old. Proved: exactly which files and attributes are old, incomplete or new after each step (C156_partial), and that the list of effects is that of the modelled fit (C156_all_effects)."
  },
  {
   "property": "C157",
   "status": "proved",
   "theorems": [
    "Medil.C157_recovers"
   ],
   "note": ""
  },
  {
   "property": "C158",
   "status": "partial",
   "theorems": [
    "Medil.C158_all_assignments",
    "Medil.C158_partial",
    "Medil.C158_false"
   ],
   "note": "false of the code (C158_false): means are replaced before variances and weights. Proved: exactly which are old and new after each assignment (C158_partial)."
  },
  {
   "property": "C159",
   "status": "partial",
   "theorems": [
    "Medil.C159_partial",
    "Medil.C159_false"
   ],
   "note": "false of the code (C159_false): a structure learned in an interrupted call is kept. Proved if the structure was given (C159_partial)."
  },
  {
   "property": "C160",
   "status": "proved",
   "theorems": [
    "Medil.C160_kernel"
   ],
   "note": ""
  },
  {
   "property": "C161",
   "status": "proved",
   "theorems": [
    "Medil.C161_dev_sample_law"
   ],
   "note": "the generator is modelled by its distribution (IdealDevDraws), met by the tape generator of tapeEnv_ideal."
  },
  {
   "property": "C162",
   "status": "proved",
   "theorems": [
    "Medil.C162_lse_start",
    "Medil.C162_mle_start",
    "Medil.C162_init_W_history"
   ],
   "note": ""
  },
  {
   "property": "C163",
   "status": "proved",
   "theorems": [
    "Medil.C163_metrics"
   ],
   "note": ""
  },
  {
   "property": "C164",
   "status": "partial",
   "theorems": [
    "Medil.C164_partial",
    "Medil.C164_false"
   ],
   "note": "false of the code (C164_false): with num_latent*num_meas - num_meas + 1 entries the fit returns, with a 1 x 1 D_hat added to every entry of W'W by broadcasting and the last weights started at the values drawn for the variances. Proved: with two or more measurements this is the only size that is not rejected, and what happens then (C164_partial)."
  },
  {
   "property": "C165",
   "status": "proved",
   "theorems": [
    "Medil.C165_sample_iff_fitted"
   ],
   "note": ""
  },
  {
   "property": "C166",
   "status": "partial",
   "theorems": [
    "Medil.C166_validation_partial",
    "Medil.C166_false"
   ],
   "note": "false of the code (C166_false): np.cov of a single column is 0-dimensional, and 1 x 1 operands are broadcast, so data with one column (and for validation_lse an estimate of one variable) gives a number. Proved: the exception in all other cases, with LinAlgError or infinity first where the model covariance is singular or has negative determinant, and the numbers returned (C166_validation_partial)."
  },
  {
   "property": "C167",
   "status": "proved",
   "theorems": [
    "Medil.C167_dcov_power"
   ],
   "note": ""
  },
  {
   "property": "C168",
   "status": "proved",
   "theorems": [
    "Medil.C168_permutations",
    "Medil.C168_independent",
    "Medil.C168_default"
   ],
   "note": ""
  },
  {
   "property": "C169",
   "status": "proved",
   "theorems": [
    "Medil.C169_level",
    "Medil.C169_graph",
    "Medil.C169_default"
   ],
   "note": ""
  },
  {
   "property": "C170",
   "status": "proved",
   "theorems": [
    "Medil.C170_xi_mean",
    "Medil.C170_xi_variance"
   ],
   "note": ""
  },
  {
   "property": "C171",
   "status": "partial",
   "theorems": [
    "Medil.C171_permutations",
    "Medil.C171_discrete",
    "Medil.C171_level_partial",
    "Medil.C171_false"
   ],
   "note": "False for discrete data (C171_false): xicorr takes average ranks, where Chatterjee's statistic needs maximum ranks, so ties push the statistic up (C170) and independent columns, the later with finitely many values, are joined with probability tending to 1 (C171_discrete, C171_permutations). Proved for a later column with an atomless law, for every n >= 4: probability at most 1/(1+z^2) with z the normal critical value; in the limit of many rows the claim holds exactly for such laws (C176_level)."
  },
  {
   "property": "C172",
   "status": "proved",
   "theorems": [
    "Medil.C172_xi_piecewise",
    "Medil.C172_xicor_edge"
   ],
   "note": ""
  },
  {
   "property": "C173",
   "status": "proved",
   "theorems": [
    "Medil.C173_structure",
    "Medil.C173_normal",
    "Medil.C173_roundtrip"
   ],
   "note": ""
  },
  {
   "property": "C174",
   "status": "proved",
   "theorems": [
    "Medil.C174_xi_dependent",
    "Medil.C174_xicor_power",
    "Medil.C174_graph"
   ],
   "note": ""
  },
  {
   "property": "C175",
   "status": "proved",
   "theorems": [
    "Medil.C175_structure",
    "Medil.C175_normal",
    "Medil.C175_roundtrip"
   ],
   "note": ""
  },
  {
   "property": "C176",
   "status": "proved",
   "theorems": [
    "Medil.C176_permutations",
    "Medil.C176_pvalue",
    "Medil.C176_level",
    "Medil.C176_graph",
    "Medil.C176_structure",
    "Medil.C176_roundtrip"
   ],
   "note": ""
  },
  {
   "property": "C177",
   "status": "proved",
   "theorems": [
    "Medil.C177_law",
    "Medil.C177_possible",
    "Medil.C177_renaming"
   ],
   "note": ""
  },
  {
   "property": "C178",
   "status": "partial",
   "theorems": [
    "Medil.C178_partial",
    "Medil.C178_false"
   ],
   "note": "The claim is false: with 2 latents, 4 measurements and density 0, classes of sizes 2,2 have probability 1/12 each and classes of sizes 3,1 have 1/16 (C178_false, for every generator with uniform draws). Proved: two possible structures are equally likely exactly if their products of the numbers of pure children and parents agree (C178_partial)."
  },
  {
   "property": "C179",
   "status": "proved",
   "theorems": [
    "Medil.C179_uniform_graph"
   ],
   "note": ""
  },
  {
   "property": "C180",
   "status": "partial",
   "theorems": [
    "Medil.C180_partial",
    "Medil.C180_fresh",
    "Medil.C180_what_is_fitted",
    "Medil.C180_same_width",
    "Medil.C180_false"
   ],
   "note": "The claim is false (C180_false): datasets with one column, and all datasets if the structure has one measurement, are accepted and fitted to a broadcast covariance (C180_what_is_fitted), and a rejected dataset has already replaced error_means, so that sample raises until the next fit with the right width. Proved: the exact behaviour over all histories for objects with a structure (C180_partial) and for fresh objects (C180_fresh), and agreement with the model for one width (C180_same_width)."
  },
  {
   "property": "C181",
   "status": "proved",
   "theorems": [
    "Medil.C181_law",
    "Medil.C181_moments"
   ],
   "note": ""
  },
  {
   "property": "C182",
   "status": "partial",
   "theorems": [
    "Medil.C182_two_children_partial",
    "Medil.C182_bound_partial",
    "Medil.C182_near_partial",
    "Medil.C182_exact_partial",
    "Medil.C182_no_minimum",
    "Medil.C182_false"
   ],
   "note": "The claim is false (C182_false, C182_no_minimum): one latent with three children, two of them uncorrelated: the objective approaches 0 only with weights that grow without bound, so the more accurate the optimizer the larger the weights. Proved: the minimum exists, with its value, if every latent has at most two children (C182_two_children_partial); near models with three indicators per latent (C182_near_partial); for covariances of the model (C182_exact_partial); and a lower bound for every structure and optimizer (C182_bound_partial)."
  },
  {
   "property": "C183",
   "status": "partial",
   "theorems": [
    "Medil.C183_gaussian_partial",
    "Medil.C183_xicorr_partial",
    "Medil.C183_estimate_partial",
    "Medil.C183_tie",
    "Medil.C183_false",
    "Medil.C183_example"
   ],
   "note": "False for xicorr (C183_false; C183_tie for every sorting algorithm): ties in x are broken by the row position, although the original method breaks them at random and the result is presented as a function of the sample. Proved: GaussianMCM.fit (C183_gaussian_partial), xicorr when x has no ties (C183_xicorr_partial), estimate_UDG with dcov_fast, and with xicor when no column has ties (C183_estimate_partial)."
  },
  {
   "property": "C184",
   "status": "partial",
   "theorems": [
    "Medil.C184_heuristic_latents_partial",
    "Medil.C184_one_pure_child_partial",
    "Medil.C184_private_partial",
    "Medil.C184_udg_partial",
    "Medil.C184_fit_partial",
    "Medil.C184_parameters_partial",
    "Medil.C184_exact_order",
    "Medil.C184_heuristic_order",
    "Medil.C184_false",
    "Medil.C184_example"
   ],
   "note": "False (C184_false): find_clique_min_cover returns two latents on a graph and three after exchanging two measurements (C184_exact_order); find_heuristic_1pc returns on the path 0-1-2-3 and raises TypeError after exchanging the last two measurements (C184_heuristic_order). Proved: the number of latents of find_heuristic_1pc whenever both calls return (C184_heuristic_latents_partial); the same structure from graphs of one-pure-child (C184_one_pure_child_partial) and privately witnessed structures (C184_private_partial); the estimated graph for all data (C184_udg_partial), fit (C184_fit_partial) and the parameter problem (C184_parameters_partial)."
  },
  {
   "property": "C185",
   "status": "partial",
   "theorems": [
    "Medil.C185_common_factor_partial",
    "Medil.C185_exact_partial",
    "Medil.C185_fit_partial",
    "Medil.C185_units",
    "Medil.C185_false"
   ],
   "note": "False (C185_false, C185_units): the unweighted sum of squared covariance differences is not invariant: for one latent with four children and data that do not fit exactly, doubling one column changes the best weights of the others. Proved: a common factor, up to sign, for all columns (C185_common_factor_partial); any units if the solution reproduces the variances and all covariances of pairs with a common parent (C185_exact_partial); fit on covariances of the model (C185_fit_partial)."
  },
  {
   "property": "C186",
   "status": "proved",
   "theorems": [
    "Medil.C186_ncfa_units"
   ],
   "note": "With explicit split indices the rows are not standardized (C68), so the statement is about calls without them."
  },
  {
   "property": "C187",
   "status": "proved",
   "theorems": [
    "Medil.C187_estimate",
    "Medil.C187_structure"
   ],
   "note": ""
  },
  {
   "property": "C188",
   "status": "proved",
   "theorems": [
    "Medil.C188_dev_rows",
    "Medil.C188_dev_columns"
   ],
   "note": "The nuclear norm is taken to be the sum of the singular values (hypothesis hnuc of C188_dev_columns)."
  },
  {
   "property": "C189",
   "status": "partial",
   "theorems": [
    "Medil.C189_false",
    "Medil.C189_standardized_partial",
    "Medil.C189_one_sided_partial",
    "Medil.C189_example"
   ],
   "note": "False of the code: it multiplies a covariance and a correlation instead of squaring the correlation (C189_false). Proved for measurements of variance 1 (or constant) by C189_standardized_partial and one-sided otherwise by C189_one_sided_partial."
  },
  {
   "property": "C190",
   "status": "partial",
   "theorems": [
    "Medil.C190_trios",
    "Medil.C190_false",
    "Medil.C190_passes_partial",
    "Medil.C190_passes_exact"
   ],
   "note": "False of the code (C190_false): m latents with three children each need at least 3^m passes (C190_trios). Proved: at most 5*3^(n/3) passes for every graph (C190_passes_partial)."
  },
  {
   "property": "C191",
   "status": "partial",
   "theorems": [
    "Medil.C191_all_changes",
    "Medil.C191_partial",
    "Medil.C191_false"
   ],
   "note": "False of the code (C191_false): the two attributes are assigned one after the other. C191_partial gives the object at every interruption point; there is one bad point."
  },
  {
   "property": "C192",
   "status": "proved",
   "theorems": [
    "Medil.C192_completed_fit",
    "Medil.C192_init_W_history",
    "Medil.C192_example"
   ],
   "note": ""
  },
  {
   "property": "C193",
   "status": "proved",
   "theorems": [
    "Medil.C193_result",
    "Medil.C193_same",
    "Medil.C193_refines",
    "Medil.C193_ends"
   ],
   "note": ""
  },
  {
   "property": "C194",
   "status": "partial",
   "theorems": [
    "Medil.C194_false",
    "Medil.C194_partial"
   ],
   "note": "False of the code (C194_false): if a worker is killed while it works on a chunk, the call waits forever. C194_partial: a result that is returned is never changed by killed workers, and killing idle workers does not hang the call."
  },
  {
   "property": "C195",
   "status": "partial",
   "theorems": [
    "Medil.C195_false",
    "Medil.C195_chordal_partial"
   ],
   "note": "False of the code (C195_false: a chordal graph with a clique of four vertices on which an edge is left uncovered). C195_chordal_partial: true for chordal graphs without four mutually adjacent vertices."
  },
  {
   "property": "C196",
   "status": "proved",
   "theorems": [
    "Medil.C196_two_degenerate",
    "Medil.C196_cluster_elimination"
   ],
   "note": ""
  },
  {
   "property": "C197",
   "status": "proved",
   "theorems": [
    "Medil.C197_graph_in_any_arithmetic",
    "Medil.C197_xicor_in_any_arithmetic"
   ],
   "note": ""
  },
  {
   "property": "C198",
   "status": "proved",
   "theorems": [
    "Medil.C198_dcov_fast_rounding"
   ],
   "note": ""
  },
  {
   "property": "C199",
   "status": "proved",
   "theorems": [
    "Medil.C199_gaussian_rounding"
   ],
   "note": ""
  },
  {
   "property": "C200",
   "status": "partial",
   "theorems": [
    "Medil.C200_xicor_rounding_partial",
    "Medil.C200_constant_column",
    "Medil.C200_false",
    "Medil.C200_double_precision"
   ],
   "note": "False of the code (C200_false): for a constant later column the variance estimate is exactly zero and its rounding error decides about the edge (C200_constant_column for every accuracy; C200_double_precision: in doubles an edge with four rows, none with five). Proved for all pairs whose later column varies, with p-values as accurate as wanted (C200_xicor_rounding_partial)."
  },
  {
   "property": "C201",
   "status": "proved",
   "theorems": [
    "Medil.C201_arguments_unchanged"
   ],
   "note": ""
  },
  {
   "property": "C202",
   "status": "partial",
   "theorems": [
    "Medil.C202_result_new_partial",
    "Medil.C202_false"
   ],
   "note": "False of the code (C202_false): on a graph with vertices but no edges the caller's own array is returned. Proved: the result is new exactly if there is an edge or no vertex, and otherwise it is the argument (C202_result_new_partial)."
  },
  {
   "property": "C203",
   "status": "partial",
   "theorems": [
    "Medil.C203_copy_of_graph_partial",
    "Medil.C203_false"
   ],
   "note": "False of the code for a copy of a copy (C203_false): reduced_away is shared by reference and rule_3 writes into it. Proved for copies of graphs, for every history and also when it ends with an exception (C203_copy_of_graph_partial)."
  },
  {
   "property": "C204",
   "status": "partial",
   "theorems": [
    "Medil.C204_own_arrays_partial",
    "Medil.C204_false"
   ],
   "note": "False of the code (C204_false): two objects made from one array share it, and an edit through one leaves the other's num_edges stale. Proved if no array was given to two objects (C204_own_arrays_partial)."
  },
  {
   "property": "C205",
   "status": "partial",
   "theorems": [
    "Medil.C205_aux_last_partial",
    "Medil.C205_false",
    "Medil.C205_stale_cover",
    "Medil.C205_after_failure"
   ],
   "note": "False of the code (C205_false): an edit after make_aux leaves common_neighbors, counts and extant edges stale; C205_stale_cover: the stale copy is then 'covered' by a set that is not a clique. Proved if make_aux was never called, or if the last call was a make_aux that did not raise, whatever was done before (C205_aux_last_partial). C205_after_failure: after a make_aux that raised on an edgeless graph, reducible_copy raises AttributeError whatever edges are added."
  },
  {
   "property": "C206",
   "status": "partial",
   "theorems": [
    "Medil.C206_other_calls_partial",
    "Medil.C206_false"
   ],
   "note": "False of the code (C206_false): rule_1 on the copy reads the matrix of the original. Proved for all histories without rule_1 (C206_other_calls_partial)."
  },
  {
   "property": "C207",
   "status": "proved",
   "theorems": [
    "Medil.C207_any_interleaving",
    "Medil.C207_caller_keeps"
   ],
   "note": ""
  },
  {
   "property": "C208",
   "status": "partial",
   "theorems": [
    "Medil.C208_unchanged_partial",
    "Medil.C208_false"
   ],
   "note": "False of the code (C208_false): a generator function runs nothing before the first next, so a change of the array in between is seen. Proved if the array is not changed between the call and the first next, whatever happens afterwards (C208_unchanged_partial)."
  },
  {
   "property": "C209",
   "status": "proved",
   "theorems": [
    "Medil.C209_printed_lines"
   ],
   "note": ""
  },
  {
   "property": "C210",
   "status": "partial",
   "theorems": [
    "Medil.C210_float_partial",
    "Medil.C210_private_partial",
    "Medil.C210_sparse_partial",
    "Medil.C210_false"
   ],
   "note": "False of the code: on a float array the number of vertices (np.trace) is a float, and the first branching pass raises TypeError (octahedron). Proved: same result or TypeError, with the exact condition; graphs with private edges or few edges are safe."
  },
  {
   "property": "C211",
   "status": "partial",
   "theorems": [
    "Medil.C211_widths_partial",
    "Medil.C211_false"
   ],
   "note": "False of the code: 256 common parents in uint8 wrap to 0. Proved: exact condition for adjacency, and both results of sfd correct below 2^bits latents."
  },
  {
   "property": "C212",
   "status": "partial",
   "theorems": [
    "Medil.C212_small_partial",
    "Medil.C212_false",
    "Medil.C212_bool"
   ],
   "note": "False of the code: uint8 [[16]] against [[0]] gives 0 instead of 256. Proved: exact if the square of the largest difference fits into the type; bool predictions always raise TypeError."
  },
  {
   "property": "C213",
   "status": "partial",
   "theorems": [
    "Medil.C213_minimiser_partial",
    "Medil.C213_false"
   ],
   "note": "False of the code (the determinant enters without logarithm). Proved: the exact minimiser, mean squared residuals divided by a common factor, which is 1 only if their product is 1."
  },
  {
   "property": "C214",
   "status": "proved",
   "theorems": [
    "Medil.C214_variance_layer"
   ],
   "note": ""
  },
  {
   "property": "C215",
   "status": "proved",
   "theorems": [
    "Medil.C215_float_matching",
    "Medil.C215_double",
    "Medil.C215_underflow"
   ],
   "note": "Includes an arithmetic with underflow in which different matrices have computed distance 0, so the absolute error term is necessary."
  },
  {
   "property": "C216",
   "status": "proved",
   "theorems": [
    "Medil.C216_nan_weights"
   ],
   "note": ""
  },
  {
   "property": "C217",
   "status": "proved",
   "theorems": [
    "Medil.C217_dcov_fast",
    "Medil.C217_gaussian"
   ],
   "note": "For GaussianMCM assumes that log(1) < -log(N)/N is computed as false, shown for double precision rounding."
  },
  {
   "property": "C218",
   "status": "partial",
   "theorems": [
    "Medil.C218_hang_partial",
    "Medil.C218_false"
   ],
   "note": "False of the code: diagonal 1, 0, 1 with an edge 0-1 hangs. Proved: exactly when a graph with a zero-diagonal, non-isolated vertex in no triangle raises ValueError, and that it hangs otherwise. Termination with unit diagonal is C10, with zero diagonal C17."
  },
  {
   "property": "C219",
   "status": "proved",
   "theorems": [
    "Medil.C219_dcov_fast_error",
    "Medil.C219_double"
   ],
   "note": "Exponents are unbounded (no overflow or underflow); constant measurements are covered by C198."
  },
  {
   "property": "C220",
   "status": "proved",
   "theorems": [
    "Medil.C220_max_cliques",
    "Medil.C220_heuristic"
   ],
   "note": ""
  },
  {
   "property": "C221",
   "status": "partial",
   "theorems": [
    "Medil.C221_acyclic_partial",
    "Medil.C221_more_latents",
    "Medil.C221_false"
   ],
   "note": "False for every graph with an edge (C221_more_latents); proved: the exact result for every matrix without directed cycles, one latent per measurement."
  },
  {
   "property": "C222",
   "status": "partial",
   "theorems": [
    "Medil.C222_pure_partial",
    "Medil.C222_graph_partial",
    "Medil.C222_above",
    "Medil.C222_false"
   ],
   "note": "False for negative densities: a negative slice end counts from the back, so density -1/5 gives about 4/5 of the edges. Proved: the exact number for every density in both branches, and the claim for densities above 1."
  },
  {
   "property": "C223",
   "status": "proved",
   "theorems": [
    "Medil.C223_arrays_unchanged",
    "Medil.C223_fit",
    "Medil.C223_sample_stable",
    "Medil.C223_sample",
    "Medil.C223_old_arrays"
   ],
   "note": "Attributes are references into a memory of arrays; fit on the memory is proved to compute what fit on values computes."
  },
  {
   "property": "C224",
   "status": "partial",
   "theorems": [
    "Medil.C224_fit_stable_partial",
    "Medil.C224_false"
   ],
   "note": "False: the constructor keeps a reference, so overwriting the passed array in place changes the structure of the object. Proved: fit is unaffected by every step that writes to none of the three arrays it was given and does not fit the object."
  },
  {
   "property": "C225",
   "status": "proved",
   "theorems": [
    "Medil.C225_chi_square_test",
    "Medil.C225_other_levels",
    "Medil.C225_agrees"
   ],
   "note": "scipy's chi2(1).ppf is described by its defining property (nan outside [0,1], infinity at 1); a function with this property is shown to exist."
  },
  {
   "property": "C226",
   "status": "partial",
   "theorems": [
    "Medil.C226_monotone_partial",
    "Medil.C226_false"
   ],
   "note": "False for dcov_fast and levels above 1: the critical value is nan and all edges disappear. Proved: the claim for dcov_fast up to level 1 and for supplied p-values, xicor and dcov_big at all levels."
  },
  {
   "property": "C227",
   "status": "proved",
   "theorems": [
    "Medil.C227_critical_value",
    "Medil.C227_default_test",
    "Medil.C227_eight_observations",
    "Medil.C227_nine_observations"
   ],
   "note": "The quantile is the defining property of C225; its numerical bounds are proved from alternating Taylor bounds of the normal density and bounds for pi. Real arithmetic."
  },
  {
   "property": "C228",
   "status": "proved",
   "theorems": [
    "Medil.C228_dcov_fast",
    "Medil.C228_gaussian",
    "Medil.C228_weights"
   ],
   "note": "Hypotheses: the IEEE 754 laws for nan and infinities (Spec/InfLaws.lean), proved for double precision with overflow (Props/Ieee.lean); for GaussianMCM also that log(1) < -log(N)/N comes out false, proved for that arithmetic."
  },
  {
   "property": "C229",
   "status": "proved",
   "theorems": [
    "Medil.C229_xicor_order"
   ],
   "note": "Hypotheses: negation reverses comparisons and keeps nan; proved for double precision with overflow."
  },
  {
   "property": "C230",
   "status": "partial",
   "theorems": [
    "Medil.C230_missing_partial",
    "Medil.C230_edge",
    "Medil.C230_false"
   ],
   "note": "False (C230_false): scipy's rankdata turns a column with nan into nan only, np.argsort of nans leaves some order, and a later column that is monotone in that order is joined to it, in every sample size from some number on (C230_edge). Proved: no edge to earlier columns; the p-value for a later column does not depend on the values in the column with nan; the other entries are unaffected. Missing: edges to later columns."
  },
  {
   "property": "C231",
   "status": "partial",
   "theorems": [
    "Medil.C231_cpu_partial",
    "Medil.C231_gpu",
    "Medil.C231_false"
   ],
   "note": "False (C231_gpu, C231_false): the masks are plain attributes and stay on the CPU, so with a GPU every forward pass raises RuntimeError in the first decoder layer; fit never returns, only dataset is set, the log gets two entries; with num_epochs = 0 the files are written and .numpy() raises TypeError. Proved: on a CPU the device checks never fail, fit is the model of C66-C92. Missing: machines with a GPU."
  },
  {
   "property": "C232",
   "status": "partial",
   "theorems": [
    "Medil.C232_shared_memory_partial",
    "Medil.C232_false"
   ],
   "note": "False (C232_false): parameters.weights is a transposed view of the network's layer, an edit changes the log-variances. Proved for every history: the array always shows the current weights of the network; an edit leaves reconstructions, mu, logvar, other objects and files alone; fits leave other objects and kept arrays alone; arrays kept before a fit are not connected to the new network. Missing: the log-variances."
  },
  {
   "property": "C233",
   "status": "partial",
   "theorems": [
    "Medil.C233_shapes_partial",
    "Medil.C233_square",
    "Medil.C233_false"
   ],
   "note": "False (C233_false): a 2 x 3 array is accepted for a sample with four columns. Proved: exactly the arrays with two dimensions, and those with more and equal dimensions, are accepted, others raise ValueError; the result has the shape of the p-values, is true exactly where the p-value is below the level and the indices are not all equal (numpy's fill_diagonal, modelled on the flat array), and for square matrices agrees with the model of C48. Missing: the rejection."
  },
  {
   "property": "C234",
   "status": "proved",
   "theorems": [
    "Medil.C234_threads"
   ],
   "note": "Small-step model of fit and sample (each read and assignment of an attribute, each draw, is a step; the optimizer is one step); C234_threads: under any schedule a thread with its own objects finishes after at most 18 steps per call, and results, attributes and generators are those of the sequential session model of C76 (whose fit is gaussianFit). Calls of fit need no generator, so objects with the shared default rng may be fitted in parallel."
  },
  {
   "property": "C235",
   "status": "partial",
   "theorems": [
    "Medil.C235_partial",
    "Medil.C235_mixed",
    "Medil.C235_false"
   ],
   "note": "False (C235_false; C235_mixed: for every structure and any two datasets there is a schedule after which the means are those of one and the variances and weights those of the other). Proved for an object with a structure, under any schedule: no call raises, structure and graph stay, dataset, means, variances and weights are each those of one of the calls, and if all calls get the same dataset the object is as after one call. Missing: that all are of the same call."
  },
  {
   "property": "C236",
   "status": "partial",
   "theorems": [
    "Medil.C236_partial",
    "Medil.C236_paths",
    "Medil.C236_false",
    "Medil.C236_returns",
    "Medil.C236_example"
   ],
   "note": "False (C236_false: network of one process, loss and error histories of the other, all readable). Proved for any processes, paths and schedules: a process that has returned has the object of a fit alone; each file is as before, incomplete, or the file of one successful fit with that path; an incomplete file that remains was open in two processes at once; each log keeps its old lines, then lines that contain those of each returned process in order; C236_paths: a process whose files (log) no other process uses finds there what a fit alone writes. Missing: that the three files of a shared directory are of one fit."
  },
  {
   "property": "C237",
   "status": "proved",
   "theorems": [
    "Medil.C237_five_observations",
    "Medil.C237_six_observations",
    "Medil.C237_structure",
    "Medil.C237_example"
   ],
   "note": "\u03a6 is the standard normal distribution function of Mathlib. C237_five_observations, C237_six_observations (the graph), C237_structure (what _compute_biadj stores without a given graph), C237_example."
  },
  {
   "property": "C238",
   "status": "proved",
   "theorems": [
    "Medil.C238_cells",
    "Medil.C238_texts",
    "Medil.C238_faithful",
    "Medil.C238_ticks",
    "Medil.C238_example"
   ],
   "note": "C238_cells, C238_texts, C238_faithful, C238_ticks, C238_example. A picture is the data handed to matplotlib (places, colour values, texts, tick labels); the rendering is not modelled."
  },
  {
   "property": "C239",
   "status": "proved",
   "theorems": [
    "Medil.C239_gaussian",
    "Medil.C239_fit",
    "Medil.C239_ncfa",
    "Medil.C239_attributes",
    "Medil.C239_example"
   ],
   "note": "C239_attributes (every object and history), C239_gaussian, C239_fit, C239_ncfa, C239_example. Formatting of a value is an arbitrary function; deletion of attributes is not modelled."
  },
  {
   "property": "C240",
   "status": "proved",
   "theorems": [
    "Medil.C240_structure",
    "Medil.C240_nine",
    "Medil.C240_example"
   ],
   "note": "C240_structure, C240_nine, C240_example (such a library exists). UsesChi2: the critical values are the quantiles of the chi-squared law with one degree of freedom. No condition on ties."
  },
  {
   "property": "C241",
   "status": "proved",
   "theorems": [
    "Medil.C241_same_dataset",
    "Medil.C241_example"
   ],
   "note": "C241_same_dataset, C241_example (a dataset, two threads and a schedule). The hypothesis that the calls agree on the structure is needed only for calls with different set orders."
  },
  {
   "property": "C242",
   "status": "proved",
   "theorems": [
    "Medil.C242_samples",
    "Medil.C242_not_serial"
   ],
   "note": "C242_samples, C242_not_serial (a session that meets the hypotheses, and a schedule whose results are those of neither order). A draw from a generator is one step: numpy's Generator holds a lock while it draws."
  },
  {
   "property": "C243",
   "status": "proved",
   "theorems": [
    "Medil.C243_mixed",
    "Medil.C243_refit",
    "Medil.C243_zero_weights"
   ],
   "note": "C243_refit (nothing raises), C243_mixed (which parameters a sample uses), C243_zero_weights (a sample under a schedule in which the weights are 0, while they are 1 before and after the fit). Lines 107-108 store an array of zeros and fill it."
  }
 ]
}