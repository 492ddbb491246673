{
 "claims": [
  {
   "property": "C01",
   "status": "proved",
   "theorems": [
    "GPyABCD.C01_eq_iff_same",
    "GPyABCD.C01_eq_refl",
    "GPyABCD.C01_eq_symm",
    "GPyABCD.C01_eq_trans"
   ],
   "note": ""
  },
  {
   "property": "C02",
   "status": "partial",
   "theorems": [
    "GPyABCD.C02_family_partial",
    "GPyABCD.C02_roomy",
    "GPyABCD.C02_no_new_covariance_partial",
    "GPyABCD.C02_lin_c_changes"
   ],
   "note": "Set of covariances equal for positive variances when no product is emptied and LIN does not meet C under the offset flag; without the LIN/C condition inclusion is proved, and equality with LIN read as LIN plus a constant (C02_roomy); the exception is real (C02_lin_c_changes)."
  },
  {
   "property": "C03",
   "status": "proved",
   "theorems": [
    "GPyABCD.C03_canonical"
   ],
   "note": ""
  },
  {
   "property": "C04",
   "status": "proved",
   "theorems": [
    "GPyABCD.C04_no_wrappers"
   ],
   "note": ""
  },
  {
   "property": "C05",
   "status": "partial",
   "theorems": [
    "GPyABCD.C05_not_idempotent",
    "GPyABCD.C05_idempotent_iff",
    "GPyABCD.C05_idempotent_partial",
    "GPyABCD.C05_idempotent_change_partial",
    "GPyABCD.C05_stabilises"
   ],
   "note": "False in general (C05_not_idempotent); exact condition C05_idempotent_iff, constructors on simplified non-wrapper terms, and termination of repeated simplification are proved."
  },
  {
   "property": "C06",
   "status": "partial",
   "theorems": [
    "GPyABCD.C06_can_empty",
    "GPyABCD.C06_never_empties_partial",
    "GPyABCD.C06_never_empties_simple_partial",
    "GPyABCD.C06_empties_iff"
   ],
   "note": "False in general (C06_can_empty); the exact condition is C06_empties_iff: a node is emptied if and only if some product that is not itself a factor of a product consists of constants and of at least one product, all of constants only. Never when no product of constants sits directly in a product."
  },
  {
   "property": "C07",
   "status": "proved",
   "theorems": [
    "GPyABCD.C07_bases",
    "GPyABCD.C07_changes",
    "GPyABCD.C07_size"
   ],
   "note": ""
  },
  {
   "property": "C08",
   "status": "proved",
   "theorems": [
    "GPyABCD.C08_links",
    "GPyABCD.C08_check_iff",
    "GPyABCD.C08_check",
    "GPyABCD.C08_simplifies",
    "GPyABCD.C08_well_linked",
    "GPyABCD.C08_is_root"
   ],
   "note": ""
  },
  {
   "property": "C09",
   "status": "proved",
   "theorems": [
    "GPyABCD.C09_roundtrip",
    "GPyABCD.C09_injective",
    "GPyABCD.C09_unstable"
   ],
   "note": ""
  },
  {
   "property": "C10",
   "status": "proved",
   "theorems": [
    "GPyABCD.C10_printed",
    "GPyABCD.C10_family",
    "GPyABCD.C10_kernels",
    "GPyABCD.C10_sigmoids"
   ],
   "note": ""
  },
  {
   "property": "C11",
   "status": "proved",
   "theorems": [
    "GPyABCD.C11_stationary_sound",
    "GPyABCD.C11_stationary_iff",
    "GPyABCD.C11_lin_not_stationary"
   ],
   "note": ""
  },
  {
   "property": "C12",
   "status": "proved",
   "theorems": [
    "GPyABCD.C12_contains_base"
   ],
   "note": ""
  },
  {
   "property": "C13",
   "status": "partial",
   "theorems": [
    "GPyABCD.C13_add_terms",
    "GPyABCD.C13_add_sum_partial",
    "GPyABCD.C13_lin_c_differs"
   ],
   "note": "Where LIN meets C under the offset flag, proved with LIN read as LIN plus a constant only (the family really changes: C13_lin_c_differs); term-level statement proved without that condition."
  },
  {
   "property": "C14",
   "status": "partial",
   "theorems": [
    "GPyABCD.C14_multiply_terms",
    "GPyABCD.C14_multiply_product_partial"
   ],
   "note": "Where LIN meets C under the offset flag, proved with LIN read as LIN plus a constant only (the family really changes: C13_lin_c_differs); term-level statement proved without that condition."
  },
  {
   "property": "C15",
   "status": "partial",
   "theorems": [
    "GPyABCD.C15_add_nested_partial",
    "GPyABCD.C15_multiply_nested_partial",
    "GPyABCD.C15_nested_terms"
   ],
   "note": "Where LIN meets C under the offset flag, proved with LIN read as LIN plus a constant only (the family really changes: C13_lin_c_differs); term-level statement proved without that condition."
  },
  {
   "property": "C16",
   "status": "proved",
   "theorems": [
    "GPyABCD.C16_add_comm",
    "GPyABCD.C16_multiply_comm"
   ],
   "note": ""
  },
  {
   "property": "C17",
   "status": "partial",
   "theorems": [
    "GPyABCD.C17_swap_base_partial",
    "GPyABCD.C17_swap_change",
    "GPyABCD.C17_swap_same_adds",
    "GPyABCD.C17_remove_a_term",
    "GPyABCD.C17_remove_change"
   ],
   "note": "Replacing a base kernel by itself adds one instead (C17_swap_same_adds); everything else proved."
  },
  {
   "property": "C18",
   "status": "partial",
   "theorems": [
    "GPyABCD.C18_both_changes_partial",
    "GPyABCD.C18_same_changes_partial"
   ],
   "note": "The shape of the results is proved; where LIN meets C under the offset flag the meaning of the branches is proved with LIN read as LIN plus a constant."
  },
  {
   "property": "C19",
   "status": "proved",
   "theorems": [
    "GPyABCD.C19_pairwise_different"
   ],
   "note": ""
  },
  {
   "property": "C20",
   "status": "partial",
   "theorems": [
    "GPyABCD.C20_builtin_rules",
    "GPyABCD.C20_one_node_partial",
    "GPyABCD.C20_one_node_no_left_leaf_partial",
    "GPyABCD.C20_left_leaf_slips"
   ],
   "note": "False for bare base kernels as left branch of a change operator (C20_left_leaf_slips); proved with that alternative spelled out, and in full when there is none."
  },
  {
   "property": "C21",
   "status": "partial",
   "theorems": [
    "GPyABCD.C21_left_leaf_missing",
    "GPyABCD.C21_complete_partial"
   ],
   "note": "False for bare base kernels as left branch of a change operator (C21_left_leaf_missing); proved for every other occurrence."
  },
  {
   "property": "C22",
   "status": "proved",
   "theorems": [
    "GPyABCD.C22_base_kernels"
   ],
   "note": ""
  },
  {
   "property": "C23",
   "status": "proved",
   "theorems": [
    "GPyABCD.C23_order_independent"
   ],
   "note": ""
  },
  {
   "property": "C24",
   "status": "proved",
   "theorems": [
    "GPyABCD.C24_terminates",
    "GPyABCD.C24_shape",
    "GPyABCD.C24_meaning"
   ],
   "note": ""
  },
  {
   "property": "C25",
   "status": "partial",
   "theorems": [
    "GPyABCD.C25_step_partial",
    "GPyABCD.C25_reachable_partial",
    "GPyABCD.C25_builtin",
    "GPyABCD.C25_constructed_partial",
    "GPyABCD.C25_unsimplified_empties",
    "GPyABCD.C25_sigmoid_empties"
   ],
   "note": "Proved for everything reachable from expressions built by the constructors without empty nodes and sigmoids, in particular from every built-in start group; false for trees never simplified and with sigmoids (C25_unsimplified_empties, C25_sigmoid_empties)."
  },
  {
   "property": "C26",
   "status": "partial",
   "theorems": [
    "GPyABCD.C26_not_stable",
    "GPyABCD.C26_stable_partial",
    "GPyABCD.C26_printed",
    "GPyABCD.C26_print_partial",
    "GPyABCD.C26_nested_alike"
   ],
   "note": "Stability is false in general (C26_not_stable); proved for results in which kinds alternate. Printed forms: results of one expansion that alternate print differently (C26_print_partial); nested results may print like flat ones (C26_nested_alike), and two results of one expansion that print alike are not known"
  },
  {
   "property": "C27",
   "status": "proved",
   "theorems": [
    "GPyABCD.C27_all_models",
    "GPyABCD.C27_sorted",
    "GPyABCD.C27_rounds",
    "GPyABCD.C27_starts"
   ],
   "note": ""
  },
  {
   "property": "C28",
   "status": "proved",
   "theorems": [
    "GPyABCD.C28_partition"
   ],
   "note": ""
  },
  {
   "property": "C29",
   "status": "proved",
   "theorems": [
    "GPyABCD.C29_alike",
    "GPyABCD.C29_tested_exprs",
    "GPyABCD.C29_no_refit",
    "GPyABCD.C29_no_refit_kernels"
   ],
   "note": "Equality of expressions is what counts. C29_alike: a search can fit two unequal expressions that print the same and have the same covariances."
  },
  {
   "property": "C30",
   "status": "proved",
   "theorems": [
    "GPyABCD.C30_beam_best"
   ],
   "note": ""
  },
  {
   "property": "C31",
   "status": "proved",
   "theorems": [
    "GPyABCD.C31_beam",
    "GPyABCD.C31_beam_error",
    "GPyABCD.C31_succeeds"
   ],
   "note": ""
  },
  {
   "property": "C32",
   "status": "proved",
   "theorems": [
    "GPyABCD.C32_best",
    "GPyABCD.C32_keeps_models",
    "GPyABCD.C32_never_worse"
   ],
   "note": ""
  },
  {
   "property": "C33",
   "status": "proved",
   "theorems": [
    "GPyABCD.C33_continue",
    "GPyABCD.C33_continue_continue",
    "GPyABCD.C33_rounds"
   ],
   "note": ""
  },
  {
   "property": "C34",
   "status": "proved",
   "theorems": [
    "GPyABCD.C34_provenance",
    "GPyABCD.C34_reachable"
   ],
   "note": ""
  },
  {
   "property": "C35",
   "status": "proved",
   "theorems": [
    "GPyABCD.C35_retries",
    "GPyABCD.C35_fails_iff"
   ],
   "note": ""
  },
  {
   "property": "C36",
   "status": "proved",
   "theorems": [
    "GPyABCD.C36_same",
    "GPyABCD.C36_errors",
    "GPyABCD.C36_chunks"
   ],
   "note": ""
  },
  {
   "property": "C37",
   "status": "partial",
   "theorems": [
    "GPyABCD.C37_same_result",
    "GPyABCD.C37_verbose_breaks",
    "GPyABCD.C37_verbose_partial"
   ],
   "note": "False in general (C37_verbose_breaks: IndexError when a printed list is empty); results never differ (C37_same_result), and verbose succeeds when every printed list is non-empty."
  },
  {
   "property": "C38",
   "status": "partial",
   "theorems": [
    "GPyABCD.C38_first_description_partial",
    "GPyABCD.C38_latest_fit",
    "GPyABCD.C38_never_refreshed",
    "GPyABCD.C38_stale"
   ],
   "note": "False after a refit (C38_stale, C38_never_refreshed); proved exactly what is described (C38_first_description_partial) and in full when no description was asked for before (C38_latest_fit)."
  },
  {
   "property": "C39",
   "status": "partial",
   "theorems": [
    "GPyABCD.C39_expression_unchanged",
    "GPyABCD.C39_describe_unfitted",
    "GPyABCD.C39_fitted_iff",
    "GPyABCD.C39_restarts",
    "GPyABCD.C39_given",
    "GPyABCD.C39_cached_score",
    "GPyABCD.C39_cached_pair",
    "GPyABCD.C39_unnamed_score"
   ],
   "note": "All parts proved for every call sequence; cached score and name belong together only if scoring functions have a __name__ (C39_cached_pair; C39_unnamed_score otherwise)."
  },
  {
   "property": "C40",
   "status": "proved",
   "theorems": [
    "GPyABCD.C40_iff",
    "GPyABCD.C40_matched",
    "GPyABCD.C40_shape",
    "GPyABCD.C40_random",
    "GPyABCD.C40_covariance",
    "GPyABCD.C40_fitted",
    "GPyABCD.C40_nested_keyerror"
   ],
   "note": "stable expressions (simplify leaves them as they are), as the property says; C40_shape for all trees of the right shape; outside (product in product) matching raises KeyError (C40_nested_keyerror). C40_iff: exactly the alternating ones get all their parameters. C40_random: the same for init_rand_params. Assumes how GPy and paramz name and flatten kernels (DESIGN.md)."
  },
  {
   "property": "C41",
   "status": "partial",
   "theorems": [
    "GPyABCD.C41_partial",
    "GPyABCD.C41_changepoint_kernel",
    "GPyABCD.C41_changewindow_kernel",
    "GPyABCD.C41_noise_lin",
    "GPyABCD.C41_se"
   ],
   "note": "C41_partial: not where white noise multiplies LIN (C41_noise_lin) or SE multiplies SE with the formula of the code (C41_se), and not for nodes without base terms (C42_raises); exact arithmetic"
  },
  {
   "property": "C42",
   "status": "partial",
   "theorems": [
    "GPyABCD.C42_partial",
    "GPyABCD.C42_raises",
    "GPyABCD.C42_witness"
   ],
   "note": "C42_partial: expressions all of whose nodes have base terms; all others raise AssertionError (C42_raises, C42_witness)"
  },
  {
   "property": "C43",
   "status": "proved",
   "theorems": [
    "GPyABCD.C43_variance",
    "GPyABCD.C43_params",
    "GPyABCD.C43_shape",
    "GPyABCD.C43_bases_partial",
    "GPyABCD.C43_lin_lost"
   ],
   "note": "C43_variance and C43_params add their variances and parameters; C43_bases_partial adds which base terms the components have, except where white noise multiplies LIN (C43_lin_lost)"
  },
  {
   "property": "C44",
   "status": "proved",
   "theorems": [
    "GPyABCD.C44_starts",
    "GPyABCD.C44_ends",
    "GPyABCD.C44_windows"
   ],
   "note": ""
  },
  {
   "property": "C45",
   "status": "partial",
   "theorems": [
    "GPyABCD.C45_sound_partial",
    "GPyABCD.C45_increasing",
    "GPyABCD.C45_two",
    "GPyABCD.C45_iff",
    "GPyABCD.C45_raises",
    "GPyABCD.C45_raises_later"
   ],
   "note": "Exactness proved whenever the reduction succeeds, and exactly when it succeeds (C45_iff: each window fits the ones before it); the full claim is false (KeyError), with witnesses."
  },
  {
   "property": "C46",
   "status": "partial",
   "theorems": [
    "GPyABCD.C46_sound_partial",
    "GPyABCD.C46_order",
    "GPyABCD.C46_plain",
    "GPyABCD.C46_window_last",
    "GPyABCD.C46_raises",
    "GPyABCD.C46_none",
    "GPyABCD.C46_order_matters",
    "GPyABCD.C46_iff"
   ],
   "note": "Exactness proved for every successful reduction in every order; success proved without reversed windows and with one reversed window last; the full claim is false (TypeError, KeyError, None entries), with witnesses. The exact condition for success is proved (C46_iff): reversed windows fit, and every group meets those before it."
  },
  {
   "property": "C47",
   "status": "partial",
   "theorems": [
    "GPyABCD.C47_partial",
    "GPyABCD.C47_tellable",
    "GPyABCD.C47_text",
    "GPyABCD.C47_points",
    "GPyABCD.C47_nested_windows",
    "GPyABCD.C47_nowhere",
    "GPyABCD.C47_lin_untold",
    "GPyABCD.C47_iff",
    "GPyABCD.C47_text_iff",
    "GPyABCD.C47_words"
   ],
   "note": "For every component of a form: the sentence exists and says what it should (Describes: which kernels, how often, which numbers, variance, intervals), or the reduction of sigmoids fails as in C45/C46 and that is the error; never an unexpected-term error. Every component without windows, with one sigmoid only, or with no reversed window and a point where all sigmoids are on has a sentence (C47_tellable), so the text is complete where all are such (C47_text, C47_points). Exactly which components, and so which expressions, have a text is proved in C47_iff and C47_text_iff. Where noise meets LIN only variance and intervals are promised (C47_lin_untold); false and for nested disjoint windows (C47_nested_windows)."
  },
  {
   "property": "C48",
   "status": "proved",
   "theorems": [
    "GPyABCD.C48_range",
    "GPyABCD.C48_strictMono",
    "GPyABCD.C48_half",
    "GPyABCD.C48_complement",
    "GPyABCD.C48_limits"
   ],
   "note": ""
  },
  {
   "property": "C49",
   "status": "proved",
   "theorems": [
    "GPyABCD.C49_pos",
    "GPyABCD.C49_le_one",
    "GPyABCD.C49_middle",
    "GPyABCD.C49_symm",
    "GPyABCD.C49_complement",
    "GPyABCD.C49_limits"
   ],
   "note": ""
  },
  {
   "property": "C50",
   "status": "proved",
   "theorems": [
    "GPyABCD.C50_changepoint",
    "GPyABCD.C50_changewindow",
    "GPyABCD.C50_diagonal",
    "GPyABCD.C50_three_parts",
    "GPyABCD.C50_sides",
    "GPyABCD.C50_window_sides",
    "GPyABCD.C50_three_parts_mirror",
    "GPyABCD.C50_three_parts_sides",
    "GPyABCD.C50_shifted_sides"
   ],
   "note": ""
  },
  {
   "property": "C51",
   "status": "partial",
   "theorems": [
    "GPyABCD.C51_variance",
    "GPyABCD.C51_offset_partial",
    "GPyABCD.C51_offset_asymmetric",
    "GPyABCD.C51_diagonal",
    "GPyABCD.C51_linear"
   ],
   "note": "Offset gradient proved for symmetric dL_dK (the only kind GPy passes for X2 = X); false for asymmetric ones (C51_offset_asymmetric)."
  },
  {
   "property": "C52",
   "status": "proved",
   "theorems": [
    "GPyABCD.C52_location",
    "GPyABCD.C52_slope",
    "GPyABCD.C52_fixed_slope",
    "GPyABCD.C52_window_location",
    "GPyABCD.C52_window_slope",
    "GPyABCD.C52_window_width",
    "GPyABCD.C52_asymmetric"
   ],
   "note": ""
  },
  {
   "property": "C53",
   "status": "partial",
   "theorems": [
    "GPyABCD.C53_symmetric",
    "GPyABCD.C53_stationary",
    "GPyABCD.C53_periodic",
    "GPyABCD.C53_diagonal",
    "GPyABCD.C53_variance_gradient",
    "GPyABCD.C53_period_gradient",
    "GPyABCD.C53_lengthscale_gradient",
    "GPyABCD.C53_lengthscale_gradient_partial",
    "GPyABCD.C53_lengthscale_gradient_inexact"
   ],
   "note": "Lengthscale gradient exact in the middle regime, within 1e-6 relative factor in the short regime (false exactly: C53_lengthscale_gradient_inexact); a placeholder in the limit regime; everything else proved."
  },
  {
   "property": "C54",
   "status": "proved",
   "theorems": [
    "GPyABCD.C54_difference"
   ],
   "note": ""
  },
  {
   "property": "C55",
   "status": "partial",
   "theorems": [
    "GPyABCD.C55_own_parameters_partial",
    "GPyABCD.C55_branches_ignored",
    "GPyABCD.C55_witness",
    "GPyABCD.C55_repaired"
   ],
   "note": "False for the branch parameters (C55_branches_ignored, C55_witness), under the assumption that GPy Kern.copy makes a new object; proved for location, slope and width."
  },
  {
   "property": "C56",
   "status": "partial",
   "theorems": [
    "GPyABCD.C56_second_branch_partial",
    "GPyABCD.C56_full",
    "GPyABCD.C56_wrong"
   ],
   "note": "False (C56_wrong); the code computes the derivative of the second branch part only (C56_second_branch_partial); C56_full shows the commented-out half is what is missing."
  },
  {
   "property": "C57",
   "status": "proved",
   "theorems": [
    "GPyABCD.C57_unique",
    "GPyABCD.C57_unique_determined"
   ],
   "note": ""
  },
  {
   "property": "C58",
   "status": "proved",
   "theorems": [
    "GPyABCD.C58_eq_elems",
    "GPyABCD.C58_eq_elems_perm",
    "GPyABCD.C58_diff",
    "GPyABCD.C58_diff_count"
   ],
   "note": ""
  },
  {
   "property": "C59",
   "status": "proved",
   "theorems": [
    "GPyABCD.C59_topological_sort_ends",
    "GPyABCD.C59_topological_sort_sound",
    "GPyABCD.C59_topological_sort_complete"
   ],
   "note": ""
  },
  {
   "property": "C60",
   "status": "proved",
   "theorems": [
    "GPyABCD.C60_foldq_fold",
    "GPyABCD.C60_foldq_run",
    "GPyABCD.C60_foldq_consumed",
    "GPyABCD.C60_foldq_strict"
   ],
   "note": ""
  },
  {
   "property": "C61",
   "status": "proved",
   "theorems": [
    "GPyABCD.C61_partition",
    "GPyABCD.C61_group_by",
    "GPyABCD.C61_chunk",
    "GPyABCD.C61_update_dict_with"
   ],
   "note": ""
  },
  {
   "property": "C62",
   "status": "proved",
   "theorems": [
    "GPyABCD.C62_interval_overlap_length",
    "GPyABCD.C62_interval_overlap_bounds"
   ],
   "note": ""
  },
  {
   "property": "C63",
   "status": "proved",
   "theorems": [
    "GPyABCD.C63_bic_likelihood",
    "GPyABCD.C63_aic_likelihood",
    "GPyABCD.C63_aicc_likelihood",
    "GPyABCD.C63_bic_parameters",
    "GPyABCD.C63_aic_parameters",
    "GPyABCD.C63_bic_tradeoff",
    "GPyABCD.C63_aic_tradeoff",
    "GPyABCD.C63_bic_stricter",
    "GPyABCD.C63_aicc_parameters",
    "GPyABCD.C63_aicc_ge_aic",
    "GPyABCD.C63_aicc_limit",
    "GPyABCD.C63_aicc_undefined",
    "GPyABCD.C63_aicc_reversed"
   ],
   "note": ""
  },
  {
   "property": "C64",
   "status": "proved",
   "theorems": [
    "GPyABCD.C64_changepoint",
    "GPyABCD.C64_changewindow",
    "GPyABCD.C64_empty_window",
    "GPyABCD.C64_pieces",
    "GPyABCD.C64_not_lined_up"
   ],
   "note": ""
  },
  {
   "property": "C65",
   "status": "proved",
   "theorems": [
    "GPyABCD.C65_accept",
    "GPyABCD.C65_builtin",
    "GPyABCD.C65_contents"
   ],
   "note": ""
  },
  {
   "property": "C66",
   "status": "proved",
   "theorems": [
    "GPyABCD.C66_simplify",
    "GPyABCD.C66_add",
    "GPyABCD.C66_multiply"
   ],
   "note": ""
  },
  {
   "property": "C67",
   "status": "proved",
   "theorems": [
    "GPyABCD.C67_expand"
   ],
   "note": ""
  },
  {
   "property": "C68",
   "status": "partial",
   "theorems": [
    "GPyABCD.C68_refines",
    "GPyABCD.C68_continue_partial",
    "GPyABCD.C68_changes_earlier",
    "GPyABCD.C68_failed_continue"
   ],
   "note": "False for three of the five lists (C68_changes_earlier, C68_failed_continue); proved for the sorted and not-expanded lists, with the exact new contents of the others."
  },
  {
   "property": "C69",
   "status": "partial",
   "theorems": [
    "GPyABCD.C69_reports_round",
    "GPyABCD.C69_continue_reports_old"
   ],
   "note": "True for searches from scratch; false for continued ones (C69_continue_reports_old, stated for every continuation)."
  },
  {
   "property": "C70",
   "status": "partial",
   "theorems": [
    "GPyABCD.C70_covariance_partial",
    "GPyABCD.C70_no_periodic",
    "GPyABCD.C70_exact_subset",
    "GPyABCD.C70_short_lengthscale",
    "GPyABCD.C70_regression"
   ],
   "note": "False for periodic kernels of short lengthscale, in exact arithmetic (C70_short_lengthscale: off by 4e-9); proved for every expression with periodic kernels in the other two regimes."
  },
  {
   "property": "C71",
   "status": "partial",
   "theorems": [
    "GPyABCD.C71_any_sum_partial",
    "GPyABCD.C71_any_product_partial",
    "GPyABCD.C71_any_change_partial",
    "GPyABCD.C71_sum_partial",
    "GPyABCD.C71_product_partial",
    "GPyABCD.C71_change_partial",
    "GPyABCD.C71_valid"
   ],
   "note": "C71_sum_partial, C71_product_partial, C71_change_partial: simplified nodes; C71_any_sum_partial and the others: nodes of any shape, where LIN meets C with LIN read as LIN plus a constant (C13_lin_c_differs), without products of constants in products; validity of the results for every node (C71_valid)"
  },
  {
   "property": "C72",
   "status": "partial",
   "theorems": [
    "GPyABCD.C72_default_partial",
    "GPyABCD.C72_terms_partial"
   ],
   "note": "C72_default_partial, C72_terms_partial: simplified expressions, not at a bare left branch of a change operator; where LIN meets C under the offset flag, with LIN read as LIN plus a constant. That nothing else is reached is C82_sound_partial."
  },
  {
   "property": "C73",
   "status": "partial",
   "theorems": [
    "GPyABCD.C73_new_comm",
    "GPyABCD.C73_new_change",
    "GPyABCD.C73_new_tree",
    "GPyABCD.C73_new_roots",
    "GPyABCD.C73_replace",
    "GPyABCD.C73_traverse",
    "GPyABCD.C73_standardise",
    "GPyABCD.C73_shared_branch"
   ],
   "note": "C73_replace needs the new node to share no node with the tree: remove_a_term breaks this for equal change operators side by side (C73_shared_branch); root links of freshly constructed nodes are wrong until _initialise or insertion (C73_new_roots)"
  },
  {
   "property": "C74",
   "status": "proved",
   "theorems": [
    "GPyABCD.C74_equal_expressions"
   ],
   "note": ""
  },
  {
   "property": "C75",
   "status": "partial",
   "theorems": [
    "GPyABCD.C75_iff",
    "GPyABCD.C75_interpret_partial",
    "GPyABCD.C75_points_partial",
    "GPyABCD.C75_raises",
    "GPyABCD.C75_windows_partial"
   ],
   "note": "C75_interpret_partial: no component bounded by a window and something else, every node with base terms (all others raise AssertionError, C75_raises); of components with noise and LIN only variance and intervals are promised; C75_points_partial: without windows; C75_windows_partial: with any windows only the intervals can fail; C75_iff decides exactly which stable expressions with base terms at every node are interpreted, whatever windows they have"
  },
  {
   "property": "C76",
   "status": "partial",
   "theorems": [
    "GPyABCD.C76_reduction",
    "GPyABCD.C76_ends",
    "GPyABCD.C76_slopes_partial",
    "GPyABCD.C76_windows_untold",
    "GPyABCD.C76_windows_one",
    "GPyABCD.C76_components",
    "GPyABCD.C76_fixed_slope_wrong"
   ],
   "note": "Ends always (C76_reduction, C76_ends, C76_components); slopes when they are fitted (C76_slopes_partial), but then those of bounded intervals are not told (C76_windows_untold); when fixed, those of bounded intervals alone are told, as 1 (C76_windows_one), which is not the slope of the change kernels (C76_fixed_slope_wrong)."
  },
  {
   "property": "C77",
   "status": "proved",
   "theorems": [
    "GPyABCD.C77_new_comm",
    "GPyABCD.C77_new_comm_new",
    "GPyABCD.C77_new_change",
    "GPyABCD.C77_new_change_new",
    "GPyABCD.C77_add",
    "GPyABCD.C77_multiply",
    "GPyABCD.C77_swap_base",
    "GPyABCD.C77_one_change",
    "GPyABCD.C77_both_changes",
    "GPyABCD.C77_higher_curves",
    "GPyABCD.C77_replace_node",
    "GPyABCD.C77_remove_a_term",
    "GPyABCD.C77_returns_old",
    "GPyABCD.C77_new_tree",
    "GPyABCD.C77_new_tree_new",
    "GPyABCD.C77_traverse",
    "GPyABCD.C77_expand",
    "GPyABCD.C77_expand_new",
    "GPyABCD.C77_expand_then"
   ],
   "note": ""
  },
  {
   "property": "C78",
   "status": "partial",
   "theorems": [
    "GPyABCD.C78_new_comm",
    "GPyABCD.C78_new_change",
    "GPyABCD.C78_add",
    "GPyABCD.C78_changes",
    "GPyABCD.C78_unary",
    "GPyABCD.C78_traverse",
    "GPyABCD.C78_expand_partial",
    "GPyABCD.C78_rounds_partial",
    "GPyABCD.C78_expand_simplified_partial",
    "GPyABCD.C78_rounds_simplified_partial",
    "GPyABCD.C78_same_object",
    "GPyABCD.C78_twins",
    "GPyABCD.C78_twins_simplified",
    "GPyABCD.C78_search_partial"
   ],
   "note": "C78_expand_simplified_partial: simplified trees without empty nodes, any rules; C78_rounds_simplified_partial, C78_search_partial: the same through any number of rounds, without sigmoids; C78_expand_partial, C78_rounds_partial: any tree, but rule remove_some_term only without equal change operators side by side. The rest is false: for trees with such operators that are not simplified (C78_twins) or have empty nodes (C78_twins_simplified) expand gives an extra result. Operands must not be one object: then the code differs from values (C78_same_object)"
  },
  {
   "property": "C79",
   "status": "partial",
   "theorems": [
    "GPyABCD.C79_base_partial",
    "GPyABCD.C79_objective_partial",
    "GPyABCD.C79_change_iff",
    "GPyABCD.C79_diagonal",
    "GPyABCD.C79_positive_partial",
    "GPyABCD.C79_regression_partial",
    "GPyABCD.C79_lined_up"
   ],
   "note": "Base kernel parameters at any depth: C79_base_partial, C79_objective_partial, except lengthscales of periodic kernels where the code approximates (C53_lengthscale_gradient_inexact). Own parameters of change kernels get only the second branch share; C79_change_iff says exactly when that is right (C56_wrong: not always). Positive semidefinite where periodic kernels are exact (C70_short_lengthscale: not otherwise). Sums, products and White, Bias, RBF are those of GPy, by their documentation."
  },
  {
   "property": "C80",
   "status": "partial",
   "theorems": [
    "GPyABCD.C80_diagonal",
    "GPyABCD.C80_branches",
    "GPyABCD.C80_shifted_branches",
    "GPyABCD.C80_own_partial",
    "GPyABCD.C80_right_sums",
    "GPyABCD.C80_own_iff",
    "GPyABCD.C80_shifted_own_iff",
    "GPyABCD.C80_wrong",
    "GPyABCD.C80_comments_wrong"
   ],
   "note": "Diagonals, branches and shift proved; location, slope and width gradients leave out the outer sigmoids (C80_wrong): what they are (C80_own_partial), when they are right (C80_own_iff, C80_shifted_own_iff), and the right sums (C80_right_sums, not the commented-out ones: C80_comments_wrong)."
  },
  {
   "property": "C81",
   "status": "proved",
   "theorems": [
    "GPyABCD.C81_guarded",
    "GPyABCD.C81_unguarded",
    "GPyABCD.C81_unguarded_nan"
   ],
   "note": ""
  },
  {
   "property": "C82",
   "status": "partial",
   "theorems": [
    "GPyABCD.C82_sound_partial",
    "GPyABCD.C82_complete_partial",
    "GPyABCD.C82_exact_partial",
    "GPyABCD.C82_nested_curves"
   ],
   "note": "Both directions proved for simplified expressions; at bare left branches of change operators the changed node takes the place of the right branch (C20_left_leaf_slips, covered by C82_sound_partial); where LIN meets C the simplification itself changes the covariances (C13_lin_c_differs), so they are compared there with LIN read as LIN plus a constant; try_higher_curves covered where sums and products alternate below SE (curvesOK: all expressions simplify leaves); C82_nested_curves shows what happens in a sum within a sum."
  },
  {
   "property": "C83",
   "status": "partial",
   "theorems": [
    "GPyABCD.C83_covariance",
    "GPyABCD.C83_variance",
    "GPyABCD.C83_variance_diag",
    "GPyABCD.C83_inputs",
    "GPyABCD.C83_inputs_both",
    "GPyABCD.C83_inputs_diag",
    "GPyABCD.C83_xx_partial",
    "GPyABCD.C83_xx_wrong",
    "GPyABCD.C83_xx_diag_wrong"
   ],
   "note": "All first derivatives proved. gradients_XX returns zeros, which are the second derivatives by one input (C83_xx_partial), not by both as its documentation says (C83_xx_wrong); gradients_XX_diag likewise (C83_xx_diag_wrong)."
  },
  {
   "property": "C84",
   "status": "partial",
   "theorems": [
    "GPyABCD.C84_covariances",
    "GPyABCD.C84_one_covariance",
    "GPyABCD.C84_simplified_partial",
    "GPyABCD.C84_repeated_inputs"
   ],
   "note": "The families are equal for all expressions; the corollary on simplification excludes LIN meeting C under the offset flag, as C02."
  },
  {
   "property": "C85",
   "status": "partial",
   "theorems": [
    "GPyABCD.C85_points",
    "GPyABCD.C85_block",
    "GPyABCD.C85_diagonal_blocks",
    "GPyABCD.C85_transpose",
    "GPyABCD.C85_values",
    "GPyABCD.C85_same_points",
    "GPyABCD.C85_same_points_noise",
    "GPyABCD.C85_predictions_partial"
   ],
   "note": "Blocks, order and transposition are proved for all kernels; predictions where periodic lengthscales are in the exact regime, as C79."
  },
  {
   "property": "C86",
   "status": "proved",
   "theorems": [
    "GPyABCD.C86_count",
    "GPyABCD.C86_equal",
    "GPyABCD.C86_simplify",
    "GPyABCD.C86_score"
   ],
   "note": ""
  },
  {
   "property": "C87",
   "status": "partial",
   "theorems": [
    "GPyABCD.C87_components",
    "GPyABCD.C87_positive_partial",
    "GPyABCD.C87_form_partial",
    "GPyABCD.C87_matrix_partial"
   ],
   "note": "The matrices of the components add up for all stable expressions; that each term of the form has the matrix of its component excludes components in which noise multiplies LIN or SE multiplies SE, which the code gets wrong (C41_noise_lin, C41_se), and positive semidefiniteness needs exact periodic lengthscales, as C79."
  },
  {
   "property": "C88",
   "status": "partial",
   "theorems": [
    "GPyABCD.C88_fittable",
    "GPyABCD.C88_succeeds",
    "GPyABCD.C88_interpret_partial",
    "GPyABCD.C88_points_partial",
    "GPyABCD.C88_raises",
    "GPyABCD.C88_default_raises",
    "GPyABCD.C88_wrong_variances",
    "GPyABCD.C88_minimal_keyerror",
    "GPyABCD.C88_matched",
    "GPyABCD.C88_iff_partial"
   ],
   "note": "That every expression has a kernel and searches succeed is proved in full. Interpretation: proved for expressions that alternate, have base terms at every node and no component bounded by a window and something else (C88_iff_partial: with any windows, exactly which are interpreted); the default search reaches expressions where it raises (C88_default_raises, C88_minimal_keyerror) or tells wrong variances (C88_wrong_variances). C88_matched: exactly the models whose expression alternates get all their parameters."
  },
  {
   "property": "C89",
   "status": "proved",
   "theorems": [
    "GPyABCD.C89_closed",
    "GPyABCD.C89_exhaustive",
    "GPyABCD.C89_exhausted"
   ],
   "note": ""
  },
  {
   "property": "C90",
   "status": "proved",
   "theorems": [
    "GPyABCD.C90_shape",
    "GPyABCD.C90_wrapper_stays",
    "GPyABCD.C90_times_raises",
    "GPyABCD.C90_windowless",
    "GPyABCD.C90_interpret",
    "GPyABCD.C90_windows_partial"
   ],
   "note": "The property is stated for rules and start kernels without change windows; C90_windows_partial adds searches with window rules, for models whose windows stand alone. The conditions are needed (C90_wrapper_stays, C90_times_raises)."
  },
  {
   "property": "C91",
   "status": "proved",
   "theorems": [
    "GPyABCD.C91_stable",
    "GPyABCD.C91_builtin",
    "GPyABCD.C91_others",
    "GPyABCD.C91_raises",
    "GPyABCD.C91_interpret"
   ],
   "note": "The four excluded cases do lose stability (C91_others)."
  },
  {
   "property": "C92",
   "status": "partial",
   "theorems": [
    "GPyABCD.C92_written",
    "GPyABCD.C92_stable",
    "GPyABCD.C92_constructors_alone",
    "GPyABCD.C92_repr",
    "GPyABCD.C92_contents",
    "GPyABCD.C92_constant_lost",
    "GPyABCD.C92_meaning_partial",
    "GPyABCD.C92_start",
    "GPyABCD.C92_fit_kex",
    "GPyABCD.C92_interpret"
   ],
   "note": "C92_meaning_partial takes LIN for LIN plus a constant where LIN meets C while LIN absorbs constants (C02_lin_c_changes). The conditions on constant products are needed (C92_constant_lost), and so is _initialise() (C92_constructors_alone)."
  },
  {
   "property": "C93",
   "status": "proved",
   "theorems": [
    "GPyABCD.C93_prepared",
    "GPyABCD.C93_values",
    "GPyABCD.C93_unknown",
    "GPyABCD.C93_again",
    "GPyABCD.C93_given_changed",
    "GPyABCD.C93_part_raises"
   ],
   "note": "C93_given_changed and C93_part_raises are the violations the property mentions."
  },
  {
   "property": "C94",
   "status": "proved",
   "theorems": [
    "GPyABCD.C94_same",
    "GPyABCD.C94_independent",
    "GPyABCD.C94_elsewhere",
    "GPyABCD.C94_fit",
    "GPyABCD.C94_shares",
    "GPyABCD.C94_needs_fitted"
   ],
   "note": "Components do share dictionaries (C94_shares). That no variance is left in the base term dictionaries of a product is needed (C94_needs_fitted); C40_fitted gives it for what match_up_fit_parameters makes."
  },
  {
   "property": "C95",
   "status": "proved",
   "theorems": [
    "GPyABCD.C95_order",
    "GPyABCD.C95_collect",
    "GPyABCD.C95_tree",
    "GPyABCD.C95_readonly"
   ],
   "note": "Functions that change base terms of the node they are given, or only read; functions that change links, composite terms or branches are not modelled."
  },
  {
   "property": "C96",
   "status": "partial",
   "theorems": [
    "GPyABCD.C96_sound_partial",
    "GPyABCD.C96_order_partial",
    "GPyABCD.C96_diagonal",
    "GPyABCD.C96_quantiles",
    "GPyABCD.C96_latent",
    "GPyABCD.C96_latent_wrong"
   ],
   "note": "C96_sound_partial, C96_order_partial: periodic lengthscales in the exact regime, as C79, C85; with include_likelihood = False the quantiles still include the noise, so they are not those of the returned covariance (C96_latent, C96_latent_wrong). What GPy computes from the kernel matrices is trusted, by its documentation."
  },
  {
   "property": "C97",
   "status": "proved",
   "theorems": [
    "GPyABCD.C97_kept",
    "GPyABCD.C97_table",
    "GPyABCD.C97_chain",
    "GPyABCD.C97_merge",
    "GPyABCD.C97_dropped",
    "GPyABCD.C97_zero"
   ],
   "note": "Times are elements of an ordered field instead of floats and are not measured but given. C97_kept has the general case, C97_table the case of positive times."
  },
  {
   "property": "C98",
   "status": "proved",
   "theorems": [
    "GPyABCD.C98_versions",
    "GPyABCD.C98_table"
   ],
   "note": "The versions are tags: compiling and calling them is not modelled."
  },
  {
   "property": "C99",
   "status": "proved",
   "theorems": [
    "GPyABCD.C99_near",
    "GPyABCD.C99_read",
    "GPyABCD.C99_order",
    "GPyABCD.C99_exact",
    "GPyABCD.C99_alike",
    "GPyABCD.C99_zero",
    "GPyABCD.C99_plain"
   ],
   "note": "Numbers are rationals: every finite float is one, and Python rounds its exact value. Not a number and infinities, which contain letters, are not modelled."
  },
  {
   "property": "C100",
   "status": "proved",
   "theorems": [
    "GPyABCD.C100_sentence",
    "GPyABCD.C100_description",
    "GPyABCD.C100_models"
   ],
   "note": "C100_sentence and C100_description hold for every way to print numbers with digits, minus and point only; C100_models is for models whose components can be told, as in C47_text."
  },
  {
   "property": "C101",
   "status": "partial",
   "theorems": [
    "GPyABCD.C101_unique",
    "GPyABCD.C101_eq_elems_partial",
    "GPyABCD.C101_eq_elems_nodup",
    "GPyABCD.C101_eq_elems_differ",
    "GPyABCD.C101_diff_partial",
    "GPyABCD.C101_diff_nodup",
    "GPyABCD.C101_diff_differ",
    "GPyABCD.C101_zip_maps"
   ],
   "note": "eq_elems_h and diff_h do not always agree with eq_elems and diff (C101_eq_elems_differ, C101_diff_differ); the partial theorems say exactly when they do."
  },
  {
   "property": "C102",
   "status": "partial",
   "theorems": [
    "GPyABCD.C102_drawn_partial",
    "GPyABCD.C102_last_missing"
   ],
   "note": "The last curve is never drawn (C102_last_missing); C102_drawn_partial says what is. Random calls are functions of a seed; points and covariances are not modelled."
  },
  {
   "property": "C103",
   "status": "partial",
   "theorems": [
    "GPyABCD.C103_available_partial",
    "GPyABCD.C103_default_raises",
    "GPyABCD.C103_change_raises",
    "GPyABCD.C103_right"
   ],
   "note": "Most kernels have no such gradients: C103_available_partial says exactly which raise, C103_right that the others are right. What GPy does for its own kernels, sums and products is trusted, as for C79."
  },
  {
   "property": "C104",
   "status": "partial",
   "theorems": [
    "GPyABCD.C104_reach",
    "GPyABCD.C104_search",
    "GPyABCD.C104_found",
    "GPyABCD.C104_bases",
    "GPyABCD.C104_minimal",
    "GPyABCD.C104_minimal_search",
    "GPyABCD.C104_minimal_stays",
    "GPyABCD.C104_covariances_partial"
   ],
   "note": "Reaching expressions is proved in full for the three groups of rules with removal from any expression (C104_reach, C104_search, C104_found) and for the Minimal rules from a base kernel (C104_minimal, C104_minimal_search); C104_minimal_stays says why not from any. C104_covariances_partial has the conditions of C02 and C92: LIN meeting C, and products of constants directly inside products."
  },
  {
   "property": "C105",
   "status": "partial",
   "theorems": [
    "GPyABCD.C105_iff",
    "GPyABCD.C105_close_partial",
    "GPyABCD.C105_empty",
    "GPyABCD.C105_change",
    "GPyABCD.C105_truncates"
   ],
   "note": "C105_iff decides exactly when the data are as asked for; they are not when the first value is an integer and a later one is not whole (C105_truncates), and then wrong by less than the weight (C105_close_partial). What numpy.vectorize does with types is assumed (DESIGN.md)."
  },
  {
   "property": "C106",
   "status": "partial",
   "theorems": [
    "GPyABCD.C106_default",
    "GPyABCD.C106_middle",
    "GPyABCD.C106_wrong",
    "GPyABCD.C106_shift_untold",
    "GPyABCD.C106_sides"
   ],
   "note": "True of the default window (C106_default), false with the flag: C106_middle says by how much, C106_wrong, C106_sides and C106_shift_untold for which kernels. Stated for one change window; sums over components of whole kernels are C87, for the default window."
  },
  {
   "property": "C107",
   "status": "partial",
   "theorems": [
    "GPyABCD.C107_bic",
    "GPyABCD.C107_aic",
    "GPyABCD.C107_aicc_partial",
    "GPyABCD.C107_aicc_wrong",
    "GPyABCD.C107_loo",
    "GPyABCD.C107_loo_losses",
    "GPyABCD.C107_loo_logs"
   ],
   "note": "AICc only with enough data (C107_aicc_partial; C107_aicc_wrong otherwise). LA_LOO is decided for both conventions of what GPy LOO may return, which is not in the repository (C107_loo_losses, C107_loo_logs)."
  },
  {
   "property": "C108",
   "status": "partial",
   "theorems": [
    "GPyABCD.C108_search_partial",
    "GPyABCD.C108_continue_partial",
    "GPyABCD.C108_owned_partial",
    "GPyABCD.C108_succeeds_partial",
    "GPyABCD.C108_distinct_partial",
    "GPyABCD.C108_unknown",
    "GPyABCD.C108_hollow"
   ],
   "note": "If a rule removes terms (remove_some_term), not for start expressions with an empty node after simplification, for which it is false (C108_hollow), or with sigmoids; and not for start expressions that share objects with each other or within themselves (for which C78_same_object shows that expansion is not that of the value). Pickling is modelled as one deepcopy per chunk of models; the order in which chunks finish is C36."
  },
  {
   "property": "C109",
   "status": "partial",
   "theorems": [
    "GPyABCD.C109_search",
    "GPyABCD.C109_best_first_partial",
    "GPyABCD.C109_sort",
    "GPyABCD.C109_nothing_lost",
    "GPyABCD.C109_fit_error",
    "GPyABCD.C109_score_error",
    "GPyABCD.C109_unnamed_verbose",
    "GPyABCD.C109_unnamed",
    "GPyABCD.C109_nan"
   ],
   "note": "False for values that do not compare (C109_nan: the first model returned need not be the best) and for callables without __name__ (C109_unnamed, C109_unnamed_verbose: AttributeError); C109_best_first_partial, C109_search: named functions with comparable values; C109_nothing_lost, C109_fit_error: all functions. C109_sort proves what CPython does with fewer than 64 elements to be the stable sort; for longer lists, merged from runs, sorted is a parameter: assumed to permute (C109_nothing_lost) or to be the stable sort (Comparable). A scoring function is assumed to give the same value for the same model again."
  },
  {
   "property": "C110",
   "status": "partial",
   "theorems": [
    "GPyABCD.C110_posterior_partial",
    "GPyABCD.C110_marginal_partial",
    "GPyABCD.C110_coverage_partial",
    "GPyABCD.C110_latent"
   ],
   "note": "False of the quantiles with include_likelihood = False (C110_latent: they keep including the noise). Everything else (C110_posterior_partial, C110_marginal_partial, C110_coverage_partial) is proved over the reals, with periodic lengthscales in the exact regime as C79, C85, C96. That GPy computes mean and covariance from the kernel matrices as in Model/Predict is trusted, by its documentation."
  },
  {
   "property": "C111",
   "status": "partial",
   "theorems": [
    "GPyABCD.C111_whole",
    "GPyABCD.C111_means_add",
    "GPyABCD.C111_posterior_partial",
    "GPyABCD.C111_coverage_partial"
   ],
   "note": "C111_whole and C111_means_add hold in general. C111_posterior_partial, C111_coverage_partial: over the reals, with periodic lengthscales in the exact regime as C79, C85, C96; with include_likelihood = False the quantiles are not those of the returned covariance, as in C96 and C110. That GPy uses kern as in Model/PredictPart is trusted, by its documentation."
  },
  {
   "property": "C112",
   "status": "partial",
   "theorems": [
    "GPyABCD.C112_sum",
    "GPyABCD.C112_exist_partial"
   ],
   "note": "C112_sum holds in general; C112_exist_partial where the formula of the periodic kernel is exact, as C87_positive_partial."
  },
  {
   "property": "C113",
   "status": "partial",
   "theorems": [
    "GPyABCD.C113_density_partial",
    "GPyABCD.C113_gradient_partial",
    "GPyABCD.C113_change_iff",
    "GPyABCD.C113_change_wrong",
    "GPyABCD.C113_noise_partial",
    "GPyABCD.C113_truth_partial",
    "GPyABCD.C113_scores_partial"
   ],
   "note": "C113_density_partial, C113_truth_partial, C113_scores_partial, C113_noise_partial, C113_gradient_partial: over the reals, periodic lengthscales in the exact regime as C79. Gradients of location, slope and width of change kernels are wrong in general (C113_change_wrong); C113_change_iff says exactly when they are right. That GPy computes the log-likelihood and dL_dK from the kernel matrix as in Model/Likelihood is trusted, by its documentation."
  },
  {
   "property": "C114",
   "status": "partial",
   "theorems": [
    "GPyABCD.C114_succeeds",
    "GPyABCD.C114_restores_partial",
    "GPyABCD.C114_change_forgets",
    "GPyABCD.C114_change_lost",
    "GPyABCD.C114_json_iff",
    "GPyABCD.C114_linear_restored"
   ],
   "note": "False: change kernels save neither location, slope nor width (C114_change_forgets, C114_change_lost), and dictionaries with an offset are not JSON (C114_json_iff). True of restoring kernels without change operators (C114_restores_partial). The dictionaries of GPy kernels are assumed."
  },
  {
   "property": "C115",
   "status": "partial",
   "theorems": [
    "GPyABCD.C115_order",
    "GPyABCD.C115_new_inputs",
    "GPyABCD.C115_origin_partial",
    "GPyABCD.C115_outputs",
    "GPyABCD.C115_inputs_partial",
    "GPyABCD.C115_attainable_origin_partial",
    "GPyABCD.C115_attainable_outputs",
    "GPyABCD.C115_attainable_inputs_partial",
    "GPyABCD.C115_origin_wrong",
    "GPyABCD.C115_inputs_wrong"
   ],
   "note": "Order (C115_order, C115_new_inputs) and unit of the outputs (C115_outputs, C115_attainable_outputs) in full. Origin of the inputs: if LIN has an offset (the default), else false (C115_origin_wrong). Unit of the inputs: if slopes are fitted or the expression has no change operators; false of change operators with fixed slopes, the default (C115_inputs_wrong). Over the reals, the constant 1e-8 of GPy counted as part of the noise; about what can be fitted, not where the optimiser stops."
  },
  {
   "property": "C116",
   "status": "partial",
   "theorems": [
    "GPyABCD.C116_inside",
    "GPyABCD.C116_outside",
    "GPyABCD.C116_across",
    "GPyABCD.C116_slow",
    "GPyABCD.C116_after_partial",
    "GPyABCD.C116_before_partial",
    "GPyABCD.C116_around_partial",
    "GPyABCD.C116_predictions_partial",
    "GPyABCD.C116_line_remains",
    "GPyABCD.C116_parabola_grows",
    "GPyABCD.C116_window_parabola_remains",
    "GPyABCD.C116_prediction_remains",
    "GPyABCD.C116_after_iff",
    "GPyABCD.C116_before_iff",
    "GPyABCD.C116_around_iff",
    "GPyABCD.C116_predictions_reach_partial"
   ],
   "note": "C116_inside, C116_outside, C116_across: bounds at every distance, in general. What fades far away is decided exactly, for all expressions, by C116_after_iff, C116_before_iff and C116_around_iff: a branch fades if no linear kernels (for windows: no products of them) are left of it there, and else does not. So the claim as stated is false of others: of a line before a change point a fixed variance remains (C116_line_remains), of a parabola ever more (C116_parabola_grows), of a parabola in a window a fixed one (C116_window_parabola_remains), and predictions keep depending on it (C116_prediction_remains). C116_predictions_reach_partial: predictions if the first branch fades. Over the reals; that GPy predicts as in Model/Predict is trusted."
  },
  {
   "property": "C117",
   "status": "proved",
   "theorems": [
    "GPyABCD.C117_prior",
    "GPyABCD.C117_predictions",
    "GPyABCD.C117_bounded"
   ],
   "note": "Over the reals; that GPy predicts as in Model/Predict is trusted."
  },
  {
   "property": "C118",
   "status": "partial",
   "theorems": [
    "GPyABCD.C118_points_partial",
    "GPyABCD.C118_score_partial",
    "GPyABCD.C118_search_worst_first"
   ],
   "note": "C118_points_partial and C118_score_partial: in the exact regime of periodic lengthscales, over the reals; the formula of GPy's LOO (Model/LooGPy) is trusted. The last sentence is false: searches list models by LA_LOO worst first (C118_search_worst_first)."
  },
  {
   "property": "C119",
   "status": "proved",
   "theorems": [
    "GPyABCD.C119_returns",
    "GPyABCD.C119_zero",
    "GPyABCD.C119_iff",
    "GPyABCD.C119_constant_remembers"
   ],
   "note": "C119_returns, C119_zero; C119_iff: exactly those expressions forget; C119_constant_remembers: how much a constant keeps. Over the reals; that GPy predicts as in Model/Predict is trusted."
  },
  {
   "property": "C120",
   "status": "partial",
   "theorems": [
    "GPyABCD.C120_certain_partial",
    "GPyABCD.C120_combinations_partial",
    "GPyABCD.C120_noise_partial"
   ],
   "note": "C120_certain_partial, C120_combinations_partial, C120_noise_partial: periodic lengthscales in the exact regime (others are not covariances, C70_short_lengthscale), over the reals; that GPy predicts as in Model/Predict is trusted."
  },
  {
   "property": "C121",
   "status": "partial",
   "theorems": [
    "GPyABCD.C121_add_partial",
    "GPyABCD.C121_multiply_partial",
    "GPyABCD.C121_changes_partial",
    "GPyABCD.C121_same_changes_partial",
    "GPyABCD.C121_search_partial",
    "GPyABCD.C121_round_partial",
    "GPyABCD.C121_noise_loses"
   ],
   "note": "C121_add_partial, C121_multiply_partial, C121_changes_partial, C121_same_changes_partial, C121_search_partial (any part of an expression, in the search), C121_round_partial: not where LIN meets C while it absorbs constants (there the first result has other covariances, C13_lin_c_differs), distinct inputs, over the reals. C121_noise_loses: multiplication by WN does lose likelihood."
  },
  {
   "property": "C122",
   "status": "partial",
   "theorems": [
    "GPyABCD.C122_line",
    "GPyABCD.C122_constant",
    "GPyABCD.C122_sums_partial",
    "GPyABCD.C122_zero",
    "GPyABCD.C122_bound_partial"
   ],
   "note": "C122_bound_partial: periodic lengthscales in the exact regime; C122_sums_partial: not where LIN meets C while it absorbs constants. C122_line, C122_constant, C122_zero are about the formula with any positive noise; GPy adds 1e-8 to it, where the bound is that of C122_bound_partial. Over the reals."
  },
  {
   "property": "C123",
   "status": "partial",
   "theorems": [
    "GPyABCD.C123_search_partial",
    "GPyABCD.C123_bic_partial",
    "GPyABCD.C123_aic_partial",
    "GPyABCD.C123_sums_partial",
    "GPyABCD.C123_simplified_partial",
    "GPyABCD.C123_finite_partial",
    "GPyABCD.C123_best_partial",
    "GPyABCD.C123_best_aic_partial",
    "GPyABCD.C123_powers",
    "GPyABCD.C123_aicc_wrong",
    "GPyABCD.C123_aicc_longer"
   ],
   "note": "C123_bic_partial, C123_aic_partial, C123_sums_partial, C123_simplified_partial, C123_finite_partial, C123_best_partial, C123_best_aic_partial, C123_search_partial: periodic lengthscales in the exact regime (C122). C123_powers: why LIN needs its offset. C123_aicc_wrong, C123_aicc_longer: AICc, for which the property fails. Over the reals."
  }
 ]
}