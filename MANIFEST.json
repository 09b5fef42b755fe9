{
 "claims": [
  {
   "property": "C01",
   "status": "proved",
   "theorems": [
    "bin_index"
   ],
   "note": "sorted edges, arbitrary data"
  },
  {
   "property": "C02",
   "status": "proved",
   "theorems": [
    "bin_labels"
   ],
   "note": ""
  },
  {
   "property": "C03",
   "status": "proved",
   "theorems": [
    "auto_binning_loses_nothing"
   ],
   "note": "exact arithmetic; every number of bins >= 1"
  },
  {
   "property": "C04",
   "status": "proved",
   "theorems": [
    "auto_binning_loses_nothing"
   ],
   "note": "quantile = true"
  },
  {
   "property": "C05",
   "status": "proved",
   "theorems": [
    "binary64_underflow_iff"
   ],
   "note": "the stated criterion is proved for round-to-nearest-even binary64, including the violation"
  },
  {
   "property": "C06",
   "status": "proved",
   "theorems": [
    "bin_data_columns"
   ],
   "note": ""
  },
  {
   "property": "C07",
   "status": "proved",
   "theorems": [
    "bin_data_missing_entry",
    "bin_data_unsupported",
    "bin_data_unsupported_entry_first",
    "bin_data_stale_edges",
    "bin_data_unreadable"
   ],
   "note": "includes the violation"
  },
  {
   "property": "C08",
   "status": "proved",
   "theorems": [
    "hist2d_rebinned_table",
    "table_totals",
    "hist2d_table"
   ],
   "note": ""
  },
  {
   "property": "C09",
   "status": "proved",
   "theorems": [
    "hist2d_rebinned_table",
    "hist2d_table"
   ],
   "note": "the specification Spec.view states which records are kept"
  },
  {
   "property": "C10",
   "status": "proved",
   "theorems": [
    "genuine_categories_counted",
    "sentinel_category_dropped",
    "nan_category_merged"
   ],
   "note": "positive part and the violations"
  },
  {
   "property": "C100",
   "status": "proved",
   "theorems": [
    "outlier_more_in_cell",
    "outlier_more_in_row",
    "outlier_more_in_col",
    "outlier_more_elsewhere",
    "outlier_first_in_row_violated",
    "outlier_elsewhere_violated"
   ],
   "note": "The unrestricted claim is false: the two *_violated theorems prove counterexamples; the positive theorems carry the exact side conditions under which the direction is guaranteed (other records already in the row or column; for 'elsewhere', exactly one of row and column without other records)."
  },
  {
   "property": "C101",
   "status": "proved",
   "theorems": [
    "log_likelihood_cap",
    "log_likelihood_cap_attained",
    "chi2Tail_ge",
    "asymptotic_cap_log_likelihood",
    "asymptotic_cap_pearson",
    "records_cap",
    "significance_matrix_cap",
    "significance_matrix_pipeline_cap",
    "significance_array_cap",
    "five_sigma_needs_19_records"
   ],
   "note": "Exact chi2 and normal distribution functions (trueSig); asymptotic method."
  },
  {
   "property": "C102",
   "status": "proved",
   "theorems": [
    "chi2_ge_deviation",
    "deviation_zero_iff",
    "chi2Tail_le",
    "asymptotic_detection",
    "enough_records",
    "copies_detection",
    "records_detection",
    "significance_matrix_detection",
    "significance_array_detection",
    "deviation_bound_attained",
    "phik_ge_deviation",
    "phik_detects"
   ],
   "note": "Exact chi2 and normal distribution functions (trueSig); asymptotic method. phik: square tables, true integrals (gaussMvn), pearson."
  },
  {
   "property": "C103",
   "status": "proved",
   "theorems": [
    "log_likelihood_xlog",
    "few_records",
    "few_records_data"
   ],
   "note": "log-likelihood; both tables not two by two."
  },
  {
   "property": "C11",
   "status": "proved",
   "theorems": [
    "calls_keep_frames",
    "correlation_report_keeps_frames",
    "bin_data_keeps_frames",
    "hist2d_keeps_frames",
    "phik_matrix_keeps_frames",
    "global_phik_array_keeps_frames",
    "significance_matrix_keeps_frames",
    "outlier_matrix_keeps_frames",
    "outlier_matrices_keeps_frames"
   ],
   "note": "over all finite sequences of calls"
  },
  {
   "property": "C12",
   "status": "proved",
   "theorems": [
    "reuse_same_flags",
    "reuse_any_sequence",
    "reuse_same_flags_violated",
    "reuse_other_flags_violated",
    "hist_reuse_violated"
   ],
   "note": "reuse_any_sequence: every sequence of calls of the four functions; both violations for phi_k, the first one also for the histogram"
  },
  {
   "property": "C13",
   "status": "proved",
   "theorems": [
    "dq_check"
   ],
   "note": ""
  },
  {
   "property": "C14",
   "status": "proved",
   "theorems": [
    "phik_matrix_of_frame",
    "phik_matrix_unique",
    "phik_matrix_result",
    "phik_matrix_returns",
    "matrix_entry"
   ],
   "note": "from the binned frame and for the whole pipeline; contracts MvnSpec, BrentqSpec"
  },
  {
   "property": "C15",
   "status": "proved",
   "theorems": [
    "phik_range"
   ],
   "note": "for every root finder staying in its bracket"
  },
  {
   "property": "C16",
   "status": "proved",
   "theorems": [
    "phik_from_chi2_cases",
    "phik_of_data",
    "isPhik_independent"
   ],
   "note": "contracts MvnSpec, BrentqSpec; MvnSpec is proved of the true bivariate normal integrals (gaussian_mvn_spec, gaussMvn_density)"
  },
  {
   "property": "C17",
   "status": "proved",
   "theorems": [
    "data_max_above_pedestal",
    "theory_ends",
    "phik_of_data"
   ],
   "note": "contracts MvnSpec, BrentqSpec"
  },
  {
   "property": "C18",
   "status": "proved",
   "theorems": [
    "pearson_bounds",
    "pearson_zero_iff"
   ],
   "note": ""
  },
  {
   "property": "C19",
   "status": "proved",
   "theorems": [
    "get_chi2_value",
    "get_chi2_sameTable",
    "sameTable_insertRow",
    "sameTable_transpose",
    "get_chi2_rejects"
   ],
   "note": ""
  },
  {
   "property": "C20",
   "status": "proved",
   "theorems": [
    "get_chi2_sameTable",
    "sameTable_perm",
    "get_chi2_transpose",
    "get_chi2_swap",
    "phik_perm",
    "phik_transpose",
    "estimate_transpose",
    "expectedFreq_zero_count_perm",
    "isPhik_swap",
    "isPhik_rename_columns",
    "isPhik_order",
    "phik_matrix_rename"
   ],
   "note": "tables, records and matrix level"
  },
  {
   "property": "C21",
   "status": "proved",
   "theorems": [
    "half_grid_complete",
    "half_grid_incomplete"
   ],
   "note": ""
  },
  {
   "property": "C22",
   "status": "proved",
   "theorems": [
    "phik_round_trip",
    "grid_round_trip",
    "grid_theory_strict",
    "grid_distance_strict",
    "columns_distance_strict",
    "square_round_trip",
    "square_theory_strict",
    "square_distance_strict",
    "gaussian_mvn_spec",
    "gaussMvn_density"
   ],
   "note": "square tables and tables with two rows or two columns (of any length): unconditional, with the true bivariate normal integrals (gaussMvn) the curve is proved strictly increasing (grid_theory_strict) and the round trip holds (grid_round_trip); other shapes: under the stated hypothesis that the curve is strictly increasing (phik_round_trip)"
  },
  {
   "property": "C23",
   "status": "proved",
   "theorems": [
    "theoretical_ndof_value",
    "estimate_simple_ndof_value",
    "estimate_simple_ndof_full"
   ],
   "note": ""
  },
  {
   "property": "C24",
   "status": "proved",
   "theorems": [
    "global_range",
    "global_singular",
    "global_twins",
    "global_two",
    "global_of_frame",
    "global_phik_array_result",
    "global_duplicate",
    "global_above_one"
   ],
   "note": "positive part and the violation"
  },
  {
   "property": "C25",
   "status": "proved",
   "theorems": [
    "parallel_eq_serial",
    "phik_matrix_of_frame"
   ],
   "note": ""
  },
  {
   "property": "C26",
   "status": "proved",
   "theorems": [
    "array_agrees",
    "array_eq_matrix_entry",
    "array_nan_violated",
    "phik_from_array_result",
    "phik_from_array_plain"
   ],
   "note": "positive part and the violation"
  },
  {
   "property": "C27",
   "status": "proved",
   "theorems": [
    "phik_determined",
    "isPhik_determined",
    "phik_binary_below"
   ],
   "note": "positive part and the violation"
  },
  {
   "property": "C28",
   "status": "proved",
   "theorems": [
    "spark_row",
    "spark_no_colon",
    "spark_truncated",
    "spark_key_clash",
    "spark_key_inj",
    "spark_matrix",
    "spark_type_error"
   ],
   "note": ""
  },
  {
   "property": "C29",
   "status": "proved",
   "theorems": [
    "mc_value",
    "mc_simulated",
    "mc_range",
    "mc_anti",
    "mc_perm",
    "mc_ends",
    "mc_no_simulations"
   ],
   "note": ""
  },
  {
   "property": "C30",
   "status": "proved",
   "theorems": [
    "switch_quantity",
    "switch_agreement",
    "switch_violated",
    "switch_asymmetric"
   ],
   "note": "the violation and the exact region of agreement"
  },
  {
   "property": "C31",
   "status": "proved",
   "theorems": [
    "chernoff_eq",
    "chernoff_value",
    "chernoff_mono",
    "chernoffU_lt",
    "chernoffU_large",
    "hybrid_zero_fraction",
    "hybrid_fallback"
   ],
   "note": ""
  },
  {
   "property": "C32",
   "status": "proved",
   "theorems": [
    "log_likelihood_nonneg"
   ],
   "note": ""
  },
  {
   "property": "C33",
   "status": "proved",
   "theorems": [
    "significance_of_frame",
    "significance_matrix_result",
    "significance_mc_returns"
   ],
   "note": ""
  },
  {
   "property": "C34",
   "status": "proved",
   "theorems": [
    "sim_method_unknown",
    "product_axis_unknown",
    "patefield_no_extension",
    "sig_method_unknown",
    "sig_method_never",
    "sig_method_known",
    "ci_unknown",
    "ci_unknown_rejected",
    "ci_unknown_rebinned",
    "ci_unknown_matrix",
    "ci_unknown_raises",
    "ci_unknown_matrices"
   ],
   "note": "simulation methods, axes, significance methods, CI methods; table and frame level"
  },
  {
   "property": "C35",
   "status": "proved",
   "theorems": [
    "multinominal_run",
    "multinominal_iff",
    "col_product_run",
    "col_product_iff",
    "row_product_run",
    "row_product_iff",
    "product_names_swapped",
    "product_empty"
   ],
   "note": "for all draws that numpy's generator can return (GoodDraws); names swapped relative to the documentation"
  },
  {
   "property": "C36",
   "status": "proved",
   "theorems": [
    "patefield_margins",
    "patefield_total",
    "patefield_py_result",
    "patefield_py_total"
   ],
   "note": "every float arithmetic with RoundOK"
  },
  {
   "property": "C37",
   "status": "proved",
   "theorems": [
    "patefield_py_result",
    "patefield_py_chi2"
   ],
   "note": ""
  },
  {
   "property": "C38",
   "status": "proved",
   "theorems": [
    "patefield_terminates"
   ],
   "note": ""
  },
  {
   "property": "C39",
   "status": "proved",
   "theorems": [
    "patefield_safe",
    "patefield_total",
    "patefield_overflow",
    "memory_checks"
   ],
   "note": "safe up to total 46340; overflow proved whenever nrowt[0]*ncolt[0] > 2^31-1"
  },
  {
   "property": "C40",
   "status": "proved",
   "theorems": [
    "rng_step",
    "rng_range",
    "rng_injective",
    "rng_zero"
   ],
   "note": ""
  },
  {
   "property": "C41",
   "status": "proved",
   "theorems": [
    "patefield_state_irrelevant",
    "patefield_history_independent",
    "patefield_py_reproducible",
    "patefield_py_seed_zero",
    "patefield_py_seed_zero_random"
   ],
   "note": "C++ and Python level, including the violation for seed 0"
  },
  {
   "property": "C42",
   "status": "proved",
   "theorems": [
    "patefield_rejects"
   ],
   "note": ""
  },
  {
   "property": "C43",
   "status": "proved",
   "theorems": [
    "expected_frequencies",
    "expected_product",
    "expected_equal_iff"
   ],
   "note": ""
  },
  {
   "property": "C44",
   "status": "proved",
   "theorems": [
    "outlier_p_zero",
    "outlier_p_nan",
    "outlier_p_range",
    "outlier_p_anti",
    "outlier_mid_p",
    "outlier_mid_p_between",
    "outlier_p_domain",
    "outlier_p_exact",
    "trueOut_spec",
    "linnemann_domain"
   ],
   "note": "contract OutSpec, met by the true functions (trueOut_spec); for exact functions the p-value is the gamma-Poisson tail probability"
  },
  {
   "property": "C45",
   "status": "proved",
   "theorems": [
    "mid_z_normal",
    "plain_z_normal",
    "z_nan",
    "plain_z_zero",
    "mid_z_strict",
    "cell_alone",
    "outlier_table",
    "outlier_table_any",
    "log_mid_p",
    "z_small",
    "z_large"
   ],
   "note": "including the violated part: NaN for a cell alone in its row and column"
  },
  {
   "property": "C46",
   "status": "proved",
   "theorems": [
    "outlier_matrix_labels",
    "outlier_matrix_result",
    "categories_unique"
   ],
   "note": "for all bin specifications with increasing edges"
  },
  {
   "property": "C47",
   "status": "proved",
   "theorems": [
    "outlier_matrices_result",
    "outlier_matrices_collision"
   ],
   "note": "positive part without colons and the violation"
  },
  {
   "property": "C48",
   "status": "proved",
   "theorems": [
    "incompbeta_ends",
    "incompbeta_complement",
    "logIncompbeta_eq",
    "logIncompbeta_no_underflow"
   ],
   "note": "exact arithmetic except for the exponential, which may underflow"
  },
  {
   "property": "C49",
   "status": "proved",
   "theorems": [
    "contfractbeta_ok_iff",
    "contfractbeta_error_iff",
    "contfractbeta_convergent",
    "contfractbeta_terminates",
    "betaConv_tendsto"
   ],
   "note": ""
  },
  {
   "property": "C50",
   "status": "proved",
   "theorems": [
    "poisson_uncertainty",
    "exact_uncertainty",
    "exact_interval",
    "chi2_poisson",
    "uncertainty_names",
    "Phik.Props.exact_uncertainty_limit",
    "Phik.Props.chi2_quantile_limit"
   ],
   "note": "exact_uncertainty_limit: positive for every count, ratio to the square root tends to 1 (contract ExactQuantiles, satisfied by trueOut)"
  },
  {
   "property": "C51",
   "status": "proved",
   "theorems": [
    "z_from_logp_bot",
    "z_from_logp_flip",
    "z_from_logp_normal",
    "z_from_logp_underflow"
   ],
   "note": ""
  },
  {
   "property": "C52",
   "status": "proved",
   "theorems": [
    "report_agrees",
    "report_nan",
    "report_nan_attribute",
    "report_disjoint",
    "report_disjoint_attribute",
    "report_collision"
   ],
   "note": "selection in report_agrees; the violations for NaN pairs and for colliding names"
  },
  {
   "property": "C53",
   "status": "proved",
   "theorems": [
    "plot_correct",
    "plot_returns",
    "plot_shape",
    "plot_numbers_edges",
    "tick_default",
    "tick_top_violated",
    "plot_single_number",
    "global_figure_notes",
    "phik_figure_notes",
    "significance_figure_notes"
   ],
   "note": ""
  },
  {
   "property": "C54",
   "status": "proved",
   "theorems": [
    "theory_table",
    "theory_table_few",
    "theory_table_edges"
   ],
   "note": "including the violated alternative"
  },
  {
   "property": "C55",
   "status": "proved",
   "theorems": [
    "sim_any_run",
    "sim_chi2_distribution",
    "sim_chi2_schedule"
   ],
   "note": ""
  },
  {
   "property": "C56",
   "status": "proved",
   "theorems": [
    "significance_good",
    "significance_sign",
    "hybrid_low",
    "hybrid_high"
   ],
   "note": "contract SigSpec, met by the true functions (trueSig_spec)"
  },
  {
   "property": "C57",
   "status": "proved",
   "theorems": [
    "fit_counts",
    "fit_residual",
    "fit_term"
   ],
   "note": ""
  },
  {
   "property": "C58",
   "status": "proved",
   "theorems": [
    "ndof_p_anti",
    "hybrid_p_anti",
    "mc_anti",
    "asymptotic_symmetric",
    "mc_returns"
   ],
   "note": ""
  },
  {
   "property": "C59",
   "status": "proved",
   "theorems": [
    "significance_array",
    "significance_array_agrees",
    "significance_from_array_plain",
    "significance_from_array_result"
   ],
   "note": ""
  },
  {
   "property": "C60",
   "status": "proved",
   "theorems": [
    "contfractbeta_accuracy",
    "incompbeta_accuracy"
   ],
   "note": "exact arithmetic"
  },
  {
   "property": "C61",
   "status": "proved",
   "theorems": [
    "uniform_edges",
    "quantile_edges",
    "quantile_bins_balanced",
    "auto_edges_sorted"
   ],
   "note": "edges in exact arithmetic, order also in binary64"
  },
  {
   "property": "C62",
   "status": "proved",
   "theorems": [
    "outlier_array_result",
    "binned_array_is_array",
    "binned_array_rebins",
    "binned_array_strings"
   ],
   "note": "positive part and the violation for numeric input"
  },
  {
   "property": "C63",
   "status": "proved",
   "theorems": [
    "report_agrees",
    "report_raises",
    "report_returns",
    "report_folder",
    "report_folder_here",
    "correlation_report_keeps_frames"
   ],
   "note": ""
  },
  {
   "property": "C64",
   "status": "proved",
   "theorems": [
    "hist_limits",
    "hist_upper_violated",
    "hist_default",
    "hist_few_violated",
    "hist_nbins_violated",
    "hist_edges",
    "hist_zero_bins"
   ],
   "note": "positive parts and the violations"
  },
  {
   "property": "C65",
   "status": "proved",
   "theorems": [
    "patefield_law",
    "patefield_shuffle",
    "patefield_exact_total"
   ],
   "note": "exact real arithmetic and an ideal generator; rounding and the linear congruential generator are not covered"
  },
  {
   "property": "C66",
   "status": "proved",
   "theorems": [
    "record_order",
    "record_order_bin_data",
    "record_order_arrays"
   ],
   "note": "significance functions: given the same simulated tables"
  },
  {
   "property": "C67",
   "status": "proved",
   "theorems": [
    "phik_matrix_local",
    "significance_matrix_local",
    "outlier_matrices_local",
    "outlier_matrix_same",
    "outlier_matrices_returns"
   ],
   "note": "contracts MvnSpec, BrentqSpec for phik"
  },
  {
   "property": "C68",
   "status": "proved",
   "theorems": [
    "scale_free",
    "scale_free_binned",
    "unit_matters",
    "scale_free_outlier",
    "scale_free_outliers"
   ],
   "note": "exact arithmetic for computed edges; the change of unit with equal-width bins is refuted by unit_matters"
  },
  {
   "property": "C69",
   "status": "proved",
   "theorems": [
    "mc_false_alarm",
    "mc_false_alarm_sampler",
    "mc_false_alarm_chi2",
    "mc_false_alarm_exact",
    "mc_not_conservative",
    "mc_all_ties"
   ],
   "note": "the part that is violated (the p-value is not conservative) is mc_not_conservative and mc_all_ties"
  },
  {
   "property": "C70",
   "status": "proved",
   "theorems": [
    "chi2_repeated",
    "phik_repeated",
    "phik_repeated_tol",
    "phik_matrix_repeated",
    "repeated_binary"
   ],
   "note": "root finder free of the scale, or tables that are square or have two rows or columns within tolerance; the violation for two by two tables is repeated_binary"
  },
  {
   "property": "C71",
   "status": "proved",
   "theorems": [
    "phik_mono_chi2",
    "phik_anti_pedestal",
    "noise_correction_lowers",
    "noise_correction_fades"
   ],
   "note": "grids on which the theoretical distance is strictly monotone; proved for square ones and those with two rows or two columns"
  },
  {
   "property": "C72",
   "status": "proved",
   "theorems": [
    "global_best",
    "global_more_columns",
    "global_phik_array_more_columns"
   ],
   "note": "positive definite phik matrices; otherwise the global correlation can exceed 1 (C24)"
  },
  {
   "property": "C73",
   "status": "proved",
   "theorems": [
    "shuffle_mean_table",
    "shuffle_mean_chi2",
    "pedestal_is_mean_chi2",
    "sampler_mean",
    "sampler_mean_table",
    "sampler_mean_chi2",
    "sampler_chi2_exists"
   ],
   "note": "exact real arithmetic and ideal random numbers for the sampler"
  },
  {
   "property": "C74",
   "status": "proved",
   "theorems": [
    "multinominal_law",
    "col_product_law",
    "row_product_law",
    "multinominal_mean",
    "col_product_mean",
    "row_product_mean",
    "sim_chi2_iid",
    "idealBinom_quant"
   ],
   "note": "exact real arithmetic and an ideal binomial generator, which exists (idealBinom_quant)"
  },
  {
   "property": "C75",
   "status": "proved",
   "theorems": [
    "sim_count_binomial",
    "statIn_compl",
    "mc_pvalue_law",
    "mcP_between"
   ],
   "note": "exact real arithmetic and an ideal binomial generator"
  },
  {
   "property": "C76",
   "status": "proved",
   "theorems": [
    "mc_pvalue_limit",
    "ndof_limit"
   ],
   "note": "exact real arithmetic and an ideal binomial generator"
  },
  {
   "property": "C77",
   "status": "proved",
   "theorems": [
    "get_chi2_cressie_read",
    "get_chi2_negative",
    "get_chi2_empty_cell",
    "power_zero_iff",
    "statistics_compare"
   ],
   "note": ""
  },
  {
   "property": "C78",
   "status": "proved",
   "theorems": [
    "phik_of_counts",
    "phik_matrix_categorical",
    "phik_matrix_no_record",
    "chi2_unused",
    "phik_all_used",
    "phik_unused",
    "phik_copy_unused"
   ],
   "note": "The unrestricted claim is false: phik_copy_unused and phik_matrix_no_record are the counterexamples, phik_all_used the part that holds. dropna=False on categorical columns is not modelled."
  },
  {
   "property": "C79",
   "status": "proved",
   "theorems": [
    "chi2_tail_strict",
    "asymptotic_shape",
    "sig_unused",
    "sig_copy_unused",
    "sig_matrix_categorical",
    "sig_matrix_asymptotic"
   ],
   "note": "violation proved for the true chi2 and normal distributions, with the positive part (matrix contents, existence)"
  },
  {
   "property": "C80",
   "status": "proved",
   "theorems": [
    "given_edges_errors",
    "given_edges_chi2",
    "given_edges_cases",
    "given_edges_round_trip",
    "same_edges_strict",
    "same_edges_round_trip",
    "given_edges_default",
    "asymmetric_edges",
    "theory_table_given"
   ],
   "note": "positive part and the two violations"
  },
  {
   "property": "C81",
   "status": "proved",
   "theorems": [
    "column_names_phik",
    "column_names_significance",
    "column_names_frames",
    "renaming_extends",
    "series_names",
    "documented_names",
    "hist2d_array_result",
    "hist2d_array_text"
   ],
   "note": "positive part and the violations"
  },
  {
   "property": "C82",
   "status": "proved",
   "theorems": [
    "infinite_order",
    "infinite_search",
    "infinite_bin_index",
    "infinite_given_edges",
    "infinite_bin_data",
    "infinite_category",
    "infinite_auto_all_underflow",
    "infinite_column_lost",
    "infinite_column_lost_example",
    "infinite_conservative"
   ],
   "note": "given edges, the violation for automatic uniform bins and its effect on phik_matrix; quantile bins of infinite data depend on the numpy version and are not modelled"
  },
  {
   "property": "C83",
   "status": "proved",
   "theorems": [
    "merge_chi2",
    "merge_proportional",
    "coarser_categories",
    "coarser_edges",
    "merge_raises_phik"
   ],
   "note": ""
  },
  {
   "property": "C84",
   "status": "proved",
   "theorems": [
    "chi2_consistent",
    "phik_of_law",
    "phik_consistent_curve",
    "phik_consistent",
    "phik_estimates",
    "phik_matrix_estimates",
    "phik_matrix_binned_estimates",
    "phik_matrix_auto_estimates",
    "phik_matrix_settled_estimates",
    "draws_exist",
    "agreeLaw_phik",
    "gaussian_phik_estimates"
   ],
   "note": "Strict monotonicity of the normal distance is a hypothesis of the convergence to a single value; it is proved for square grids and grids with two bins for one variable (grid_distance_strict; gaussian_phik_estimates has no such hypothesis). For other grids phik_consistent_curve gives convergence to the solutions of the equation. A number of equal bins between the extreme values of a column is covered (phik_matrix_auto_estimates), and so are bins between the sample quantiles (quantile=True, phik_matrix_settled_estimates, for distributions with unique quantiles of the orders used), for variables with finitely many values; variables with infinitely many values in automatic bins are not."
  },
  {
   "property": "C85",
   "status": "proved",
   "theorems": [
    "mutualInfo_pos",
    "significance_unbounded",
    "asymptotic_power",
    "asymptotic_detects",
    "significance_detects",
    "significance_matrix_detects",
    "significance_matrix_auto_detects",
    "trueSig_tails",
    "flushed_tails"
   ],
   "note": "Asymptotic method only; for the matrix functions the statement is about calls that return (an exception can come from another pair of columns)."
  },
  {
   "property": "C86",
   "status": "proved",
   "theorems": [
    "null_statistic",
    "null_p_value",
    "null_significance",
    "null_rebinned",
    "null_matrix",
    "null_matrix_auto",
    "null_convergence",
    "norm_sq_law",
    "draws_exist"
   ],
   "note": "Exact arithmetic and the true distribution functions (trueSig). For freeman-tukey, neyman and mod-log-likelihood the matrix functions are not covered: the table of a column with itself has empty cells, for which these statistics are not finite."
  },
  {
   "property": "C87",
   "status": "proved",
   "theorems": [
    "significance_returns",
    "significance_matrix_returns",
    "asymptotic_total",
    "underflowsFar_of",
    "trueSig_far",
    "flushed_far"
   ],
   "note": "The hybrid method is not in the totality statement (it can raise, C31); for single tables see C58 and C56."
  },
  {
   "property": "C88",
   "status": "proved",
   "theorems": [
    "get_chi2_rounding",
    "get_chi2_rounding_pairwise",
    "get_chi2_rounding_empty",
    "get_chi2_rounding_reproducible",
    "ndof_rounding",
    "phik_of_data_rounded",
    "phik_independent_rounded",
    "independent_exact_zero",
    "perfect_association_rounded_violated"
   ],
   "note": "Pearson statistic only (the one phik uses). No overflow and no subnormal numbers. In phik_from_hist2d the operations after the chi2 (grid, normal probabilities, root finder) are exact up to what MvnSpec and BrentqSpec allow. scipy 1.7: newer versions of scipy have another check of the sums."
  },
  {
   "property": "C89",
   "status": "proved",
   "theorems": [
    "duplicate_names_refused",
    "dq_check_duplicates",
    "unique_names_same",
    "same_name_everywhere",
    "repeated_and_other_refused",
    "unique_names_same_binned"
   ],
   "note": "The behaviour of pandas for repeated labels (selection gives a frame, its truth value and groupby raise ValueError) is an assumption of the model. Warnings are not compared in the refused case. significance and outlier functions on binned data with repeated names are not modelled."
  },
  {
   "property": "C90",
   "status": "proved",
   "theorems": [
    "fixture_spec",
    "notebook_spec",
    "mem_after",
    "fixture_history",
    "no_traversal"
   ],
   "note": "Links, permissions and changes of the disk during one call are not modelled."
  },
  {
   "property": "C91",
   "status": "proved",
   "theorems": [
    "float_multinominal_records",
    "float_col_product_records",
    "float_row_product_records",
    "float_hypergeometric",
    "float_multinominal_records_violated",
    "float_multinominal_support_violated"
   ],
   "note": "Overflow and underflow are excluded by the arithmetic model (no smallest number); tables are counts. The binomial generator is an arbitrary function with results between 0 and the number of trials, 0 for probability 0 and all trials for probability 1."
  },
  {
   "property": "C92",
   "status": "proved",
   "theorems": [
    "Phik.Props.phik_cramersV_noise",
    "Phik.Props.phik_cramersV",
    "Phik.Props.square_root_bounds",
    "Phik.Props.one_record_violated",
    "Phik.Gauss.square_distance_scaled",
    "Phik.Gauss.square_distance_ge",
    "Phik.Gauss.square_distance_one",
    "Phik.Gauss.binnedVariance_ge"
   ],
   "note": "square tables; true integrals (gaussMvn) as in C22; chi2 of two by two tables is the continuity corrected one"
  },
  {
   "property": "C93",
   "status": "proved",
   "theorems": [
    "Phik.Props.phik_from_chi2_stable",
    "Phik.Props.phik_rounding",
    "Phik.Props.phik_transpose_rounded",
    "Phik.Props.roots_scaled",
    "Phik.Props.roots_sq_close",
    "Phik.Props.roots_close_zero"
   ],
   "note": "square tables; true integrals (gaussMvn); rounding errors of the integrals and inside the root finder are in the contract BrentqSpec, not modelled"
  },
  {
   "property": "C94",
   "status": "proved",
   "theorems": [
    "Phik.Props.outlier_detected",
    "Phik.Props.outlier_lack_detected",
    "Phik.Props.outlier_auto_detected",
    "Phik.Props.outlier_auto_lack_detected",
    "Phik.Props.outlier_found",
    "Phik.Props.outlier_lack",
    "Phik.Props.midTail_limit",
    "Phik.Props.cellRatio_bounds"
   ],
   "note": "Both CI methods; exact special functions (contract OutExact, and ExactQuantiles for CI method 'exact_poisson'; trueOut satisfies both). A combination whose two categories occur only together has no significance (NaN, see C45): the hypothesis excludes it. Edges that outlier_significance_matrix computes from the data (equal bins or quantiles) are covered by the _auto_ theorems for variables with finitely many values, with unique quantiles of the orders used."
  },
  {
   "property": "C95",
   "status": "proved",
   "theorems": [
    "Phik.Props.outlier_null",
    "Phik.Props.outlier_joint",
    "Phik.Props.outlier_joint_any",
    "Phik.Props.outlier_two_by_two",
    "Phik.Props.outlier_auto_joint",
    "Phik.Props.cellLimit_normal",
    "Phik.Props.cellZ_joint_level",
    "Phik.Props.outlier_null_any",
    "Phik.Props.outlier_auto_null",
    "Phik.Props.cellZ_level",
    "Phik.Props.cellZ_table",
    "Phik.Props.midTail_null",
    "Phik.Props.midTail_normal",
    "Phik.BetaCF.mixture_tail_limit"
   ],
   "note": "Both CI methods; exact special functions (contract OutExact, and ExactQuantiles for CI method 'exact_poisson'; trueOut satisfies both). Edges computed from the data are covered by outlier_auto_null for variables with finitely many values (quantiles unique). The joint limit law is that of cellLimit, explicit combinations of independent standard normal variables (outlier_joint)."
  },
  {
   "property": "C96",
   "status": "proved",
   "theorems": [
    "outlier_order",
    "outlier_exchange",
    "outlier_matrix_exchange",
    "outlier_matrices_exchange",
    "outlier_matrix_rename"
   ],
   "note": "real arithmetic; holds for any numerical library functions"
  },
  {
   "property": "C97",
   "status": "proved",
   "theorems": [
    "array_exchange",
    "phik_binned_exchange",
    "significance_binned_exchange",
    "phik_series_exchange",
    "significance_series_exchange",
    "hist2d_series_exchange",
    "hist2d_series_exchange_guess",
    "outlier_frame_exchange",
    "outlier_series_exchange",
    "hist2d_exchange_violated"
   ],
   "note": "`significance` by simulation (MC, hybrid) is excluded: the simulated tables are drawn row by row, and the asymmetry of the switch of the hybrid method is shown in C30 (`switch_asymmetric`)."
  },
  {
   "property": "C98",
   "status": "proved",
   "theorems": [
    "phik_matrix_incomplete",
    "significance_matrix_incomplete",
    "outlier_matrices_incomplete",
    "hist2d_incomplete",
    "incomplete_record_matters"
   ],
   "note": "For arrays missing values become a category (C26), so the property is stated for frames; contracts MvnSpec, BrentqSpec for phik."
  },
  {
   "property": "C99",
   "status": "proved",
   "theorems": [
    "outlier_estimates_rounding",
    "outlier_estimates_rounding_poisson",
    "outlier_p_rounding",
    "outlier_p_rounding_documented",
    "outlier_p_reproducible",
    "outlier_z_rounding"
   ],
   "note": "No overflow and no subnormal numbers (so no p-value below 1e-308; those take the branch with logarithms, C45, C48). With integer tables B*C is computed in int64 and converted, which is the same rounding as long as it does not overflow. Deficits (p above 1/2) have no such bound for Z: p is close to 1 and 1-p is lost."
  }
 ]
}