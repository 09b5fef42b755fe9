import json
C=[]
def c(p,status,th,note): C.append({"property":p,"status":status,"theorems":th,"note":note})
c("C01","proved",["bin_index"],"sorted edges, arbitrary data")
c("C02","proved",["bin_labels"],"")
c("C03","proved",["auto_binning_loses_nothing"],"exact arithmetic; every number of bins >= 1")
c("C04","proved",["auto_binning_loses_nothing"],"quantile = true")
c("C05","proved",["binary64_underflow_iff"],"the stated criterion is proved for round-to-nearest-even binary64, including the violation")
c("C06","proved",["bin_data_columns"],"")
c("C07","proved",["bin_data_missing_entry","bin_data_unsupported","bin_data_unsupported_entry_first","bin_data_stale_edges","bin_data_unreadable"],"includes the violation")
c("C08","proved",["hist2d_rebinned_table","table_totals","hist2d_table"],"")
c("C09","proved",["hist2d_rebinned_table","hist2d_table"],"the specification Spec.view states which records are kept")
c("C10","proved",["genuine_categories_counted","sentinel_category_dropped","nan_category_merged"],"positive part and the violations")
c("C11","proved",["calls_keep_frames","correlation_report_keeps_frames","bin_data_keeps_frames","hist2d_keeps_frames","phik_matrix_keeps_frames","global_phik_array_keeps_frames","significance_matrix_keeps_frames","outlier_matrix_keeps_frames","outlier_matrices_keeps_frames"],"over all finite sequences of calls")
c("C36","proved",["patefield_margins","patefield_total","patefield_py_result","patefield_py_total"],"every float arithmetic with RoundOK")
c("C38","proved",["patefield_terminates"],"")
c("C39","proved",["patefield_safe","patefield_total","patefield_overflow","memory_checks"],"safe up to total 46340; overflow proved whenever nrowt[0]*ncolt[0] > 2^31-1")
c("C40","proved",["rng_step","rng_range","rng_injective","rng_zero"],"")
c("C41","proved",["patefield_state_irrelevant","patefield_history_independent","patefield_py_reproducible","patefield_py_seed_zero","patefield_py_seed_zero_random"],"C++ and Python level, including the violation for seed 0")
c("C42","proved",["patefield_rejects"],"")
c("C15","proved",["phik_range"],"for every root finder staying in its bracket")
c("C16","proved",["phik_from_chi2_cases","phik_of_data","isPhik_independent"],"contracts MvnSpec, BrentqSpec; MvnSpec is proved of the true bivariate normal integrals (gaussian_mvn_spec, gaussMvn_density)")
c("C17","proved",["data_max_above_pedestal","theory_ends","phik_of_data"],"contracts MvnSpec, BrentqSpec")
c("C18","proved",["pearson_bounds","pearson_zero_iff"],"")
c("C19","proved",["get_chi2_value","get_chi2_sameTable","sameTable_insertRow","sameTable_transpose","get_chi2_rejects"],"")
c("C20","proved",["get_chi2_sameTable","sameTable_perm","get_chi2_transpose","get_chi2_swap","phik_perm","phik_transpose","estimate_transpose","expectedFreq_zero_count_perm","isPhik_swap","isPhik_rename_columns","isPhik_order","phik_matrix_rename"],"tables, records and matrix level")
c("C21","proved",["half_grid_complete","half_grid_incomplete"],"")
c("C22","proved",["phik_round_trip","grid_round_trip","grid_theory_strict","grid_distance_strict","columns_distance_strict","square_round_trip","square_theory_strict","square_distance_strict","gaussian_mvn_spec","gaussMvn_density"],"square tables and tables with two rows or two columns (of any length): unconditional, with the true bivariate normal integrals (gaussMvn) the curve is proved strictly increasing (grid_theory_strict) and the round trip holds (grid_round_trip); other shapes: under the stated hypothesis that the curve is strictly increasing (phik_round_trip)")
c("C23","proved",["theoretical_ndof_value","estimate_simple_ndof_value","estimate_simple_ndof_full"],"")
c("C27","proved",["phik_determined","isPhik_determined","phik_binary_below"],"positive part and the violation")
c("C32","proved",["log_likelihood_nonneg"],"")
c("C51","proved",["z_from_logp_bot","z_from_logp_flip","z_from_logp_normal","z_from_logp_underflow"],"")
c("C54","proved",["theory_table","theory_table_few","theory_table_edges"],"including the violated alternative")
c("C12","proved",["reuse_same_flags","reuse_any_sequence","reuse_same_flags_violated","reuse_other_flags_violated","hist_reuse_violated"],"reuse_any_sequence: every sequence of calls of the four functions; both violations for phi_k, the first one also for the histogram")
c("C13","proved",["dq_check"],"")
c("C14","proved",["phik_matrix_of_frame","phik_matrix_unique","phik_matrix_result","phik_matrix_returns","matrix_entry"],"from the binned frame and for the whole pipeline; contracts MvnSpec, BrentqSpec")
c("C24","proved",["global_range","global_singular","global_twins","global_two","global_of_frame","global_phik_array_result","global_duplicate","global_above_one"],"positive part and the violation")
c("C25","proved",["parallel_eq_serial","phik_matrix_of_frame"],"")
c("C26","proved",["array_agrees","array_eq_matrix_entry","array_nan_violated","phik_from_array_result","phik_from_array_plain"],"positive part and the violation")
c("C28","proved",["spark_row","spark_no_colon","spark_truncated","spark_key_clash","spark_key_inj","spark_matrix","spark_type_error"],"")
c("C35","proved",["multinominal_run","multinominal_iff","col_product_run","col_product_iff","row_product_run","row_product_iff","product_names_swapped","product_empty"],"for all draws that numpy's generator can return (GoodDraws); names swapped relative to the documentation")
c("C37","proved",["patefield_py_result","patefield_py_chi2"],"")
c("C34","proved",["sim_method_unknown","product_axis_unknown","patefield_no_extension","sig_method_unknown","sig_method_never","sig_method_known","ci_unknown","ci_unknown_rejected","ci_unknown_rebinned","ci_unknown_matrix","ci_unknown_raises","ci_unknown_matrices"],"simulation methods, axes, significance methods, CI methods; table and frame level")
c("C55","proved",["sim_any_run","sim_chi2_distribution","sim_chi2_schedule"],"")
c("C29","proved",["mc_value","mc_simulated","mc_range","mc_anti","mc_perm","mc_ends","mc_no_simulations"],"")
c("C30","proved",["switch_quantity","switch_agreement","switch_violated","switch_asymmetric"],"the violation and the exact region of agreement")
c("C31","proved",["chernoff_eq","chernoff_value","chernoff_mono","chernoffU_lt","chernoffU_large","hybrid_zero_fraction","hybrid_fallback"],"")
c("C33","proved",["significance_of_frame","significance_matrix_result","significance_mc_returns"],"")
c("C56","proved",["significance_good","significance_sign","hybrid_low","hybrid_high"],"contract SigSpec, met by the true functions (trueSig_spec)")
c("C57","proved",["fit_counts","fit_residual","fit_term"],"")
c("C58","proved",["ndof_p_anti","hybrid_p_anti","mc_anti","asymptotic_symmetric","mc_returns"],"")
c("C59","proved",["significance_array","significance_array_agrees","significance_from_array_plain","significance_from_array_result"],"")
c("C48","proved",["incompbeta_ends","incompbeta_complement","logIncompbeta_eq","logIncompbeta_no_underflow"],"exact arithmetic except for the exponential, which may underflow")
c("C49","proved",["contfractbeta_ok_iff","contfractbeta_error_iff","contfractbeta_convergent","contfractbeta_terminates","betaConv_tendsto"],"")
c("C60","proved",["contfractbeta_accuracy","incompbeta_accuracy"],"exact arithmetic")
c("C43","proved",["expected_frequencies","expected_product","expected_equal_iff"],"")
c("C44","proved",["outlier_p_zero","outlier_p_nan","outlier_p_range","outlier_p_anti","outlier_mid_p","outlier_mid_p_between","outlier_p_domain","outlier_p_exact","trueOut_spec","linnemann_domain"],"contract OutSpec, met by the true functions (trueOut_spec); for exact functions the p-value is the gamma-Poisson tail probability")
c("C45","proved",["mid_z_normal","plain_z_normal","z_nan","plain_z_zero","mid_z_strict","cell_alone","outlier_table","outlier_table_any","log_mid_p","z_small","z_large"],"including the violated part: NaN for a cell alone in its row and column")
c("C50","proved",["poisson_uncertainty","exact_uncertainty","exact_interval","chi2_poisson","uncertainty_names","Phik.Props.exact_uncertainty_limit","Phik.Props.chi2_quantile_limit"],"exact_uncertainty_limit: positive for every count, ratio to the square root tends to 1 (contract ExactQuantiles, satisfied by trueOut)")
c("C46","proved",["outlier_matrix_labels","outlier_matrix_result","categories_unique"],"for all bin specifications with increasing edges")
c("C47","proved",["outlier_matrices_result","outlier_matrices_collision"],"positive part without colons and the violation")
c("C61","proved",["uniform_edges","quantile_edges","quantile_bins_balanced","auto_edges_sorted"],"edges in exact arithmetic, order also in binary64")
c("C52","proved",["report_agrees","report_nan","report_nan_attribute","report_disjoint","report_disjoint_attribute","report_collision"],"selection in report_agrees; the violations for NaN pairs and for colliding names")
c("C53","proved",["plot_correct","plot_returns","plot_shape","plot_numbers_edges","tick_default","tick_top_violated","plot_single_number","global_figure_notes","phik_figure_notes","significance_figure_notes"],"")
c("C63","proved",["report_agrees","report_raises","report_returns","report_folder","report_folder_here","correlation_report_keeps_frames"],"")
c("C62","proved",["outlier_array_result","binned_array_is_array","binned_array_rebins","binned_array_strings"],"positive part and the violation for numeric input")
c("C64","proved",["hist_limits","hist_upper_violated","hist_default","hist_few_violated","hist_nbins_violated","hist_edges","hist_zero_bins"],"positive parts and the violations")
c("C65","proved",["patefield_law","patefield_shuffle","patefield_exact_total"],"exact real arithmetic and an ideal generator; rounding and the linear congruential generator are not covered")
c("C66","proved",["record_order","record_order_bin_data","record_order_arrays"],"significance functions: given the same simulated tables")
c("C67","proved",["phik_matrix_local","significance_matrix_local","outlier_matrices_local","outlier_matrix_same","outlier_matrices_returns"],"contracts MvnSpec, BrentqSpec for phik")
c("C68","proved",["scale_free","scale_free_binned","unit_matters","scale_free_outlier","scale_free_outliers"],"exact arithmetic for computed edges; the change of unit with equal-width bins is refuted by unit_matters")
c("C69","proved",["mc_false_alarm","mc_false_alarm_sampler","mc_false_alarm_chi2","mc_false_alarm_exact","mc_not_conservative","mc_all_ties"],"the part that is violated (the p-value is not conservative) is mc_not_conservative and mc_all_ties")
c("C70","proved",["chi2_repeated","phik_repeated","phik_repeated_tol","phik_matrix_repeated","repeated_binary"],"root finder free of the scale, or tables that are square or have two rows or columns within tolerance; the violation for two by two tables is repeated_binary")
c("C71","proved",["phik_mono_chi2","phik_anti_pedestal","noise_correction_lowers","noise_correction_fades"],"grids on which the theoretical distance is strictly monotone; proved for square ones and those with two rows or two columns")
c("C72","proved",["global_best","global_more_columns","global_phik_array_more_columns"],"positive definite phik matrices; otherwise the global correlation can exceed 1 (C24)")
c("C73","proved",["shuffle_mean_table","shuffle_mean_chi2","pedestal_is_mean_chi2","sampler_mean","sampler_mean_table","sampler_mean_chi2","sampler_chi2_exists"],"exact real arithmetic and ideal random numbers for the sampler")
c("C74","proved",["multinominal_law","col_product_law","row_product_law","multinominal_mean","col_product_mean","row_product_mean","sim_chi2_iid","idealBinom_quant"],"exact real arithmetic and an ideal binomial generator, which exists (idealBinom_quant)")
c("C75","proved",["sim_count_binomial","statIn_compl","mc_pvalue_law","mcP_between"],"exact real arithmetic and an ideal binomial generator")
c("C76","proved",["mc_pvalue_limit","ndof_limit"],"exact real arithmetic and an ideal binomial generator")
c("C77","proved",["get_chi2_cressie_read", "get_chi2_negative", "get_chi2_empty_cell", "power_zero_iff", "statistics_compare"],"")
c("C78","proved",["phik_of_counts", "phik_matrix_categorical", "phik_matrix_no_record", "chi2_unused", "phik_all_used", "phik_unused", "phik_copy_unused"],"The unrestricted claim is false: phik_copy_unused and phik_matrix_no_record are the counterexamples, phik_all_used the part that holds. dropna=False on categorical columns is not modelled.")
c("C79","proved",["chi2_tail_strict", "asymptotic_shape", "sig_unused", "sig_copy_unused", "sig_matrix_categorical", "sig_matrix_asymptotic"],"violation proved for the true chi2 and normal distributions, with the positive part (matrix contents, existence)")
c("C80","proved",["given_edges_errors", "given_edges_chi2", "given_edges_cases", "given_edges_round_trip", "same_edges_strict", "same_edges_round_trip", "given_edges_default", "asymmetric_edges", "theory_table_given"],"positive part and the two violations")
c("C81","proved",["column_names_phik", "column_names_significance", "column_names_frames", "renaming_extends", "series_names", "documented_names", "hist2d_array_result", "hist2d_array_text"],"positive part and the violations")
c("C82","proved",["infinite_order", "infinite_search", "infinite_bin_index", "infinite_given_edges", "infinite_bin_data", "infinite_category", "infinite_auto_all_underflow", "infinite_column_lost", "infinite_column_lost_example", "infinite_conservative"],"given edges, the violation for automatic uniform bins and its effect on phik_matrix; quantile bins of infinite data depend on the numpy version and are not modelled")
c("C83","proved",["merge_chi2", "merge_proportional", "coarser_categories", "coarser_edges", "merge_raises_phik"],"")
c("C84","proved",["chi2_consistent", "phik_of_law", "phik_consistent_curve", "phik_consistent", "phik_estimates", "phik_matrix_estimates", "phik_matrix_binned_estimates", "phik_matrix_auto_estimates", "phik_matrix_settled_estimates", "draws_exist", "agreeLaw_phik", "gaussian_phik_estimates"],"Strict monotonicity of the normal distance is a hypothesis of the convergence to a single value; it is proved for square grids and grids with two bins for one variable (grid_distance_strict; gaussian_phik_estimates has no such hypothesis). For other grids phik_consistent_curve gives convergence to the solutions of the equation. A number of equal bins between the extreme values of a column is covered (phik_matrix_auto_estimates), and so are bins between the sample quantiles (quantile=True, phik_matrix_settled_estimates, for distributions with unique quantiles of the orders used), for variables with finitely many values; variables with infinitely many values in automatic bins are not.")
c("C85","proved",["mutualInfo_pos", "significance_unbounded", "asymptotic_power", "asymptotic_detects", "significance_detects", "significance_matrix_detects", "significance_matrix_auto_detects", "trueSig_tails", "flushed_tails"],"Asymptotic method only; for the matrix functions the statement is about calls that return (an exception can come from another pair of columns).")
c("C86","proved",["null_statistic", "null_p_value", "null_significance", "null_rebinned", "null_matrix", "null_matrix_auto", "null_convergence", "norm_sq_law", "draws_exist"],"Exact arithmetic and the true distribution functions (trueSig). For freeman-tukey, neyman and mod-log-likelihood the matrix functions are not covered: the table of a column with itself has empty cells, for which these statistics are not finite.")
c("C87","proved",["significance_returns", "significance_matrix_returns", "asymptotic_total", "underflowsFar_of", "trueSig_far", "flushed_far"],"The hybrid method is not in the totality statement (it can raise, C31); for single tables see C58 and C56.")
c("C88","proved",["get_chi2_rounding", "get_chi2_rounding_pairwise", "get_chi2_rounding_empty", "get_chi2_rounding_reproducible", "ndof_rounding", "phik_of_data_rounded", "phik_independent_rounded", "independent_exact_zero", "perfect_association_rounded_violated"],"Pearson statistic only (the one phik uses). No overflow and no subnormal numbers. In phik_from_hist2d the operations after the chi2 (grid, normal probabilities, root finder) are exact up to what MvnSpec and BrentqSpec allow. scipy 1.7: newer versions of scipy have another check of the sums.")
c("C89","proved",["duplicate_names_refused", "dq_check_duplicates", "unique_names_same", "same_name_everywhere", "repeated_and_other_refused", "unique_names_same_binned"],"The behaviour of pandas for repeated labels (selection gives a frame, its truth value and groupby raise ValueError) is an assumption of the model. Warnings are not compared in the refused case. significance and outlier functions on binned data with repeated names are not modelled.")
c("C90","proved",["fixture_spec", "notebook_spec", "mem_after", "fixture_history", "no_traversal"],"Links, permissions and changes of the disk during one call are not modelled.")
c("C91","proved",["float_multinominal_records", "float_col_product_records", "float_row_product_records", "float_hypergeometric", "float_multinominal_records_violated", "float_multinominal_support_violated"],"Overflow and underflow are excluded by the arithmetic model (no smallest number); tables are counts. The binomial generator is an arbitrary function with results between 0 and the number of trials, 0 for probability 0 and all trials for probability 1.")
c("C92","proved",["Phik.Props.phik_cramersV_noise", "Phik.Props.phik_cramersV", "Phik.Props.square_root_bounds", "Phik.Props.one_record_violated", "Phik.Gauss.square_distance_scaled", "Phik.Gauss.square_distance_ge", "Phik.Gauss.square_distance_one", "Phik.Gauss.binnedVariance_ge"],"square tables; true integrals (gaussMvn) as in C22; chi2 of two by two tables is the continuity corrected one")
c("C93","proved",["Phik.Props.phik_from_chi2_stable", "Phik.Props.phik_rounding", "Phik.Props.phik_transpose_rounded", "Phik.Props.roots_scaled", "Phik.Props.roots_sq_close", "Phik.Props.roots_close_zero"],"square tables; true integrals (gaussMvn); rounding errors of the integrals and inside the root finder are in the contract BrentqSpec, not modelled")
c("C94","proved",["Phik.Props.outlier_detected", "Phik.Props.outlier_lack_detected", "Phik.Props.outlier_auto_detected", "Phik.Props.outlier_auto_lack_detected", "Phik.Props.outlier_found", "Phik.Props.outlier_lack", "Phik.Props.midTail_limit", "Phik.Props.cellRatio_bounds"],"Both CI methods; exact special functions (contract OutExact, and ExactQuantiles for CI method 'exact_poisson'; trueOut satisfies both). A combination whose two categories occur only together has no significance (NaN, see C45): the hypothesis excludes it. Edges that outlier_significance_matrix computes from the data (equal bins or quantiles) are covered by the _auto_ theorems for variables with finitely many values, with unique quantiles of the orders used.")
c("C95","proved",["Phik.Props.outlier_null", "Phik.Props.outlier_joint", "Phik.Props.outlier_joint_any", "Phik.Props.outlier_two_by_two", "Phik.Props.outlier_auto_joint", "Phik.Props.cellLimit_normal", "Phik.Props.cellZ_joint_level", "Phik.Props.outlier_null_any", "Phik.Props.outlier_auto_null", "Phik.Props.cellZ_level", "Phik.Props.cellZ_table", "Phik.Props.midTail_null", "Phik.Props.midTail_normal", "Phik.BetaCF.mixture_tail_limit"],"Both CI methods; exact special functions (contract OutExact, and ExactQuantiles for CI method 'exact_poisson'; trueOut satisfies both). Edges computed from the data are covered by outlier_auto_null for variables with finitely many values (quantiles unique). The joint limit law is that of cellLimit, explicit combinations of independent standard normal variables (outlier_joint).")
c("C96","proved",["outlier_order", "outlier_exchange", "outlier_matrix_exchange", "outlier_matrices_exchange", "outlier_matrix_rename"],"real arithmetic; holds for any numerical library functions")
c("C97","proved",["array_exchange", "phik_binned_exchange", "significance_binned_exchange", "phik_series_exchange", "significance_series_exchange", "hist2d_series_exchange", "hist2d_series_exchange_guess", "outlier_frame_exchange", "outlier_series_exchange", "hist2d_exchange_violated"],"`significance` by simulation (MC, hybrid) is excluded: the simulated tables are drawn row by row, and the asymmetry of the switch of the hybrid method is shown in C30 (`switch_asymmetric`).")
c("C98","proved",["phik_matrix_incomplete", "significance_matrix_incomplete", "outlier_matrices_incomplete", "hist2d_incomplete", "incomplete_record_matters"],"For arrays missing values become a category (C26), so the property is stated for frames; contracts MvnSpec, BrentqSpec for phik.")
c("C99","proved",["outlier_estimates_rounding", "outlier_estimates_rounding_poisson", "outlier_p_rounding", "outlier_p_rounding_documented", "outlier_p_reproducible", "outlier_z_rounding"],"No overflow and no subnormal numbers (so no p-value below 1e-308; those take the branch with logarithms, C45, C48). With integer tables B*C is computed in int64 and converted, which is the same rounding as long as it does not overflow. Deficits (p above 1/2) have no such bound for Z: p is close to 1 and 1-p is lost.")
c("C100","proved",["outlier_more_in_cell", "outlier_more_in_row", "outlier_more_in_col", "outlier_more_elsewhere", "outlier_first_in_row_violated", "outlier_elsewhere_violated"],"The unrestricted claim is false: the two *_violated theorems prove counterexamples; the positive theorems carry the exact side conditions under which the direction is guaranteed (other records already in the row or column; for 'elsewhere', exactly one of row and column without other records).")
c("C101","proved",["log_likelihood_cap", "log_likelihood_cap_attained", "chi2Tail_ge", "asymptotic_cap_log_likelihood", "asymptotic_cap_pearson", "records_cap", "significance_matrix_cap", "significance_matrix_pipeline_cap", "significance_array_cap", "five_sigma_needs_19_records"],"Exact chi2 and normal distribution functions (trueSig); asymptotic method.")
c("C102","proved",["chi2_ge_deviation", "deviation_zero_iff", "chi2Tail_le", "asymptotic_detection", "enough_records", "copies_detection", "records_detection", "significance_matrix_detection", "significance_array_detection", "deviation_bound_attained", "phik_ge_deviation", "phik_detects"],"Exact chi2 and normal distribution functions (trueSig); asymptotic method. phik: square tables, true integrals (gaussMvn), pearson.")
c("C103","proved",["log_likelihood_xlog", "few_records", "few_records_data"],"log-likelihood; both tables not two by two.")
json.dump({"claims":sorted(C,key=lambda d:d["property"])},open("/verif/MANIFEST.json","w"),indent=1)
