{
 "claims": [
  {
   "property": "C01",
   "status": "proved",
   "theorems": [
    "Skfolio.Sorting.C01_dominate_iff",
    "Skfolio.Sorting.C01_dominate_error_iff",
    "Skfolio.Sorting.C01_irrefl",
    "Skfolio.Sorting.C01_asymm",
    "Skfolio.Sorting.C01_trans"
   ],
   "note": ""
  },
  {
   "property": "C02",
   "status": "proved",
   "theorems": [
    "Skfolio.Sorting.C02_fronts_are_pareto_layers",
    "Skfolio.Sorting.C02_terminates",
    "Skfolio.Sorting.C02_first_front",
    "Skfolio.Sorting.C02_front_structure"
   ],
   "note": ""
  },
  {
   "property": "C03",
   "status": "proved",
   "theorems": [
    "Skfolio.WalkForward.C03_split_shape",
    "Skfolio.WalkForward.C03_no_look_ahead"
   ],
   "note": ""
  },
  {
   "property": "C04",
   "status": "proved",
   "theorems": [
    "Skfolio.WalkForward.C04_tests_tile",
    "Skfolio.WalkForward.C04_count",
    "Skfolio.WalkForward.C04_error_iff",
    "Skfolio.WalkForward.C04_zero_test_size_diverges",
    "Skfolio.WalkForward.C04_count_wrong_with_freq"
   ],
   "note": "The property's tiling and count are proved for observation mode with test_size >= 1. Two disagreements are proved as negations: test_size = 0 never stops (C04_zero_test_size_diverges) and get_n_splits ignores freq (C04_count_wrong_with_freq)."
  },
  {
   "property": "C05",
   "status": "partial",
   "theorems": [
    "Skfolio.WalkForward.C05_period_no_look_ahead",
    "Skfolio.WalkForward.C05_period_tests_ordered",
    "Skfolio.WalkForward.C05_period_test_dates",
    "Skfolio.WalkForward.C05_previous_look_ahead",
    "Skfolio.WalkForward.C05_offset_partial",
    "Skfolio.WalkForward.C05_offset_purge_ignored"
   ],
   "note": "Integer-period mode proved. With previous=True a calendar date before the first observation gives index -1 and look-ahead (C05_previous_look_ahead); in offset mode the purge is applied to the end of the test instead of the end of the train set (C05_offset_purge_ignored), so only C05_offset_partial (purged_size = 0) holds."
  },
  {
   "property": "C06",
   "status": "proved",
   "theorems": [
    "Skfolio.Combinatorial.C06_init",
    "Skfolio.Combinatorial.C06_folds",
    "Skfolio.Combinatorial.C06_all_tested_iff",
    "Skfolio.Combinatorial.C06_observations_lost",
    "Skfolio.Combinatorial.C06_train_test",
    "Skfolio.Combinatorial.C06_error_iff"
   ],
   "note": "Train/test membership is unconditional. Every observation is tested iff RemainderFits (C06_all_tested_iff); otherwise the last observations are lost (C06_observations_lost)."
  },
  {
   "property": "C07",
   "status": "proved",
   "theorems": [
    "Skfolio.Combinatorial.C07_counts",
    "Skfolio.Combinatorial.C07_reshape_exact",
    "Skfolio.Combinatorial.C07_path_ids_defined",
    "Skfolio.Combinatorial.C07_paths_bijective"
   ],
   "note": ""
  },
  {
   "property": "C08",
   "status": "proved",
   "theorems": [
    "Skfolio.Combinatorial.C08_paths_in_fold_order",
    "Skfolio.Combinatorial.C08_path_covers_sample",
    "Skfolio.Validation.C08_plain_ok_iff",
    "Skfolio.Validation.C08_plain_shuffled",
    "Skfolio.Validation.C08_plain",
    "Skfolio.Validation.C08_plain_observations",
    "Skfolio.Validation.C08_plain_chronological",
    "Skfolio.Validation.C08_interleaved_not_chronological",
    "Skfolio.Validation.C08_paths_no_overlap"
   ],
   "note": "Both branches of the assembly. Interleaving test folds are ordered by first index only (C08_interleaved_not_chronological). That a combinatorial path covers the whole sample needs RemainderFits (see C06)."
  },
  {
   "property": "C09",
   "status": "proved",
   "theorems": [
    "Skfolio.Equations.C09_constraint_string",
    "Skfolio.Equations.C09_equations_to_matrix"
   ],
   "note": "For any text laying out the tokens of a well-formed constraint with white space other than new lines, below the code's limit of 10^6 terms; any number syntax (parameter num)."
  },
  {
   "property": "C10",
   "status": "partial",
   "theorems": [
    "Skfolio.Equations.C10_no_comparison",
    "Skfolio.Equations.C10_strict_rejected",
    "Skfolio.Equations.C10_accepted_partial",
    "Skfolio.Equations.C10_unknown_name_rejected",
    "Skfolio.Equations.C10_report",
    "Skfolio.Equations.C10_chained_accepted",
    "Skfolio.Equations.C10_empty_side_accepted",
    "Skfolio.Equations.C10_trailing_star_type_error"
   ],
   "note": "No comparison, unknown or juxtaposed names: rejected. Chained comparisons and an empty left side are accepted silently (C10_chained_accepted, C10_empty_side_accepted), so acceptance is characterised by C10_accepted_partial."
  },
  {
   "property": "C11",
   "status": "partial",
   "theorems": [
    "Skfolio.Equations.C11_rows",
    "Skfolio.Equations.C11_missing_group_always_raises"
   ],
   "note": "Rows are exact. A missing group always raises, even with raise_if_group_missing=False (C11_missing_group_always_raises)."
  },
  {
   "property": "C12",
   "status": "proved",
   "theorems": [
    "Skfolio.Measures.C12_defined",
    "Skfolio.Measures.C12_worst",
    "Skfolio.Measures.C12_order",
    "Skfolio.Measures.C12_cvar_monotone_in_beta",
    "Skfolio.Measures.C12_var_iff_quantile",
    "Skfolio.Measures.C12_cvar_zero",
    "Skfolio.Measures.C12_var_one",
    "Skfolio.Measures.C12_cvar_one_undefined"
   ],
   "note": "beta = 1: VaR is the worst realization, CVaR is a division by zero (C12_var_one, C12_cvar_one_undefined)."
  },
  {
   "property": "C13",
   "status": "proved",
   "theorems": [
    "Skfolio.Measures.C13_rockafellar_uryasev",
    "Skfolio.Measures.C13_permutation",
    "Skfolio.Measures.C13_translation",
    "Skfolio.Measures.C13_homogeneous",
    "Skfolio.Measures.C13_monotone",
    "Skfolio.Measures.C13_subadditive",
    "Skfolio.Measures.C13_convex"
   ],
   "note": ""
  },
  {
   "property": "C14",
   "status": "proved",
   "theorems": [
    "Skfolio.Measures.C14_shortfall",
    "Skfolio.Measures.C14_nonpositive",
    "Skfolio.Measures.C14_max_and_average",
    "Skfolio.Measures.C14_order",
    "Skfolio.Measures.C14_ulcer_squared",
    "Skfolio.Measures.C14_ulcer_between"
   ],
   "note": ""
  },
  {
   "property": "C15",
   "status": "proved",
   "theorems": [
    "Skfolio.Measures.C15_variance_translation",
    "Skfolio.Measures.C15_variance_homogeneous",
    "Skfolio.Measures.C15_variance_zero_iff",
    "Skfolio.Measures.C15_semi_variance_split",
    "Skfolio.Measures.C15_semi_variance_le",
    "Skfolio.Measures.C15_mad_flpm",
    "Skfolio.Measures.C15_gini",
    "Skfolio.Measures.C15_gini_permutation",
    "Skfolio.Measures.C15_mad_le_gini"
   ],
   "note": ""
  },
  {
   "property": "C16",
   "status": "proved",
   "theorems": [
    "Skfolio.Measures.C16_upper",
    "Skfolio.Measures.C16_lower"
   ],
   "note": ""
  },
  {
   "property": "C17",
   "status": "proved",
   "theorems": [
    "Skfolio.Convex.C17_standard_deviation",
    "Skfolio.Convex.C17_variance",
    "Skfolio.Convex.C17_variance_measure",
    "Skfolio.Convex.C17_semi_deviation",
    "Skfolio.Convex.C17_ulcer_index",
    "Skfolio.Convex.C17_evar",
    "Skfolio.Convex.C17_edar",
    "Skfolio.Convex.C17_mad_explicit_target_differs",
    "Skfolio.Convex.C17_flpm_risk_free_differs",
    "Skfolio.Convex.C17_flpm_ignores_costs",
    "Skfolio.Convex.C17_first_lower_partial_moment_gross",
    "Skfolio.Convex.C17_first_lower_partial_moment",
    "Skfolio.Convex.C17_mean_absolute_deviation_gross",
    "Skfolio.Convex.C17_mean_absolute_deviation",
    "Skfolio.Convex.C17_semi_variance_gross",
    "Skfolio.Convex.C17_semi_variance",
    "Skfolio.Convex.C17_worst_realization",
    "Skfolio.Convex.C17_cvar",
    "Skfolio.Convex.C17_average_drawdown",
    "Skfolio.Convex.C17_ulcer_squared",
    "Skfolio.Convex.C17_max_drawdown",
    "Skfolio.Convex.C17_cdar",
    "Skfolio.Convex.C17_drawdowns_agree",
    "Skfolio.Convex.C17_first_loss_ignored_by_measure",
    "Skfolio.Convex.C17_gini_mean_difference"
   ],
   "note": "For all listed measures and also standard deviation, variance, semi-deviation, EVaR (without transaction costs), EDaR. The lower partial moments agree with the measures for the default target; findings for explicit targets, risk-free rate and the first loss."
  },
  {
   "property": "C18",
   "status": "proved",
   "theorems": [
    "Skfolio.Convex.C18_negative_scale",
    "Skfolio.Convex.C18_ratio",
    "Skfolio.Convex.C18_ratio_division",
    "Skfolio.Convex.C18_returned_allowed",
    "Skfolio.Convex.C18_scale_positive"
   ],
   "note": "For every optimum with positive scale, without tracking-error and variance/semi-variance limits (for these see C19); k > 0 is proved for weights bounded on both sides (C18_scale_positive) and refuted otherwise (C18_negative_scale). With mixed-integer constraints competitors are those within the big M."
  },
  {
   "property": "C19",
   "status": "partial",
   "theorems": [
    "Skfolio.Convex.C19_limits",
    "Skfolio.Convex.C19_limits_no_ratio",
    "Skfolio.Convex.C19_ratio_partial",
    "Skfolio.Convex.C19_ratio_limits_violated",
    "Skfolio.Convex.C19_weight_limits",
    "Skfolio.Convex.C19_weight_limits_mip"
   ],
   "note": "All limits for all objectives except tracking error, max_variance and max_semi_variance when the ratio is maximised, where the claim is false (C19_ratio_limits_violated); C19_ratio_partial gives what holds."
  },
  {
   "property": "C20",
   "status": "proved",
   "theorems": [
    "Skfolio.Convex.C20_sound",
    "Skfolio.Convex.C20_complete",
    "Skfolio.Convex.C20_scale_limited",
    "Skfolio.Convex.C20_no_bounds_type_error"
   ],
   "note": "Completeness for scale and weights up to the big M of 1000."
  },
  {
   "property": "C21",
   "status": "partial",
   "theorems": [
    "Skfolio.Hierarchical.C21_refines_recursive_bisection",
    "Skfolio.Hierarchical.C21_terminates",
    "Skfolio.Hierarchical.C21_budget",
    "Skfolio.Hierarchical.C21_bounds",
    "Skfolio.Hierarchical.C21_finite_positive_min",
    "Skfolio.Hierarchical.C21_finite_zero_min",
    "Skfolio.Hierarchical.C21_risk_parity",
    "Skfolio.Hierarchical.C21_zero_weight_cluster_not_finite",
    "Skfolio.Hierarchical.C21_min_sum_above_one_violated"
   ],
   "note": "Termination, budget and bounds proved for all inputs (bounds need sum(min) <= 1 <= sum(max)); finiteness proved when all minima are zero with positive maxima, or all minima are positive. Missing because false: with mixed minima a cluster can receive weight zero and its split divides by zero (C21_zero_weight_cluster_not_finite); with sum(min) > 1 a weight falls below its minimum without an error (C21_min_sum_above_one_violated). scipy's clustering is not modelled: the leaf order is arbitrary."
  },
  {
   "property": "C22",
   "status": "partial",
   "theorems": [
    "Skfolio.Hierarchical.C22_accepted_iff",
    "Skfolio.Hierarchical.C22_feasible_partial",
    "Skfolio.Hierarchical.C22_feasible_accepted",
    "Skfolio.Hierarchical.C22_infeasible_accepted"
   ],
   "note": "Exactly the accepted inputs are characterised. The 'feasible iff accepted' half fails: sum(min) > 1 is accepted (C22_infeasible_accepted)."
  },
  {
   "property": "C23",
   "status": "proved",
   "theorems": [
    "Skfolio.Nested.C23_nco_weights",
    "Skfolio.Nested.C23_nco_noise",
    "Skfolio.Nested.C23_nco_cluster",
    "Skfolio.Nested.C23_nco_budget",
    "Skfolio.Nested.C23_nco_nonneg",
    "Skfolio.Nested.C23_stacking_weights",
    "Skfolio.Nested.C23_stacking_budget",
    "Skfolio.Nested.C23_stacking_nonneg"
   ],
   "note": ""
  },
  {
   "property": "C24",
   "status": "proved",
   "theorems": [
    "Skfolio.Portfolio.Arith.C24_returns",
    "Skfolio.Portfolio.Arith.C24_scaling",
    "Skfolio.Portfolio.Arith.C24_rounding",
    "Skfolio.Portfolio.Arith.C24_sum",
    "Skfolio.Portfolio.Arith.C24_linear",
    "Skfolio.Portfolio.Arith.C24_not_linear_with_costs"
   ],
   "note": "Returns formula, acceptance condition, all arithmetic operators, linearity without transaction costs (with management fees). Finding: not linear with transaction costs."
  },
  {
   "property": "C25",
   "status": "proved",
   "theorems": [
    "Skfolio.Portfolio.C25_never_stale",
    "Skfolio.Portfolio.C25_assignment_takes_effect",
    "Skfolio.Portfolio.C25_copy_and_read_preserve",
    "Skfolio.Portfolio.C25_assigned_measure_is_kept"
   ],
   "note": "For all histories except explicit assignment to a measure attribute, which nothing forbids and which is kept (C25_assigned_measure_is_kept)."
  },
  {
   "property": "C26",
   "status": "partial",
   "theorems": [
    "Skfolio.Portfolio.Multi.C26_out_of_range",
    "Skfolio.Portfolio.Multi.C26_concatenation_partial",
    "Skfolio.Portfolio.Multi.C26_order_partial",
    "Skfolio.Portfolio.Multi.C26_rebuild_is_strict",
    "Skfolio.Portfolio.Multi.C26_raising_changes_nothing",
    "Skfolio.Portfolio.Multi.C26_effect",
    "Skfolio.Portfolio.Multi.C26_accepts",
    "Skfolio.Portfolio.Multi.C26_copy_then_append",
    "Skfolio.Portfolio.Multi.C26_caller_list",
    "Skfolio.Portfolio.Multi.C26_failed_append_corrupts",
    "Skfolio.Portfolio.Multi.C26_append_accepts_equal_date"
   ],
   "note": "Proved for all histories in which no list is shared and only portfolios are appended; order is weak after append. Missing because false: copies and the caller's list share the list of portfolios (C26_copy_then_append, C26_caller_list), a failing append of a non-portfolio extends the list (C26_failed_append_corrupts), append accepts an overlap of one date (C26_append_accepts_equal_date). Keys out of range raise IndexError and change nothing (C26_out_of_range)."
  },
  {
   "property": "C27",
   "status": "partial",
   "theorems": [
    "Skfolio.Portfolio.Pop.C27_slices",
    "Skfolio.Portfolio.Pop.C27_crossed",
    "Skfolio.Portfolio.Pop.C27_insert",
    "Skfolio.Portfolio.Pop.C27_out_of_range",
    "Skfolio.Portfolio.Pop.C27_delete",
    "Skfolio.Portfolio.Pop.C27_only_portfolios_partial",
    "Skfolio.Portfolio.Pop.C27_iadd_bypasses_validation",
    "Skfolio.Portfolio.Pop.C27_raising",
    "Skfolio.Portfolio.Pop.C27_effects"
   ],
   "note": "All list operations except +=, for which it is false (C27_iadd_bypasses_validation). Slices, insertions and deletions by negative, crossed and out-of-range keys are specified by the parts of the list (C27_slices, C27_crossed, C27_insert, C27_delete, C27_out_of_range)."
  },
  {
   "property": "C28",
   "status": "proved",
   "theorems": [
    "Skfolio.Portfolio.Pop.C28_sort_measure",
    "Skfolio.Portfolio.Pop.C28_quantile",
    "Skfolio.Portfolio.Pop.C28_extremes",
    "Skfolio.Portfolio.Pop.C28_monotone"
   ],
   "note": "NaN measures not modelled. sorted is modelled by a stable merge sort."
  },
  {
   "property": "C29",
   "status": "proved",
   "theorems": [
    "Skfolio.Selection.C29_sample_is_resample",
    "Skfolio.Selection.C29_all_samples"
   ],
   "note": "The block probability and the random generator are not modelled; every outcome of the draws and coin flips is covered. optimal_block_size only influences the coin flips."
  },
  {
   "property": "C30",
   "status": "partial",
   "theorems": [
    "Skfolio.Selection.C30_output",
    "Skfolio.Selection.C30_distinct_partial",
    "Skfolio.Selection.C30_collision"
   ],
   "note": "Length, order, first occurrences and the exact suffix of each repetition proved for all lists. Distinctness holds when no name equals another name followed by _k; missing because false in general (C30_collision)."
  },
  {
   "property": "C31",
   "status": "proved",
   "theorems": [
    "Skfolio.Selection.C31_no_correlated_pair_kept",
    "Skfolio.Selection.C31_drop_is_justified",
    "Skfolio.Selection.C31_drops_are_justified_in_turn",
    "Skfolio.Selection.C31_uncorrelated_kept",
    "Skfolio.Selection.C31_not_all_dropped",
    "Skfolio.Selection.C31_top_pair",
    "Skfolio.Selection.C31_absolute_pair_kept"
   ],
   "note": "Partner kept at the time, threshold, most correlated pair first. The documented option absolute=True is never read by fit (C31_absolute_pair_kept)."
  },
  {
   "property": "C32",
   "status": "proved",
   "theorems": [
    "Skfolio.Selection.C32_k_extremes",
    "Skfolio.Selection.C32_k_must_be_positive",
    "Skfolio.Selection.C32_non_dominated_min",
    "Skfolio.Selection.C32_non_dominated_all",
    "Skfolio.Selection.C32_non_dominated_first_front",
    "Skfolio.Selection.C32_pair_is_min_variance",
    "Skfolio.Selection.C32_candidates",
    "Skfolio.Selection.C32_superfluous_front",
    "Skfolio.Selection.C32_select_complete",
    "Skfolio.Selection.C32_select_non_expiring",
    "Skfolio.Selection.C32_drop_zero_variance"
   ],
   "note": "Number and quality of kept assets for SelectKExtremes, SelectNonDominated, SelectComplete, SelectNonExpiring, DropZeroVariance. Finding: SelectNonDominated adds one more front when the minimum is reached exactly (C32_superfluous_front)."
  },
  {
   "property": "C33",
   "status": "proved",
   "theorems": [
    "Skfolio.Preprocessing.C33_split",
    "Skfolio.Preprocessing.C33_columns_kept",
    "Skfolio.Preprocessing.C33_no_column_lost",
    "Skfolio.Preprocessing.C33_returns",
    "Skfolio.Preprocessing.C33_compounding",
    "Skfolio.Preprocessing.C33_log_returns",
    "Skfolio.Preprocessing.C33_missing_prices",
    "Skfolio.Preprocessing.C33_threshold",
    "Skfolio.Preprocessing.C33_y_drops_observations",
    "Skfolio.Preprocessing.C33_gaps_dropped",
    "Skfolio.Preprocessing.C33_duplicate_labels"
   ],
   "note": "Complete prices for all options; missing prices for the default options without y. Findings for y, for fill_nan=False and for repeated labels. The columns returned and their split between X and y: C33_split, C33_columns_kept, C33_no_column_lost."
  },
  {
   "property": "C34",
   "status": "proved",
   "theorems": [
    "Skfolio.Prior.C34_confidences_checked",
    "Skfolio.Prior.C34_certain_views",
    "Skfolio.Prior.C34_uncorrelated_views",
    "Skfolio.Prior.C34_single_view",
    "Skfolio.Prior.C34_posterior_covariance",
    "Skfolio.Prior.C34_defined",
    "Skfolio.Prior.C34_bayes",
    "Skfolio.Prior.C34_confidences_overwritten",
    "Skfolio.Prior.C34_risk_free_shift"
   ],
   "note": "Views, confidences and posterior for all picking matrices. Findings: the parameter view_confidences is overwritten; the risk free rate shifts the posterior mean off fully confident views."
  },
  {
   "property": "C35",
   "status": "proved",
   "theorems": [
    "Skfolio.Moments.C35_well_defined",
    "Skfolio.Moments.C35_correlation",
    "Skfolio.Moments.C35_statistic",
    "Skfolio.Moments.C35_fit"
   ],
   "note": "Both variants give correlation matrices, positive semidefinite with unit diagonal."
  },
  {
   "property": "C36",
   "status": "proved",
   "theorems": [
    "Skfolio.Prior.C36_psd",
    "Skfolio.Prior.C36_covariance",
    "Skfolio.Prior.C36_mean",
    "Skfolio.Prior.C36_cholesky_mismatch"
   ],
   "note": "Finding: the returned Cholesky factor does not belong to the returned covariance when cov_nearest has altered it."
  },
  {
   "property": "C37",
   "status": "proved",
   "theorems": [
    "Skfolio.Moments.C37_roundtrip",
    "Skfolio.Moments.C37_roundtrip_corr",
    "Skfolio.Moments.C37_correlation",
    "Skfolio.Moments.C37_covariance"
   ],
   "note": ""
  },
  {
   "property": "C38",
   "status": "proved",
   "theorems": [
    "Skfolio.Moments.C38_distance",
    "Skfolio.Moments.C38_decreasing",
    "Skfolio.Moments.C38_triangle"
   ],
   "note": "All positive integer powers."
  },
  {
   "property": "C39",
   "status": "proved",
   "theorems": [
    "Skfolio.Copula.C39_rotate_back",
    "Skfolio.Copula.C39_rotate_square",
    "Skfolio.Copula.C39_mass",
    "Skfolio.Copula.C39_copula",
    "Skfolio.Copula.C39_partial",
    "Skfolio.Copula.C39_inverse",
    "Skfolio.Copula.C39_density",
    "Skfolio.Copula.C39_select_rotation"
   ],
   "note": "Mass, margins, partial derivatives, inverses and densities for all four rotations of any base copula."
  },
  {
   "property": "C40",
   "status": "proved",
   "theorems": [
    "Skfolio.Copula.C40_open_unit_interval",
    "Skfolio.Copula.C40_order",
    "Skfolio.Copula.C40_invariant",
    "Skfolio.Copula.C40_mean",
    "Skfolio.Copula.C40_rank_is_mean_place"
   ],
   "note": "scipy's rankdata enters as its definition, shown to be the mean place of the ties in any sorted order."
  },
  {
   "property": "C41",
   "status": "proved",
   "theorems": [
    "Skfolio.Portfolio.Score.C41_dominates",
    "Skfolio.Portfolio.Score.C41_comparison",
    "Skfolio.Portfolio.Score.C41_scorer",
    "Skfolio.Portfolio.Score.C41_ratio_denominators",
    "Skfolio.Portfolio.Score.C41_skew_is_penalised"
   ],
   "note": "Fitness, dominance, comparison operators, scorers, denominators of ratios. Finding: skewness is an ExtraRiskMeasure and therefore minimised by default (C41_skew_is_penalised)."
  },
  {
   "property": "C42",
   "status": "partial",
   "theorems": [
    "Skfolio.Moments.C42_bayes_stein",
    "Skfolio.Moments.C42_james_stein_partial",
    "Skfolio.Moments.C42_target",
    "Skfolio.Moments.C42_bodnar_not_optimal",
    "Skfolio.Moments.C42_james_stein_negative",
    "Skfolio.Moments.C42_james_stein_overshoot",
    "Skfolio.Moments.C42_bodnar_not_convex",
    "Skfolio.Moments.C42_equilibrium"
   ],
   "note": "Bayes-Stein holds in full. Missing: James-Stein coefficients leave [0, 1], Bodnar-Okhrin coefficients do not add up to one (findings)."
  },
  {
   "property": "C43",
   "status": "partial",
   "theorems": [
    "Skfolio.Prior.C43_log_normal_partial",
    "Skfolio.Prior.C43_mean_is_gross",
    "Skfolio.Prior.C43_settings",
    "Skfolio.Prior.C43_estimator_overwritten"
   ],
   "note": "Missing: the projected mean is the mean of gross returns, not of linear returns (C43_mean_is_gross); the estimators' attributes are overwritten."
  },
  {
   "property": "C44",
   "status": "partial",
   "theorems": [
    "Skfolio.Combinatorial.C44_optimal_partial",
    "Skfolio.Combinatorial.C44_default_weights",
    "Skfolio.Combinatorial.C44_weights_counterexample",
    "Skfolio.Combinatorial.C44_too_few"
   ],
   "note": "The search is exact unless the weights are extreme: C44_optimal_partial needs weight_n_test_paths + 2 * weight_train_size * max(1, n_observations / target_train_size) <= 1e5, which the default weights meet (C44_default_weights). For extreme weights the property is false (C44_weights_counterexample)."
  },
  {
   "property": "C45",
   "status": "proved",
   "theorems": [
    "Skfolio.Naive.C45_equal_weighted",
    "Skfolio.Naive.C45_inverse_volatility",
    "Skfolio.Naive.C45_inverse_volatility_uncorrelated",
    "Skfolio.Naive.C45_inverse_volatility_scale",
    "Skfolio.Naive.C45_random",
    "Skfolio.Naive.C45_rand_weights",
    "Skfolio.Naive.C45_rand_weights_all_zero"
   ],
   "note": ""
  },
  {
   "property": "C46",
   "status": "partial",
   "theorems": [
    "Skfolio.Measures.C46_entropic_bounds_cvar",
    "Skfolio.Measures.C46_search_interval",
    "Skfolio.Measures.C46_no_loss_breaks_bound"
   ],
   "note": "Proved when the sample contains a loss (C46_search_interval + C46_entropic_bounds_cvar). If all returns are positive, the lower bound max(-r)/100 is negative and every negative theta in the interval gives a value strictly below CVaR (C46_no_loss_breaks_bound). The SLSQP solver itself is not modelled."
  },
  {
   "property": "C47",
   "status": "proved",
   "theorems": [
    "Skfolio.Hierarchical.C47_equal_risk_along_dendrogram",
    "Skfolio.Hierarchical.C47_finite_and_positive",
    "Skfolio.Hierarchical.C47_budget_and_bounds",
    "Skfolio.Hierarchical.C47_closest",
    "Skfolio.Hierarchical.C47_only_solver_fails"
   ],
   "note": "The clustering (scipy) and the convex solver are not modelled; the solver enters by contract: any returned point is a feasible minimiser."
  },
  {
   "property": "C48",
   "status": "proved",
   "theorems": [
    "Skfolio.Portfolio.Arith.C48_mean",
    "Skfolio.Portfolio.Arith.C48_variance"
   ],
   "note": "For mean and variance, where the finite difference is exact. The formula in the docstring has the opposite sign and no factor weight."
  },
  {
   "property": "C49",
   "status": "proved",
   "theorems": [
    "Skfolio.Portfolio.Pop.C49_filter"
   ],
   "note": ""
  },
  {
   "property": "C50",
   "status": "proved",
   "theorems": [
    "Skfolio.Moments.C50_nearest",
    "Skfolio.Moments.C50_set_covariance"
   ],
   "note": "Numerical routines by contract: is_cholesky_dec and eigh are exact (numerics_exist shows the contract can be met)."
  },
  {
   "property": "C51",
   "status": "proved",
   "theorems": [
    "Skfolio.Copula.C51_clayton",
    "Skfolio.Copula.C51_gaussian",
    "Skfolio.Copula.C51_student",
    "Skfolio.Copula.C51_gaussian_copula",
    "Skfolio.Copula.C51_student_copula",
    "Skfolio.Copula.C51_gumbel",
    "Skfolio.Copula.C51_joe"
   ],
   "note": "ndtr, ndtri, stdtr, stdtrit by contract (shown satisfiable: the normal law, and t with one and two degrees of freedom). The cdf methods of the Gaussian and t copulas (scipy quadrature) are not modelled; C51_gaussian_copula and C51_student_copula construct the unique copula with the conditional distributions of the code, whose distribution function is the double integral of exp(score). For Gumbel the density holds up to the clip at 1 - 1e-9. The stopping rule of the Newton iterations (50 steps or 1e-8) is replaced by the limit."
  },
  {
   "property": "C52",
   "status": "proved",
   "theorems": [
    "Skfolio.Copula.C52_tail_concentration",
    "Skfolio.Copula.C52_reflection"
   ],
   "note": ""
  },
  {
   "property": "C53",
   "status": "proved",
   "theorems": [
    "Skfolio.Vine.C53_number_of_edges",
    "Skfolio.Vine.C53_conditioned",
    "Skfolio.Vine.C53_data",
    "Skfolio.Vine.C53_score",
    "Skfolio.Vine.C53_every_pair"
   ],
   "note": "The minimum spanning tree of scipy enters as a contract (a spanning forest of the eligible pairs, ordered by rows); such forests are shown to exist."
  },
  {
   "property": "C54",
   "status": "partial",
   "theorems": [
    "Skfolio.Vine.C54_sampling_partial",
    "Skfolio.Vine.C54_exchangeable_partial",
    "Skfolio.Vine.C54_rosenblatt_partial",
    "Skfolio.Vine.C54_rotated_counterexample"
   ],
   "note": "The property as stated is false for copulas that are not exchangeable (Archimedean copulas rotated by 90 or 270 degrees): C54_rotated_counterexample. C54_sampling_partial proves it for all vines whose copulas are exchangeable on the right branches that the order uses; C54_exchangeable_partial for exchangeable copulas. Missing: non-exchangeable copulas on right branches, where the code is wrong."
  },
  {
   "property": "C57",
   "status": "partial",
   "theorems": [
    "Skfolio.Nested.C57_nco_aligned",
    "Skfolio.Nested.C57_nco_returns",
    "Skfolio.Nested.C57_stacking_aligned",
    "Skfolio.Nested.C57_prefit_returns",
    "Skfolio.Nested.C57_interleaved_counterexample"
   ],
   "note": "Proved for splitters whose test sets are runs of consecutive observations, for combinatorial purged cross-validation without lost observations, and without cross-validation. False for interleaved test sets (C57_interleaved_counterexample). The theorems carry the hypothesis Consecutive."
  },
  {
   "property": "C58",
   "status": "partial",
   "theorems": [
    "Skfolio.Nested.C58_targets_only_singletons_partial"
   ],
   "note": "False: C58_targets_only_singletons_partial shows that fit(X, y) succeeds exactly when all clusters are single assets, so that no inner estimator is fitted. Targets given as a pandas Series are not modelled."
  },
  {
   "property": "C59",
   "status": "partial",
   "theorems": [
    "Skfolio.Nested.C59_set_params_partial",
    "Skfolio.Nested.C59_replace_raises"
   ],
   "note": "False: replacing an estimator by name always raises (C59_replace_raises). C59_set_params_partial proves what holds for the other parameters."
  },
  {
   "property": "C55",
   "status": "partial",
   "theorems": [
    "Skfolio.Vine.C55_back_strictMono",
    "Skfolio.Vine.C55_back",
    "Skfolio.Vine.C55_conditioned",
    "Skfolio.Vine.C55_value_probability",
    "Skfolio.Vine.C55_truncated_partial",
    "Skfolio.Vine.C55_free",
    "Skfolio.Vine.C55_high_bounds",
    "Skfolio.Vine.C55_errors",
    "Skfolio.Vine.C55_open_bounds"
   ],
   "note": "Proved: values and bounds are kept, the probabilities passed to the vine, the exceptions. C55_truncated_partial proves the truncated distribution for fitted marginals and bounds up to 200 % for log transformed assets. Missing because false: bounds above 200 % (C55_high_bounds: all samples equal the lower bound) and open bounds without fitted marginals (C55_errors: OverflowError). The checks of the dictionary's keys are not modelled."
  },
  {
   "property": "C56",
   "status": "proved",
   "theorems": [
    "Skfolio.Vine.C56_central_nodes",
    "Skfolio.Vine.C56_centre",
    "Skfolio.Vine.C56_single",
    "Skfolio.Vine.C56_two",
    "Skfolio.Vine.C56_sampling_order",
    "Skfolio.Vine.C56_conditional_sampling",
    "Skfolio.Vine.C56_exists",
    "Skfolio.Vine.C56_part_of_central"
   ],
   "note": "scipy's minimum_spanning_tree enters as its contract (spanning forest with the largest sum); such forests are shown to exist. The copulas of the sampling theorem are exchangeable (see C54). Conditioning on a proper part of the central assets, for which the code gives no warning, need not be exact: C56_part_of_central."
  },
  {
   "property": "C60",
   "status": "proved",
   "theorems": [
    "Skfolio.Convex.C60_first_lower_partial_moment",
    "Skfolio.Convex.C60_variance",
    "Skfolio.Convex.C60_budgets",
    "Skfolio.Convex.C60_sufficient",
    "Skfolio.Convex.C60_previous_weights",
    "Skfolio.Convex.C60_subgradient",
    "Skfolio.Convex.C60_contributions"
   ],
   "note": "Solver as contract (reports an optimum). Where the measure has no partial derivative (CVaR, drawdowns) the contributions are those of a subgradient: C60_subgradient; where it has, C60_contributions. C60_previous_weights: the property fails with transaction costs and previous weights. For the first lower partial moment any risk-free rate, costs and previous weights (C60_first_lower_partial_moment)."
  },
  {
   "property": "C61",
   "status": "proved",
   "theorems": [
    "Skfolio.Convex.C61_cross",
    "Skfolio.Convex.C61_maximum",
    "Skfolio.Convex.C61_at_least_one",
    "Skfolio.Convex.C61_portfolio_diversification",
    "Skfolio.Convex.C61_single_asset",
    "Skfolio.Convex.C61_risk_free_rate",
    "Skfolio.Convex.C61_min_return"
   ],
   "note": "Solver as contract. C61_risk_free_rate, C61_min_return and C61_single_asset show where the class departs from its documentation."
  },
  {
   "property": "C62",
   "status": "proved",
   "theorems": [
    "Skfolio.Convex.C62_bound",
    "Skfolio.Convex.C62_attained",
    "Skfolio.Convex.C62_approached",
    "Skfolio.Convex.C62_optimal",
    "Skfolio.Convex.C62_radius_zero"
   ],
   "note": "Solver as contract; no custom objectives and constraints; no mixed-integer constraints in C62_optimal. Soundness for every feasible point (C62_bound), exactness by a finite convex alternative (C62_attained, C62_approached)."
  },
  {
   "property": "C63",
   "status": "proved",
   "theorems": [
    "Skfolio.Uncertainty.C63_worst_case",
    "Skfolio.Uncertainty.C63_min_return",
    "Skfolio.Uncertainty.C63_maximize_return"
   ],
   "note": "Radius and root of the shape as inputs (chi-squared quantile and sqrtm as contracts). Solver as contract."
  },
  {
   "property": "C64",
   "status": "proved",
   "theorems": [
    "Skfolio.Uncertainty.C64_bound",
    "Skfolio.Uncertainty.C64_worst_case",
    "Skfolio.Uncertainty.C64_documented",
    "Skfolio.Uncertainty.C64_minimum",
    "Skfolio.Uncertainty.C64_ratio_limit",
    "Skfolio.Uncertainty.C64_ratio",
    "Skfolio.Uncertainty.C64_ratio_not_sharpe"
   ],
   "note": "Exact duality for every positive definite centre (C64_worst_case), with the documented inverse form for shapes that do not distinguish transposed entries (C64_documented). When the ratio is maximised, max_variance holds for the worst variance (C64_ratio_limit), and what is maximised is excess return over the worst variance (C64_ratio) - not, as without the set, the Sharpe ratio: with a set of radius zero the weights differ (C64_ratio_not_sharpe). sqrtm and the solver as contracts."
  },
  {
   "property": "C65",
   "status": "proved",
   "theorems": [
    "Skfolio.Uncertainty.C65_commutation",
    "Skfolio.Uncertainty.C65_covariance_shape",
    "Skfolio.Uncertainty.C65_covariance_shape_diagonal",
    "Skfolio.Uncertainty.C65_mu_shape",
    "Skfolio.Uncertainty.C65_covariance_set"
   ],
   "note": "The documented factor 1 / (T - 1) is 1 / T in the code, and with diagonal=False the shape of the covariance is still diagonal: the theorems state what the code gives relative to the Wishart covariance."
  },
  {
   "property": "C66",
   "status": "proved",
   "theorems": [
    "Skfolio.Uncertainty.C66_centre",
    "Skfolio.Uncertainty.C66_shapes",
    "Skfolio.Uncertainty.C66_transposed",
    "Skfolio.Uncertainty.C66_singular"
   ],
   "note": "The bootstrap samples are inputs (see C29). With diagonal=False the bootstrapped covariance shape is singular (C66_singular), so the documented inverse does not exist."
  },
  {
   "property": "C67",
   "status": "proved",
   "theorems": [
    "Skfolio.Convex.C67_minimize_risk",
    "Skfolio.Convex.C67_maximize_return",
    "Skfolio.Convex.C67_maximize_utility"
   ],
   "note": "Solver as contract (IsOptimum). EVaR and EDaR limits are compared with portfolios strictly within; positions up to 1000 with mixed-integer limits (big M)."
  },
  {
   "property": "C68",
   "status": "proved",
   "theorems": [
    "Skfolio.Convex.C68_equal_returns",
    "Skfolio.Convex.C68_targets",
    "Skfolio.Convex.C68_points",
    "Skfolio.Convex.C68_monotone",
    "Skfolio.Convex.C68_efficient",
    "Skfolio.Convex.C68_last",
    "Skfolio.Convex.C68_attainable",
    "Skfolio.Convex.C68_unattainable"
   ],
   "note": "C68_efficient for problems without mixed-integer limits. When the first target exceeds the greatest return no problem is solvable (C68_unattainable, C68_equal_returns): C68_monotone, C68_efficient and C68_attainable have this hypothesis."
  },
  {
   "property": "C69",
   "status": "partial",
   "theorems": [
    "Skfolio.Convex.C69_aligned",
    "Skfolio.Convex.C69_single",
    "Skfolio.Convex.C69_failure_raises",
    "Skfolio.Convex.C69_failure_drops",
    "Skfolio.Convex.C69_length_check_partial",
    "Skfolio.Convex.C69_lengths"
   ],
   "note": "The check of equal lengths only refuses empty lists (C69_length_check_partial): longer lists are cut, shorter ones raise IndexError (C69_lengths). Alignment and failures are proved for equal lengths; with raise_on_failure=False failed problems are dropped (C69_failure_drops)."
  },
  {
   "property": "C70",
   "status": "partial",
   "theorems": [
    "Skfolio.Convex.C70_return",
    "Skfolio.Convex.C70_risk",
    "Skfolio.Convex.C70_objective",
    "Skfolio.Convex.C70_max_return_risk",
    "Skfolio.Convex.C70_regularization",
    "Skfolio.Convex.C70_worst_case_variance"
   ],
   "note": "Proved for the risk when the objective depends on it. Under MAXIMIZE_RETURN the reported risk is arbitrary (C70_max_return_risk); the quadratic penalty and the worst-case variance are reported with a wrong factor under MAXIMIZE_RATIO (C70_regularization, C70_worst_case_variance)."
  },
  {
   "property": "C71",
   "status": "partial",
   "theorems": [
    "Skfolio.Convex.C71_constraints_present",
    "Skfolio.Convex.C71_shared",
    "Skfolio.Convex.C71_refit",
    "Skfolio.Convex.C71_limits_void",
    "Skfolio.Convex.C71_risk_void",
    "Skfolio.Convex.C71_witness"
   ],
   "note": "Proved when no fit failed since the last complete one (C71_refit), and that sharing the variable is harmless (C71_shared). After a failed fit the drawdown constraints are missing: every limit is void (C71_limits_void, C71_witness) and the risk is unbounded (C71_risk_void)."
  },
  {
   "property": "C72",
   "status": "proved",
   "theorems": [
    "Skfolio.Inputs.C72_accepted",
    "Skfolio.Inputs.C72_by_name",
    "Skfolio.Inputs.C72_only_columns",
    "Skfolio.Inputs.C72_default",
    "Skfolio.Inputs.C72_convex",
    "Skfolio.Inputs.C72_hierarchical",
    "Skfolio.Inputs.C72_scalar_unchecked"
   ],
   "note": "For dictionaries with distinct keys (Python dictionaries). Numbers given for all assets are accepted unchecked, NaN included (C72_scalar_unchecked)."
  },
  {
   "property": "C73",
   "status": "partial",
   "theorems": [
    "Skfolio.Inputs.C73_membership",
    "Skfolio.Inputs.C73_accepted_iff",
    "Skfolio.Inputs.C73_missing_asset_refused",
    "Skfolio.Inputs.C73_constraints_partial",
    "Skfolio.Inputs.C73_cardinalities_partial",
    "Skfolio.Inputs.C73_witness"
   ],
   "note": "Proved when every asset has a group at every level except perhaps the last, which is also necessary (C73_accepted_iff). An asset that is missing from the dictionary makes every constraint refused as soon as another asset has two levels of groups (C73_missing_asset_refused, C73_witness)."
  },
  {
   "property": "C74",
   "status": "partial",
   "theorems": [
    "Skfolio.Inputs.C74_strict",
    "Skfolio.Inputs.C74_lenient",
    "Skfolio.Inputs.C74_in_range",
    "Skfolio.Inputs.C74_distinct_partial",
    "Skfolio.Inputs.C74_same_asset_twice"
   ],
   "note": "Everything but distinctness is proved for all lists (C74_strict, C74_lenient, C74_in_range); distinctness for lists of names or of indices. An asset given by name and by index is listed twice (C74_same_asset_twice)."
  },
  {
   "property": "C75",
   "status": "partial",
   "theorems": [
    "Skfolio.Inputs.C75_entry",
    "Skfolio.Inputs.C75_length",
    "Skfolio.Inputs.C75_unchanged",
    "Skfolio.Inputs.C75_distinct_iff",
    "Skfolio.Inputs.C75_not_distinct"
   ],
   "note": "C75_distinct_iff says exactly when the names are distinct; they are not for a, a, a_1 (C75_not_distinct)."
  },
  {
   "property": "C76",
   "status": "proved",
   "theorems": [
    "Skfolio.Moments.C76_windows",
    "Skfolio.Moments.C76_regression",
    "Skfolio.Moments.C76_no_look_ahead",
    "Skfolio.Moments.C76_target",
    "Skfolio.Moments.C76_oldest_ignored"
   ],
   "note": "For any window size of at least 1 and at least one window. The regressor is arbitrary."
  },
  {
   "property": "C77",
   "status": "partial",
   "theorems": [
    "Skfolio.Moments.C77_refit_regression",
    "Skfolio.Moments.C77_regression_vols",
    "Skfolio.Moments.C77_premium_vols",
    "Skfolio.Moments.C77_covariance",
    "Skfolio.Moments.C77_negative_accepted",
    "Skfolio.Moments.C77_input_changed",
    "Skfolio.Moments.C77_refit_differs",
    "Skfolio.Moments.C77_refit_partial"
   ],
   "note": "Volatilities and covariance are proved. Negative implied volatilities are accepted and reverse correlations (C77_negative_accepted); an array of floats is overwritten by fit (C77_input_changed), so that a second fit with a risk premium gives other variances (C77_refit_differs). Refitting gives the same result for inputs that are copied (C77_refit_partial), and for all inputs with the volatility regression and a linear regressor with an intercept, the default (C77_refit_regression)."
  },
  {
   "property": "C78",
   "status": "partial",
   "theorems": [
    "Skfolio.Moments.C78_cleaned",
    "Skfolio.Moments.C78_fit",
    "Skfolio.Moments.C78_succeeds",
    "Skfolio.Moments.C78_positive_definite",
    "Skfolio.Moments.C78_square_fails",
    "Skfolio.Moments.C78_objective_wrong"
   ],
   "note": "Variances, spectrum, trace, definiteness and success are proved for any threshold. With as many observations as assets the fit always fails (C78_square_fails). The objective evaluates the density of the eigenvalues at the values of the Marchenko-Pastur density instead of at the eigenvalues, so a perfect fit is not its minimum of 0 (C78_objective_wrong). The minimiser and the kernel density estimate are arbitrary functions."
  },
  {
   "property": "C79",
   "status": "partial",
   "theorems": [
    "Skfolio.Moments.C79_fit",
    "Skfolio.Moments.C79_none_removed",
    "Skfolio.Moments.C79_all_removed",
    "Skfolio.Moments.C79_too_many",
    "Skfolio.Moments.C79_perfectly_correlated",
    "Skfolio.Moments.C79_negative"
   ],
   "note": "Everything about a fit that succeeds is proved. n_markets is not checked: at least the number of assets (C79_too_many), or perfectly correlated assets with one market (C79_perfectly_correlated), give 0/0, and a negative number removes all but the smallest components (C79_negative)."
  },
  {
   "property": "C80",
   "status": "partial",
   "theorems": [
    "Skfolio.Predict.C80_predict",
    "Skfolio.Predict.C80_population",
    "Skfolio.Predict.C80_score",
    "Skfolio.Predict.C80_names_ignored",
    "Skfolio.Predict.C80_scalar_previous_weights",
    "Skfolio.Predict.C80_costs_agree",
    "Skfolio.Predict.C80_column_order"
   ],
   "note": "Portfolio, population and score are proved; the costs agree with those of the optimization when the costs are not negative. False: a number for previous_weights, documented and accepted by fit, makes every prediction fail (C80_scalar_previous_weights); predict ignores the names of the columns (C80_names_ignored), so that data with columns in another order are combined with the weights of other assets without an error (C80_column_order)."
  },
  {
   "property": "C81",
   "status": "partial",
   "theorems": [
    "Skfolio.ModelSelection.C81_values",
    "Skfolio.ModelSelection.C81_worth",
    "Skfolio.ModelSelection.C81_univariate_succeeds",
    "Skfolio.ModelSelection.C81_univariate",
    "Skfolio.ModelSelection.C81_nan_first",
    "Skfolio.ModelSelection.C81_bic_parsimony",
    "Skfolio.ModelSelection.C81_fixed_counted",
    "Skfolio.ModelSelection.C81_independent",
    "Skfolio.ModelSelection.C81_copula",
    "Skfolio.ModelSelection.C81_independent_candidate",
    "Skfolio.ModelSelection.C81_refit_stale",
    "Skfolio.ModelSelection.C81_rotation",
    "Skfolio.ModelSelection.C81_rotation_mle",
    "Skfolio.ModelSelection.C81_fixed_changes_selection"
   ],
   "note": "Selections proved if the first candidate's likelihood is not NaN. False: a first candidate with a NaN likelihood always wins (C81_nan_first); n_params counts loc and scale fixed by the caller, which changes choices (C81_fixed_counted, C81_fixed_changes_selection); IndependentCopula among the candidates raises an AttributeError (C81_independent_candidate); the copula returned keeps Kendall's tau of the selection, so that fitting it again to other data gives the old parameter (C81_refit_stale)."
  },
  {
   "property": "C82",
   "status": "partial",
   "theorems": [
    "Skfolio.Moments.C82_window",
    "Skfolio.Moments.C82_window_all",
    "Skfolio.Moments.C82_empirical_mu",
    "Skfolio.Moments.C82_ew_mu",
    "Skfolio.Moments.C82_ew_mu_constant",
    "Skfolio.Moments.C82_ew_mu_update",
    "Skfolio.Moments.C82_empirical_covariance",
    "Skfolio.Moments.C82_one_asset",
    "Skfolio.Moments.C82_ew_covariance",
    "Skfolio.Moments.C82_ew_alpha_one"
   ],
   "note": "Proved for every sample, window and number of assets, the covariances under the exact conditions for which an estimate exists. False at the ends: window 0 means all observations (C82_window_all); alpha = 1, documented and accepted by EWMu, makes EWCovariance fail or store NaN (C82_ew_alpha_one); EmpiricalCovariance fails for a single asset (C82_one_asset)."
  },
  {
   "property": "C83",
   "status": "partial",
   "theorems": [
    "Skfolio.Cluster.C83_round_sqrt",
    "Skfolio.Cluster.C83_optimal",
    "Skfolio.Cluster.C83_two_assets",
    "Skfolio.Cluster.C83_scale",
    "Skfolio.Cluster.C83_relabel",
    "Skfolio.Cluster.C83_documented_dispersion",
    "Skfolio.Cluster.C83_documented_index",
    "Skfolio.Cluster.C83_fit_max_clusters",
    "Skfolio.Cluster.C83_fit",
    "Skfolio.Cluster.C83_fit_two_assets",
    "Skfolio.Cluster.C83_refused",
    "Skfolio.Cluster.C83_negative_distance"
   ],
   "note": "Proved for every matrix, tree and number of assets from three, for the dispersion that the code computes (mean distance within each cluster). False: the documented dispersion is another and chooses other numbers (C83_documented_dispersion); the documented index is one less (C83_documented_index); two assets are an error without max_clusters, so that HierarchicalRiskParity and the other users of HierarchicalClustering() fail for two assets (C83_two_assets, C83_fit_two_assets); negative distances are accepted (C83_negative_distance)."
  },
  {
   "property": "C84",
   "status": "partial",
   "theorems": [
    "Skfolio.Distance.C84_succeeds",
    "Skfolio.Distance.C84_formula",
    "Skfolio.Distance.C84_symmetric",
    "Skfolio.Distance.C84_bounds",
    "Skfolio.Distance.C84_triangle",
    "Skfolio.Distance.C84_zero_iff",
    "Skfolio.Distance.C84_constant",
    "Skfolio.Distance.C84_bins",
    "Skfolio.Distance.C84_default_not_metric"
   ],
   "note": "Proved for every sample and every number of bins given by the user, normalised or not (C84_triangle uses the submodularity of the entropy); all but the triangle inequality also for the default number of bins. False for the default: the number of bins changes from pair to pair and the triangle inequality fails (C84_default_not_metric). False: the normalised codependence of an asset with constant returns is NaN, even with itself (C84_constant)."
  },
  {
   "property": "C85",
   "status": "partial",
   "theorems": [
    "Skfolio.Distance.C85_symmetric",
    "Skfolio.Distance.C85_bounds",
    "Skfolio.Distance.C85_formula",
    "Skfolio.Distance.C85_zero_iff",
    "Skfolio.Distance.C85_one_iff",
    "Skfolio.Distance.C85_affine",
    "Skfolio.Distance.C85_not_metric",
    "Skfolio.Distance.C85_threshold"
   ],
   "note": "Proved for every sample: bounds, symmetry, formula, exact characterisations of 0 (independence of the empirical distributions) and 1 (affine dependence), invariance; a codependence is NaN exactly if an asset has constant returns. False: threshold is ignored (C85_threshold), and the distance violates the triangle inequality (C85_not_metric)."
  },
  {
   "property": "C86",
   "status": "partial",
   "theorems": [
    "Skfolio.Portfolio.C86_defined",
    "Skfolio.Portfolio.C86_rolling",
    "Skfolio.Portfolio.C86_full_window",
    "Skfolio.Portfolio.C86_no_lookahead",
    "Skfolio.Portfolio.C86_annualised_ratio_iff"
   ],
   "note": "Proved for every measure but two: the rolling value is the attribute of the restricted portfolio, NaN before, no look-ahead. For ANNUALIZED_SHARPE_RATIO and ANNUALIZED_SORTINO_RATIO it is false unless risk_free_rate = 0 or the annualised factor is 1: C86_annualised_ratio_iff gives the exact condition."
  },
  {
   "property": "C87",
   "status": "partial",
   "theorems": [
    "Skfolio.Portfolio.C87_composition",
    "Skfolio.Portfolio.C87_composition_fails",
    "Skfolio.Portfolio.C87_multi_composition",
    "Skfolio.Portfolio.C87_multi_composition_fails",
    "Skfolio.Portfolio.C87_weights_per_observation",
    "Skfolio.Portfolio.C87_get_weight",
    "Skfolio.Portfolio.C87_weights_give_returns"
   ],
   "note": "Proved for all portfolios, except that a portfolio with the name \"asset\" has no composition (C87_composition_fails), and neither has a multi-period portfolio or population that contains it."
  },
  {
   "property": "C88",
   "status": "partial",
   "theorems": [
    "Skfolio.Portfolio.C88_sets_parameters",
    "Skfolio.Portfolio.C88_never_stale",
    "Skfolio.Portfolio.C88_invalid_name",
    "Skfolio.Portfolio.C88_returns_self_iff",
    "Skfolio.Portfolio.C88_raises_iff",
    "Skfolio.Portfolio.C88_not_atomic"
   ],
   "note": "Proved for all parameters that can be set, with the freshness of all measures. False: with parameters the call returns None and not the population (C88_returns_self_iff); `returns` and `observations` pass the check of names but are read-only, so that the call raises after changing the first portfolio (C88_not_atomic, C88_raises_iff)."
  },
  {
   "property": "C89",
   "status": "partial",
   "theorems": [
    "Skfolio.Copula.C89_gaussian",
    "Skfolio.Copula.C89_student",
    "Skfolio.Copula.C89_clayton",
    "Skfolio.Copula.C89_joe",
    "Skfolio.Copula.C89_gumbel",
    "Skfolio.Copula.C89_independent",
    "Skfolio.Copula.C89_concentration_partial",
    "Skfolio.Copula.C89_concentration_refuses",
    "Skfolio.Copula.C89_concentration_negative",
    "Skfolio.Copula.C89_concentration_above_one",
    "Skfolio.Copula.C89_concentration_ends"
   ],
   "note": "The tail dependence is proved for Clayton (theta > 0), Gumbel and Joe (theta > 1) in all four rotations, and for the independent, Gaussian and Student's t copulas (for the one copula with the conditional distributions of the code, C51_gaussian_copula and C51_student_copula). tail_concentration is right only for 1e-9 <= q <= 1 - 1e-9 (C89_concentration_partial): because the arguments are clipped, it is negative for 1 - 5e-10 < q < 1, above one for 0 < q < C(1e-9, 1e-9), and not finite at the accepted quantiles 0 and 1."
  },
  {
   "property": "C90",
   "status": "partial",
   "theorems": [
    "Skfolio.Copula.C90_gaussian",
    "Skfolio.Copula.C90_student",
    "Skfolio.Copula.C90_clayton",
    "Skfolio.Copula.C90_gumbel",
    "Skfolio.Copula.C90_joe_formula",
    "Skfolio.Copula.C90_joe",
    "Skfolio.Copula.C90_joe_two",
    "Skfolio.Copula.C90_elliptical_rho",
    "Skfolio.Copula.C90_argument_unchecked",
    "Skfolio.Copula.C90_constant_column",
    "Skfolio.Copula.C90_sign_false",
    "Skfolio.Copula.C90_turned",
    "Skfolio.Copula.C90_gaussian_tau",
    "Skfolio.Copula.C90_student_tau",
    "Skfolio.Copula.C90_sample_tau",
    "Skfolio.Copula.C90_sample_invariant"
   ],
   "note": "Proved for Clayton, Gumbel and Joe in absolute value: Kendall's tau of the fitted copula, the double integral, is the absolute value of the tau of the sample moved into the range of the family, times the sign of the rotation (C90_clayton, C90_gumbel, C90_joe), with the code's digamma formula for Joe shown to be the integral (C90_joe_formula). The sign is not that of the sample in general: C90_sign_false. A constant column gives the parameter NaN without an error (C90_constant_column), a kendall_tau outside [-1, 1] is accepted (C90_argument_unchecked), and the fit of the Joe copula cannot succeed for the tau 2 - pi^2/6, where _tau_diff divides by zero (C90_joe_two). For the elliptical copulas the whole claim is proved, with its sign: the unique copula with the conditional distribution functions of the code has Kendall's tau 2/pi arcsin(rho) (C90_gaussian_tau, C90_student_tau), and the fit chooses rho such that this is the tau of the sample moved into the range that |rho| <= 0.999 allows (C90_gaussian, C90_student, C90_elliptical_rho)."
  },
  {
   "property": "C91",
   "status": "partial",
   "theorems": [
    "Skfolio.Routing.C91_loading_matrix",
    "Skfolio.Routing.C91_final_estimator",
    "Skfolio.Routing.C91_synthetic_data",
    "Skfolio.Routing.C91_renamed_twice",
    "Skfolio.Routing.C91_shadowed",
    "Skfolio.Routing.C91_delivered_partial",
    "Skfolio.Routing.C91_unasked",
    "Skfolio.Routing.C91_synthetic_fails"
   ],
   "note": "Proved for every tree of estimators by induction (C91_delivered_partial): if each keyword passed is asked for by a nested estimator that is reached, fit succeeds, exactly the nested estimators are fitted and each call gets exactly what was asked for; otherwise it is refused (C91_unasked). Not reached are the loading matrix estimator of FactorModel, the outer estimator of the nested clusters, the final estimator of the stacking and the regressor of ImpliedCovariance: C91_loading_matrix, C91_final_estimator. SyntheticData fails on every keyword its distribution estimator asks for, wherever it is nested (C91_synthetic_fails, C91_synthetic_data). Renamed keywords can fail or reach the wrong estimator where they are passed on twice (C91_renamed_twice, C91_shadowed). Requests that are left unset are not modelled."
  },
  {
   "property": "C92",
   "status": "partial",
   "theorems": [
    "Skfolio.Convex.C92_call",
    "Skfolio.Convex.C92_bound_method",
    "Skfolio.Convex.C92_optional_parameter",
    "Skfolio.Convex.C92_constraints",
    "Skfolio.Convex.C92_minimize_risk",
    "Skfolio.Convex.C92_maximize_return",
    "Skfolio.Convex.C92_maximize_utility",
    "Skfolio.Convex.C92_ratio_partial",
    "Skfolio.Convex.C92_budget_partial",
    "Skfolio.Convex.C92_robust",
    "Skfolio.Convex.C92_ratio_constraint_violated",
    "Skfolio.Convex.C92_budget_constraint_violated"
   ],
   "note": "Proved for the three objectives of MeanRisk without ratio and for DistributionallyRobustCVaR. Where the problem is solved in scaled weights (MAXIMIZE_RATIO and RiskBudgeting) custom functions are evaluated at the scaled weights: proved for constraints that are cones and homogeneous objectives (C92_ratio_partial, C92_budget_partial), false otherwise (C92_ratio_constraint_violated, C92_budget_constraint_violated). The call is characterised (C92_call); bound methods are never accepted (C92_bound_method), and an optional second parameter is overwritten by the estimator (C92_optional_parameter). Contract: the solver reports an optimum."
  },
  {
   "property": "C93",
   "status": "proved",
   "theorems": [
    "Skfolio.Prior.C93_returns",
    "Skfolio.Prior.C93_moments",
    "Skfolio.Prior.C93_fits",
    "Skfolio.Prior.C93_refused",
    "Skfolio.Prior.C93_constant",
    "Skfolio.Prior.C93_same_noise"
   ],
   "note": "C93_returns, C93_moments, C93_fits, C93_refused, C93_constant. Finding proved as C93_same_noise: all constant columns share one noise, so two conditioned assets are perfectly correlated and the sample covariance is singular whatever the noise (it is then repaired by cov_nearest). The distribution estimator is any function from the returns and the sample size to a sample. The noise is drawn from the global random state, so a seeded distribution estimator does not make the prior reproducible (C93_constant gives the dependence on the noise)."
  },
  {
   "property": "C94",
   "status": "partial",
   "theorems": [
    "Skfolio.Prior.C94_rows",
    "Skfolio.Prior.C94_assets_alone",
    "Skfolio.Prior.C94_least_squares",
    "Skfolio.Prior.C94_least_squares_covariances",
    "Skfolio.Prior.C94_lasso_understates",
    "Skfolio.Prior.C94_default_partial"
   ],
   "note": "Proved for least squares with intercepts (C94_rows, C94_assets_alone, C94_least_squares, C94_least_squares_covariances). For the lasso, in particular the default LassoCV(fit_intercept=False), the moments are not those of the sample: C94_lasso_understates and C94_default_partial give the exact differences from the optimality of the regression; with intercepts the variance is always understated by 2T/(T-1) times penalty times the absolute loadings, without intercepts the mean of the residuals is lost and an asset for which no factor is selected has expected return zero. Contract: the regressor minimises its objective; the factor prior has the sample moments."
  },
  {
   "property": "C95",
   "status": "partial",
   "theorems": [
    "Skfolio.FitParams.C95_folds",
    "Skfolio.FitParams.C95_fit_and_predict",
    "Skfolio.FitParams.C95_refused",
    "Skfolio.FitParams.C95_target_refused",
    "Skfolio.FitParams.C95_accepted",
    "Skfolio.FitParams.C95_cluster_whole",
    "Skfolio.FitParams.C95_cluster_folds_partial",
    "Skfolio.FitParams.C95_cluster_columns",
    "Skfolio.FitParams.C95_cluster_by_name",
    "Skfolio.FitParams.C95_nco",
    "Skfolio.FitParams.C95_vector_refused"
   ],
   "note": "Proved for cross_val_predict (C95_folds, C95_fit_and_predict, C95_refused) and for the whole-sample fits of clusters (C95_cluster_whole). False in the cross-validation of clusters, where the data have the columns of the cluster and the keywords all columns (C95_cluster_folds_partial, C95_nco, C95_cluster_columns); estimators that look for columns by name are not affected (C95_cluster_by_name). Keywords with one dimension are refused in nested clusters (C95_vector_refused)."
  },
  {
   "property": "C96",
   "status": "proved",
   "theorems": [
    "Skfolio.Vine.C96_values",
    "Skfolio.Vine.C96_fresh",
    "Skfolio.Vine.C96_dropped"
   ],
   "note": "C96_values and C96_fresh: same values or exception as the model of C54 that keeps all values, from any state; C96_dropped: what is still stored at the end was never read or belongs to a terminal node (which is in no tree and does not count)."
  },
  {
   "property": "C97",
   "status": "partial",
   "theorems": [
    "Skfolio.Distance.C97_metric",
    "Skfolio.Distance.C97_zero",
    "Skfolio.Distance.C97_invariant",
    "Skfolio.Distance.C97_covariance",
    "Skfolio.Distance.C97_nan",
    "Skfolio.Distance.C97_one_asset",
    "Skfolio.Distance.C97_fractional",
    "Skfolio.Distance.C97_half_triangle_false"
   ],
   "note": "Proved for all returns without a constant column and all positive integer powers (C97_metric, C97_zero, C97_covariance) and, for all returns and powers, C97_invariant. False of the code otherwise: NaN for a constant asset (C97_nan, exactly there), a number instead of a matrix for one asset with PearsonDistance (C97_one_asset), NaN everywhere for fractional powers without absolute values (C97_fractional), no triangle inequality for powers below 1 (C97_half_triangle_false)."
  },
  {
   "property": "C98",
   "status": "partial",
   "theorems": [
    "Skfolio.Vine.C98_kendall",
    "Skfolio.Vine.C98_kendall_ranks",
    "Skfolio.Vine.C98_kendall_extreme",
    "Skfolio.Vine.C98_wasserstein_pairing",
    "Skfolio.Vine.C98_wasserstein_zero",
    "Skfolio.Vine.C98_wasserstein_any_tree"
   ],
   "note": "Proved for Kendall's tau (C98_kendall, C98_kendall_ranks, C98_kendall_extreme). False for WASSERSTEIN_DISTANCE: reordering the observations of every variable in its own way changes nothing (C98_wasserstein_pairing, C98_wasserstein_zero), and for pseudo-observations without ties every spanning tree is a possible choice (C98_wasserstein_any_tree). Nothing is claimed about the nearest neighbour estimate of the mutual information; central assets are C56."
  },
  {
   "property": "C99",
   "status": "partial",
   "theorems": [
    "Skfolio.Portfolio.Pickle.C99_portfolio",
    "Skfolio.Portfolio.Pickle.C99_measures",
    "Skfolio.Portfolio.Pickle.C99_multi",
    "Skfolio.Portfolio.Pickle.C99_multi_history",
    "Skfolio.Portfolio.Pickle.C99_overwritten_data_false",
    "Skfolio.Portfolio.Pickle.C99_assigned_measure_lost",
    "Skfolio.Portfolio.Pickle.C99_append_then_reload_false"
   ],
   "note": "Proved for Portfolio (C99_portfolio), for the measures of any portfolio (C99_measures) and, for a MultiPeriodPortfolio that is the concatenation of its portfolios, with the exact condition (C99_multi, C99_multi_history). False otherwise: a period appended on the last date of the previous one with check_observations_order makes reloading raise (C99_append_then_reload_false), an array overwritten by the caller gives other returns (C99_overwritten_data_false), measures assigned by the user are lost (C99_assigned_measure_lost)."
  },
  {
   "property": "C100",
   "status": "partial",
   "theorems": [
    "Skfolio.Nested.Address.C100_validate",
    "Skfolio.Nested.Address.C100_get",
    "Skfolio.Nested.Address.C100_set_nested",
    "Skfolio.Nested.Address.C100_set_get",
    "Skfolio.Nested.Address.C100_set_listed",
    "Skfolio.Nested.Address.C100_set_own",
    "Skfolio.Nested.Address.C100_replace_raises",
    "Skfolio.Nested.Address.C100_set_unknown",
    "Skfolio.Nested.Address.C100_trailing_underscore_false",
    "Skfolio.Nested.Address.C100_hidden_argument",
    "Skfolio.Nested.Address.C100_shared_false"
   ],
   "note": "Proved for names that do not end with an underscore and estimators that are different objects (C100_get, C100_set_nested, C100_set_get, C100_set_listed, C100_set_own, C100_set_unknown, C100_validate). False otherwise: fit accepts names ending with an underscore, whose listed addresses set_params refuses (C100_trailing_underscore_false); one estimator under two names changes under both (C100_shared_false); estimators cannot be replaced by name (C100_replace_raises, C59)."
  },
  {
   "property": "C101",
   "status": "partial",
   "theorems": [
    "Skfolio.Cache.C101_exact",
    "Skfolio.Cache.C101_transparent",
    "Skfolio.Cache.C101_once",
    "Skfolio.Cache.C101_minus_one_false",
    "Skfolio.Cache.C101_keyword_false",
    "Skfolio.Cache.C101_array_raises"
   ],
   "note": "C101_exact says what every call returns; C101_transparent and C101_once give the claim for arguments that can be hashed if hashing does not confuse calls with different results. False otherwise: -1 and -2 have the same hash in CPython, whatever the other hashes are (C101_minus_one_false); a keyword argument is confused with two positional ones (C101_keyword_false); an array as minimum acceptable return raises TypeError although it is documented (C101_array_raises). Within one fit the library itself uses one value of min_acceptable_return, so that the first does not show."
  },
  {
   "property": "C102",
   "status": "partial",
   "theorems": [
    "Skfolio.Portfolio.MultiArith.C102_unary",
    "Skfolio.Portfolio.MultiArith.C102_rounding",
    "Skfolio.Portfolio.MultiArith.C102_per_period",
    "Skfolio.Portfolio.MultiArith.C102_sum",
    "Skfolio.Portfolio.MultiArith.C102_linear",
    "Skfolio.Portfolio.MultiArith.C102_parameters_lost",
    "Skfolio.Portfolio.MultiArith.C102_floor_raises",
    "Skfolio.Portfolio.MultiArith.C102_excess_witness"
   ],
   "note": "The periods and the returns are as claimed (C102_unary, C102_rounding, C102_per_period, C102_sum, C102_linear). False: the parameters of the measures and the name are reset to their defaults by every operator (C102_parameters_lost, C102_excess_witness), and floor/trunc always raise TypeError (C102_floor_raises)."
  },
  {
   "property": "C103",
   "status": "partial",
   "theorems": [
    "Skfolio.Display.C103_close",
    "Skfolio.Display.C103_order",
    "Skfolio.Display.C103_zero",
    "Skfolio.Display.C103_decimals",
    "Skfolio.Display.C103_infinite_raises"
   ],
   "note": "False for infinite numbers, which raise OverflowError (C103_infinite_raises, an equivalence); everything else is proved. Exact real arithmetic: the rounding of x*100 and of log10 and negative zero are not modelled."
  },
  {
   "property": "C104",
   "status": "partial",
   "theorems": [
    "Skfolio.Display.C104_rows",
    "Skfolio.Display.C104_formatted",
    "Skfolio.Display.C104_added_rows",
    "Skfolio.Display.C104_infinite_raises",
    "Skfolio.Display.C104_percent",
    "Skfolio.Display.C104_levels",
    "Skfolio.Display.C104_level_false"
   ],
   "note": "False when a measure is infinite: the formatted summary raises (C104_infinite_raises, an equivalence); and the level is rounded to whole percents, so 99.9% is named 100% (C104_level_false). Rows, values and names otherwise proved for all portfolios."
  },
  {
   "property": "C105",
   "status": "proved",
   "theorems": [
    "Skfolio.Validation.C105_windows",
    "Skfolio.Validation.C105_causal",
    "Skfolio.Validation.C105_weights",
    "Skfolio.Validation.C105_extend",
    "Skfolio.Validation.C105_period_causal",
    "Skfolio.Validation.C105_runs"
   ],
   "note": "Composes the models of C03-C05 and C08. Estimators are functions of the training rows (fixed random state). In period mode the dates are usable as in C05 (C05 lists the exceptions); splits with a training offset of pandas are in C05 only."
  },
  {
   "property": "C106",
   "status": "proved",
   "theorems": [
    "Skfolio.Measures.C106_order",
    "Skfolio.Measures.C106_order_tail",
    "Skfolio.Measures.C106_drawdown_order_matters",
    "Skfolio.Measures.C106_leverage",
    "Skfolio.Measures.C106_leverage_tail",
    "Skfolio.Measures.C106_leverage_drawdowns",
    "Skfolio.Measures.C106_leverage_drawdown_measures",
    "Skfolio.Measures.C106_compounded_leverage_false",
    "Skfolio.Measures.C106_cash",
    "Skfolio.Measures.C106_cash_tail",
    "Skfolio.Measures.C106_fixed_target_false",
    "Skfolio.Measures.C106_deviations",
    "Skfolio.Measures.C106_skew_kurtosis",
    "Skfolio.Measures.C106_symmetric_no_skew",
    "Skfolio.Measures.C106_entropic"
   ],
   "note": "Exact arithmetic. Limits are theorems: drawdowns depend on the order (C106_drawdown_order_matters), compounded drawdowns do not scale (C106_compounded_leverage_false), a minimum acceptable return that stays put breaks the invariance under cash (C106_fixed_target_false). The EVaR search is not modelled (C46): the statement is for the entropic risk at each risk aversion."
  },
  {
   "property": "C107",
   "status": "partial",
   "theorems": [
    "Skfolio.Portfolio.FromAssets.C107_mean",
    "Skfolio.Portfolio.FromAssets.C107_variance",
    "Skfolio.Portfolio.FromAssets.C107_variance_default",
    "Skfolio.Portfolio.FromAssets.C107_variance_shape",
    "Skfolio.Portfolio.FromAssets.C107_diversification_ratio",
    "Skfolio.Portfolio.FromAssets.C107_diversification",
    "Skfolio.Portfolio.FromAssets.C107_single_asset_below_one",
    "Skfolio.Portfolio.FromAssets.C107_sric"
   ],
   "note": "Finding: `diversification` divides the population volatilities (`np.std`, ddof 0) by the sample volatility of the portfolio (ddof 1): it is sqrt((T-1)/T) times the diversification ratio (C107_diversification), below 1 for a portfolio of one asset (C107_single_asset_below_one). The ratio itself is at least 1 (C107_diversification_ratio). Real arithmetic; no missing returns (C24)."
  },
  {
   "property": "C108",
   "status": "proved",
   "theorems": [
    "Skfolio.Convex.C108_distributionally_robust",
    "Skfolio.Convex.C108_weight_constraints",
    "Skfolio.Convex.C108_mean_risk",
    "Skfolio.Convex.C108_refused",
    "Skfolio.Convex.C108_maximum_diversification",
    "Skfolio.Convex.C108_risk_budgeting",
    "Skfolio.Convex.C108_naive",
    "Skfolio.Hierarchical.C108_hrp",
    "Skfolio.Hierarchical.C108_herc_unbounded",
    "Skfolio.Hierarchical.C108_herc"
   ],
   "note": "About the set of optimal solutions: when there are several, which one a solver returns may depend on the order. Prior estimators are taken to commute with the permutation (their results are data of the model). Hierarchical: from the clustering on; C108_herc takes the solver of minimize_relative_weight_deviation to commute with the renumbering (it minimises a strictly convex function). Real arithmetic; solver by its contract."
  },
  {
   "property": "C109",
   "status": "proved",
   "theorems": [
    "Skfolio.Convex.C109_distributionally_robust",
    "Skfolio.Measures.C109_moments",
    "Skfolio.Measures.C109_deviations",
    "Skfolio.Measures.C109_gini",
    "Skfolio.Measures.C109_tail",
    "Skfolio.Measures.C109_entropic",
    "Skfolio.Measures.C109_evar",
    "Skfolio.Measures.C109_drawdowns",
    "Skfolio.Measures.C109_edar",
    "Skfolio.Measures.C109_assets",
    "Skfolio.Measures.C109_var_false",
    "Skfolio.Measures.C109_compounded_false"
   ],
   "note": "EVaR and EDaR are the greatest lower bound of the entropic risk measures over the risk aversions (the search of `evar` is not modelled, see C46). VaR and compounded drawdowns are not in the claim; C109_var_false and C109_compounded_false show why. C109_distributionally_robust: under the conditions of C62. Real arithmetic."
  },
  {
   "property": "C110",
   "status": "proved",
   "theorems": [
    "Skfolio.Measures.C110_mean",
    "Skfolio.Measures.C110_fixed_target",
    "Skfolio.Measures.C110_tail",
    "Skfolio.Measures.C110_drawdowns",
    "Skfolio.Measures.C110_drawdown_measures",
    "Skfolio.Measures.C110_two_sided_false"
   ],
   "note": "Measures of deviation from the mean (among them semi-variance with the default target) are not in the claim: C110_two_sided_false. Real arithmetic."
  },
  {
   "property": "C111",
   "status": "proved",
   "theorems": [
    "Skfolio.Convex.C111_risk_budgeting",
    "Skfolio.Convex.C111_risk_budgeting_reordered",
    "Skfolio.Convex.C111_risk_budgeting_equal",
    "Skfolio.Convex.C111_maximum_diversification",
    "Skfolio.Convex.C111_regularised",
    "Skfolio.Convex.C111_variance",
    "Skfolio.Convex.C111_standard_deviation",
    "Skfolio.Convex.C111_maximum_sharpe",
    "Skfolio.Convex.C111_reordered",
    "Skfolio.Convex.C111_equal_treatment",
    "Skfolio.Convex.C111_twins_false"
   ],
   "note": "The solver is the contract of C18 (an optimum of the problem as modelled), in real arithmetic. C111_twins_false shows the case without uniqueness in MeanRisk; RiskBudgeting (C111_risk_budgeting) under the conditions of C60."
  },
  {
   "property": "C112",
   "status": "proved",
   "theorems": [
    "Skfolio.Convex.C112_distributionally_robust",
    "Skfolio.Convex.C112_robust_not_binding",
    "Skfolio.Convex.C112_feasible",
    "Skfolio.Convex.C112_objective",
    "Skfolio.Convex.C112_not_binding",
    "Skfolio.Convex.C112_maximize_ratio",
    "Skfolio.Convex.C112_minimize_risk",
    "Skfolio.Convex.C112_maximize_return",
    "Skfolio.Convex.C112_maximize_utility"
   ],
   "note": "If the looser problem has cardinality or threshold limits: for positions up to the big M of 1000. For the ratio the hypotheses of C18 (no tracking error limit, no limit on variance or semi-variance, penalties of the degree of the measure). DistributionallyRobustCVaR: no cardinality and threshold limits, the conditions of C62."
  },
  {
   "property": "C113",
   "status": "proved",
   "theorems": [
    "Skfolio.Convex.C113_robust_total_loss",
    "Skfolio.Convex.C113_mean_risk",
    "Skfolio.Convex.C113_mean_risk_ratio",
    "Skfolio.Convex.C113_risk_budgeting",
    "Skfolio.Convex.C113_inverse_volatility",
    "Skfolio.Hierarchical.C113_hrp",
    "Skfolio.Hierarchical.C113_herc"
   ],
   "note": "For the ratio without limits on the tracking error or on variance and semi-variance (which the code does not homogenise, C18), without cardinalities, with penalties of the degree of the measure, and with bounds on the weights that leave room for some asset. Hierarchical optimisers: for any risk that is multiplied by a number other than 0 (clustering and leaf order given; the distance does not depend on the unit). C113_robust_total_loss: the finding about DistributionallyRobustCVaR. Real arithmetic; solver by its contract."
  },
  {
   "property": "C114",
   "status": "proved",
   "theorems": [
    "Skfolio.Convex.C114_weight_constraints",
    "Skfolio.Convex.C114_mean_risk",
    "Skfolio.Convex.C114_risk_budgeting",
    "Skfolio.Convex.C114_distributionally_robust",
    "Skfolio.Convex.C114_zero_scale"
   ],
   "note": "Real arithmetic; solver by its contract. C114_zero_scale: a scale of 0 is accepted and then no limit on the weights is enforced. The worst-case variance is not part of C114_mean_risk."
  },
  {
   "property": "C115",
   "status": "proved",
   "theorems": [
    "Skfolio.Convex.C115_mean_risk",
    "Skfolio.Convex.C115_risk_budgeting",
    "Skfolio.Convex.C115_distributionally_robust",
    "Skfolio.Convex.C115_empirical_moments",
    "Skfolio.Convex.C115_window_order_matters",
    "Skfolio.Convex.C115_drawdown_order_matters"
   ],
   "note": "Real arithmetic; solver by its contract; optimisers as functions of the moments and returns of the prior. C115_drawdown_order_matters and C115_window_order_matters show that the exceptions are real."
  },
  {
   "property": "C116",
   "status": "proved",
   "theorems": [
    "Skfolio.Convex.C116_minimum_variance",
    "Skfolio.Convex.C116_risk_parity",
    "Skfolio.Convex.C116_maximum_diversification",
    "Skfolio.Hierarchical.C116_hrp"
   ],
   "note": "Real arithmetic; solver by its contract. HierarchicalRiskParity on the model of C21 with the default bounds 0 and 1."
  },
  {
   "property": "C117",
   "status": "proved",
   "theorems": [
    "Skfolio.Convex.C117_risk_aversion",
    "Skfolio.Convex.C117_l2",
    "Skfolio.Convex.C117_l1",
    "Skfolio.Convex.C117_utility_efficient",
    "Skfolio.Convex.C117_no_aversion",
    "Skfolio.Convex.C117_ratio_efficient"
   ],
   "note": "Real arithmetic; solver by its contract. For the ratio: the conditions of C18 and a non-negative risk of the portfolio compared with. Monotonicity of l1_coef and l2_coef: objectives other than the ratio."
  },
  {
   "property": "C118",
   "status": "proved",
   "theorems": [
    "Skfolio.Convex.C118_risk_convex",
    "Skfolio.Convex.C118_frontier",
    "Skfolio.Convex.C118_return_concave"
   ],
   "note": "Real arithmetic; solver by its contract; continuous problems (no cardinality or threshold limits, with which the frontier need not be convex)."
  },
  {
   "property": "C119",
   "status": "proved",
   "theorems": [
    "Skfolio.Convex.C119_uncertainty",
    "Skfolio.Convex.C119_uncertainty_value",
    "Skfolio.Convex.C119_no_uncertainty",
    "Skfolio.Convex.C119_costs",
    "Skfolio.Convex.C119_costs_utility",
    "Skfolio.Convex.C119_radius"
   ],
   "note": "Real arithmetic; solver by its contract. Uncertainty of the portfolio and trading: MAXIMIZE_RETURN and MAXIMIZE_UTILITY without minimum returns (for the costs also without risk limits, and for the utility a measure of the returns before costs); the worst case: every objective other than the ratio, all limits."
  },
  {
   "property": "C120",
   "status": "proved",
   "theorems": [
    "Skfolio.Convex.C120_distributionally_robust",
    "Skfolio.Convex.C120_risk",
    "Skfolio.Convex.C120_return",
    "Skfolio.Convex.C120_within",
    "Skfolio.Convex.C120_minimize_risk",
    "Skfolio.Convex.C120_maximize_return",
    "Skfolio.Convex.C120_maximize_utility",
    "Skfolio.Convex.C120_ratio"
   ],
   "note": "Real arithmetic; solver by its contract. For the ratio: the conditions of C18, measures other than EVaR and EDaR, no integer constraints. With cardinality or threshold limits the portfolios compared have positions up to 1000 (the big M). C120_distributionally_robust: under the conditions of C62."
  },
  {
   "property": "C121",
   "status": "proved",
   "theorems": [
    "Skfolio.Convex.C121_ratio",
    "Skfolio.Convex.C121_risk",
    "Skfolio.Convex.C121_return",
    "Skfolio.Convex.C121_within",
    "Skfolio.Convex.C121_best"
   ],
   "note": "Real arithmetic; solver by its contract. The prior model is part of the input: expected returns are shifted and the covariance is unchanged, as for every moment estimator that is translation equivariant. Ratio (C121_ratio): budget 1, no integer constraints, no tracking error, dispersion measures other than the first lower partial moment (whose target contains the risk-free rate)."
  },
  {
   "property": "C122",
   "status": "partial",
   "theorems": [
    "Skfolio.Clone.C122_splitter_changed",
    "Skfolio.Clone.C122_splitter",
    "Skfolio.Clone.C122_given",
    "Skfolio.Clone.C122_cross_val",
    "Skfolio.Clone.C122_clone",
    "Skfolio.Clone.C122_check"
   ],
   "note": "False as stated: fit of StackingOptimization and NestedClustersOptimization sets the random_state of the splitter passed as `cv` when it is None (C122_splitter_changed). Proved with that exception; splitters with a random state are unchanged. sklearn.clone is modelled, what fit computes is not."
  },
  {
   "property": "C123",
   "status": "proved",
   "theorems": [
    "Skfolio.Inputs.C123_default_names",
    "Skfolio.Inputs.C123_feature_names",
    "Skfolio.Inputs.C123_annualized",
    "Skfolio.Inputs.C123_annualized_members"
   ],
   "note": "Types of labels are identities with a __qualname__; no type other than str is named \"str\"."
  },
  {
   "property": "C124",
   "status": "proved",
   "theorems": [
    "Skfolio.Moments.C124_empirical_mu",
    "Skfolio.Moments.C124_ew_mu",
    "Skfolio.Moments.C124_empirical_covariance",
    "Skfolio.Moments.C124_empirical_covariance_shift",
    "Skfolio.Moments.C124_ew_covariance",
    "Skfolio.Moments.C124_gerber",
    "Skfolio.Moments.C124_gerber_fit",
    "Skfolio.Moments.C124_gerber_shift",
    "Skfolio.Moments.C124_shrunk_mu_shift",
    "Skfolio.Moments.C124_shrunk_mu_units",
    "Skfolio.Moments.C124_bodnar_shift"
   ],
   "note": "For estimates that need no repair (nearest=False, or positive definite); the shift of EmpiricalCovariance without that restriction. The exceptions that the statement leaves out are proved to be real: GerberCovariance under a shift (C124_gerber_shift) and Bodnar-Okhrin under a common shift (C124_bodnar_shift). ShrunkMu takes the covariance (and its eigenvalues) of its covariance estimator in the unit. Real arithmetic."
  },
  {
   "property": "C125",
   "status": "proved",
   "theorems": [
    "Skfolio.Convex.C125_utility",
    "Skfolio.Convex.C125_utility_optimum",
    "Skfolio.Convex.C125_ratio",
    "Skfolio.Convex.C125_two_funds",
    "Skfolio.Convex.C125_same_aversion",
    "Skfolio.Convex.C125_raw_capitalisations"
   ],
   "note": "No costs, fees, risk-free rate, penalties or uncertainty set. The conditions are needed: with the same risk aversion in both estimators other weights are returned (C125_same_aversion), and for the utility the weights must be normalised, so market capitalisations as suggested by the documentation of EquilibriumMu give other weights (C125_raw_capitalisations). Real arithmetic."
  },
  {
   "property": "C126",
   "status": "partial",
   "theorems": [
    "Skfolio.Equations.C126_unreadable_invisible",
    "Skfolio.Equations.C126_bound_partial",
    "Skfolio.Equations.C126_asset_bound_partial",
    "Skfolio.Equations.C126_hyphen_difference",
    "Skfolio.Equations.C126_hyphen_dropped",
    "Skfolio.Equations.C126_exponent_dropped",
    "Skfolio.Equations.C126_factor_dropped",
    "Skfolio.Equations.C126_numeric_name",
    "Skfolio.Equations.C126_hyphen_example"
   ],
   "note": "Proved for names without operator characters and without spaces at the ends and numbers without a sign inside that are not names themselves (C126_bound_partial, C126_asset_bound_partial). False otherwise: what a name with -, +, * or = (BRK-B) stands for has no effect on any constraint (C126_unreadable_invisible); \"a-b <= x\" bounds a difference if a and b are names (C126_hyphen_difference, C126_hyphen_example) and is dropped with a warning if a is not (C126_hyphen_dropped); so are \"a <= 1e-3\" and \"a*1e-3 <= x\" (C126_exponent_dropped, C126_factor_dropped); a name that is a number takes its place (C126_numeric_name). Texts without line breaks; Python's float is a parameter."
  },
  {
   "property": "C127",
   "status": "partial",
   "theorems": [
    "Skfolio.Portfolio.Plot.C127_portfolio_slice",
    "Skfolio.Portfolio.Plot.C127_portfolio_all",
    "Skfolio.Portfolio.Plot.C127_portfolio_positions",
    "Skfolio.Portfolio.Plot.C127_portfolio_log",
    "Skfolio.Portfolio.Plot.C127_portfolio_returns",
    "Skfolio.Portfolio.Plot.C127_start",
    "Skfolio.Portfolio.Plot.C127_population_all_partial",
    "Skfolio.Portfolio.Plot.C127_population_slice",
    "Skfolio.Portfolio.Plot.C127_population_positions",
    "Skfolio.Portfolio.Plot.C127_population_mixed",
    "Skfolio.Portfolio.Plot.C127_distribution_all",
    "Skfolio.Portfolio.Plot.C127_distribution_tags_partial",
    "Skfolio.Portfolio.Plot.C127_surface",
    "Skfolio.Portfolio.Plot.C127_fronts"
   ],
   "note": "Proved: the curves of one portfolio for every slice and array, and all errors (C127_portfolio_*); all curves of a population without idx, for portfolios whose observations are distinct (C127_population_all_partial, C127_population_mixed); distributions when the tags have equally many portfolios (C127_distribution_all, C127_distribution_tags_partial); fronts (C127_fronts). False: the idx of Population.plot_cumulative_returns selects portfolios, not observations: a slice raises or changes nothing (C127_population_slice), an array can put curves under the names of others (C127_population_positions); curves do not start at 0 or 1000 (C127_start); tags with different numbers of portfolios raise (C127_distribution_tags_partial); a surface with a ratio raises TypeError (C127_surface)."
  },
  {
   "property": "C128",
   "status": "partial",
   "theorems": [
    "Skfolio.Combinatorial.C128_index_table",
    "Skfolio.Combinatorial.C128_folds_table",
    "Skfolio.Combinatorial.C128_average_partial",
    "Skfolio.Combinatorial.C128_average_overstated",
    "Skfolio.Combinatorial.C128_summary",
    "Skfolio.Combinatorial.C128_summary_average_partial"
   ],
   "note": "Tables: C128_index_table, C128_folds_table. Summary: C128_summary; the average training size is exact without purge and embargo when the remainder fits into the last fold (C128_average_partial, C128_summary_average_partial). False otherwise: with purge or embargo it is larger than the average size of the training sets (C128_average_overstated)."
  },
  {
   "property": "C129",
   "status": "partial",
   "theorems": [
    "Skfolio.Cluster.Dendrogram.C129_heat_map_partial",
    "Skfolio.Cluster.Dendrogram.C129_duplicate_names",
    "Skfolio.Cluster.Dendrogram.C129_squares_partial",
    "Skfolio.Cluster.Dendrogram.C129_duplicate_names_fail",
    "Skfolio.Cluster.Dendrogram.C129_colours_partial",
    "Skfolio.Cluster.Dendrogram.C129_single_cluster"
   ],
   "note": "Heat map and squares proved for distinct names, colours for two clusters or more and monotone heights; the findings on duplicated names and on a single cluster are proved."
  },
  {
   "property": "C130",
   "status": "partial",
   "theorems": [
    "Skfolio.Copula.C130_archimedean",
    "Skfolio.Copula.C130_error",
    "Skfolio.Copula.C130_clayton_beats_tau",
    "Skfolio.Copula.C130_gumbel_beats_tau",
    "Skfolio.Copula.C130_joe_beats_tau",
    "Skfolio.Copula.C130_turned",
    "Skfolio.Copula.C130_gaussian",
    "Skfolio.Copula.C130_student_itau",
    "Skfolio.Copula.C130_student_partial"
   ],
   "note": "Proved for the Clayton, Gumbel, Joe and Gaussian copulas and for the degrees of freedom of the Student copula with itau=True, under the contract that minimize_scalar finds a minimum up to a tolerance; for the Student copula with itau=False only that it is not worse than its starting point, because L-BFGS-B is a local method."
  },
  {
   "property": "C131",
   "status": "partial",
   "theorems": [
    "Skfolio.Portfolio.Compare.C131_eq",
    "Skfolio.Portfolio.Compare.C131_gt",
    "Skfolio.Portfolio.Compare.C131_ge",
    "Skfolio.Portfolio.Compare.C131_preorder",
    "Skfolio.Portfolio.Compare.C131_nan_not_equal",
    "Skfolio.Portfolio.Compare.C131_asymm",
    "Skfolio.Portfolio.Compare.C131_cycle",
    "Skfolio.Portfolio.Compare.C131_sort_never_ends",
    "Skfolio.Portfolio.Compare.C131_contains",
    "Skfolio.Portfolio.Compare.C131_remove_partial",
    "Skfolio.Portfolio.Compare.C131_twins",
    "Skfolio.Portfolio.Compare.C131_mixed_measures"
   ],
   "note": "The operators are proved for the same fitness measures without NaN, and remove for distinct fitness; the findings on equal fitness, mixed measures and NaN are proved with witnesses."
  },
  {
   "property": "C132",
   "status": "proved",
   "theorems": [
    "Skfolio.Measures.C132_mean",
    "Skfolio.Measures.C132_tail",
    "Skfolio.Measures.C132_absolute",
    "Skfolio.Measures.C132_deviations",
    "Skfolio.Measures.C132_gini",
    "Skfolio.Measures.C132_drawdowns",
    "Skfolio.Measures.C132_drawdown_measures",
    "Skfolio.Measures.C132_weights",
    "Skfolio.Measures.C132_portfolios"
   ],
   "note": "Constants are attained by the examples (except the 2 of Gini's mean difference and of the semi-deviation around the mean). EVaR is the greatest lower bound of the entropic risk measures, not the value found by the bounded search. Compounded drawdowns are not covered: near a return of -1 they have no uniform bound."
  },
  {
   "property": "C133",
   "status": "proved",
   "theorems": [
    "Skfolio.Convex.C133_risk",
    "Skfolio.Convex.C133_return",
    "Skfolio.Convex.C133_minimize_risk",
    "Skfolio.Convex.C133_maximize_return",
    "Skfolio.Convex.C133_maximize_utility",
    "Skfolio.Convex.C133_long_only"
   ],
   "note": "The solver is modelled by its contract (an optimum). The semi-variance is excluded, as its change depends on its size; the ratio objective is excluded."
  },
  {
   "property": "C134",
   "status": "proved",
   "theorems": [
    "Skfolio.Prior.C134_scale_of_views",
    "Skfolio.Prior.C134_order_of_views",
    "Skfolio.Prior.C134_agreeing_views",
    "Skfolio.Prior.C134_linear_in_views",
    "Skfolio.Prior.C134_more_views",
    "Skfolio.Prior.C134_order_of_assets",
    "Skfolio.Prior.C134_repeated_view",
    "Skfolio.Prior.C134_repeated_certain_view"
   ],
   "note": "On the model of C34, from the picking matrix on; that equations are read correctly is C09-C11. Repeated views counting several times is recorded as a finding."
  },
  {
   "property": "C135",
   "status": "proved",
   "theorems": [
    "Skfolio.Convex.C135_stays",
    "Skfolio.Convex.C135_trades_pay",
    "Skfolio.Convex.C135_no_trade",
    "Skfolio.Convex.C135_minimum_risk_ignores_costs"
   ],
   "note": "The solver is modelled by its contract (an optimum). That costs have no effect where the risk is minimised is recorded as a finding."
  },
  {
   "property": "C136",
   "status": "proved",
   "theorems": [
    "Skfolio.Hierarchical.C136_hrp_one_asset",
    "Skfolio.Hierarchical.C136_hrp_two_assets",
    "Skfolio.Hierarchical.C136_herc_one_cluster",
    "Skfolio.Hierarchical.C136_hrp_copies_unequal",
    "Skfolio.Nested.C136_nco_single_assets",
    "Skfolio.Nested.C136_nco_one_cluster",
    "Skfolio.Nested.C136_stacking_agree",
    "Skfolio.Nested.C136_prefit_agree"
   ],
   "note": "Estimators are arbitrary functions from the data to weights, labels and dendrograms are arguments. C136_hrp_copies_unequal is the witness for what does not hold."
  },
  {
   "property": "C137",
   "status": "proved",
   "theorems": [
    "Skfolio.Convex.C137_proportions",
    "Skfolio.Convex.C137_default",
    "Skfolio.Convex.C137_no_exclusion",
    "Skfolio.Convex.C137_zero_budget"
   ],
   "note": "The solver is a contract (an optimum of the program as built). C137_zero_budget is the witness that the hypothesis of nonzero budgets is needed."
  },
  {
   "property": "C138",
   "status": "proved",
   "theorems": [
    "Skfolio.Convex.C138_risk",
    "Skfolio.Convex.C138_return",
    "Skfolio.Convex.C138_within",
    "Skfolio.Convex.C138_minimize_risk",
    "Skfolio.Convex.C138_maximize_return",
    "Skfolio.Convex.C138_maximize_utility",
    "Skfolio.Convex.C138_ratio",
    "Skfolio.Convex.C138_default_limits",
    "Skfolio.Convex.C138_l2_favours_copies",
    "Skfolio.Convex.C138_radius_favours_copies"
   ],
   "note": "For MAXIMIZE_RATIO: measures other than EVaR and EDaR, no integer constraints, portfolios with positive excess return and nonnegative risk (as in C18). Limits enter through LimitsAddUp, shown for the default limits. C138_l2_favours_copies is the witness for the L2 penalty. C138_radius_favours_copies: the worst case of DistributionallyRobustCVaR improves with copies."
  },
  {
   "property": "C139",
   "status": "partial",
   "theorems": [
    "Skfolio.Selection.C139_select_complete",
    "Skfolio.Selection.C139_select_non_expiring",
    "Skfolio.Selection.C139_drop_zero_variance",
    "Skfolio.Selection.C139_drop_correlated",
    "Skfolio.Selection.C139_one_asset",
    "Skfolio.Selection.C139_refused_again",
    "Skfolio.Selection.C139_k_extremes",
    "Skfolio.Selection.C139_non_dominated_first_front",
    "Skfolio.Selection.C139_non_dominated_min",
    "Skfolio.Selection.C139_tiny_weights"
   ],
   "note": "Fails for DropCorrelated when a single asset is left (C139_one_asset, C139_refused_again) and for SelectNonDominated when a candidate has a non-zero weight of at most 1e-5 (C139_tiny_weights); proved otherwise. The correlations, covariances, measures and fitnesses of the kept assets are those they had among all assets."
  },
  {
   "property": "C140",
   "status": "proved",
   "theorems": [
    "Skfolio.Validation.C140_paths",
    "Skfolio.Validation.C140_no_leak",
    "Skfolio.Validation.C140_error_iff"
   ],
   "note": "The estimator is a pure function from training rows to a state and from a state and test rows to a portfolio, as each split fits a clone."
  },
  {
   "property": "C141",
   "status": "proved",
   "theorems": [
    "Skfolio.Portfolio.Pop.C141_defined",
    "Skfolio.Portfolio.Pop.C141_mean_between",
    "Skfolio.Portfolio.Pop.C141_std_zero_iff",
    "Skfolio.Portfolio.Pop.C141_std_bounds",
    "Skfolio.Portfolio.Pop.C141_outliers",
    "Skfolio.Portfolio.Pop.C141_order",
    "Skfolio.Portfolio.Pop.C141_affine",
    "Skfolio.Portfolio.Pop.C141_add"
   ],
   "note": "Real arithmetic; measures that are NaN are not modelled."
  },
  {
   "property": "C142",
   "status": "proved",
   "theorems": [
    "Skfolio.Selection.C142_select_complete",
    "Skfolio.Selection.C142_select_non_expiring",
    "Skfolio.Selection.C142_drop_zero_variance",
    "Skfolio.Selection.C142_k_extremes",
    "Skfolio.Selection.C142_drop_correlated",
    "Skfolio.Selection.C142_second_dropped",
    "Skfolio.Selection.C142_non_dominated_first_front",
    "Skfolio.Selection.C142_non_dominated_min"
   ],
   "note": "Correlations, covariances, mean correlations, measures and fitnesses of the permuted data are the permuted ones (real arithmetic)."
  },
  {
   "property": "C143",
   "status": "partial",
   "theorems": [
    "Skfolio.Predict.C143_predict",
    "Skfolio.Predict.C143_nothing_sold",
    "Skfolio.Predict.C143_array_refused",
    "Skfolio.Predict.C143_sale_not_charged"
   ],
   "note": "Equal up to the costs of selling dropped assets (C143_predict); they are missing (C143_sale_not_charged), and arrays are refused (C143_array_refused)."
  },
  {
   "property": "C144",
   "status": "proved",
   "theorems": [
    "Skfolio.Measures.C144_averages",
    "Skfolio.Measures.C144_between",
    "Skfolio.Measures.C144_variance",
    "Skfolio.Measures.C144_variance_within",
    "Skfolio.Measures.C144_worst",
    "Skfolio.Measures.C144_var",
    "Skfolio.Measures.C144_cvar",
    "Skfolio.Measures.C144_max_drawdown",
    "Skfolio.Measures.C144_cvar_can_exceed",
    "Skfolio.Measures.C144_drawdown_can_exceed",
    "Skfolio.Measures.C144_mad_not_average",
    "Skfolio.Portfolio.Multi.C144_history"
   ],
   "note": "Real arithmetic. The histories are those of C26 in which no list of portfolios is shared; the statements on returns hold for every concatenation. Compounded drawdowns: for returns above -1."
  },
  {
   "property": "C145",
   "status": "partial",
   "theorems": [
    "Skfolio.Display.C145_rows_partial",
    "Skfolio.Display.C145_agrees",
    "Skfolio.Display.C145_extra_missing"
   ],
   "note": "False for the extra risk measures: VaR, drawdown at risk, entropic risk measure, fourth central and lower partial moments, skew and kurtosis are missing (C145_extra_missing). For all other measures it holds (C145_rows_partial, C145_agrees)."
  },
  {
   "property": "C146",
   "status": "proved",
   "theorems": [
    "Skfolio.Convex.C146_utility_least_risk",
    "Skfolio.Convex.C146_utility_most_return",
    "Skfolio.Convex.C146_ratio_least_risk",
    "Skfolio.Convex.C146_ratio_most_utility"
   ],
   "note": "Utilities: any constraints; l1 and l2 penalties are divided by the risk aversion in MINIMIZE_RISK. Ratio: the conditions of C18 (no tracking error, no limits on variance and semi-variance) without penalties and mixed-integer constraints, and a risk that is not negative. The risk of the returned portfolio is assumed to be attained by its program. Solvers are modelled by their contract."
  },
  {
   "property": "C147",
   "status": "proved",
   "theorems": [
    "Skfolio.WalkForward.C147_expand_train",
    "Skfolio.WalkForward.C147_reduce_test",
    "Skfolio.WalkForward.C147_purge",
    "Skfolio.Combinatorial.C147_combinatorial",
    "Skfolio.WalkForward.C147_period_expand_train",
    "Skfolio.WalkForward.C147_period_reduce_test",
    "Skfolio.WalkForward.C147_period_purge"
   ],
   "note": "With and without freq; the dates that pandas makes from freq are arbitrary. The loops are given enough fuel. purged_size with a train_size that is an offset shortens the test windows instead (C05_offset_purge_ignored)."
  },
  {
   "property": "C148",
   "status": "proved",
   "theorems": [
    "Skfolio.Convex.C148_portfolio",
    "Skfolio.Convex.C148_promise",
    "Skfolio.Convex.C148_fit"
   ],
   "note": "Under the conditions of C62. Real arithmetic; solver by its contract."
  },
  {
   "property": "C149",
   "status": "proved",
   "theorems": [
    "Skfolio.Convex.C149_any_portfolio",
    "Skfolio.Convex.C149_bound"
   ],
   "note": "Under the conditions of C62. Real arithmetic; solver by its contract."
  },
  {
   "property": "C150",
   "status": "proved",
   "theorems": [
    "Skfolio.Convex.C150_risk",
    "Skfolio.Convex.C150_risk_budgeting",
    "Skfolio.Convex.C150_inverse_volatility",
    "Skfolio.Convex.C150_maximum_diversification"
   ],
   "note": "RiskBudgeting: portfolios of positive risk, no risk-free rate in the first lower partial moment, no minimum return. MaximumDiversification: the conditions of C61. Real arithmetic; solver by its contract."
  },
  {
   "property": "C151",
   "status": "proved",
   "theorems": [
    "Skfolio.Convex.C151_monotone",
    "Skfolio.Convex.C151_moved",
    "Skfolio.Convex.C151_moved_strict",
    "Skfolio.Convex.C151_raised"
   ],
   "note": "The conditions of C60: no limits that exclude a fully invested portfolio of positive weights, no min_return, no previous weights on assets with transaction costs. Real arithmetic; solver by its contract."
  },
  {
   "property": "C152",
   "status": "proved",
   "theorems": [
    "Skfolio.Convex.C152_capital",
    "Skfolio.Convex.C152_equal",
    "Skfolio.Convex.C152_stand_alone",
    "Skfolio.Convex.C152_least"
   ],
   "note": "The conditions of C60. The risk is on the scale on which it is homogeneous of degree one (square root of variance and semi-variance) in C152_stand_alone. Real arithmetic; solvers by their contracts."
  }
 ]
}