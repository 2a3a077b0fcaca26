{"id": "C01", "title": "Pareto dominance is a strict partial order", "statement": "dominate(f, g) returns True exactly when f is at least as good as g on every objective and strictly better on at least one; hence it is irreflexive, asymmetric and transitive, and it raises (rather than answering) when the two arrays have different lengths and no earlier objective already settled the answer.", "quantifier": "all pairs/triples of fitness vectors of any length over any linearly ordered set of values", "why_tests_cant": "transitivity and the iff range over unboundedly many vectors of unbounded length", "anchors": ["src/skfolio/utils/sorting.py:dominate"]}
{"id": "C02", "title": "Non-dominated sorting returns exactly the Pareto layers", "statement": "non_denominated_sort terminates for every input; its fronts are disjoint, each index 0..n-1 appears exactly once, the first front is exactly the set of non-dominated points, every later front is exactly the set of points that become non-dominated once the earlier fronts are removed, and no front is empty. first_front_only=True returns exactly the first of those fronts.", "quantifier": "every finite array of fitness vectors (any number of points, any number of objectives, ties included)", "why_tests_cant": "the while loop's termination and the layer characterisation depend on arbitrary dominance graphs", "anchors": ["src/skfolio/utils/sorting.py:non_denominated_sort", "src/skfolio/population/_population.py:Population.non_denominated_sort"]}
{"id": "C03", "title": "Walk-forward splits never look ahead and keep the exact purge gap", "statement": "Without freq, every (train, test) pair produced by WalkForward.split consists of consecutive indices, the training window ends exactly purged_size observations before the test window starts (so every train index + purged_size < every test index), the train window has exactly train_size elements (or starts at 0 when expend_train), and every index lies in range.", "quantifier": "all n_samples, train_size, test_size >= 1, purged_size, expend_train, reduce_test and every split of the sequence", "why_tests_cant": "the number of splits and all sizes are unbounded", "anchors": ["src/skfolio/model_selection/_walk_forward.py:_split_without_period"]}
{"id": "C04", "title": "Walk-forward test windows tile the sample and are counted by get_n_splits", "statement": "Without freq, the test windows are consecutive, disjoint, each of test_size elements (only the last one may be shorter and only with reduce_test), their concatenation is the range train_size+purged_size .. end, where end is n_samples with reduce_test and the last multiple otherwise; the number of splits produced equals get_n_splits. split raises exactly when train_size + purged_size >= n_samples.", "quantifier": "all sizes and both reduce_test settings", "why_tests_cant": "equality between an iterative generator and a closed-form count for all sizes", "anchors": ["src/skfolio/model_selection/_walk_forward.py:_split_without_period", "src/skfolio/model_selection/_walk_forward.py:WalkForward.get_n_splits"]}
{"id": "C05", "title": "Period-based walk-forward keeps train before test with the purge gap", "statement": "With freq set, the observations between the end of the training window and the start of the test window number at least purged_size in every split, train precedes test, and test windows are disjoint and in order.", "quantifier": "all sorted date indices, calendars, offsets, purge sizes and both train_size forms (integer, offset)", "why_tests_cant": "ranges over every calendar and index", "anchors": ["src/skfolio/model_selection/_walk_forward.py:_split_from_period_without_train_offset", "src/skfolio/model_selection/_walk_forward.py:_split_from_period_with_train_offset"]}
{"id": "C06", "title": "Combinatorial purged CV: exact train/test membership", "statement": "For each split (a choice of n_test_folds folds), the test sets are exactly the observations of the chosen folds, in order, and an observation is in the training set exactly when its fold is not chosen, no test observation lies within the following purged_size positions, and no test observation lies within the preceding purged_size + embargo_size positions. In particular train and test are disjoint.", "quantifier": "all n_samples, n_folds, n_test_folds, purged_size, embargo_size accepted by the constructor and split, and every split", "why_tests_cant": "quantifies over all fold layouts, including purge windows that span entire folds and array ends", "anchors": ["src/skfolio/model_selection/_combinatorial.py:CombinatorialPurgedCV.split"]}
{"id": "C07", "title": "Combinatorial purged CV: recombined paths cover every observation exactly once", "statement": "n_splits = C(n_folds, n_test_folds), n_test_paths = C(n_folds-1, n_test_folds-1); every (path, fold) pair is fed by exactly one (split, test set), get_path_ids lists for each split the path of each of its test sets in fold order, and hence every test path contains each observation of the sample exactly once and in order.", "quantifier": "all n_folds, n_test_folds and every path", "why_tests_cant": "combinatorial identity over all parameter values", "anchors": ["src/skfolio/model_selection/_combinatorial.py:CombinatorialPurgedCV.recombined_paths", "src/skfolio/model_selection/_combinatorial.py:CombinatorialPurgedCV.get_path_ids", "src/skfolio/model_selection/_combinatorial.py:CombinatorialPurgedCV.test_set_index"]}
{"id": "C08", "title": "Cross-validated prediction reassembles each observation exactly once", "statement": "cross_val_predict with a non-combinatorial splitter either raises because test sets overlap, or returns a multi-period portfolio whose portfolios are ordered by first test index and whose observations are a permutation of the union of the test sets; with a combinatorial splitter it returns one portfolio per test path, where path p contains exactly the predictions whose path id is p.", "quantifier": "all splitters, numbers of folds and orders in which folds are produced", "why_tests_cant": "ranges over all splitters", "anchors": ["src/skfolio/model_selection/_validation.py:cross_val_predict"]}
{"id": "C09", "title": "Linear constraint strings mean what they say", "statement": "For every well-formed constraint 'expr op expr', where each expr is a signed sum of terms (coefficient, name, coefficient*name, name*coefficient) and op is one of <=, >=, ==, the matrix row and bound returned by equations_to_matrix satisfy: for every weight vector w, A w <= b (or A w == b) holds iff the constraint holds when each name is replaced by the sum of the weights of the assets belonging to it.", "quantifier": "all expressions of any length, all groups matrices, all weight vectors", "why_tests_cant": "semantic equivalence of a parser for unboundedly many strings", "anchors": ["src/skfolio/utils/equations.py:equations_to_matrix", "src/skfolio/utils/equations.py:_string_to_equation", "src/skfolio/utils/equations.py:_split_equation_string", "src/skfolio/utils/equations.py:_matching_array"]}
{"id": "C10", "title": "Malformed constraint strings are rejected or reported", "statement": "A constraint with no comparison operator, with an unknown group, with two consecutive numbers/names, or with a chained comparison is never silently turned into a different constraint: it raises EquationToMatrixError, or is dropped with a warning when a group is missing.", "quantifier": "all token sequences", "why_tests_cant": "error behaviour over every malformed string", "anchors": ["src/skfolio/utils/equations.py:equations_to_matrix", "src/skfolio/utils/equations.py:_string_to_equation"]}
{"id": "C11", "title": "Group cardinality rows count the right assets", "statement": "group_cardinalities_to_matrix returns, for each group that exists, a 0/1 row with ones exactly at the assets belonging to that group, paired with that group's cardinality; missing groups raise or are dropped with a warning.", "quantifier": "all groups arrays and cardinality dictionaries", "why_tests_cant": "ranges over all group layouts", "anchors": ["src/skfolio/utils/equations.py:group_cardinalities_to_matrix"]}
{"id": "C12", "title": "Historical VaR, CVaR and worst realization are ordered", "statement": "For every non-empty return sample and beta in [0,1): value_at_risk <= cvar <= worst_realization, cvar is non-decreasing in beta, value_at_risk is an order statistic of the losses, and cvar(beta=0) is minus the mean.", "quantifier": "all non-empty samples over an ordered field, all beta in [0,1)", "why_tests_cant": "ranges over all samples, including ties and fractional tail counts", "anchors": ["src/skfolio/measures/_measures.py:value_at_risk", "src/skfolio/measures/_measures.py:cvar", "src/skfolio/measures/_measures.py:worst_realization"]}
{"id": "C13", "title": "Historical CVaR is the Rockafellar-Uryasev minimum and is coherent", "statement": "cvar(r, beta) equals the minimum over alpha of alpha + 1/((1-beta) n) * sum max(0, -r_i - alpha), attained at the historical VaR. Therefore it is translation-equivariant, positively homogeneous, monotone, permutation-invariant and subadditive.", "quantifier": "all samples, all beta in [0,1), all alphas, all pairs of samples of equal length", "why_tests_cant": "min over a continuum and quantification over all sample pairs", "anchors": ["src/skfolio/measures/_measures.py:cvar"]}
{"id": "C14", "title": "Drawdown measures", "statement": "Drawdowns are never positive, the first drawdown is 0, and each equals the shortfall of cumulative wealth from its running maximum; max_drawdown equals the largest shortfall, average_drawdown its mean, and average_drawdown <= cdar(beta) <= max_drawdown; ulcer_index lies between average and max drawdown in squared form.", "quantifier": "all return series, compounded or not, all beta in [0,1)", "why_tests_cant": "ranges over all series", "anchors": ["src/skfolio/measures/_measures.py:get_drawdowns", "src/skfolio/measures/_measures.py:get_cumulative_returns", "src/skfolio/measures/_measures.py:max_drawdown", "src/skfolio/measures/_measures.py:average_drawdown", "src/skfolio/measures/_measures.py:cdar", "src/skfolio/measures/_measures.py:ulcer_index"]}
{"id": "C15", "title": "Dispersion measures satisfy their textbook identities", "statement": "variance is translation invariant, quadratic-homogeneous, non-negative and zero only for constant series; semi-variance w.r.t. the mean of r plus that of -r equals the variance; mean absolute deviation is twice the first lower partial moment at the mean; gini_mean_difference equals the mean absolute difference over ordered pairs of distinct observations and is permutation-invariant; mad <= gmd.", "quantifier": "all samples with at least two observations", "why_tests_cant": "ranges over all samples", "anchors": ["src/skfolio/measures/_measures.py:variance", "src/skfolio/measures/_measures.py:semi_variance", "src/skfolio/measures/_measures.py:mean_absolute_deviation", "src/skfolio/measures/_measures.py:first_lower_partial_moment", "src/skfolio/measures/_measures.py:gini_mean_difference", "src/skfolio/measures/_measures.py:owa_gmd_weights"]}
{"id": "C16", "title": "Effective number of assets lies between 1 and n", "statement": "For weights that sum to one, the inverse Herfindahl index is at most n with equality only for equal weights; if in addition the weights are non-negative it is at least 1.", "quantifier": "all weight vectors", "why_tests_cant": "ranges over all weight vectors", "anchors": ["src/skfolio/measures/_measures.py:effective_number_assets"]}
{"id": "C17", "title": "Optimiser risk programs are exact reformulations of the measures", "statement": "For CVaR, worst realization, mean absolute deviation, first lower partial moment, semi-variance, maximum/average drawdown and CDaR, ulcer index and Gini mean difference, the auxiliary-variable program used by the convex optimisers has, for every portfolio return series, an optimal value equal to the portfolio measure of the same name (drawdowns measured from the initial wealth).", "quantifier": "all return series of any length, all beta", "why_tests_cant": "optimal value over a continuum of auxiliary variables", "anchors": ["src/skfolio/optimization/convex/_base.py:_cvar_risk", "src/skfolio/optimization/convex/_base.py:_worst_realization_risk", "src/skfolio/optimization/convex/_base.py:_mean_absolute_deviation_risk", "src/skfolio/optimization/convex/_base.py:_first_lower_partial_moment_risk", "src/skfolio/optimization/convex/_base.py:_semi_variance_risk", "src/skfolio/optimization/convex/_base.py:_max_drawdown_risk", "src/skfolio/optimization/convex/_base.py:_average_drawdown_risk", "src/skfolio/optimization/convex/_base.py:_cdar_risk", "src/skfolio/optimization/convex/_base.py:_gini_mean_difference_risk", "src/skfolio/optimization/convex/_base.py:_ulcer_index_risk"]}
{"id": "C18", "title": "Ratio maximisation by homogenisation", "statement": "For a positively homogeneous non-negative risk, any optimum (w, k) with k > 0 of the homogenised program yields weights w/k that satisfy every user constraint (bounds, budget, long/short caps, linear constraints) and maximise (return - risk free)/risk among all portfolios satisfying them with positive excess return.", "quantifier": "all feasible sets, all returns, all 1-homogeneous risk functions, all optima", "why_tests_cant": "optimality over a continuum of portfolios", "anchors": ["src/skfolio/optimization/convex/_mean_risk.py:MeanRisk.fit", "src/skfolio/optimization/convex/_base.py:_get_weight_constraints", "src/skfolio/optimization/convex/_base.py:_solve_problem"]}
{"id": "C19", "title": "Side constraints hold on the returned weights for every objective", "statement": "User limits (weight bounds, budget, max long/short, turnover, tracking error, risk limits) passed to MeanRisk hold for the returned weights whatever the objective function, including MAXIMIZE_RATIO.", "quantifier": "all parameters and every feasible optimiser state", "why_tests_cant": "ranges over all feasible points and all scale factors", "anchors": ["src/skfolio/optimization/convex/_mean_risk.py:MeanRisk.fit", "src/skfolio/optimization/convex/_base.py:_tracking_error", "src/skfolio/optimization/convex/_base.py:_turnover"]}
{"id": "C20", "title": "Cardinality and threshold constraints", "statement": "Every feasible point of the mixed-integer formulation has at most `cardinality` invested assets, at most the given number per group, each long position at least threshold_long and each short position at most threshold_short; conversely every portfolio within bounds that satisfies those limits is feasible for some booleans.", "quantifier": "all weights, booleans, bounds and scale factors", "why_tests_cant": "ranges over all feasible points of a mixed-integer program", "anchors": ["src/skfolio/optimization/convex/_base.py:_mip_weight_constraints_no_short_selling", "src/skfolio/optimization/convex/_base.py:_mip_weight_constraints_threshold_short"]}
{"id": "C21", "title": "Hierarchical Risk Parity weights honour budget and bounds", "statement": "For every cluster order, covariance and bounds with sum(min) <= 1 <= sum(max), recursive bisection terminates and returns weights that sum to one and lie within [min_weights, max_weights].", "quantifier": "all numbers of assets, all leaf orders, all positive cluster risks, all bounds", "why_tests_cant": "recursion of unbounded depth with clamping at every level", "anchors": ["src/skfolio/optimization/cluster/hierarchical/_hrp.py:HierarchicalRiskParity.fit", "src/skfolio/optimization/cluster/hierarchical/_base.py:_apply_weight_constraints_to_split_factor", "src/skfolio/utils/tools.py:bisection"]}
{"id": "C22", "title": "Weight-bound conversion is rejected or meaningful", "statement": "Converted bounds satisfy 0 <= min <= max <= 1 and sum(max) >= 1, otherwise a ValueError is raised; feasible bounds (some portfolio summing to one exists) are exactly the accepted ones.", "quantifier": "all bound inputs", "why_tests_cant": "ranges over all bounds", "anchors": ["src/skfolio/optimization/cluster/hierarchical/_base.py:_convert_weights_bounds"]}
{"id": "C23", "title": "Nested and stacked portfolios are budget preserving", "statement": "The weights returned by NestedClustersOptimization and StackingOptimization are the outer-weighted combination of inner weights; they sum to the outer sum when inner weights sum to one, are non-negative (long-only) when inner and outer are, and each cluster receives exactly its outer weight.", "quantifier": "all clusterings/estimators, all inner and outer weights", "why_tests_cant": "ranges over all partitions of the assets", "anchors": ["src/skfolio/optimization/cluster/_nco.py:NestedClustersOptimization.fit", "src/skfolio/optimization/ensemble/_stacking.py:StackingOptimization.fit"]}
{"id": "C24", "title": "Portfolio returns are weights times asset returns less costs, linearly", "statement": "A Portfolio's return series equals weights\u00b7returns minus total cost and total fee per period; adding, subtracting or scaling portfolios combines weights accordingly and, without costs, returns are linear in the weights.", "quantifier": "all weight vectors, return matrices, costs, fees and scalars", "why_tests_cant": "ranges over all portfolios", "anchors": ["src/skfolio/portfolio/_portfolio.py:Portfolio"]}
{"id": "C25", "title": "Measures read from a portfolio are never stale", "statement": "After any sequence of reads, attribute assignments, copies and clears, a measure read from a portfolio equals the measure computed from scratch from the portfolio's current parameters.", "quantifier": "all histories of operations on a portfolio", "why_tests_cant": "ranges over operation histories of any length", "anchors": ["src/skfolio/portfolio/_base.py:BasePortfolio.__getattribute__", "src/skfolio/portfolio/_base.py:BasePortfolio.__setattr__", "src/skfolio/portfolio/_base.py:BasePortfolio.clear", "src/skfolio/portfolio/_base.py:BasePortfolio.fitness_measures"]}
{"id": "C26", "title": "A multi-period portfolio is the concatenation of its portfolios", "statement": "After any sequence of construction, append, item assignment, item deletion and whole-list assignment, the returns and observations of the multi-period portfolio are the concatenation of those of its current portfolios; operations that would make periods overlap raise and change nothing.", "quantifier": "all histories of list operations", "why_tests_cant": "ranges over operation histories of any length", "anchors": ["src/skfolio/portfolio/_multi_period_portfolio.py:MultiPeriodPortfolio"]}
{"id": "C27", "title": "Population only ever contains portfolios", "statement": "Starting from a valid population, any sequence of append, extend, insert, item assignment, slicing and concatenation either raises or leaves a population all of whose elements are portfolios.", "quantifier": "all histories of list operations", "why_tests_cant": "ranges over operation histories", "anchors": ["src/skfolio/population/_population.py:Population"]}
{"id": "C28", "title": "Population quantile, min and max", "statement": "sort_measure returns the same portfolios ordered by the measure; quantile(measure, q) returns a member; q=0 gives a member with minimal measure and q=1 a member with maximal measure; and the result is monotone in q.", "quantifier": "all populations and all q in [0,1]", "why_tests_cant": "ranges over all populations and a continuum of q", "anchors": ["src/skfolio/population/_population.py:Population.quantile", "src/skfolio/population/_population.py:Population.sort_measure", "src/skfolio/population/_population.py:Population.min_measure", "src/skfolio/population/_population.py:Population.max_measure"]}
{"id": "C29", "title": "Stationary bootstrap samples only genuine blocks", "statement": "Every row of every bootstrap sample is a row of the original data, and within a block consecutive rows are consecutive in the original data (wrapping from last to first).", "quantifier": "all series lengths, sample counts, random draws and block probabilities", "why_tests_cant": "ranges over all random draws", "anchors": ["src/skfolio/utils/bootstrap.py:stationary_bootstrap"]}
{"id": "C30", "title": "Name de-duplication yields distinct names", "statement": "deduplicate_names keeps first occurrences unchanged, preserves length and order, and its output has no duplicates.", "quantifier": "all lists of names", "why_tests_cant": "ranges over all lists, including names that look like generated suffixes", "anchors": ["src/skfolio/utils/tools.py:deduplicate_names"]}
{"id": "C31", "title": "DropCorrelated leaves no over-correlated pair and removes only with cause", "statement": "Among kept assets no pair has correlation above the threshold; every dropped asset has a kept-at-the-time partner whose correlation with it exceeds the threshold and whose mean correlation is not larger; at least one asset is kept.", "quantifier": "all correlation matrices and thresholds", "why_tests_cant": "ranges over all matrices and processing orders", "anchors": ["src/skfolio/pre_selection/_drop_correlated.py:DropCorrelated.fit"]}
{"id": "C32", "title": "Selection transformers keep the number and quality of assets they promise", "statement": "SelectKExtremes keeps exactly min(k, n) assets, every kept one at least as extreme as every dropped one; SelectNonDominated keeps at least min(min_n_assets, n) assets as a union of leading Pareto fronts; SelectComplete, SelectNonExpiring and DropZeroVariance keep exactly the assets meeting their stated condition.", "quantifier": "all data sets and parameters", "why_tests_cant": "ranges over all data sets", "anchors": ["src/skfolio/pre_selection/_select_k_extremes.py:SelectKExtremes", "src/skfolio/pre_selection/_select_non_dominated.py:SelectNonDominated", "src/skfolio/pre_selection/_select_complete.py:SelectComplete", "src/skfolio/pre_selection/_select_non_expiring.py:SelectNonExpiring", "src/skfolio/pre_selection/_drop_zero_variance.py:DropZeroVariance"]}
{"id": "C33", "title": "Price to return conversion telescopes", "statement": "For prices without missing values, prices_to_returns yields n-1 rows, compounding the linear returns of any sub-period recovers the price ratio, log returns sum to the log price ratio, and rows are never silently lost. The frames of X and y together have the columns kept, in order, each column in the frame it came from; without dropping inceptions a column is kept exactly if it has a price, and with it none is lost as long as a return is left.", "quantifier": "all price tables", "why_tests_cant": "ranges over all price histories", "anchors": ["src/skfolio/preprocessing/_returns.py:prices_to_returns"]}
{"id": "C34", "title": "Black-Litterman posterior interpolates between prior and views", "statement": "With no views error (confidence 1) the posterior satisfies the views exactly; with a single view of confidence c the view portfolio's expected return moves exactly the fraction c from prior to view; the posterior equals the Bayesian (precision-weighted) formula; the posterior covariance is symmetric and positive semi-definite.", "quantifier": "all prior means, covariances, view matrices, confidences and tau > 0", "why_tests_cant": "matrix identity over all dimensions", "anchors": ["src/skfolio/prior/_black_litterman.py:BlackLitterman.fit"]}
{"id": "C35", "title": "Gerber covariance is a valid correlation structure", "statement": "For non-constant series and threshold in (0,1] the Gerber correlation is well defined (no division by zero), symmetric, has unit diagonal and entries in [-1,1]; it is positive semi-definite.", "quantifier": "all return matrices and thresholds", "why_tests_cant": "PSD over all dimensions and all data", "anchors": ["src/skfolio/moments/covariance/_gerber_covariance.py:GerberCovariance.fit"]}
{"id": "C36", "title": "Factor model moments are consistent", "statement": "The factor-model covariance equals loading\u00b7factor-covariance\u00b7loading\u1d40 plus residual variances, equals its returned Cholesky factor times its transpose, and is positive semi-definite; the mean of the reconstructed returns equals the reported mean when the factor mean is the sample mean.", "quantifier": "all loadings, factor covariances and residual variances", "why_tests_cant": "matrix identity over all dimensions", "anchors": ["src/skfolio/prior/_factor_model.py:FactorModel.fit"]}
{"id": "C37", "title": "Covariance/correlation conversion round-trips", "statement": "corr_to_cov(cov_to_corr(S)) = S for every symmetric matrix with positive diagonal; the correlation has unit diagonal, and entries in [-1,1] if S is positive semi-definite.", "quantifier": "all matrices with positive diagonal", "why_tests_cant": "ranges over all matrices", "anchors": ["src/skfolio/utils/stats.py:cov_to_corr", "src/skfolio/utils/stats.py:corr_to_cov"]}
{"id": "C38", "title": "Correlation distance is a bounded pseudo-metric", "statement": "The correlation distance lies in [0,1], is zero on the diagonal, symmetric, decreasing in correlation, and satisfies the triangle inequality for every valid correlation matrix.", "quantifier": "all correlation matrices and all integer powers / absolute settings", "why_tests_cant": "ranges over all matrices", "anchors": ["src/skfolio/distance/_distance.py:_corr_to_distance"]}
{"id": "C39", "title": "Copula rotations are coherent", "statement": "For every base copula, the rotated CDF is again grounded with uniform margins, the rotated conditional distribution functions are its partial derivatives, and the inverse conditional distribution inverts the conditional distribution, for all four rotations and both margins. Rotating data by a rotation and its inverse is the identity.", "quantifier": "all base copulas, rotations, margins and points in the unit square", "why_tests_cant": "ranges over functions and a continuum of points", "anchors": ["src/skfolio/distribution/copula/_utils.py:_apply_copula_rotation", "src/skfolio/distribution/copula/_utils.py:_apply_rotation_cdf", "src/skfolio/distribution/copula/_utils.py:_apply_rotation_partial_derivatives"]}
{"id": "C40", "title": "Pseudo observations are strictly inside the unit interval", "statement": "compute_pseudo_observations maps every column into (0,1), preserves the order of the data and is equal on ties.", "quantifier": "all data columns", "why_tests_cant": "ranges over all columns", "anchors": ["src/skfolio/distribution/copula/_utils.py:compute_pseudo_observations"]}
{"id": "C41", "title": "Scorers and fitness always mean 'greater is better'", "statement": "For every measure, the scorer/fitness sign is +1 for performance and ratio measures and -1 for risk measures, so that a portfolio with a better measure always gets a higher score; dominance between portfolios agrees with being no worse on every selected measure and better on one.", "quantifier": "all measures and all portfolios", "why_tests_cant": "ranges over all portfolios", "anchors": ["src/skfolio/metrics/_scorer.py:make_scorer", "src/skfolio/portfolio/_base.py:BasePortfolio.fitness", "src/skfolio/portfolio/_base.py:BasePortfolio.dominates"]}
{"id": "C42", "title": "Shrunk expected returns lie between the sample mean and the target", "statement": "ShrunkMu returns a convex combination of the sample mean and the shrinkage target.", "quantifier": "all samples and all shrinkage methods", "why_tests_cant": "ranges over all samples", "anchors": ["src/skfolio/moments/expected_returns/_shrunk_mu.py:ShrunkMu.fit"]}
{"id": "C43", "title": "Log-normal prior scaling returns linear-return moments", "statement": "With is_log_normal the reported expected returns are those of the linear returns over the investment horizon.", "quantifier": "all means, variances and horizons", "why_tests_cant": "ranges over all moments", "anchors": ["src/skfolio/prior/_empirical.py:EmpiricalPrior.fit"]}
{"id": "C44", "title": "Optimal fold search returns the best configuration", "statement": "optimal_folds_number returns the pair (n_folds, n_test_folds) minimising its documented cost among all admissible pairs.", "quantifier": "all sample sizes, targets and weights", "why_tests_cant": "global optimality of a pruned search", "anchors": ["src/skfolio/model_selection/_combinatorial.py:optimal_folds_number"]}
{"id": "C45", "title": "Naive optimisers return full-budget long-only weights", "statement": "EqualWeighted, InverseVolatility and Random return non-negative weights summing to one; inverse-volatility weights are inversely proportional to volatility.", "quantifier": "all data sets with positive variances and all random draws", "why_tests_cant": "ranges over all data and draws", "anchors": ["src/skfolio/optimization/naive/_naive.py", "src/skfolio/utils/stats.py:rand_weights"]}
{"id": "C46", "title": "Entropic risk bounds CVaR", "statement": "For every risk aversion theta > 0 the entropic risk measure at level beta is at least the historical CVaR at that level, so the EVaR returned by evar (the entropic measure at the point the solver returns) is at least CVaR and VaR whatever the solver does inside its bounds.", "quantifier": "all samples, all beta in [0,1), every point of the search interval", "why_tests_cant": "the solver's point is unknown; the bound must hold at every point and for every sample", "anchors": ["src/skfolio/measures/_measures.py:evar", "src/skfolio/measures/_measures.py:entropic_risk_measure"]}
{"id": "C47", "title": "HERC weights: equal risk along the dendrogram, budget and bounds", "statement": "For every dendrogram and every flat clustering obtained by cutting it, HierarchicalEqualRiskContribution never fails with 'Corrupted'; before bounds its weights sum to one and, at every branching above the clusters, total weight times total cluster risk is equal on the two sides. The final weights sum to one, respect the bounds, are unchanged if the bounds already hold, and otherwise have minimal relative deviation.", "quantifier": "all trees of any depth, all cuts, all risk functions, all bounds", "why_tests_cant": "recursion over trees of unbounded size", "anchors": ["src/skfolio/optimization/cluster/hierarchical/_herc.py:HierarchicalEqualRiskContribution.fit", "src/skfolio/utils/stats.py:minimize_relative_weight_deviation"]}
{"id": "C48", "title": "Contributions add up", "statement": "The contribution of every asset to the mean return or variance equals its weight times the exact derivative whatever the finite-difference spacing; contributions to the mean add up to the portfolio's mean and contributions to the variance to twice its variance; zero-weight assets contribute zero or are dropped.", "quantifier": "all portfolios without transaction costs, all spacings", "why_tests_cant": "ranges over all portfolios and spacings", "anchors": ["src/skfolio/portfolio/_portfolio.py:Portfolio.contribution", "src/skfolio/portfolio/_portfolio.py:_compute_contribution"]}
{"id": "C49", "title": "Population filter", "statement": "Population.filter returns, in order, exactly the portfolios whose name is among the names and whose tag is among the tags.", "quantifier": "all populations, names and tags", "why_tests_cant": "ranges over all populations", "anchors": ["src/skfolio/population/_population.py:Population.filter"]}
{"id": "C50", "title": "The nearest positive definite covariance keeps the variances", "statement": "cov_nearest rejects a matrix that is not symmetric, returns a positive definite matrix unchanged, and otherwise returns a symmetric positive definite matrix with the same variances; the eigenvalue clipping method always succeeds.", "quantifier": "all symmetric matrices with positive variances, both methods, all iteration limits", "why_tests_cant": "ranges over all matrices", "anchors": ["src/skfolio/utils/stats.py:cov_nearest", "src/skfolio/moments/covariance/_base.py"]}
{"id": "C51", "title": "The bivariate copulas are consistent", "statement": "For the Clayton, Gumbel and Joe copulas the distribution function is a copula and partial_derivative is its partial derivative; for these and the Gaussian and Student's t copulas inverse_partial_derivative inverts partial_derivative (for Gumbel and Joe: the Newton iteration tends to the only solution) and the exponential of the score is the density of both conditional distributions, in both margins.", "quantifier": "all admissible parameters, all points inside the unit square, both margins", "why_tests_cant": "identities between transcendental functions on a continuum; convergence of an iteration", "anchors": ["src/skfolio/distribution/copula/_clayton.py", "src/skfolio/distribution/copula/_gumbel.py", "src/skfolio/distribution/copula/_joe.py", "src/skfolio/distribution/copula/_gaussian.py", "src/skfolio/distribution/copula/_student_t.py"]}
{"id": "C52", "title": "Tail concentration is a conditional frequency", "statement": "empirical_tail_concentration rejects data or quantiles outside of [0, 1]; otherwise, for every quantile, it is the share of the observations with both values in the tail among those with the first value in the tail (0 if there are none), so it lies in [0, 1], and reflecting the data turns the lower into the upper tail.", "quantifier": "all data sets and quantiles", "why_tests_cant": "ranges over all data sets", "anchors": ["src/skfolio/distribution/copula/_utils.py:empirical_tail_concentration"]}
{"id": "C53", "title": "A fitted vine copula is a regular vine", "statement": "VineCopula.fit builds, for every number of assets and whatever the dependence measures, a tree of level k with n-k nodes and n-k-1 edges (its assertion never fails, and 'Edges are not correctly ordered' is never raised); the two nodes of an edge share all variables but one each, the conditioned pair is these two variables in the order of the nodes and the conditioning set the k shared ones; in a full vine every pair of assets is the conditioned pair of exactly one edge; get_X gives the conditional distribution functions of the conditioned pair given the conditioning set, and score_samples sums the log densities of all copulas there.", "quantifier": "all numbers of assets, all depths, all outcomes of the spanning trees, all copulas and all points", "why_tests_cant": "ranges over all tree sequences of any depth; the left/right bookkeeping is only exercised by deep vines", "anchors": ["src/skfolio/distribution/multivariate/_utils.py", "src/skfolio/distribution/multivariate/_vine_copula.py:VineCopula.fit", "src/skfolio/distribution/multivariate/_vine_copula.py:VineCopula.score_samples"]}
{"id": "C54", "title": "Sampling inverts the vine", "statement": "VineCopula.sample finds a sampling order for every fitted vine, full or truncated, with or without conditioning, and propagates the uniform numbers to values of all assets such that the conditional distribution function of each asset, given the other assets of its node, which are conditioned or sampled before, equals its uniform number; conditioned assets keep their conditioning samples. In a full vine without conditioning the order gives each asset given all assets before it (inverse Rosenblatt transform).", "quantifier": "all numbers of assets, depths, tree structures, conditioning sets, copulas and uniform numbers", "why_tests_cant": "the statement is about all vines and all uniform numbers; tests look at sample correlations of a few vines", "anchors": ["src/skfolio/distribution/multivariate/_vine_copula.py:VineCopula._sampling_order", "src/skfolio/distribution/multivariate/_vine_copula.py:_propagate_samples", "src/skfolio/distribution/multivariate/_vine_copula.py:_is_left_branch"]}
{"id": "C57", "title": "The outer estimator sees aligned out-of-sample returns", "statement": "In NestedClustersOptimization and StackingOptimization the rows of the data on which the outer (final) estimator is fitted belong to the same observations for all columns and for the targets, in chronological order; the entry of a column at an observation is the return of the inner portfolio fitted on a training set whose test set contains that observation. Without cross-validation the return of the final portfolio is the outer-weighted return of the columns.", "quantifier": "all clusterings, estimators, data, splitters and splits", "why_tests_cant": "ranges over all splitters; misaligned rows give no error", "anchors": ["src/skfolio/optimization/cluster/_nco.py:NestedClustersOptimization.fit", "src/skfolio/optimization/ensemble/_stacking.py:StackingOptimization.fit"]}
{"id": "C58", "title": "Nested clusters with targets", "statement": "NestedClustersOptimization.fit(X, y) passes the targets y to the inner estimators of all clusters.", "quantifier": "all labels and targets", "why_tests_cant": "no test fits the estimator with targets", "anchors": ["src/skfolio/optimization/cluster/_nco.py:NestedClustersOptimization.fit", "src/skfolio/utils/tools.py:fit_single_estimator", "src/skfolio/utils/tools.py:safe_split"]}
{"id": "C59", "title": "set_params of a stacking replaces estimators", "statement": "StackingOptimization.set_params(name=estimator) replaces the estimator of that name, leaves the others alone, and passes on all parameters that do not name an estimator.", "quantifier": "all lists of estimators and all parameters", "why_tests_cant": "no test replaces an estimator by name", "anchors": ["src/skfolio/optimization/ensemble/_base.py:BaseComposition._set_params"]}
{"id": "C55", "title": "Conditioned assets have the values asked for", "statement": "VineCopula.sample(conditioning=...): in every sample an asset conditioned on a number or an array has exactly this value and one conditioned on bounds lies within them; the vine is given the probability of the value under the distribution of the asset's returns; within bounds the asset has the marginal distribution of its returns truncated to the bounds. Wrong tuples, bounds in the wrong order, text and arrays of the wrong shape raise. The reversal of the log transformation is increasing and exact up to returns of 200 %.", "quantifier": "all assets with or without log transformation and marginals, all conditioning values, all uniform numbers", "why_tests_cant": "the distribution within the bounds is a statement about all uniform numbers and bounds; tests check that samples lie within the bounds", "anchors": ["src/skfolio/distribution/multivariate/_vine_copula.py:VineCopula._init_conditioning", "src/skfolio/distribution/multivariate/_vine_copula.py:VineCopula.sample"]}
{"id": "C56", "title": "Central assets are at the centre of the vine, and conditioning on them is exact", "statement": "With central_assets S, whatever the data, the trees of level k < |S| have exactly |S| - k nodes made of central assets only and no edge joins two nodes that are not; the tree of level |S| - 1 is a star around the node of all central assets, and all later nodes contain all of S. With as many trees as central assets, sampling conditional on exactly S draws every other asset given all of S, and in a full vine given S and all assets drawn before.", "quantifier": "all numbers of assets, all central sets, all dependences, all depths not below the number of central assets", "why_tests_cant": "tests look at one vine with one or two central assets; the statement is about all dependence matrices and depths", "anchors": ["src/skfolio/distribution/multivariate/_utils.py:Tree.set_edges_from_mst", "src/skfolio/distribution/multivariate/_utils.py:ChildNode.central", "src/skfolio/distribution/multivariate/_vine_copula.py:VineCopula.fit", "src/skfolio/distribution/multivariate/_vine_copula.py:VineCopula._sampling_order"]}
{"id": "C60", "title": "Risk contributions follow the risk budget", "statement": "RiskBudgeting, for each of its fifteen risk measures, without previous weights on assets with transaction costs (for the first lower partial moment with any costs, previous weights and risk-free rate), without min_return and with limits that exclude no fully invested portfolio of positive weights (as the default ones): the returned weights are positive and add up to one, and the risk contributions are in the proportion of the risk budgets; for variance and standard deviation x_i (Cx)_i = share_i x'Cx. Every portfolio with this property is an optimum. Budgets are equal by default, and a zero budget counts as 1e-10.", "quantifier": "all numbers of assets and observations, all returns, covariances, budgets and scales, all optima", "why_tests_cant": "the condition is about the exact optimum of a convex program for every input; tests compare the contributions to a tolerance on one data set", "anchors": ["src/skfolio/optimization/convex/_risk_budgeting.py:RiskBudgeting.fit", "src/skfolio/optimization/convex/_base.py:ConvexOptimization"]}
{"id": "C61", "title": "MaximumDiversification maximises the diversification ratio", "statement": "Without transaction costs, fees, risk-free rate, penalties, tracking error and minimum return, the weights returned by MaximumDiversification have the largest ratio of weighted volatilities to portfolio volatility among all portfolios within the limits on the weights and the turnover. The ratio of a portfolio without short positions is at least 1. Portfolio.diversification is this ratio for the sample covariance, times sqrt((T-1)/T).", "quantifier": "all covariances with a factor, all limits, all optima with positive scale", "why_tests_cant": "the maximum over all allowed portfolios is not reachable by tests; they compare with MeanRisk on one data set", "anchors": ["src/skfolio/optimization/convex/_maximum_diversification.py:MaximumDiversification.fit", "src/skfolio/optimization/convex/_maximum_diversification.py:MaximumDiversification.__init__", "src/skfolio/portfolio/_portfolio.py:Portfolio.diversification", "src/skfolio/optimization/convex/_base.py:ConvexOptimization._cvx_expected_return"]}
{"id": "C62", "title": "DistributionallyRobustCVaR minimises the worst disutility over the Wasserstein ball", "statement": "The optimal value of the problem that DistributionallyRobustCVaR solves is the least upper bound, over all return distributions within the Wasserstein distance wasserstein_ball_radius (1-norm) of the sample and with no asset losing more than 100 %, of the mean loss plus risk_aversion times CVaR of the returned weights; the returned weights respect all limits, and no other portfolio within the limits has a smaller least upper bound. Without short positions a worst distribution exists. With radius 0 the ball is the sample itself.", "quantifier": "all samples with returns of at least -1, all confidence levels, nonnegative risk aversions, radii, weight limits, all distributions (not only discrete ones)", "why_tests_cant": "the ball contains infinitely many distributions, the tests only check weights on one data set", "anchors": ["src/skfolio/optimization/convex/_distributionally_robust.py:DistributionallyRobustCVaR.fit", "src/skfolio/optimization/convex/_base.py:ConvexOptimization._get_weight_constraints"]}
{"id": "C63", "title": "An uncertainty set of expected returns makes MeanRisk use the worst expected return in the set", "statement": "With mu_uncertainty_set_estimator, the expected return in the objective and in the constraints of MeanRisk is the least expected return after costs over all vectors of expected returns in the documented ellipsoid; a min_return holds for every vector in the ellipsoid and excludes nothing else; maximising the return finds the portfolio with the greatest worst return within the limits.", "quantifier": "all radii, all invertible shapes, all weights and limits", "why_tests_cant": "the ellipsoid contains infinitely many vectors", "anchors": ["src/skfolio/optimization/convex/_base.py:ConvexOptimization._cvx_mu_uncertainty_set", "src/skfolio/optimization/convex/_base.py:ConvexOptimization._cvx_expected_return", "src/skfolio/optimization/convex/_mean_risk.py:MeanRisk.fit"]}
{"id": "C64", "title": "An uncertainty set of covariances makes the variance the worst variance over the set", "statement": "With covariance_uncertainty_set_estimator, the risk that MeanRisk minimises or limits is the least upper bound of the portfolio variance over all symmetric positive semidefinite covariance matrices in the documented ellipsoid; minimising the risk finds the portfolio with the least worst variance within the limits.", "quantifier": "all weights, radii, positive definite centres, shapes", "why_tests_cant": "the semidefinite program is only checked on one data set; the set has infinitely many matrices", "anchors": ["src/skfolio/optimization/convex/_base.py:ConvexOptimization._worst_case_variance_risk"]}
{"id": "C65", "title": "Shapes of the empirical uncertainty sets", "statement": "EmpiricalMuUncertaintySet has the covariance of the mean (covariance / T) as shape, symmetric and positive definite; EmpiricalCovarianceUncertaintySet has on its diagonal the Wishart variances of the entries of the sample covariance, and meets the conditions under which the risk is the worst variance over the documented set; commutation_matrix turns vec(X) into vec(X.T) for matrices of any shape.", "quantifier": "all covariances, numbers of observations, assets", "why_tests_cant": "closed formulas for all sizes; tests compare numbers of one data set", "anchors": ["src/skfolio/uncertainty_set/_empirical.py:EmpiricalMuUncertaintySet.fit", "src/skfolio/uncertainty_set/_empirical.py:EmpiricalCovarianceUncertaintySet.fit", "src/skfolio/utils/stats.py:commutation_matrix"]}
{"id": "C66", "title": "Shapes of the bootstrapped uncertainty sets", "statement": "The shapes of BootstrapMuUncertaintySet and BootstrapCovarianceUncertaintySet are symmetric and positive semidefinite, do not depend on the centre that the prior gives, and treat an entry of the covariance as its transposed one.", "quantifier": "all bootstrap samples, numbers of assets, priors, diagonal or not", "why_tests_cant": "the samples are random; tests compare one seed", "anchors": ["src/skfolio/uncertainty_set/_bootstrap.py:BootstrapMuUncertaintySet.fit", "src/skfolio/uncertainty_set/_bootstrap.py:BootstrapCovarianceUncertaintySet.fit"]}
{"id": "C67", "title": "MeanRisk returns the best portfolio within the limits", "statement": "With MINIMIZE_RISK, MAXIMIZE_RETURN or MAXIMIZE_UTILITY, the weights MeanRisk returns are within every limit the user set, and no other portfolio within the limits has a smaller risk, a greater expected return or a greater utility (expected return less risk aversion times risk), after costs, fees, worst case and penalty; risk is the risk measure of the portfolio by its own definition.", "quantifier": "all 15 risk measures, all data, all limits, all other portfolios", "why_tests_cant": "the alternatives are infinitely many; the risk is entered as a program with auxiliary variables and scales", "anchors": ["src/skfolio/optimization/convex/_mean_risk.py:MeanRisk.fit"]}
{"id": "C68", "title": "The efficient frontier of MeanRisk is efficient", "statement": "With efficient_frontier_size, the targets are equally spaced between (1 % above) the return of the minimum risk portfolio and the greatest return; each portfolio is within the limits, reaches its target with the least risk, and no portfolio within the limits has a greater return without a greater risk; risk does not decrease along the frontier; the last portfolio has the greatest return.", "quantifier": "all sizes, data, limits, risk measures", "why_tests_cant": "efficiency compares with infinitely many portfolios", "anchors": ["src/skfolio/optimization/convex/_mean_risk.py:MeanRisk.fit", "src/skfolio/optimization/convex/_mean_risk.py:MeanRisk._validation"]}
{"id": "C69", "title": "One portfolio for each element of a list of limits", "statement": "With a list for min_return or max_<risk>, the fit returns one portfolio for each element, the i-th for the i-th elements; a failure of any problem raises SolverError; lists of different lengths are refused.", "quantifier": "all numbers of parameters, all lengths, all outcomes of the solver", "why_tests_cant": "depends on which of the problems fail", "anchors": ["src/skfolio/optimization/convex/_base.py:ConvexOptimization._solve_problem"]}
{"id": "C70", "title": "problem_values_ are the values of the returned portfolio", "statement": "problem_values_['expected_return'], ['risk'] and ['objective'] are the expected return, the risk and the objective of the returned weights, although the problem is solved in scaled variables.", "quantifier": "all optima, scales and risk measures", "why_tests_cant": "degrees of homogeneity differ between measures; tests compare with a tolerance on one data set", "anchors": ["src/skfolio/optimization/convex/_base.py:ConvexOptimization._solve_problem"]}
{"id": "C71", "title": "Fitting an estimator again gives the problem of a new estimator", "statement": "When an estimator is fitted again (also after a failed fit, or after set_params), its problem has the same limits and the same risk as that of a new estimator: every limit on a drawdown measure excludes the portfolios that exceed it. Several drawdown measures in one problem do not influence each other.", "quantifier": "all sequences of fits, successful or failed, all sets of measures, all data", "why_tests_cant": "needs a failed fit before the one that is checked; the result looks normal", "anchors": ["src/skfolio/optimization/convex/_base.py:ConvexOptimization._cvx_drawdown", "src/skfolio/optimization/convex/_base.py:ConvexOptimization.__cvx_drawdown", "src/skfolio/optimization/convex/_base.py:ConvexOptimization._clear_models_cache", "src/skfolio/optimization/convex/_base.py:ConvexOptimization._solve_problem", "src/skfolio/utils/tools.py:cache_method"]}
{"id": "C72", "title": "A per-asset parameter given by name reaches the asset of that name", "statement": "A per-asset parameter (weights, bounds, costs, fees, thresholds, risk budget, ...) given as a dictionary gives each column of the data frame the value that the dictionary has for its name, wherever the column is, and the default if it has none; other keys and the order of the items have no effect. An array is taken as it is. A dictionary or array with NaN or of a wrong length, or a dictionary without named columns, is refused.", "quantifier": "all dictionaries, arrays, column orders and sizes, all value types", "why_tests_cant": "tests use a few columns in one order", "anchors": ["src/skfolio/utils/tools.py:input_to_array", "src/skfolio/optimization/convex/_base.py:ConvexOptimization._clean_input", "src/skfolio/optimization/cluster/hierarchical/_base.py:BaseHierarchicalOptimization._clean_input"]}
{"id": "C73", "title": "Groups given as a dictionary mean what the dictionary says", "statement": "With groups given as a dictionary from assets to their groups, a name in a linear constraint, a view or a group cardinality stands for exactly the assets whose entry lists it, or for the asset itself; an asset without entry is in no group.", "quantifier": "all dictionaries, numbers of levels, assets and constraints, all weights", "why_tests_cant": "tests give every asset the same number of groups", "anchors": ["src/skfolio/utils/tools.py:input_to_array", "src/skfolio/utils/equations.py:equations_to_matrix", "src/skfolio/utils/equations.py:group_cardinalities_to_matrix", "src/skfolio/utils/equations.py:_validate_groups"]}
{"id": "C74", "title": "A list of assets given by names or indices is resolved exactly", "statement": "A list of assets (central assets or conditioning assets of a vine copula) gives, in the order of the list, the index of the column of each name and each index itself; unknown names and indices out of range are refused (or unknown names left out with a warning), and no asset is listed twice.", "quantifier": "all lists, names and sizes", "why_tests_cant": "tests use lists of names only or of indices only", "anchors": ["src/skfolio/utils/tools.py:validate_input_list", "src/skfolio/distribution/multivariate/_vine_copula.py:VineCopula._init_conditioning"]}
{"id": "C75", "title": "Columns named after portfolios or assets are distinct", "statement": "deduplicate_names returns one name per name, keeps the first of each and all names that occur once, numbers the repetitions, and returns distinct names.", "quantifier": "all lists of names", "why_tests_cant": "needs a name that ends like a generated one", "anchors": ["src/skfolio/utils/tools.py:deduplicate_names", "src/skfolio/population/_population.py:Population.summary", "src/skfolio/portfolio/_multi_period_portfolio.py:MultiPeriodPortfolio.contribution"]}
{"id": "C76", "title": "The volatility regression of ImpliedCovariance uses the past only", "statement": "For each asset the regression explains the logarithm of the realised volatility of a window by the logarithms of the realised volatility of the window before it and of the implied volatility at the end of that window; windows do not overlap, the last one ends with the last observation, the prediction is made from the last window, only the oldest observations that fill no window are ignored, and no feature depends on the period of its target.", "quantifier": "all returns, implied volatilities, numbers of observations and window sizes", "why_tests_cant": "tests compare numbers for one data set; an off-by-one look-ahead gives plausible numbers", "anchors": ["src/skfolio/moments/covariance/_implied_covariance.py:ImpliedCovariance._predict_realised_vols", "src/skfolio/moments/covariance/_implied_covariance.py:_compute_realised_vol", "src/skfolio/moments/covariance/_implied_covariance.py:_compute_implied_vol"]}
{"id": "C77", "title": "ImpliedCovariance has the predicted volatilities and the prior correlations", "statement": "Each asset gets the volatility predicted from its own column of implied_vol (found by name if both tables have names, else by position), per period, or the last implied volatility divided by its risk premium; the covariance has these variances, is positive definite, and keeps the correlations of the prior estimator if it needs no adjustment. Negative implied volatilities are refused, and fitting again with the same data gives the same result.", "quantifier": "all returns, implied volatilities, column orders, premiums, prior covariances and regressors", "why_tests_cant": "tests fit each object once, with positive volatilities", "anchors": ["src/skfolio/moments/covariance/_implied_covariance.py:ImpliedCovariance.fit", "src/skfolio/moments/covariance/_implied_covariance.py:check_implied_vol"]}
{"id": "C78", "title": "DenoiseCovariance keeps variances and trace and replaces exactly the noise eigenvalues", "statement": "For any number of observations and any positive semidefinite prior covariance, the denoised covariance has the prior variances; its correlation is the prior correlation with the same eigenvectors, the eigenvalues that reach the threshold kept and all others replaced by their mean (so the trace is kept and the smallest eigenvalue does not decrease), normalised; it is positive definite unless every noise eigenvalue is 0. The threshold is the upper edge of the Marchenko-Pastur density fitted to the density of the eigenvalues.", "quantifier": "all prior covariances, sizes, numbers of observations, density estimates and minimisers", "why_tests_cant": "tests compare the numbers of one data set; an eigenvalue misplaced or a trace lost gives a plausible matrix", "anchors": ["src/skfolio/moments/covariance/_denoise_covariance.py:DenoiseCovariance.fit", "src/skfolio/moments/covariance/_base.py:BaseCovariance._set_covariance"]}
{"id": "C79", "title": "DetoneCovariance removes exactly the market components", "statement": "The detoned covariance has the prior variances; its correlation is the prior correlation without its n_markets largest eigenvalues, normalised; each removed component gives a portfolio without risk that is uncorrelated with every asset (before the adjustment of nearest). The fit succeeds or refuses n_markets with an error.", "quantifier": "all prior covariances, sizes and n_markets", "why_tests_cant": "tests compare the numbers of one data set with one market component", "anchors": ["src/skfolio/moments/covariance/_detone_covariance.py:DetoneCovariance.fit", "src/skfolio/moments/covariance/_base.py:BaseCovariance._set_covariance"]}
{"id": "C80", "title": "predict gives the portfolio of the fitted weights with the costs of the optimization", "statement": "predict returns a Portfolio whose weights are the fitted ones and whose return of each period is the weighted sum of the asset returns less transaction costs and management fees. Costs, fees, previous weights and the risk-free rate are those of portfolio_params if given there, else those of the optimization, each applied to the asset it was given for, and what is charged is what the optimization counted. Several rows of weights give a Population in the same order. score is the Sharpe ratio, or the mean of the Sharpe ratios. Every previous_weights that fit accepts works, and weights go to the assets by name.", "quantifier": "all estimators, parameters (numbers, dictionaries, arrays), data and weights", "why_tests_cant": "tests predict on the data of the fit, with arrays or dictionaries for previous weights and columns in the same order", "anchors": ["src/skfolio/optimization/_base.py:BaseOptimization.predict", "src/skfolio/optimization/_base.py:BaseOptimization.score", "src/skfolio/portfolio/_portfolio.py:Portfolio.__init__", "src/skfolio/optimization/convex/_base.py:ConvexOptimization._cvx_transaction_cost", "src/skfolio/optimization/convex/_base.py:ConvexOptimization._cvx_management_fee"]}
{"id": "C81", "title": "The distribution, copula and rotation selected are the best candidates", "statement": "select_univariate_dist returns the candidate, fitted to X, with the smallest AIC or BIC (-2 log L + 2k or k ln n, k the number of parameters fitted), the first among equals; select_bivariate_copula returns the independent copula if the p-value of Kendall's test reaches the level and else the best candidate in the same sense; the rotation of a copula is that with the largest likelihood. A candidate whose likelihood is NaN is not selected if there is another. Any list of distributions or copulas of the library is accepted, and the estimator returned can be fitted again to other data like the candidate. The BIC never selects more parameters than the AIC when ln n > 2. Further parameters lower the AIC exactly if the log-likelihood rises by more than one each, the BIC by more than half of ln n each.", "quantifier": "all candidate lists, fits, likelihoods, p-values and levels", "why_tests_cant": "tests select on a few data sets where all likelihoods are finite and no parameter is fixed", "anchors": ["src/skfolio/distribution/univariate/_selection.py:select_univariate_dist", "src/skfolio/distribution/copula/_selection.py:select_bivariate_copula", "src/skfolio/distribution/_base.py:BaseDistribution.aic", "src/skfolio/distribution/_base.py:BaseDistribution.bic", "src/skfolio/distribution/univariate/_base.py:BaseUnivariateDist.n_params", "src/skfolio/distribution/copula/_utils.py:_select_rotation_itau", "src/skfolio/distribution/copula/_utils.py:_select_theta_and_rotation_mle"]}
{"id": "C82", "title": "Empirical and exponentially weighted moments are those of the last observations", "statement": "EmpiricalMu and EmpiricalCovariance are the mean and the sample covariance with ddof, EWMu and EWCovariance those with weights that decrease by 1 - alpha per period into the past, the covariance corrected for its bias; with window_size = w only the last w observations matter, and a window at least as long as the sample changes nothing. Every estimated covariance is symmetric and positive semidefinite, and what is stored has the same variances and is positive definite unless nearest=False. This holds for any number of assets and any documented alpha, 0 < alpha <= 1.", "quantifier": "all samples, windows, ddof, alpha and numbers of assets", "why_tests_cant": "tests compare a few samples to stored arrays with the default alpha and twenty assets", "anchors": ["src/skfolio/moments/expected_returns/_empirical_mu.py:EmpiricalMu.fit", "src/skfolio/moments/expected_returns/_ew_mu.py:EWMu.fit", "src/skfolio/moments/covariance/_empirical_covariance.py:EmpiricalCovariance.fit", "src/skfolio/moments/covariance/_ew_covariance.py:EWCovariance.fit"]}
{"id": "C83", "title": "Clusters of assets: their number and their labels", "statement": "HierarchicalClustering.fit accepts distance matrices and refuses others; its labels are numbered from 0 without a gap, n_clusters_ is their number and at most max_clusters. Without max_clusters it is the number of clusters, between 2 and min(n, max(8, round(sqrt(n)))) - 1, with the largest second difference of the within-cluster dispersion as documented (W_k = sum of D_i / (2 |C_i|)), the first among equals; it does not depend on the unit of the distances nor on how the clusters are numbered. It exists for any number of assets from two.", "quantifier": "all distance matrices, numbers of assets, trees and values of max_clusters", "why_tests_cant": "tests cluster one data set of twenty assets and compare the number of clusters to a stored one", "anchors": ["src/skfolio/cluster/_hierarchical.py:HierarchicalClustering.fit", "src/skfolio/utils/stats.py:compute_optimal_n_clusters", "src/skfolio/utils/stats.py:assert_is_distance"]}
{"id": "C84", "title": "Mutual information and the variation of information", "statement": "MutualInformation.fit returns, with the entropies of the histograms of the returns, the documented I(X,Y) = H(X) + H(Y) - H(X,Y) and H(X,Y) - I(X,Y), normalised or not. Both matrices are symmetric; mutual information is between 0 and the smaller entropy; the distance is not negative, 0 on the diagonal, 0 exactly for assets whose observations share their bins, at most 1 if normalised; and it is a metric: the triangle inequality holds.", "quantifier": "all samples of returns, numbers of bins, and both values of normalize", "why_tests_cant": "tests compare one data set to stored matrices; the triangle inequality and the bounds are inequalities over all distributions", "anchors": ["src/skfolio/distance/_distance.py:MutualInformation.fit", "src/skfolio/utils/stats.py:n_bins_freedman"]}
{"id": "C85", "title": "Distance correlation", "statement": "DistanceCorrelation.fit returns the distance correlation of Szekely of every two assets: symmetric matrices, codependence between 0 and 1 and equal to 1 on the diagonal, distance sqrt(1 - codependence). It captures non-linear dependence: it is 0 exactly if the returns are independent in the sample and 1 exactly if they are an affine function of each other. It does not depend on the units of the returns. The threshold has the documented effect, and the distance is a metric.", "quantifier": "all samples of returns of any number of assets and observations", "why_tests_cant": "tests compare one data set to stored matrices; that zero means independence is a statement about all samples", "anchors": ["src/skfolio/distance/_distance.py:DistanceCorrelation.fit", "src/skfolio/distance/_distance.py:DistanceCorrelation._dcorr"]}
{"id": "C86", "title": "Rolling measures", "statement": "rolling_measure(measure, window) is at every observation the measure of the same portfolio restricted to the last `window` observations up to that one, with the same parameters (compounding, risk-free rate, betas, minimum acceptable return, annualisation); it is NaN until the window is full and never depends on later returns. With the window of the whole sample its last value is the attribute of the portfolio.", "quantifier": "all portfolios, measures, parameters and windows of at least one observation", "why_tests_cant": "tests compare one data set and a few measures; that the value is the one of the restricted portfolio, for every measure and parameter, is universal", "anchors": ["src/skfolio/portfolio/_base.py:BasePortfolio.rolling_measure", "src/skfolio/portfolio/_base.py:BasePortfolio.get_measure"]}
{"id": "C87", "title": "Compositions and weights", "statement": "composition lists the assets with a weight above 0.001% in absolute value, once each, with their weight, in decreasing order. For a multi-period portfolio or a population it has one row for each asset invested in by one of the portfolios and one column for each portfolio, 0 where it is not invested. weights_per_observation has one row for each observation, in order, with the weights of the portfolio of that observation, and weights times returns give back the returns before costs up to the dropped weights. get_weight is the weight of the asset of that name and fails exactly for other names.", "quantifier": "all portfolios with distinct names of assets, all lists of portfolios over different universes", "why_tests_cant": "tests look at a few frames; that no weight is lost or attributed to another asset when universes differ is a statement about all joins", "anchors": ["src/skfolio/portfolio/_portfolio.py:Portfolio.composition", "src/skfolio/portfolio/_portfolio.py:Portfolio.weights_per_observation", "src/skfolio/portfolio/_portfolio.py:Portfolio.get_weight", "src/skfolio/portfolio/_multi_period_portfolio.py:MultiPeriodPortfolio.composition", "src/skfolio/portfolio/_multi_period_portfolio.py:MultiPeriodPortfolio.weights_per_observation", "src/skfolio/population/_population.py:Population.composition"]}
{"id": "C88", "title": "set_portfolio_params", "statement": "Population.set_portfolio_params(**params) sets the parameters of every portfolio of the population and of no other, keeps their other parameters, and returns the population. Measures read afterwards follow the new parameters. An invalid parameter raises and leaves all portfolios as they are.", "quantifier": "all populations (which may hold an object twice), all portfolios with any cached measures, all sets of parameters", "why_tests_cant": "tests set one or two parameters on a fresh population; stale caches and partial updates depend on the history", "anchors": ["src/skfolio/population/_population.py:Population.set_portfolio_params", "src/skfolio/portfolio/_base.py:BasePortfolio.__setattr__"]}
{"id": "C89", "title": "Tail dependence", "statement": "lower_tail_dependence and upper_tail_dependence of every fitted copula are the limits, for q to 0 and to 1, of P(V <= q | U <= q) and of P(V > q | U > q) under the copula, for every rotation. tail_concentration(q) is that conditional probability, a number in [0, 1], for every q in [0, 1], and other quantiles are refused.", "quantifier": "all admissible parameters, all rotations, all quantiles", "why_tests_cant": "limits, and the behaviour in the last 1e-9 at the ends", "anchors": ["src/skfolio/distribution/copula/_clayton.py:ClaytonCopula.lower_tail_dependence", "src/skfolio/distribution/copula/_clayton.py:ClaytonCopula.upper_tail_dependence", "src/skfolio/distribution/copula/_gumbel.py:GumbelCopula.lower_tail_dependence", "src/skfolio/distribution/copula/_gumbel.py:GumbelCopula.upper_tail_dependence", "src/skfolio/distribution/copula/_joe.py:JoeCopula.lower_tail_dependence", "src/skfolio/distribution/copula/_joe.py:JoeCopula.upper_tail_dependence", "src/skfolio/distribution/copula/_gaussian.py:GaussianCopula.lower_tail_dependence", "src/skfolio/distribution/copula/_gaussian.py:GaussianCopula.upper_tail_dependence", "src/skfolio/distribution/copula/_student_t.py:StudentTCopula.lower_tail_dependence", "src/skfolio/distribution/copula/_student_t.py:StudentTCopula.upper_tail_dependence", "src/skfolio/distribution/copula/_independent.py:IndependentCopula.lower_tail_dependence", "src/skfolio/distribution/copula/_independent.py:IndependentCopula.upper_tail_dependence", "src/skfolio/distribution/copula/_base.py:BaseBivariateCopula.tail_concentration"]}
{"id": "C90", "title": "The copula fitted by Kendall's tau has that tau", "statement": "With itau=True, the copula fitted has the Kendall's tau of the data (or the tau given as kendall_tau), as far as the bounds of the parameter allow: 4 E C(U, V) - 1 under the fitted copula, with its rotation, is the number of concordant less the number of discordant pairs over the geometric mean of the pairs without ties. The parameter is within its bounds and the rotation has the greatest likelihood of the four. Data or taus for which this is impossible are refused.", "quantifier": "all data in the unit square, all taus, all rotations", "why_tests_cant": "needs the tau of a continuous distribution, an integral for every parameter, and the digamma series; tests compare single fits with stored numbers", "anchors": ["src/skfolio/distribution/copula/_clayton.py:ClaytonCopula.fit", "src/skfolio/distribution/copula/_gumbel.py:GumbelCopula.fit", "src/skfolio/distribution/copula/_joe.py:JoeCopula.fit", "src/skfolio/distribution/copula/_joe.py:_tau_diff", "src/skfolio/distribution/copula/_gaussian.py:GaussianCopula.fit", "src/skfolio/distribution/copula/_student_t.py:StudentTCopula.fit", "src/skfolio/distribution/copula/_utils.py:_select_rotation_itau", "src/skfolio/distribution/copula/_base.py:BaseBivariateCopula._validate_X"]}
{"id": "C91", "title": "Metadata reaches the estimators that ask for it", "statement": "With metadata routing, each keyword passed to `fit` of an estimator reaches every estimator nested in it, at any depth, that has asked for it, with the value passed, and no other; a keyword that no nested estimator has asked for is refused.", "quantifier": "all compositions of the estimators that nest others, to any depth, all requests (also under other names) and all keywords", "why_tests_cant": "ranges over trees of estimators; tests fit a few fixed compositions", "anchors": ["src/skfolio/prior/_synthetic_data.py:SyntheticData.get_metadata_routing", "src/skfolio/prior/_synthetic_data.py:SyntheticData.fit", "src/skfolio/prior/_factor_model.py:FactorModel.fit", "src/skfolio/prior/_factor_model.py:LoadingMatrixRegression.fit", "src/skfolio/prior/_empirical.py:EmpiricalPrior.get_metadata_routing", "src/skfolio/optimization/convex/_mean_risk.py:MeanRisk.get_metadata_routing", "src/skfolio/optimization/cluster/_nco.py:NestedClustersOptimization.fit", "src/skfolio/optimization/ensemble/_stacking.py:StackingOptimization.fit", "src/skfolio/moments/covariance/_implied_covariance.py:ImpliedCovariance.fit"]}
{"id": "C92", "title": "Custom objectives and constraints apply to the weights", "statement": "The portfolio returned by `MeanRisk`, `RiskBudgeting` and `DistributionallyRobustCVaR` meets every constraint of `add_constraints`, a function of the weights, and is the best of all portfolios within the limits that do so when `add_objective` is added to the objective; a custom function is called with the weights, or with the weights and the estimator, according to its number of parameters.", "quantifier": "all data, limits, risk measures, objective functions and all custom functions", "why_tests_cant": "ranges over functions given by the user and over all portfolios; tests use one or two lambdas and compare with stored weights", "anchors": ["src/skfolio/optimization/convex/_base.py:ConvexOptimization._call_custom_func", "src/skfolio/optimization/convex/_base.py:ConvexOptimization._get_custom_objective", "src/skfolio/optimization/convex/_base.py:ConvexOptimization._get_custom_constraints", "src/skfolio/optimization/convex/_mean_risk.py:MeanRisk.fit", "src/skfolio/optimization/convex/_risk_budgeting.py:RiskBudgeting.fit", "src/skfolio/optimization/convex/_distributionally_robust.py:DistributionallyRobustCVaR.fit"]}
{"id": "C93", "title": "The prior of SyntheticData is that of the sampled returns", "statement": "`SyntheticData.fit` fits the distribution estimator, samples `n_samples` returns from it, and its prior model has these returns, their sample means and their sample covariances; columns without variance, as those of conditioned assets, get a small white noise so that `fit` does not fail, all others are unchanged. A distribution estimator without a method `sample(n_samples)` is refused.", "quantifier": "all distribution estimators, samples, numbers of assets and noises", "why_tests_cant": "ranges over all samples and all draws of the noise; tests sample once from a fitted vine and compare shapes", "anchors": ["src/skfolio/prior/_synthetic_data.py:SyntheticData.fit", "src/skfolio/prior/_synthetic_data.py:_check_sample_method", "src/skfolio/prior/_empirical.py:EmpiricalPrior.fit"]}
{"id": "C94", "title": "Loadings are one regression per asset, and what they make of the moments", "statement": "`LoadingMatrixRegression` gives asset i the coefficients and the intercept of the regression of asset i on the factors, independently of the other assets. `FactorModel` with a linear regression and the empirical prior of the factors reports the sample mean and the sample variance of every asset, and the sample covariance of two assets up to the covariance of their residuals.", "quantifier": "all asset and factor returns, numbers of assets, factors and observations", "why_tests_cant": "ranges over all data; tests compare loadings and covariances with stored numbers for one data set", "anchors": ["src/skfolio/prior/_factor_model.py:LoadingMatrixRegression.fit", "src/skfolio/prior/_factor_model.py:FactorModel.fit"]}
{"id": "C95", "title": "Keywords of fit are cut like the data", "statement": "Wherever an estimator is fitted on a part of the data, every keyword of `fit` is cut in the same way: in `cross_val_predict` to the training rows of the split, in `NestedClustersOptimization` to the columns of the cluster, so that row t and column j of a keyword belong to row t and column j of the data; a keyword with another number of rows than the data is refused.", "quantifier": "all data, keywords, splits and clusters", "why_tests_cant": "ranges over all splits, clusters and shapes of keywords; tests route one DataFrame through one estimator", "anchors": ["src/skfolio/utils/tools.py:_check_method_params", "src/skfolio/utils/tools.py:safe_indexing", "src/skfolio/utils/tools.py:safe_split", "src/skfolio/utils/tools.py:fit_single_estimator", "src/skfolio/utils/tools.py:fit_and_predict", "src/skfolio/model_selection/_validation.py:cross_val_predict", "src/skfolio/optimization/cluster/_nco.py:NestedClustersOptimization.fit"]}
{"id": "C96", "title": "Values dropped while a vine is sampled are not needed any more", "statement": "VineCopula.sample makes a first pass that counts how often every intermediate value is read and a second one that drops a value once it has been read that often. The samples, or the exception, are those of sampling with all values kept, whatever earlier calls left in the nodes; and when it ends every value of a node of a tree that has been read is dropped.", "quantifier": "all vines, sampling orders, initial samples, copulas and states of the nodes before the call", "why_tests_cant": "a value dropped one read too early is silently computed again from values that may have changed, or only costs time; tests cannot see this for all vines and orders", "anchors": ["src/skfolio/distribution/multivariate/_utils.py:ChildNode.u", "src/skfolio/distribution/multivariate/_utils.py:ChildNode.v", "src/skfolio/distribution/multivariate/_vine_copula.py:VineCopula._count_node_visits", "src/skfolio/distribution/multivariate/_vine_copula.py:VineCopula.sample", "src/skfolio/distribution/multivariate/_vine_copula.py:_propagate_samples"]}
{"id": "C97", "title": "Distances from correlations are metrics of comovement", "statement": "PearsonDistance, KendallDistance, SpearmanDistance and CovarianceDistance turn the correlations of the returns (of the covariance) into a codependence, the correlation or its absolute value to the given power, and a distance between 0 and 1 that is 0 on the diagonal, symmetric and satisfies the triangle inequality. The distance is 0 exactly if the two assets move together: for Pearson an increasing affine function of each other, for Kendall and Spearman the same order of the observations; with absolute values or an even power also in opposite ways. Pearson's does not depend on units and shifts of the returns, Kendall's and Spearman's not on increasing transformations.", "quantifier": "all returns, numbers of assets and observations, powers and both settings of absolute", "why_tests_cant": "clustering relies on the metric properties for all data; tests check a few fixed matrices, and the cases with NaN (constant asset, one asset, fractional power) are not tested", "anchors": ["src/skfolio/distance/_distance.py:PearsonDistance.fit", "src/skfolio/distance/_distance.py:KendallDistance.fit", "src/skfolio/distance/_distance.py:SpearmanDistance.fit", "src/skfolio/distance/_distance.py:CovarianceDistance.fit", "src/skfolio/distance/_distance.py:_corr_to_distance"]}
{"id": "C98", "title": "The first tree of a vine follows the dependence of the assets", "statement": "VineCopula.fit joins in the first tree the most dependent assets: with the dependence method KENDALL_TAU the tree has the largest sum of the absolute taus among all spanning trees, does not change if the variables are replaced by increasing functions of them, and the absolute tau is largest (one) exactly for variables with the same or opposite orders. With every dependence method the choice depends on which observations belong together.", "quantifier": "all numbers of assets and observations, all pseudo-observations and all dependence methods", "why_tests_cant": "tests compare a few trees; that a dependence method ignores the dependence does not show in any single example", "anchors": ["src/skfolio/distribution/multivariate/_utils.py:_dependence", "src/skfolio/distribution/multivariate/_utils.py:Tree.set_edges_from_mst", "src/skfolio/distribution/multivariate/_utils.py:DependenceMethod"]}
{"id": "C99", "title": "Portfolios survive pickling and deep-copying", "statement": "pickle.loads(pickle.dumps(p)) and copy.deepcopy(p) give, for every Portfolio and MultiPeriodPortfolio p that the library let the user build, an equal object: same data, weights, costs, parameters, observations and returns, and the same value for every measure and the fitness, although only the constructor arguments are stored; a reloaded MultiPeriodPortfolio shares no list with the original.", "quantifier": "all constructor arguments, all histories of reads, assignments and list operations before the object is stored", "why_tests_cant": "parallel cross-validation and populations are pickled all the time, but tests reload one or two fresh objects; the histories after which the constructor no longer accepts the object's own attributes are not tried", "anchors": ["src/skfolio/portfolio/_base.py:BasePortfolio.__reduce__", "src/skfolio/utils/tools.py:args_names", "src/skfolio/portfolio/_portfolio.py:Portfolio.__init__", "src/skfolio/portfolio/_multi_period_portfolio.py:MultiPeriodPortfolio.__init__"]}
{"id": "C100", "title": "Parameters of a stacking are found and set at their addresses", "statement": "StackingOptimization.get_params lists every estimator under its name, every constructor argument under its name and every parameter of an estimator (and of the final estimator) under name__key with the value it has. Every parameter listed this way can be set with set_params; afterwards the new value is listed there and nothing else has changed. Addresses that are not listed are refused. fit accepts exactly the lists of estimators with different names that are no constructor arguments and contain no double underscore.", "quantifier": "all lists of estimators, all names (strings of any length), all parameters of the estimators, all values", "why_tests_cant": "tests use names like 'model1'; which strings can be taken apart again is a statement about all strings", "anchors": ["src/skfolio/optimization/ensemble/_base.py:BaseComposition._get_params", "src/skfolio/optimization/ensemble/_base.py:BaseComposition._set_params", "src/skfolio/optimization/ensemble/_base.py:BaseComposition._validate_names", "src/skfolio/optimization/ensemble/_stacking.py:StackingOptimization._validate_estimators"]}
{"id": "C101", "title": "Cached methods return what the methods return", "statement": "A method decorated with cache_method (the expressions of the convex optimizations: returns, costs, fees, minimum acceptable return, drawdowns, ...) returns in every call of a fit what the undecorated method would return for these arguments, raises what it would raise, and runs the method only once for equal arguments, so that all parts of a problem share the same variables.", "quantifier": "all sequences of calls, all arguments, all hash functions of strings, objects and tuples", "why_tests_cant": "the key is a hash of the arguments: tests cannot exclude collisions, and a stale expression gives a plausible problem", "anchors": ["src/skfolio/utils/tools.py:cache_method", "src/skfolio/utils/tools.py:_make_key", "src/skfolio/optimization/convex/_base.py:ConvexOptimization._cvx_min_acceptable_return"]}
{"id": "C102", "title": "Arithmetic of multi-period portfolios", "statement": "-m, abs(m), round(m, n), m + m', m - m', c * m, m / c and m // c of MultiPeriodPortfolios act on the portfolios of every period, in order (with one factor per period if c is a list), and give a multi-period portfolio with the same parameters; mismatched numbers of periods or periods that are not comparable raise. Without transaction costs the returns of a multiple or sum are the multiple or sum of the returns, and multiplying by one changes nothing. math.floor and math.trunc round the weights.", "quantifier": "all numbers of periods, all portfolios with or without costs, all factors, all parameters", "why_tests_cant": "tests check one sum and one product of default objects", "anchors": ["src/skfolio/portfolio/_multi_period_portfolio.py:MultiPeriodPortfolio.__neg__", "src/skfolio/portfolio/_multi_period_portfolio.py:MultiPeriodPortfolio.__add__", "src/skfolio/portfolio/_multi_period_portfolio.py:MultiPeriodPortfolio.__mul__", "src/skfolio/portfolio/_multi_period_portfolio.py:MultiPeriodPortfolio.__floor__"]}
{"id": "C103", "title": "Displayed measures are faithful", "statement": "`format_measure` displays every number within 5% of its value (or within 5e-7 of a unit, one percent for percentages), never displays a smaller number as greater than a larger one although they may have different numbers of decimals, displays zero only for numbers of at most 5e-7 units and a minus sign only for negative numbers; every float can be displayed.", "quantifier": "all real numbers, infinities and NaN, as percentages or not", "why_tests_cant": "ranges over all numbers, including the changes of the number of decimals at powers of ten; tests format a few", "anchors": ["src/skfolio/utils/tools.py:format_measure", "src/skfolio/utils/tools.py:optimal_rounding_decimals"]}
{"id": "C104", "title": "The summary has one row per measure", "statement": "`summary` of a portfolio has one row for each of the 46 measures, none overwriting another, which holds that measure (formatted or not); the row names the confidence level of the measures that have one; Portfolio and MultiPeriodPortfolio add two further rows; every portfolio has a formatted summary.", "quantifier": "all portfolios, values of measures and confidence levels", "why_tests_cant": "ranges over all confidence levels and values of measures; tests look at the summary of a few portfolios", "anchors": ["src/skfolio/portfolio/_base.py:BasePortfolio.summary", "src/skfolio/portfolio/_portfolio.py:Portfolio.summary", "src/skfolio/portfolio/_multi_period_portfolio.py:MultiPeriodPortfolio.summary", "src/skfolio/measures/_enums.py:BaseMeasure.__repr__"]}
{"id": "C105", "title": "A walk-forward backtest never uses the future", "statement": "In `cross_val_predict` with `WalkForward`, each portfolio is the prediction, on its test window, of the estimator fitted on its training window, which ends purged_size rows before the test window. Hence changing the data from row t on changes no portfolio whose test window ends by t, the weights of a window do not depend on the purged rows nor on later ones, and further observations only continue the backtest: the portfolios of whole test windows stay the same.", "quantifier": "all estimators (any function of the training and test rows), all data, sizes, purges, both training modes, observation and period splits", "why_tests_cant": "a non-interference property over all pairs of data sets and all estimators; a test runs one estimator on one data set", "anchors": ["src/skfolio/model_selection/_validation.py:cross_val_predict", "src/skfolio/model_selection/_walk_forward.py:WalkForward.split", "src/skfolio/utils/tools.py:fit_and_predict"]}
{"id": "C106", "title": "Measures respond to reordering, leverage and cash as they should", "statement": "For every sample of returns: every measure other than the drawdown measures is unchanged when the observations are reordered. Multiplying all returns by l >= 0 multiplies the mean, MAD, first lower partial moment, standard and semi deviation, Gini mean difference, VaR, CVaR, worst realization and (without compounding) max, average, conditional drawdown and drawdown at risk by l, the variances by l^2, the third and fourth moments by l^3 and l^4; skew and kurtosis are unchanged; the entropic risk scales when its risk aversion scales too. Adding the same cash t to all returns leaves the dispersion measures, skew and kurtosis unchanged and lowers VaR, CVaR, worst realization and entropic risk by t. A sample symmetric about some value has zero skew.", "quantifier": "all samples, all leverages, all amounts of cash, all beta in [0,1), with or without a minimum acceptable return (which moves with the returns)", "why_tests_cant": "ranges over all samples and all transformations of them; relates two runs", "anchors": ["src/skfolio/measures/_measures.py:semi_variance", "src/skfolio/measures/_measures.py:skew", "src/skfolio/measures/_measures.py:kurtosis", "src/skfolio/measures/_measures.py:value_at_risk", "src/skfolio/measures/_measures.py:entropic_risk_measure", "src/skfolio/measures/_measures.py:get_drawdowns", "src/skfolio/measures/_measures.py:fourth_lower_partial_moment"]}
{"id": "C107", "title": "Moments of a portfolio agree with those computed from its assets", "statement": "For every portfolio that can be built: expected_returns_from_assets of the sample means of its assets is its mean return, costs and fees included, and variance_from_assets of their sample covariance (EmpiricalCovariance with ddof 1) is its variance, whatever the costs; a covariance of another size is refused. The diversification of a long-only portfolio is the weighted average of the volatilities of its assets over its volatility, which is at least 1. sric lowers a positive Sharpe ratio and raises a negative one.", "quantifier": "all return panels, weights, costs and fees, numbers of observations >= 2", "why_tests_cant": "an identity between two computations on all panels and weights, and a lower bound (Cauchy-Schwarz) on all of them", "anchors": ["src/skfolio/portfolio/_portfolio.py:Portfolio.variance_from_assets", "src/skfolio/portfolio/_portfolio.py:Portfolio.expected_returns_from_assets", "src/skfolio/portfolio/_portfolio.py:Portfolio.diversification", "src/skfolio/portfolio/_portfolio.py:Portfolio.sric", "src/skfolio/moments/covariance/_empirical_covariance.py:EmpiricalCovariance.fit"]}
{"id": "C108", "title": "The order of the assets does not matter to the optimisers", "statement": "If the columns of the data are permuted, together with every parameter that has one entry per asset (bounds, costs, fees, previous weights, thresholds, group members, coefficients of the linear constraints, risk budgets, minimum acceptable returns), then the optimal solutions of MeanRisk, RiskBudgeting, MaximumDiversification and DistributionallyRobustCVaR are exactly the permuted optimal solutions, for every objective, risk measure and set of limits, and the problem is refused with the same error exactly if the other one is. The weights of InverseVolatility and EqualWeighted are permuted in the same way. Once the assets are clustered, HierarchicalRiskParity and HierarchicalEqualRiskContribution permute their weights (or fail with the same error) when assets, bounds, leaf order or dendrogram and labels are renumbered.", "quantifier": "all problems, all permutations of the assets; the Cholesky factor and the square root of the uncertainty set are computed anew, only the matrices correspond", "why_tests_cant": "all permutations of all problems; a test compares a few orders for one solver and one problem", "anchors": ["src/skfolio/optimization/convex/_mean_risk.py:MeanRisk.fit", "src/skfolio/optimization/convex/_base.py:ConvexOptimization._get_weight_constraints", "src/skfolio/optimization/convex/_risk_budgeting.py:RiskBudgeting.fit", "src/skfolio/optimization/convex/_maximum_diversification.py:MaximumDiversification.fit", "src/skfolio/optimization/naive/_naive.py:InverseVolatility.fit", "src/skfolio/optimization/cluster/hierarchical/_hrp.py:HierarchicalRiskParity.fit", "src/skfolio/optimization/cluster/hierarchical/_herc.py:HierarchicalEqualRiskContribution.fit", "src/skfolio/optimization/convex/_distributionally_robust.py:306-418"]}
{"id": "C109", "title": "Diversification does not raise risk", "statement": "The risk of a mix of two portfolios (constant shares, as in Portfolio) is at most the mix of their risks, for: mean absolute deviation, first and fourth lower partial moments, variance, semi-variance, fourth central moment, standard and semi-deviation, Gini mean difference, worst realization, CVaR, EVaR, and, without compounding, maximum, average, conditional and entropic drawdown and the ulcer index. Hence the risk of a long-only, fully invested portfolio is at most the weighted average of the risks of its assets. The same holds for the worst disutility over the Wasserstein ball, which DistributionallyRobustCVaR minimises.", "quantifier": "all pairs of return series of equal length, all shares in [0, 1], all numbers of assets and observations, all targets and levels", "why_tests_cant": "an inequality over all pairs of series and mixes; a test samples some", "anchors": ["src/skfolio/measures/_measures.py:mean_absolute_deviation", "src/skfolio/measures/_measures.py:first_lower_partial_moment", "src/skfolio/measures/_measures.py:variance", "src/skfolio/measures/_measures.py:semi_variance", "src/skfolio/measures/_measures.py:standard_deviation", "src/skfolio/measures/_measures.py:semi_deviation", "src/skfolio/measures/_measures.py:fourth_central_moment", "src/skfolio/measures/_measures.py:fourth_lower_partial_moment", "src/skfolio/measures/_measures.py:worst_realization", "src/skfolio/measures/_measures.py:cvar", "src/skfolio/measures/_measures.py:evar", "src/skfolio/measures/_measures.py:get_drawdowns", "src/skfolio/measures/_measures.py:max_drawdown", "src/skfolio/measures/_measures.py:average_drawdown", "src/skfolio/measures/_measures.py:cdar", "src/skfolio/measures/_measures.py:edar", "src/skfolio/measures/_measures.py:ulcer_index", "src/skfolio/measures/_measures.py:gini_mean_difference", "src/skfolio/measures/_measures.py:value_at_risk", "src/skfolio/optimization/convex/_distributionally_robust.py:DistributionallyRobustCVaR.fit"]}
{"id": "C110", "title": "Better returns are not measured as riskier", "statement": "If the returns of one portfolio are at every observation at least those of another, its mean is at least as high and these risks are at most as high: lower partial moments, semi-variance and semi-deviation against a fixed target, worst realization, VaR, CVaR, the entropic risk measures, every single drawdown and hence maximum, average, at-risk, conditional and entropic drawdowns and the ulcer index, with or without compounding.", "quantifier": "all pairs of return series, targets, levels and risk aversions; with compounding, all returns above -1", "why_tests_cant": "an inequality over all ordered pairs of series", "anchors": ["src/skfolio/measures/_measures.py:mean", "src/skfolio/measures/_measures.py:first_lower_partial_moment", "src/skfolio/measures/_measures.py:semi_variance", "src/skfolio/measures/_measures.py:semi_deviation", "src/skfolio/measures/_measures.py:fourth_lower_partial_moment", "src/skfolio/measures/_measures.py:worst_realization", "src/skfolio/measures/_measures.py:value_at_risk", "src/skfolio/measures/_measures.py:cvar", "src/skfolio/measures/_measures.py:entropic_risk_measure", "src/skfolio/measures/_measures.py:get_drawdowns", "src/skfolio/measures/_measures.py:drawdown_at_risk", "src/skfolio/measures/_measures.py:max_drawdown", "src/skfolio/measures/_measures.py:average_drawdown", "src/skfolio/measures/_measures.py:cdar", "src/skfolio/measures/_measures.py:edar", "src/skfolio/measures/_measures.py:ulcer_index"]}
{"id": "C111", "title": "When the weights do not depend on the solver", "statement": "Two solvers that both find an optimum of a MeanRisk problem without cardinality or threshold limits return the same weights in these cases: l2_coef > 0 with any risk measure and any objective but the ratio; the variance with a positive definite covariance when the risk enters the objective; the standard deviation likewise with a budget other than 0; the maximum Sharpe ratio with a positive definite covariance, a budget other than 0 and no penalties. The same holds for RiskBudgeting with every risk measure, without limits that exclude a fully invested portfolio of positive weights and min_return, if the portfolio is not free of risk. And for MaximumDiversification with a positive definite covariance, a budget other than 0 and no penalties. Then reordering the assets (with their risk budgets) reorders the weights, and assets that the problem does not distinguish get equal weights. With two assets that always move together and no l2_coef the weights are not determined.", "quantifier": "all numbers of assets and observations, all data, limits, costs, uncertainty sets and parameters as stated", "why_tests_cant": "a test runs one or two solvers on some data sets; that the solution is the only one is a statement about all portfolios", "anchors": ["src/skfolio/optimization/convex/_mean_risk.py:MeanRisk.fit", "src/skfolio/optimization/convex/_base.py:ConvexOptimization._cvx_regularization", "src/skfolio/optimization/convex/_base.py:ConvexOptimization._standard_deviation_risk", "src/skfolio/optimization/convex/_base.py:ConvexOptimization._variance_risk", "src/skfolio/optimization/convex/_base.py:ConvexOptimization._solve_problem", "src/skfolio/optimization/convex/_risk_budgeting.py:RiskBudgeting.fit", "src/skfolio/optimization/convex/_maximum_diversification.py:MaximumDiversification.fit"]}
{"id": "C112", "title": "Relaxing limits does not worsen the optimum", "statement": "If every limit of a MeanRisk problem is kept, moved outwards or dropped (weights, long, short, budget, linear constraints, cardinalities, thresholds, turnover, tracking error, minimum returns, risk limits; a budget may be replaced by bounds around it), a solvable problem remains solvable and the optimum is not worse: the risk plus penalty is not larger, the expected return less penalty not smaller, the utility not smaller, the ratio not smaller. A portfolio of the looser problem that meets the tighter limits solves the tighter problem. The same for the limits on the weights in DistributionallyRobustCVaR: the worst disutility over the Wasserstein ball is not greater.", "quantifier": "all problems, all pairs of limits so related, all risk measures and objectives", "why_tests_cant": "a test compares two sets of limits on some data", "anchors": ["src/skfolio/optimization/convex/_mean_risk.py:MeanRisk.fit", "src/skfolio/optimization/convex/_base.py:ConvexOptimization._get_weight_constraints", "src/skfolio/optimization/convex/_distributionally_robust.py:DistributionallyRobustCVaR.fit"]}
{"id": "C113", "title": "The unit of the returns does not matter", "statement": "If all returns are multiplied by a positive number (fractions become percent), together with everything that is a return or a risk (expected returns, costs, fees, risk-free rate, minimum acceptable return, benchmark, minimum returns, tracking error and risk limits, covariance by its square, uncertainty set, penalties and risk aversion by the ratio of the units they relate), the optimal weights of MeanRisk, RiskBudgeting, InverseVolatility, HierarchicalRiskParity and HierarchicalEqualRiskContribution remain the same. For the maximum ratio this holds although the constant that normalises the problem is clipped to [1e-3, 1e3] and so does not follow the unit. Not so DistributionallyRobustCVaR, which takes -1 for a total loss: in a unit in which the losses below -1 exceed the radius on average (returns in percent), its problem is unbounded for every portfolio and no fit has an optimum.", "quantifier": "all problems, all positive factors, all risk measures, all objectives", "why_tests_cant": "a test compares two units on one data set; the clipping of the constant makes the transformed problem a different one", "anchors": ["src/skfolio/optimization/convex/_mean_risk.py:MeanRisk.fit", "src/skfolio/optimization/convex/_base.py:_optimal_homogenization_factor", "src/skfolio/optimization/convex/_base.py:ConvexOptimization._cvx_mu_uncertainty_set", "src/skfolio/optimization/convex/_risk_budgeting.py:RiskBudgeting.fit", "src/skfolio/optimization/naive/_naive.py:InverseVolatility.fit", "src/skfolio/optimization/cluster/hierarchical/_hrp.py:HierarchicalRiskParity.fit", "src/skfolio/optimization/cluster/hierarchical/_herc.py:HierarchicalEqualRiskContribution.fit", "src/skfolio/optimization/convex/_distributionally_robust.py:DistributionallyRobustCVaR.fit"]}
{"id": "C114", "title": "The scales of the problem do not change its solutions", "statement": "scale_objective and scale_constraints are meant for the convergence of the solver. Whatever positive values are given, or none (the defaults depend on the objective and the risk measure), MeanRisk, RiskBudgeting and DistributionallyRobustCVaR have the same optimal solutions, cardinality limits, custom objectives and custom constraints included, and the parameters are refused in the same cases.", "quantifier": "all problems, all risk measures and objectives, all positive scales", "why_tests_cant": "a test compares a few scales and can not tell a small change from inaccuracy of the solver; one term out of some sixty that is not scaled would suffice to change the solutions", "anchors": ["src/skfolio/optimization/convex/_base.py:ConvexOptimization._set_scale_objective", "src/skfolio/optimization/convex/_base.py:ConvexOptimization._set_scale_constraints", "src/skfolio/optimization/convex/_base.py:ConvexOptimization._get_weight_constraints", "src/skfolio/optimization/convex/_mean_risk.py:MeanRisk.fit", "src/skfolio/optimization/convex/_risk_budgeting.py:RiskBudgeting.fit", "src/skfolio/optimization/convex/_distributionally_robust.py:DistributionallyRobustCVaR.fit"]}
{"id": "C115", "title": "The order of the observations matters only for drawdowns", "statement": "Shuffling the days of the returns (together with those of the benchmark) leaves the optimal solutions of MeanRisk and RiskBudgeting the same for every objective and every limit, as long as neither the risk measure nor a risk limit is a drawdown measure (maximum, average, CDaR, EDaR, ulcer index); those of DistributionallyRobustCVaR are always the same. The empirical expected returns and covariance do not depend on the order unless a window is given. With a drawdown measure the optimal weights can change.", "quantifier": "all problems, all risk measures other than drawdowns, all permutations of the days, all numbers of days and assets", "why_tests_cant": "a test shuffles a few samples and compares within the tolerance of the solver; that no measure, limit or estimator looks at the order is a statement about all of them", "anchors": ["src/skfolio/optimization/convex/_base.py:ConvexOptimization._cvar_risk", "src/skfolio/optimization/convex/_base.py:ConvexOptimization._gini_mean_difference_risk", "src/skfolio/optimization/convex/_base.py:ConvexOptimization._evar_risk", "src/skfolio/optimization/convex/_base.py:ConvexOptimization._tracking_error", "src/skfolio/optimization/convex/_mean_risk.py:MeanRisk.fit", "src/skfolio/optimization/convex/_risk_budgeting.py:RiskBudgeting.fit", "src/skfolio/optimization/convex/_distributionally_robust.py:DistributionallyRobustCVaR.fit", "src/skfolio/moments/expected_returns/_empirical_mu.py:EmpiricalMu.fit", "src/skfolio/moments/covariance/_empirical_covariance.py:EmpiricalCovariance.fit"]}
{"id": "C116", "title": "Optimisers agree with the closed forms for uncorrelated and equally correlated assets", "statement": "For fully invested uncorrelated assets, MeanRisk that minimises the variance or the standard deviation and HierarchicalRiskParity with the variance return the same weights, those proportional to the inverse variances (for MeanRisk if they are within the limits; for HierarchicalRiskParity whatever the clustering). For assets with the same correlation between any two of them, RiskBudgeting with the variance or the standard deviation and equal budgets, and MaximumDiversification (if within the limits), return the weights of InverseVolatility.", "quantifier": "all numbers of assets, all variances, all correlations below 1, all leaf orders, every optimum of the solver", "why_tests_cant": "tests compare a few fitted weights of one data set with stored values; that different algorithms agree for a whole class of inputs cannot be enumerated", "anchors": ["src/skfolio/optimization/convex/_mean_risk.py:MeanRisk.fit", "src/skfolio/optimization/convex/_risk_budgeting.py:RiskBudgeting.fit", "src/skfolio/optimization/convex/_maximum_diversification.py:MaximumDiversification.fit", "src/skfolio/optimization/cluster/hierarchical/_hrp.py:HierarchicalRiskParity.fit", "src/skfolio/optimization/naive/_naive.py:InverseVolatility.fit"]}
{"id": "C117", "title": "Parameters that trade goals against each other move the portfolio in their direction", "statement": "In MeanRisk, a greater risk_aversion gives a portfolio with no more risk and no more expected return; risk_aversion=0 is the maximisation of the expected return; a greater l2_coef gives weights with no greater sum of squares and a greater l1_coef weights with no greater sum of absolute values, at no better objective. The portfolios of greatest utility and of greatest ratio are efficient: no portfolio within the limits has at least the same return and less risk, or at most the same risk and more return.", "quantifier": "all problems, all risk measures, all limits, all pairs of parameter values, every optimum of the solver", "why_tests_cant": "a test compares two or three values of a parameter on one data set; monotonicity is a statement about all pairs of values and all optima the solver may return", "anchors": ["src/skfolio/optimization/convex/_mean_risk.py:MeanRisk.fit", "src/skfolio/optimization/convex/_base.py:ConvexOptimization._cvx_regularization", "src/skfolio/optimization/convex/_base.py:ConvexOptimization._cvx_expected_return"]}
{"id": "C118", "title": "The efficient frontier is convex", "statement": "The least risk for a target return lies on or below the straight line between those for two other targets, so the risk of each inner portfolio of efficient_frontier_size is at most the mean of its neighbours'; the greatest expected return under a limit on any risk measure is a concave function of the limit. (Risk plus penalty, expected return less penalty; no cardinality or threshold limits.)", "quantifier": "all problems without mixed-integer limits, all risk measures, all targets and limits, all sizes of the frontier", "why_tests_cant": "tests check the order of the returned risks of a few frontiers; convexity concerns every triple of targets, every measure and every set of limits", "anchors": ["src/skfolio/optimization/convex/_mean_risk.py:MeanRisk.fit", "src/skfolio/optimization/convex/_base.py:ConvexOptimization._cvx_expected_return"]}
{"id": "C119", "title": "More caution gives more cautious portfolios", "statement": "In MeanRisk with an uncertainty set of the expected returns, a greater set (kappa) gives a portfolio whose expected return is no more uncertain, with a plain return or utility that is no better; the worst-case objective never improves; kappa=0 is the same as no set. A greater (uniform) transaction cost gives a portfolio that trades no more, with a return or utility before costs that is no better. In DistributionallyRobustCVaR, the least worst-case disutility never decreases with wasserstein_ball_radius, and is concave in it.", "quantifier": "all problems, all pairs of radii and costs, every optimum of the solver", "why_tests_cant": "a test compares two or three radii on one data set; monotonicity is a statement about all pairs of values and all optima the solver may return", "anchors": ["src/skfolio/optimization/convex/_mean_risk.py:MeanRisk.fit", "src/skfolio/optimization/convex/_base.py:ConvexOptimization._cvx_mu_uncertainty_set", "src/skfolio/optimization/convex/_base.py:ConvexOptimization._cvx_transaction_cost", "src/skfolio/optimization/convex/_distributionally_robust.py:DistributionallyRobustCVaR.fit"]}
{"id": "C120", "title": "More assets never hurt in sample", "statement": "A fit of MeanRisk on more assets is at least as good, by its own criterion (risk, return, utility or ratio, with the penalty), as any portfolio within the limits of the fit on a selection of these assets, such as one made by a pre-selection step; a portfolio of the selection has the same risk by every measure, the same return and is within the limits when it is seen as a portfolio of all assets. The limits on all assets are those on the selection or looser, and allow not to hold the others. The worst disutility of DistributionallyRobustCVaR on more assets is at most that of any portfolio within the limits on a selection.", "quantifier": "all problems, all selections of assets, all risk measures, all limits, every optimum of the solver", "why_tests_cant": "a test adds an asset or two to one data set; the property concerns every selection from every universe", "anchors": ["src/skfolio/optimization/convex/_mean_risk.py:MeanRisk.fit", "src/skfolio/optimization/convex/_base.py:ConvexOptimization._get_weight_constraints", "src/skfolio/optimization/convex/_distributionally_robust.py:DistributionallyRobustCVaR.fit"]}
{"id": "C121", "title": "What all assets earn alike does not decide between them", "statement": "With a fixed budget, adding the same number to the returns of all assets (and accordingly to the expected returns, the benchmark, the minimum acceptable return and the minimum returns) does not change which portfolios are within the limits nor which of them is the best for MeanRisk: measures of dispersion are unchanged, and from the worst realization, CVaR and EVaR the additional income is deducted. The measures of drawdowns are excluded. For the maximum ratio with a measure of dispersion the same holds if the risk-free rate is shifted too and portfolios are fully invested.", "quantifier": "all problems with a budget, all shifts of either sign, all measures but drawdowns, every optimum of the solver", "why_tests_cant": "a test shifts one data set by one number and compares weights up to solver tolerance; the property concerns all shifts and also ties between portfolios", "anchors": ["src/skfolio/optimization/convex/_mean_risk.py:MeanRisk.fit", "src/skfolio/optimization/convex/_base.py:ConvexOptimization._cvx_min_acceptable_return", "src/skfolio/optimization/convex/_base.py:ConvexOptimization._tracking_error"]}
{"id": "C122", "title": "Fitting leaves the estimators it was given unchanged", "statement": "fit of an optimization, prior, moment, uncertainty set, distance or distribution changes no object that existed before, other than attributes of the fitted estimator: not the estimators passed as parameters, at any depth, nor its own parameters, also if it raises. Each is copied first; the copy has equal parameters and is not fitted, whether the original is or not. An estimator of the wrong type is a TypeError, None gives the default. cross_val_predict changes nothing at all.", "quantifier": "all estimators made of estimators at any depth, shared or not, all data, all errors, all limits of recursion", "why_tests_cant": "a test compares the parameters of one nested estimator before and after one fit; sharing at any depth and errors halfway are not covered", "anchors": ["src/skfolio/utils/tools.py:check_estimator", "src/skfolio/optimization/convex/_mean_risk.py:MeanRisk.fit", "src/skfolio/optimization/ensemble/_stacking.py:StackingOptimization.fit", "src/skfolio/optimization/cluster/_nco.py:NestedClustersOptimization.fit", "src/skfolio/model_selection/_validation.py:cross_val_predict"]}
{"id": "C123", "title": "Names of assets and annualised measures", "statement": "default_asset_names gives one name per asset, with its position, no two the same. get_feature_names returns the labels of the columns in their order exactly if all are strings, raises TypeError exactly if some are strings and some are not, and returns None for numbered columns, no columns and everything that is no frame. annualized_measure and non_annualized_measure are inverse to each other and raise where there is no counterpart.", "quantifier": "all numbers of assets, all frames with labels of any types, all enumerations of measures", "why_tests_cant": "a test checks some frames with string and integer columns; mixtures of any types in any order and any number of assets are not enumerable", "anchors": ["src/skfolio/utils/tools.py:default_asset_names", "src/skfolio/utils/tools.py:get_feature_names", "src/skfolio/measures/_enums.py:BaseMeasure.annualized_measure", "src/skfolio/measures/_enums.py:BaseMeasure.non_annualized_measure"]}
{"id": "C124", "title": "Moments of transformed returns are the transformed moments", "statement": "Estimating the expected returns (EmpiricalMu, EWMu) and covariances (EmpiricalCovariance, EWCovariance) of combinations of assets - a portfolio, a selection of the assets in another order, returns in another unit, returns plus constants - gives the combinations of the expected returns and A S A^T of the covariances, with any window. Constants never change EmpiricalCovariance. GerberCovariance gives the same correlations for any choice, order and unit of the assets. ShrunkMu gives the same shrinkage in another unit and, with James-Stein and Bayes-Stein, when all returns are higher by the same amount.", "quantifier": "for all samples of any size, numbers of assets, matrices of combinations, constants, windows, alpha and ddof", "why_tests_cant": "A test compares a few data sets; equivariance is about all samples and all linear maps at once, and the exceptions (Gerber and Bodnar-Okhrin under shifts) only show for some of them.", "anchors": ["src/skfolio/moments/expected_returns/_empirical_mu.py", "src/skfolio/moments/expected_returns/_ew_mu.py", "src/skfolio/moments/expected_returns/_shrunk_mu.py", "src/skfolio/moments/covariance/_empirical_covariance.py", "src/skfolio/moments/covariance/_ew_covariance.py", "src/skfolio/moments/covariance/_gerber_covariance.py"]}
{"id": "C125", "title": "Equilibrium returns make the market weights optimal; two funds span the frontier", "statement": "With the expected returns of EquilibriumMu(risk_aversion=a, weights=v) for the covariance that MeanRisk uses, MeanRisk that maximises the utility with the variance and the risk aversion a/2 returns v, and MeanRisk that maximises the ratio to the standard deviation returns the weights proportional to v (equal weights by default) with the required budget, whatever the limits, provided these weights are within the limits. Without bounds, the minimum-variance portfolio for a required return between two others that bind is the same mixture of their weights.", "quantifier": "for all numbers of assets, positive definite covariances, market weights, risk aversions, limits, budgets and required returns", "why_tests_cant": "A test can only try some market weights and limits; that reverse optimisation recovers every portfolio, under any limits that allow it, is a statement about all optima.", "anchors": ["src/skfolio/moments/expected_returns/_equilibrium_mu.py", "src/skfolio/optimization/convex/_mean_risk.py"]}
{"id": "C126", "title": "Every asset and group can be constrained by its name", "statement": "For every asset or group and every number, the linear constraint \"name <= number\" bounds the sum of the weights of that name by that number, whatever the name of the asset is and however Python prints the number.", "quantifier": "for all names, numbers, tables of groups and texts", "why_tests_cant": "The names of assets come from the user's data; tests use names such as \"US\" or \"Equity\". Which names and numbers cannot be written is a statement about all texts.", "anchors": ["src/skfolio/utils/equations.py:_split_equation_string", "src/skfolio/utils/equations.py:_string_to_equation", "src/skfolio/utils/equations.py:equations_to_matrix"]}
{"id": "C127", "title": "Plots show what they are asked to show", "statement": "plot_cumulative_returns and plot_returns draw exactly the observations selected by idx, each portfolio under its own name, with the wealth (from 0, or from 1000 when compounded) reached at each observation; plot_distribution shows for every measure and tag the values of the portfolios with that tag; plot_measures shows for every portfolio the Pareto front it belongs to, and draws a surface for any three measures.", "quantifier": "for all portfolios, populations, observations, slices, arrays of positions, measures, tags and tables of fitnesses", "why_tests_cant": "Tests of plots only check that a figure comes back; that the right data is in it for every selection is not visible to them.", "anchors": ["src/skfolio/portfolio/_base.py:BasePortfolio.plot_cumulative_returns", "src/skfolio/portfolio/_base.py:BasePortfolio.plot_returns", "src/skfolio/population/_population.py:Population.plot_cumulative_returns", "src/skfolio/population/_population.py:Population.plot_distribution", "src/skfolio/population/_population.py:Population.plot_measures"]}
{"id": "C128", "title": "CombinatorialPurgedCV reports its splits truthfully", "statement": "plot_train_test_index marks with 0, 1 and -1 exactly the training, test and left-out observations of each split yielded by split; plot_train_test_folds marks exactly the folds tested by each split; summary reports the number of splits, the number of test paths and the average size of the training sets.", "quantifier": "for all numbers of folds, test folds and observations, purge and embargo sizes", "why_tests_cant": "The tables come from the working matrix of split while the test sets come from the recombined paths; that the marks of purging never overwrite a test observation is a statement about all sizes.", "anchors": ["src/skfolio/model_selection/_combinatorial.py:CombinatorialPurgedCV.summary", "src/skfolio/model_selection/_combinatorial.py:CombinatorialPurgedCV.plot_train_test_folds", "src/skfolio/model_selection/_combinatorial.py:CombinatorialPurgedCV.plot_train_test_index"]}
{"id": "C129", "title": "The dendrogram shows the clusters", "statement": "HierarchicalClustering.plot_dendrogram shows the distance matrix in the order of the leaves of the dendrogram, draws one yellow square per cluster which contains exactly the assets with the label of this cluster, and gives the colour of a cluster exactly to the links inside a cluster. The heat map and the squares need distinct asset names, the colours two clusters or more. (Findings: an asset whose name was used before is replaced by the first asset of that name, and the plot fails if a label disappears this way; with a single cluster, no link has the colour of a cluster.)", "quantifier": "for all trees of merges (and all orders of the leaves obtained by exchanging children), all heights of the cut, numberings of the clusters and names", "why_tests_cant": "that the squares outline the clusters depends on every cluster being contiguous in every order of the leaves that the tree allows; a test looks at one tree", "anchors": ["src/skfolio/cluster/_hierarchical.py:210-331"]}
{"id": "C130", "title": "A copula fitted by maximum likelihood is the most likely of its family", "statement": "With itau=False, the score of a fitted Clayton, Gumbel or Joe copula on its data is at least that of any parameter within the bounds and any rotation, in particular that of the copula fitted by Kendall's tau, and it is the same for data turned by a quarter; a fitted Gaussian copula is at least as likely as any correlation within the bounds, as the one of Kendall's tau and as independence. The Student copula has the most likely degrees of freedom for its correlation with itau=True; with itau=False it is at least as likely as its starting point. All up to the tolerance of the minimiser. The fit fails only if the data is refused or the minimisation fails (for all rotations).", "quantifier": "for all data in the unit square, all tolerances and minimisers that meet their contract", "why_tests_cant": "a test compares a fitted parameter with a stored number; it cannot tell that no other parameter and rotation is more likely", "anchors": ["src/skfolio/distribution/copula/_clayton.py:199-225", "src/skfolio/distribution/copula/_gumbel.py:199-225", "src/skfolio/distribution/copula/_joe.py:203-241", "src/skfolio/distribution/copula/_gaussian.py:167-192", "src/skfolio/distribution/copula/_student_t.py:194-243", "src/skfolio/distribution/copula/_utils.py:272-338", "src/skfolio/distribution/_base.py:90-105"]}
{"id": "C131", "title": "Comparing portfolios and finding them in containers", "statement": "For portfolios with the same fitness measures and no NaN, p >= q says that p is not worse than q on any fitness measure (not greater for risk measures), p == q that all their values agree, and p > q that p >= q but not q >= p; so >= is a preorder with the equality == and the strict part >. `p in portfolios` says that p itself or a portfolio of the same values is among them, and population.remove(p) removes p if no other portfolio has its values. (Findings: different portfolios of the same fitness are taken for one another by `in` and `remove`; portfolios with different fitness measures are compared by the numbers without an error; with NaN a portfolio is not equal to itself, > is not transitive, and non_denominated_sort may never end.)", "quantifier": "for all portfolios, fitness measures and lists of portfolios; with and without NaN", "why_tests_cant": "a test compares a few portfolios; it cannot show that the operators form an order, nor that a loop never ends", "anchors": ["src/skfolio/portfolio/_base.py:532-551", "src/skfolio/portfolio/_base.py:656-667", "src/skfolio/portfolio/_multi_period_portfolio.py:393-396", "src/skfolio/population/_population.py:Population", "src/skfolio/utils/sorting.py:43-118"]}
{"id": "C132", "title": "A small change of the returns or of the weights changes the measures little", "statement": "If two samples of portfolio returns of the same length differ by at most d at every observation, then mean, value at risk, CVaR, worst realization, entropic risk measure, EVaR and mean absolute deviation differ by at most d, the first lower partial moment by at most d (d/2 around the mean), the standard deviation by at most sqrt(n/(n-1)) d, the semi-deviation by at most that (twice that around the mean), Gini's mean difference by at most 2d, and without compounding every drawdown and every tail measure of the drawdowns by at most (n-1) d. Two weight vectors give returns that differ by at most the largest absolute asset return times the sum of the absolute differences of the weights, so a solver's tolerance on the weights carries over to the reported measures.", "quantifier": "for all pairs of samples of any length, every confidence level in [0, 1), every risk aversion, every target, every number of assets", "why_tests_cant": "a test compares a few perturbed samples; the claim bounds the effect of every perturbation, including those that reorder the tail, change the peak of the wealth or move the quantile", "anchors": ["src/skfolio/measures/_measures.py:12-95", "src/skfolio/measures/_measures.py:98-166", "src/skfolio/measures/_measures.py:258-420", "src/skfolio/measures/_measures.py:423-565"]}
{"id": "C133", "title": "Small changes of the data change the optimum of MeanRisk little", "statement": "Let MeanRisk be fitted on two data sets whose returns differ by at most eta, expected returns by at most eps and covariances by at most c, with the same parameters, no limits that depend on the data (tracking error, minimum return, maximum risks) and a gross exposure of at most L within the limits (L is the budget for long-only portfolios). Then the risk of every portfolio differs by at most a slack (eta L for CVaR, EVaR and worst realization, (eta+eps) L and 2 (eta+eps) L for the first lower partial moment and the mean absolute deviation, sqrt(c) L for the standard deviation, c L^2 for the variance, sqrt(T/(T-1)) (eta+eps) L for the semi-deviation, T eta L for the drawdown measures, 2 eta L for Gini's mean difference), its expected return by at most eps L, the least risk (greatest return, greatest utility) by at most the slack (eps L, eps L plus risk aversion times slack), and the portfolio fitted on the changed data is, on the original data, within twice that of the best value. (The weights themselves need not be close.)", "quantifier": "for all data, numbers of assets and observations, perturbations, limits on the weights and risk measures except the semi-variance; objectives minimize risk, maximize return, maximize utility", "why_tests_cant": "a test perturbs a few samples and looks at the weights; the claim bounds the loss for every perturbation and follows from the optimality of the solution, which no finite set of portfolios shows", "anchors": ["src/skfolio/optimization/convex/_mean_risk.py:MeanRisk.fit"]}
{"id": "C134", "title": "Black-Litterman views mean what they say, however they are written", "statement": "Multiplying both sides of a view by a number other than zero, listing the views in another order (each with its confidence) or listing the assets in another order does not change the posterior, nor whether fit fails. Views that the prior already holds leave the expected returns unchanged. The posterior covariance does not depend on the values of the views, and the posterior expected returns depend linearly on them. Adding views, or holding views with more confidence, never increases the posterior covariance (the difference is positive semidefinite). But a view stated m times with confidence c moves the expected return of its portfolio the fraction m / (m - 1 + 1/c) of the way rather than c, and a view held with full confidence and stated twice makes fit fail.", "quantifier": "for all priors, numbers of assets and views, view equations, confidences, tau and risk-free rates (symmetric positive semidefinite covariance where certainty is compared)", "why_tests_cant": "invariance under every rescaling and reordering, and the order of matrices, are statements about all dimensions and all inputs", "anchors": ["src/skfolio/prior/_black_litterman.py:BlackLitterman.fit"]}
{"id": "C135", "title": "MeanRisk trades only if it pays", "statement": "If the previous weights are optimal without transaction costs, they are optimal with any transaction costs, for all limits and measures and all objectives but the ratio; where the expected return or the utility is maximised, no portfolio that trades an asset with a cost is then optimal. If the previous weights are within the limits, what the returned portfolio is worth more than they are (expected return or utility, less penalty) covers the costs of the trades. Where the expected return is maximised with a fixed budget, nothing is traded if no difference between the expected returns (after fees) of two assets covers the cost of selling the one and buying the other. But where the risk is minimised with a measure that is computed before costs (variance, standard deviation, semi-variance, semi-deviation, mean absolute deviation, first lower partial moment, EVaR), transaction costs and previous weights have no effect at all, unless turnover or returns are limited.", "quantifier": "for all data, numbers of assets and observations, previous weights, costs, limits and measures", "why_tests_cant": "a test shows that some costs stop some trades; the claim is about all costs and all optima, of which there can be many", "anchors": ["src/skfolio/optimization/convex/_mean_risk.py:MeanRisk.fit"]}
{"id": "C136", "title": "Limiting cases of the nested, stacked and hierarchical optimisers", "statement": "When there is nothing to nest or to combine, the composite optimisers are the plain ones. NestedClustersOptimization with every asset in a cluster of its own gives each asset the weight its outer estimator gives to the returns of the asset, whatever the inner estimator and the cross-validation; with all assets in one cluster it gives the weights of its inner estimator times the outer weight of the only cluster. StackingOptimization of estimators that agree on the data (in particular of one estimator) gives their weights if the outer weights sum to one, also when the estimators are prefit. HierarchicalRiskParity gives weight one to a single asset and inverse-risk weights to two assets, for any risk measure and correlation; HierarchicalEqualRiskContribution with one cluster gives inverse-risk weights for any dendrogram. What does not hold: copies of one asset do not get equal weights in HierarchicalRiskParity, because the leaves are cut in halves whatever their number (1/2, 1/4, 1/4 for three copies).", "quantifier": "for all estimators, data, splitters, labels without repetition, numbers of assets and estimators, risk functions, dendrograms", "why_tests_cant": "The composite optimisers are tested on fixed data with fixed clusterings; the reductions hold for arbitrary inner and outer estimators and are what users rely on when they vary the number of clusters or estimators.", "anchors": ["src/skfolio/optimization/cluster/_nco.py:276-391", "src/skfolio/optimization/ensemble/_stacking.py:278-354", "src/skfolio/optimization/cluster/hierarchical/_hrp.py:346-387", "src/skfolio/optimization/cluster/hierarchical/_herc.py:391-475"]}
{"id": "C137", "title": "Risk budgets matter only through their proportions", "statement": "Multiplying all the budgets of RiskBudgeting by the same positive number does not change the weights the solver may return (budgets in percent, or that do not sum to one, are fine), and leaving out the budgets is the same as giving every asset the same positive budget; this holds with weight limits, a minimum return, custom objectives and custom constraints. Every asset gets a positive weight: a budget of zero does not exclude an asset. The statement needs nonzero budgets: a budget of zero is replaced by the absolute value 1e-10, so with a zero budget the proportions depend on the size of the others.", "quantifier": "for all data, risk measures, budgets, positive factors, limits, custom objectives and constraints", "why_tests_cant": "Tests compare a few budgets on one data set; the claim is an equality of the sets of optima of two convex programs for all data.", "anchors": ["src/skfolio/optimization/convex/_risk_budgeting.py:483-520"]}
{"id": "C138", "title": "Listing an asset twice gives MeanRisk nothing new", "statement": "If some columns of the data are copies of others, adding up the weights of the copies gives a portfolio of the distinct assets with the same risk by every measure, the same expected return after fees, no greater L1 penalty, and within the limits if these are on the totals (the default limits are). Hence the fit on the distinct assets is at least as good by its own criterion (risk, expected return, utility or ratio, with penalty) as any portfolio of the copies, in particular as the fit on all columns. Transaction costs and the turnover limit are excluded. An L2 penalty does change this: two halves of a position cost half as much as the position, so the L2 penalty rewards listing an asset twice. So does the Wasserstein ball of DistributionallyRobustCVaR: if every asset is listed c times and the positions are split between the copies, the part of the objective that guards against the ball is divided by c.", "quantifier": "for all data, numbers of copies, risk measures, objectives, limits on totals and portfolios", "why_tests_cant": "A test can compare one data set with and without a copied column, up to solver tolerance and non-uniqueness of the weights; the claim is about all data and all portfolios.", "anchors": ["src/skfolio/optimization/convex/_mean_risk.py:809-1010", "src/skfolio/optimization/convex/_base.py:1208-1234", "src/skfolio/optimization/convex/_distributionally_robust.py:350-409"]}
{"id": "C139", "title": "Selecting again changes nothing", "statement": "A selection transformer fitted to the assets it has kept keeps them all: SelectComplete, SelectNonExpiring (same dates), DropZeroVariance, SelectKExtremes, DropCorrelated if at least two assets are left, and SelectNonDominated, with or without min_n_assets, if no candidate portfolio has a non-zero weight of at most 1e-5. Transforming keeps the columns in their order. DropCorrelated cannot be fitted to the single asset it may leave; and an asset that SelectNonDominated keeps for a portfolio whose other weight is below 1e-5 is dropped by a second selection.", "quantifier": "for all data, numbers of assets, thresholds, measures and parameters of the selectors", "why_tests_cant": "A test fits one selector twice to one data set; the Pareto fronts of the kept assets depend on all candidates, and the exceptions need special data.", "anchors": ["src/skfolio/pre_selection/_drop_correlated.py:77-104", "src/skfolio/pre_selection/_select_non_dominated.py:94-157", "src/skfolio/pre_selection/_select_k_extremes.py:63-96", "src/skfolio/pre_selection/_select_complete.py:98-106", "src/skfolio/pre_selection/_select_non_expiring.py:131-138", "src/skfolio/pre_selection/_drop_zero_variance.py:63-69"]}
{"id": "C140", "title": "A combinatorial backtest tests each fold with weights that know nothing of the fold", "statement": "cross_val_predict with CombinatorialPurgedCV returns n_test_paths paths of n_folds portfolios each, in the order of the folds. The portfolio of a fold is the prediction on the rows of the fold by the estimator fitted to exactly the rows that are neither in, nor at most purged_size rows before, nor at most purged_size + embargo_size rows after, one of n_test_folds test folds, that fold among them. So changing the data in that range changes the weights of no path for that fold, whatever the estimator. It fails only if the folds are too short for the purge and the embargo.", "quantifier": "for all estimators, data, numbers of rows, folds and test folds, and sizes of the purge and the embargo", "why_tests_cant": "A test runs one estimator on one data set and compares numbers; a leak in one of the many combinations of test folds would go unnoticed.", "anchors": ["src/skfolio/model_selection/_validation.py:179-235", "src/skfolio/model_selection/_combinatorial.py:200-345", "src/skfolio/utils/tools.py:664-682"]}
{"id": "C141", "title": "The mean and the spread of the measures of a population", "statement": "measures_mean of a population with members lies between the measures of min_measure and max_measure, and equals one of them only if all portfolios have the same measure. measures_std is not negative, is zero exactly if all portfolios have the same measure and is at most half of the range of the measures; no portfolio is further than sqrt(n) standard deviations from the mean, and at most a share 1/k^2 of them is k standard deviations or more away. Neither depends on the order of the portfolios; scaling and shifting the measures scales and shifts the mean and scales the standard deviation; and both numbers of the sum of two populations follow from those of the two. An empty population has neither (NaN).", "quantifier": "for all populations, measures and numbers of portfolios", "why_tests_cant": "A test compares the two numbers with numpy's for one population.", "anchors": ["src/skfolio/population/_population.py:203-258", "src/skfolio/population/_population.py:311-345"]}
{"id": "C142", "title": "The order of the assets does not matter to the selectors, ties aside", "statement": "If the columns of the data are permuted, the selectors keep the same assets, or raise for both orders: SelectComplete, SelectNonExpiring and DropZeroVariance always; SelectKExtremes if no two assets have the same measure; DropCorrelated if no two pairs above the threshold have the same correlation and the assets of no such pair have the same mean correlation; SelectNonDominated, with or without min_n_assets, if no pair of candidates has returns with a constant difference. With ties the order decides: of two assets correlated above the threshold, whose mean correlations are always equal, DropCorrelated drops the one listed second.", "quantifier": "for all data, permutations, numbers of assets, thresholds, measures and parameters", "why_tests_cant": "A test fits a selector to one or two orders of one data set.", "anchors": ["src/skfolio/pre_selection/_drop_correlated.py:77-104", "src/skfolio/pre_selection/_select_non_dominated.py:94-157", "src/skfolio/pre_selection/_select_k_extremes.py:63-96", "src/skfolio/pre_selection/_select_complete.py:98-106", "src/skfolio/pre_selection/_select_non_expiring.py:131-138", "src/skfolio/pre_selection/_drop_zero_variance.py:63-69"]}
{"id": "C143", "title": "A pipeline that selects assets predicts the portfolio of all assets with nothing in the others", "statement": "Pipeline([selector, optimizer]).predict(X), for any mask of kept assets, returns the portfolio with the fitted weights in the kept assets; its returns are those of the portfolio of all assets that holds nothing in the others, with the same parameters and name, for costs, fees and previous weights given for all assets alike or by name. It exists whenever that portfolio does. Exceptions: the costs of selling dropped assets held before are not charged, and an array of costs, fees or previous weights with one number per asset of the data makes the prediction fail as soon as an asset is dropped.", "quantifier": "for all data, masks, weights, costs, fees and previous weights", "why_tests_cant": "A test runs one pipeline; it compares nothing with the portfolio of all assets and previous weights are rarely combined with selection.", "anchors": ["src/skfolio/optimization/_base.py:79-116", "src/skfolio/portfolio/_portfolio.py:456-568", "src/skfolio/pre_selection/_select_k_extremes.py:98-99"]}
{"id": "C144", "title": "The measures of a multi-period portfolio and those of its portfolios", "statement": "For a multi-period portfolio of one or more portfolios with returns (made by any history of operations in which no list is shared): its mean and, for a given minimum acceptable return, its mean absolute deviation and its first and fourth lower partial moments are the averages of those of its portfolios, each counted with its number of observations, and hence between the smallest and the largest of them. Its variance is made of their variances and the differences of their means, and exceeds what the variances account for exactly if the means differ. Its worst realization is the largest of theirs, its VaR is between the smallest and the largest of theirs, its CVaR is at least their average and its maximum drawdown at least each of theirs. CVaR and maximum drawdown can be larger than those of all portfolios.", "quantifier": "for all numbers and lengths of periods, all returns and all levels in [0, 1)", "why_tests_cant": "A test compares the measures of one backtest with numbers computed from its returns.", "anchors": ["src/skfolio/portfolio/_multi_period_portfolio.py:376-388", "src/skfolio/portfolio/_multi_period_portfolio.py:493-530", "src/skfolio/measures/_measures.py:13-338", "src/skfolio/measures/_measures.py:405-490"]}
{"id": "C145", "title": "measures_df has one row for each measure and agrees with the summary", "statement": "`measures_df` of a portfolio has one row for each measure, labelled with the name of its attribute, which holds that measure, and no other rows. Where the unformatted summary has a row for the measure, it holds the same number.", "quantifier": "for all portfolios and values of measures", "why_tests_cant": "A test looks at the shape of the table for one portfolio.", "anchors": ["src/skfolio/portfolio/_base.py:700-705", "src/skfolio/portfolio/_base.py:907-949", "src/skfolio/measures/_enums.py:39-320"]}
{"id": "C146", "title": "The objectives of MeanRisk meet on one frontier", "statement": "The portfolio that MeanRisk returns for MAXIMIZE_UTILITY is an optimum of MINIMIZE_RISK when its own expected return is the minimum return, and of MAXIMIZE_RETURN when its own risk is the limit. The portfolio that it returns for MAXIMIZE_RATIO is an optimum of MINIMIZE_RISK when its own expected return is the minimum return, and of MAXIMIZE_UTILITY at the risk aversion E / (d R), where E is its excess return, R its risk and d is 2 for variance and semi-variance and 1 for the other measures.", "quantifier": "for all data, constraints and risk measures (see the note for the ratio)", "why_tests_cant": "Tests compare the objectives on a few data sets up to the precision of the solver; the statement is on all problems.", "anchors": ["src/skfolio/optimization/convex/_mean_risk.py:854-1085", "src/skfolio/optimization/convex/_base.py:1037-1049"]}
{"id": "C147", "title": "What the parameters of the splitters change", "statement": "WalkForward: expand_train leaves every test window as it is and extends the training windows back to the first observation. reduce_test only adds a split: the splits without it are the first ones, at most one is added, its test window is shorter than test_size and ends with the sample. With d more purged observations on d more observations, the training windows are the same and the test windows come d observations later. With a calendar (freq) the same holds for expand_train and reduce_test, and for a train_size in periods d more purged observations end every training window d observations earlier and leave the test windows alone. CombinatorialPurgedCV: a larger purge or embargo that is still accepted leaves the test sets as they are and only takes observations from the training sets; a smaller one is accepted too.", "quantifier": "for all sizes of the sample, of the windows, of the purge and of the embargo, and all numbers of folds", "why_tests_cant": "Tests look at a few samples and one set of parameters at a time; the statement compares the splits under two settings for all samples.", "anchors": ["src/skfolio/model_selection/_walk_forward.py:305-440", "src/skfolio/model_selection/_combinatorial.py:269-316"]}
{"id": "C148", "title": "The radius of the Wasserstein ball pays for errors of the sample", "statement": "Let two samples of returns differ by a mean distance (absolute differences, summed over the assets and averaged over the observations) of at most delta. Then the worst disutility of every portfolio of DistributionallyRobustCVaR over the ball of radius eps around one sample is at most that over the ball of radius eps + delta around the other. So what a fit with radius eps + delta on wrong returns promises holds for every distribution within eps of the right sample (with eps = 0: for the right sample itself), and the fit with radius eps on one sample promises at least as much as the fit with radius eps + delta on the other.", "quantifier": "for all samples without losses over 100 %, radii, numbers of assets and observations, weight limits without integer variables, levels and risk aversions", "why_tests_cant": "A test perturbs a few samples; the statement compares suprema over infinite sets of distributions for every perturbation.", "anchors": ["src/skfolio/optimization/convex/_distributionally_robust.py:DistributionallyRobustCVaR.fit"]}
{"id": "C149", "title": "A Wasserstein ball that reaches ruin makes all portfolios equal", "statement": "If wasserstein_ball_radius is at least the mean distance of the sample from a total loss of all assets (1 plus the return, summed over the assets and averaged over the observations), every long-only portfolio within limits that fix the budget is an optimum of DistributionallyRobustCVaR, with the worst disutility (1 + risk_aversion) times the budget: what the fit returns no longer depends on the data. For smaller radii the value of every feasible point is at least this total loss less the missing distance times the variable lb.", "quantifier": "for all samples without losses over 100 %, numbers of assets and observations, weight limits without integer variables and with a budget, levels and risk aversions", "why_tests_cant": "A test shows one optimum that a solver picked; that all others are equally good is a statement about all portfolios and all distributions in the ball.", "anchors": ["src/skfolio/optimization/convex/_distributionally_robust.py:DistributionallyRobustCVaR.fit"]}
{"id": "C150", "title": "Leverage inside an asset does not matter to optimisers that look at risk only", "statement": "If some assets are replaced by levered (or geared down) versions of themselves, financed at no cost, with leverage l_i > 0 (returns, fees and minimum acceptable returns multiplied by l_i, covariances by l_i l_j), a portfolio of them has, by every risk measure, the risk of its exposure l_i w_i to the original assets. RiskBudgeting, for every risk measure, and InverseVolatility return the weights in inverse proportion to the leverage, (x_i / l_i) normalised, where x are the weights on the original assets, so that the exposures are the same up to a factor. The exposure of MaximumDiversification has the greatest diversification ratio of all long-only portfolios of the original assets.", "quantifier": "for all data, numbers of assets and observations, leverages and risk measures; without transaction costs and limits that exclude a long-only portfolio", "why_tests_cant": "A test levers one asset in one sample and compares numbers up to the tolerance of the solver; the statement also implies that the weights of risk budgeting are unique.", "anchors": ["src/skfolio/optimization/convex/_risk_budgeting.py:RiskBudgeting.fit", "src/skfolio/optimization/convex/_maximum_diversification.py:MaximumDiversification.fit", "src/skfolio/optimization/naive/_naive.py:InverseVolatility.fit"]}
{"id": "C151", "title": "More risk budget, more weight", "statement": "If some of the risk budget of one asset is given to another asset in RiskBudgeting, the weight of the second relative to that of the first does not fall, for every risk measure; with the variance or the standard deviation it rises. If the budget of an asset is raised and the others are kept, its weight grows at least by the average factor of all assets (the geometric mean weighted by the old budgets). For any change of the budgets, the changes of the shares and of the logarithms of the weights have a sum of products that is not negative.", "quantifier": "for all data, numbers of assets and observations, risk measures and pairs of positive budgets, every optimum of the solver; under the conditions of C60, for portfolios of positive risk", "why_tests_cant": "A test compares a few budgets on one data set; monotonicity is a statement about all pairs of budgets and all data, including risk measures that are not differentiable.", "anchors": ["src/skfolio/optimization/convex/_risk_budgeting.py:RiskBudgeting.fit"]}
{"id": "C152", "title": "A risk-budgeting portfolio is between the least risky one and the one that holds the assets like the budgets", "statement": "For every risk measure, the portfolio that RiskBudgeting returns is no riskier than the portfolio whose weights are the shares of the risk budget; with the default budgets (equal risk contributions) it is no riskier than the equally weighted portfolio. It is at least as risky as the portfolio of least risk that MeanRisk returns with the same data, measure and limits on the weights. The budgeted share of an asset in the risk is at most the risk of its position on its own.", "quantifier": "for all data, numbers of assets and observations, risk measures and positive budgets, every optimum of the solvers; under the conditions of C60", "why_tests_cant": "A test compares three portfolios on some data sets up to the tolerance of the solver; the inequalities are about all data and all fifteen measures.", "anchors": ["src/skfolio/optimization/convex/_risk_budgeting.py:RiskBudgeting.fit", "src/skfolio/optimization/convex/_mean_risk.py:MeanRisk.fit"]}
