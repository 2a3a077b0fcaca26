# Formal model of skfolio in Lean 4: design

## 1. Layout

* `lean/Verif/<Area>/Model.lean`: executable (or, where square roots are needed, noncomputable) definitions that follow
  the Python code function by function. Every definition cites the file and lines of `/repo` it models and says what it simplifies.
* `lean/Verif/<Area>/Lemmas.lean`: helper lemmas; nothing in there is a claim.
* `lean/Verif/<Area>/Theorems.lean`: the claims. Each file starts with the small independent specification the statements
  use, then the theorems `Cnn_...`, each followed by an `example` showing that a concrete non-trivial case meets
  the hypotheses.
* `MANIFEST.json` maps each property of `properties.jsonl` to theorem names. `seeded/LOG.jsonl` records the mutation experiments.

## 2. Trusted base

* Lean 4.33.0's kernel and elaborator, and the installed Mathlib. Only the standard axioms `propext`, `Classical.choice` and
  `Quot.sound` occur (see section 5, which lists the `#print axioms` output per theorem). No `sorry`, no own axioms,
  no `native_decide`, no `bv_decide`.
* The translation from Python to Lean, which is by hand. The comment on each definition gives the lines it models.
* Numbers: `float64` values are modelled as elements of an arbitrary linearly ordered field `K` (or `ℚ` for executable witnesses, `ℝ` when
  a square root, exponential or topology is needed). Rounding, overflow, infinities and signed zeros are not modelled. NaN is modelled
  only where it matters for a claim (HRP's 0/0, CVaR at beta = 1): there division is a partial operation returning `none`.
* Library calls are modelled by their documented contract: `np.partition`/`np.sort` as a sorted permutation, `itertools.combinations` as the
  lexicographically ordered list of sublists, `DatetimeIndex.get_indexer` as its definition, regular-expression `split` as a
  tokeniser, `pandas.ewm`, `scipy` clustering, `cvxpy` solvers as arbitrary (only feasibility/optimality of what they return is used).
* Python `int` is modelled as `Nat`/`Int`; exceptions are values of `Except`; warnings are a component of the result.

Not modelled at all: plotting, `summary()` formatting, dataset download, metadata routing, joblib parallelism, the concrete solvers, graphical-lasso
and other scikit-learn wrappers.

## 3. Properties: what is modelled and how each is proved

| id | model | proof idea |
|----|-------|-----------|
| C01 | `dominate` as the Python loop over zipped lists with an accumulator | induction over the lists, iff with the pointwise definition, order laws follow |
| C02 | `non_denominated_sort` with the double loop, counters, peeling loop | loop invariants: counter = number of unranked dominators; fronts = abstract peeling; strict-order well-foundedness gives progress and so termination |
| C03, C04 | `_split_without_period`, `get_n_splits` | the generator unfolds to a closed form; arithmetic |
| C05 | the two period splitters over an abstract `idx` list produced by `get_indexer` | integer form proved; for the offset form the code does not apply the purge to the train set: negation with a witness, `_partial` for purged_size = 0 |
| C06, C07 | `split`, `test_set_index`, `recombined_paths`, `get_path_ids` | characterise the marking loops by membership; count occurrences in the lexicographic list of combinations. The code loses observations when `n mod k >= n div k`: negation witness and a theorem with the exact hypothesis |
| C08 | the assembly part of `cross_val_predict` | sort/permutation lemmas |
| C09, C10, C11 | tokenizer and `_string_to_equation` state machine, groups matrix, `equations_to_matrix` | denotational semantics of expressions; induction over the token list. Chained comparisons are accepted by the code: negation witness |
| C12, C13 | `value_at_risk`, `cvar`, `worst_realization` on sorted lists | sums over sorted lists; convex piecewise-linear minimisation; coherence from the minimum formula |
| C14, C15, C16 | the measures | list inductions, Chebyshev/Cauchy–Schwarz sums |
| C17 | each auxiliary program as a feasible set and an objective | both inequalities: explicit feasible point, and weak duality |
| C18, C19 | homogenised constraints over a scale variable | scaling arguments; tracking error and quadratic risk limits are not homogenised in the code: negation witnesses |
| C20 | the mixed-integer constraint systems | big-M reasoning, counting of booleans |
| C21, C22 | the bisection loop with clamped split factor, division partial | invariant `sum(min) <= W <= sum(max)` on each cluster; negation witnesses for infeasible minima and for zero-weight clusters (0/0) |
| C23 | NCO and stacking weight assembly | sum exchange |
| C24 | `Portfolio.__init__` arithmetic | linearity |
| C25 | `BasePortfolio` as a state machine with a cache and slot dependencies | invariant by induction over histories |
| C26 | `MultiPeriodPortfolio` as a state machine | invariant by induction over histories |
| C27, C28 | `Population` list operations and quantile | invariant / sorted-list argument; `+=` bypasses validation: negation witness |
| C29 | index array of `stationary_bootstrap` | induction over columns |
| C30 | `deduplicate_names` | negation witness, and `_partial` under no suffix clash |
| C31, C32 | pre-selection transformers | loop invariants |
| C33 | `prices_to_returns` | telescoping |
| C34 | Black–Litterman algebra over real matrices | matrix identities, Schur complement |
| C35 | Gerber statistic | Schur product theorem / Gram matrices |
| C36, C37, C38 | matrix formulas | matrix algebra |
| C39, C40 | copula rotation, ranks | calculus with `HasDerivAt`; case analysis |
| C41 | measure kinds and signs | case analysis |
| C42, C43 | shrinkage, log-normal moments | algebra; the code disagrees: negation witnesses |
| C44 | `optimal_folds_number` | negation/conditional optimality |
| C45 | naive weights | algebra |
| C46 | `entropic_risk_measure`, bounds of `evar` | exponential inequality in the Rockafellar-Uryasev objective; the solver's point is arbitrary |
| C47 | `HierarchicalEqualRiskContribution.fit`, `minimize_relative_weight_deviation` | structural recursion over binary trees; the clustering is any cut of the tree; the solver enters by contract |
| C29, C30 | `stationary_bootstrap`, `deduplicate_names` | random draws and coin flips are arguments; `optimal_block_size` not modelled |
| C31, C32 | `DropCorrelated`, `SelectKExtremes`, `SelectNonDominated`, `SelectComplete`, `SelectNonExpiring`, `DropZeroVariance` (`fit`) | correlation and covariance matrices, single-asset measures and portfolio fitness are arguments; sklearn's input validation not modelled |
| C24, C48 | `Portfolio.__init__`, arithmetic operators, `contribution` | scalars and dictionaries for weights (see C22), infinities from division by zero |
| C25 | attribute access, assignment, `clear`, `copy`, `fitness` of `BasePortfolio` | measure functions are arbitrary pure functions |
| C26 | `MultiPeriodPortfolio` list operations on a heap of Python lists | arithmetic operators of `MultiPeriodPortfolio` (see C102) |
| C27, C28, C49 | `Population` list operations, `sort_measure`, `quantile`, `filter` | slices with a step; NaN measures; plots |
| C41 | `fitness`, `dominates`, `__eq__`, `__gt__`, `__ge__`, `make_scorer`, `linked_risk_measure` | NaN; keyword arguments of score functions |
| C17 | all `_*_risk` functions of `ConvexOptimization` except worst-case variance and fourth moments | solver; `cp.Constant` simplifications |
| C18, C19, C20 | `_get_weight_constraints`, `_mip_weight_constraints_*`, `MeanRisk.fit`, `_solve_problem` (one problem) | custom objective and constraints (C92), covariance uncertainty set (C64), efficient frontier loop (C68) |
| C33 | `prices_to_returns` | pandas joins: `join="outer"` result is the input table; type checks; warning; column dropping is by all-missing |
| C34 | `BlackLitterman.fit`, the computation | parsing of views (C09-C11); the inner prior; exact arithmetic |
| C35 | `GerberCovariance.fit` | window, data validation; `cov_nearest` as in C50 |
| C36 | `FactorModel.fit`, the computation | the regression (any loadings and intercepts); shape checks |
| C37, C50 | `cov_to_corr`, `corr_to_cov`, `cov_nearest`, `_set_covariance` | `np.linalg.eigh`, `np.linalg.cholesky`, `eigvals` by contract; tolerance of the symmetry check |
| C38 | `_corr_to_distance` | the correlation estimators; non-integer powers |
| C42 | `ShrunkMu.fit`, `EquilibriumMu.fit` | covariance estimator (any covariance); `eigvals` as input |
| C43 | `EmpiricalPrior.fit` | moment estimators (any functions of the returns) |
| C45 | `InverseVolatility`, `EqualWeighted`, `Random`, `rand_weights` | the distribution of the draws |
| C39 | `_apply_copula_rotation`, `_apply_margin_swap`, `_apply_rotation_cdf`, `_apply_rotation_partial_derivatives`, `_select_rotation_itau` | `_select_theta_and_rotation_mle` (numerical likelihood) |
| C40, C52 | `compute_pseudo_observations`, `empirical_tail_concentration` | scipy's `rankdata` algorithm; NaN |
| C51 | `_base_cdf`, `_base_partial_derivative`, `_base_inverse_partial_derivative`, `_base_sample_scores` of Clayton, Gumbel, Joe; `partial_derivative`, `inverse_partial_derivative`, `_sample_scores` of Gaussian and t | fitting; rounding; stopping rule of Newton; scipy distribution functions by contract |
| C53, C54 | `EdgeCondSets`, `Edge`, `ChildNode`, `RootNode` (getters, setters, `get_var`), `Tree.set_edges_from_mst` (eligible pairs), the loop of `fit`, the copula part of `score_samples`, `_conditioning_count`, `_sampling_order`, `_is_left_branch`, `_propagate_samples` | copula and margin fitting, dependence measures, scipy's `minimum_spanning_tree` (contract) |
| C23, C57, C58, C59 | `NestedClustersOptimization.fit`, `StackingOptimization.fit`, `BaseComposition._set_params`, `safe_indexing`/`safe_split` for columns of `y` | clustering (labels are an argument), the estimators (functions of their data), metadata routing, pandas Series as targets |
| C44 | `optimal_folds_number`, `_avg_train_size` | |
| C55, C56 | `_init_conditioning` (values), the end of `sample` (clipping, quantiles, reversal of the log transformation, forcing back); `set_edges_from_mst` with central assets | the keys of `conditioning`, marginal distributions (contract: increasing distribution function and its inverse), scipy's `minimum_spanning_tree` (contract: largest spanning forest) |
| C60 | `RiskBudgeting.fit`: budgets, log constraint, objective, all risk measures, weight constraints | the solver (contract), `min_return` in the theorems, `overwrite_expected_return`, user objectives and constraints |
| C61 | `MaximumDiversification` (as `MeanRisk` with linear `overwrite_expected_return`), `Portfolio.diversification` | the solver (contract), the Cholesky factor (contract) |
| C62 | `DistributionallyRobustCVaR.fit` with measure-theoretic specification of the ball | the solver (contract), custom objectives and constraints (C92), mixed-integer limits |
| C63–C66 | `_cvx_mu_uncertainty_set`, `_worst_case_variance_risk`, the shapes of `EmpiricalMu/CovarianceUncertaintySet` and `BootstrapMu/CovarianceUncertaintySet`, `commutation_matrix` | `sqrtm`, chi-squared quantile, solver (contracts); the bootstrap samples are inputs here |
| C67–C70 | `MeanRisk.fit` (objectives, frontier), `_solve_problem` | solver (contract); warnings; `add_objective`, `add_constraints` (C92) |
| C71 | `cache_method`, `_clear_models_cache`, `_cvx_drawdown` | other entries of the cache, hash collisions |
| C72–C75 | `input_to_array`, both `_clean_input`, `validate_input_list`, `deduplicate_names` | texts of messages, arrays with more than two dimensions, non-string column names, values of a dictionary that are `None` |
| C76, C77 | `ImpliedCovariance.fit`, `_predict_realised_vols`, `_compute_realised_vol`, `_compute_implied_vol`, `check_implied_vol` | the linear regressor (arbitrary function), R² scores, coefficients, metadata routing, the prior estimator, floating point |
| C78, C79 | `DenoiseCovariance.fit`, `DetoneCovariance.fit` | kernel density estimate and `scipy.optimize.minimize` (arbitrary functions), `eigh` (contract), floating point (a removed component leaves rounding errors instead of exact zeros), the prior estimator |
| C80 | `BaseOptimization.predict`, `score`, the conversion of parameters in `Portfolio.__init__`, `_cvx_transaction_cost` and `_cvx_management_fee` at given weights | the Sharpe ratio (arbitrary function), arguments passed on unchanged, NaN among the parameters, weights given as a dictionary, floating point |
| C81 | `select_univariate_dist`, `select_bivariate_copula`, `aic`, `bic`, `n_params`, the checks of the univariate `fit`, the use of `kendall_tau`, `_select_rotation_itau`, `_select_theta_and_rotation_mle` | the fits of scipy, the log-likelihood, Kendall's test and the logarithm (arbitrary functions), rounding |
| C82 | `EmpiricalMu.fit`, `EWMu.fit`, `EmpiricalCovariance.fit`, `EWCovariance.fit`, with the recursions of `ewm().mean()` and `ewm().cov()` of pandas and the formula of `np.cov` | missing values (refused by `validate_data`), infinite entries of `np.cov` for fewer observations than `ddof` (one value, NaN, for both), rounding |
| C83 | `HierarchicalClustering.fit`, `compute_optimal_n_clusters`, `assert_is_symmetric`, `assert_is_distance` with the tolerances of `np.allclose` | the linkage, `cut_tree` and `fcluster` of scipy (contracts `IsCutTree`, `IsFcluster`), plots, rounding; the theorems about the number of clusters assume exactly symmetric distances with a zero diagonal |
| C84 | `MutualInformation.fit`, `n_bins_freedman`; `np.histogram`, `np.histogram2d`, `np.percentile`, `mutual_info_score`, `scipy.stats.entropy` by their definitions | the optimum of Knuth's rule (any function); the rounding to zero of small terms in `mutual_info_score`; missing values and empty samples (refused by `validate_data`) |
| C85 | `DistanceCorrelation.fit`, `_dcorr`, with the NaN of `np.sqrt` and of `0 / 0` | rounding (a sum of products that is 0 exactly may be negative in floating point, which gives NaN); missing values and empty samples (refused by `validate_data`) |
| C86 | `BasePortfolio.rolling_measure`, `get_measure` with annualisation and ratios | window 0; the index of the pandas series; a measure function that raises (the attribute is then NaN with a warning, the rolling measure raises); `Population.rolling_measure` (a concatenation) |
| C87 | `nonzero_assets_index`, `composition`, `weights_per_observation`, `get_weight` of `Portfolio`; `composition`, `weights_per_observation` of `MultiPeriodPortfolio`; the table of `Population.composition` | order of equal weights and of the rows of a concatenation; names of the columns (C75); NaN weights; assets with equal names |
| C88 | `Population.set_portfolio_params` on the assignments of C25, with aliasing | the message; `name=None` (kept as `None`); the portfolios inside a multi-period portfolio (not touched by the code) |
| C89 | the tail coefficients of all copulas and rotations, `tail_concentration` with the clipping of `_validate_X` | the scipy cdfs of the elliptical copulas (replaced by the unique copula with the conditional distributions of the code); rounding |
| C90 | `fit` with itau=True of the Clayton, Gumbel, Joe, Gaussian and Student's t copulas, `_tau_diff`, `_select_rotation_itau`, scipy's tau-b, NaN and infinite taus | `brentq` and `minimize_scalar` by contract; rounding (in particular the cancellation in `_tau_diff` near 2); the maximum likelihood fits |
| C91 | `get_metadata_routing` of all estimators that nest others and the keywords with which each nested `fit` is called; `routed_params` | scikit-learn's `process_routing` and routers, modelled after their documentation; unset requests and deprecation warnings; pipelines and searches around the estimators; values that are None |
| C92 | `_call_custom_func`, `_get_custom_objective`, `_get_custom_constraints` and their use in the objectives and constraints of the three estimators | CVXPY's convexity rules; the solver (contract: it reports an optimum); `*args` and keyword-only parameters of custom functions |
| C93 | `SyntheticData.fit`, `_check_sample_method`, `EmpiricalPrior.fit` with defaults | the distribution estimator (any function; the vine is C53–C56); metadata routing (C91) |
| C94 | `LoadingMatrixRegression.fit`, assembly in `FactorModel.fit` (computation: C36) | scikit-learn's regressors (contract: they minimise their objective); choice of the penalty by cross-validation (any penalty) |
| C95 | `_check_method_params`, `safe_indexing`, `safe_split`, `fit_single_estimator`, `fit_and_predict`, slicing in `cross_val_predict` and `NestedClustersOptimization.fit` | the estimators (modelled by what `fit` receives), negative and boolean indices, parallelism |
| C96 | `ChildNode.u`, `ChildNode.v` with their counts, `_count_node_visits`, `clear_cache`, both passes of `sample` | which nodes are terminal (any set), the arrays of several samples (one at a time) |
| C97 | `PearsonDistance.fit`, `KendallDistance.fit`, `SpearmanDistance.fit`, `CovarianceDistance.fit`, `_corr_to_distance` with NaN | `np.corrcoef`, `DataFrame.corr` by their definitions; the covariance estimator (any matrix) |
| C98 | `_dependence`, the matrix of `set_edges_from_mst` for the first tree | `mutual_info_regression` (any function), `kendalltau` and `wasserstein_distance` of scipy by their definitions, `minimum_spanning_tree` by its contract |
| C99 | `BasePortfolio.__reduce__`, `args_names`, reloading through the constructors of `Portfolio` and `MultiPeriodPortfolio` | the pickle format; copies of arrays, data frames and strings are taken to be equal to the originals; only array-valued weights (as C28) |
| C100 | `BaseComposition._get_params`, `_set_params` (one parameter at a time), `_validate_names`, `StackingOptimization._validate_estimators` | `get_params`/`set_params` of scikit-learn's `BaseEstimator` as documented; the estimators in the stacking by two laws (`Lawful`) |
| C101 | `cache_method`, `_make_key` | Python's hashes of strings, objects and tuples (any functions); of integers as in 64-bit CPython; the lifetime of objects (an id is never reused within a fit) |
| C102 | all arithmetic operators of `MultiPeriodPortfolio` on those of `Portfolio` (C24) | division by zero; operands of other types (`TypeError`); numpy's conversion of a portfolio by `__array__` as documented |
| C103, C104 | `format_measure`, `optimal_rounding_decimals`, `summary` of the portfolios, `BaseMeasure.__repr__` | floating-point error of `x * 100` and `log10`, negative zero, how the two added rows are printed; `{:.nf}` of Python rounds correctly, ties to even |
| C105 | `cross_val_predict` with `WalkForward`, composed from the models of C03-C05 and C08 | the estimator (any function); joblib |
| C106 | reaction of all the measures of `_measures.py` to reordering, leverage and cash, with `standard_deviation`, `semi_deviation`, `skew`, `kurtosis` | rounding; the search of `evar` and `edar` |
| C107 | `variance_from_assets`, `expected_returns_from_assets`, `diversification`, `sric` of `Portfolio`, with the models of C24, C82, C106 | rounding |
| C108 | the models of C17-C20, C45, C60-C62 (`MeanRisk`, `RiskBudgeting`, `MaximumDiversification`, naive optimisers) | which of several optima a solver returns |
| C109 | all risk measures of `_measures.py` (models of C12-C15, C46, C106) | the numerical search of `evar` and `edar` |
| C110 | downside measures of `_measures.py` (same models) | the numerical search of `evar` and `edar` |
| C111 | `MeanRisk.fit`, `RiskBudgeting.fit`, `MaximumDiversification.fit` (models of C17-C20, C67, C60, C61) | the solver: a contract; measures other than variance and standard deviation without `l2_coef` |
| C112 | `MeanRisk.fit`, `DistributionallyRobustCVaR.fit`, `_get_weight_constraints` (models of C17-C20, C67, C62) | the solver: a contract |
| C113 | `MeanRisk.fit`, `_optimal_homogenization_factor`, `RiskBudgeting.fit`, `InverseVolatility.fit`, `HierarchicalRiskParity.fit`, `HierarchicalEqualRiskContribution.fit` | the solver: a contract; the clustering |
| C114 | `_set_scale_objective`, `_set_scale_constraints`, the defaults of `MeanRisk.fit`, models of C17-C20, C60, C63, C92 | the solver: a contract |
| C115 | models of C17-C20, C60, C62; `EmpiricalMu.fit`, `EmpiricalCovariance.fit` | the solver: a contract; the other moment estimators |
| C116 | models of C17-C21, C60, C61 and `InverseVolatility.fit` | the solver: a contract; the clustering: any order of the leaves |
| C117 | models of C17-C20, C67 | the solver: a contract |
| C118 | models of C17-C20, C67, C68 | the solver: a contract |
| C119 | models of C17-C20, C62, C63, C67 | the solver: a contract |
| C120 | models of C17-C20, C67 | the solver: a contract |
| C121 | models of C17-C20, C67, C106 | the solver: a contract; the prior model |
| C122 | `check_estimator`, `sklearn.clone`, and which estimators the `fit` methods create, copy and fit | what `fit` computes: arbitrary (`World.learned`); joblib processes; defaults of candidate lists |
| C123 | `default_asset_names`, `get_feature_names`, `annualized_measure`, `non_annualized_measure` | messages of the errors; reading the labels from a frame |
| C124 | models of C35, C42, C82 | the covariance given to `ShrunkMu` and its eigenvalues; repair by `cov_nearest` |
| C125 | models of C18, C42, C67, C113 | estimation of the covariance (the same matrix is given to both estimators) |
| C126 | models of C09, C10 | `float` is a parameter; spaces beyond ASCII |
| C127 | the data handed to plotly by `Portfolio.plot_cumulative_returns`, `plot_returns`, `Population.plot_cumulative_returns`, `plot_distribution`, the front column and hover template of `plot_measures` (`Portfolio/PlotModel.lean`) | plotly, titles, formats, colours; slices with a step; interpolation of surfaces |
| C128 | `summary`, `plot_train_test_folds`, `plot_train_test_index` (`Combinatorial/TablesModel.lean`) | colours and captions; rounding of the division |
| C129 | models of the heat map, the squares and the threshold of the colours of `plot_dendrogram` over trees of merges | the linkage and `optimal_leaf_ordering` (any exchange of children), `fcluster` (its labels number the subtrees below a height), traces and layout |
| C130 | models of `fit` with `itau=False` and of `score` for the five bivariate copulas | `so.minimize_scalar` (its minimum, up to a tolerance) and `so.minimize` (not worse than its start); NaN scores; the warning for a rotation that fails |
| C131 | models of `==`, `>`, `>=`, `fitness`, `in` and `remove`, with NaN, on top of the model of `dominate` and `non_denominated_sort` | infinite values; comparisons with other types (they raise, or are unequal) |
| C132 | the models of the measures of C12-C15, C46, C106, C109 and C110 | compounded drawdowns; the bounded search of `evar` |
| C133 | the model of `MeanRisk` of C67 | the ratio objective; limits that depend on the data; semi-variance |
| C134 | `posterior` of C34 | as for C34 |
| C135 | the model of `MeanRisk` of C67 | the ratio objective |
| C136 | the models of C21, C23, C47 and C57 | clustering, the estimators (any functions), exceptions raised by estimators |
| C137 | the models of C60 and C92 | the solver; negative budgets (rejected by CVXPY) |
| C138 | the models of C67 | transaction costs, turnover limit; for MAXIMIZE_RATIO what C18 excludes; the solver |
| C139 | `DropCorrelated.fit` with one asset, the other models of C31 and C32, `SelectorMixin.transform` (`keep`) | that `np.corrcoef`, `np.cov` and the measures of kept columns are those of the columns |
| C140 | `cross_val_predict` with a combinatorial cross-validation (L179-235) | `n_jobs`, `portfolio_params`, metadata routing, `column_indices` |
| C141 | `Population.measures`, `measures_mean`, `measures_std` | measures that are NaN |
| C142 | the models of C31, C32 and C139 | that `np.corrcoef`, `np.cov`, their means and the measures of permuted columns are the permuted ones |
| C143 | `SelectorMixin.transform` on a data frame, `Pipeline.predict` with one selector, on the model of `predict` of C80 | scikit-learn's checks of the transformed data; several steps; `transform_output` other than pandas |
| C144 | the returns of `MultiPeriodPortfolio` (C26) and the measures of C12-C15 | measures not named in the claim |
| C145 | `BasePortfolio.measures_df` | the pandas constructor |
| C146 | model of C17-C20, C67 | solvers (contract); rounding |
| C147 | models of C03 and C06 | - |
| C148 | model of C62 | - |
| C149 | model of C62 | - |
| C150 | models of C17, C60, C61, C45 | - |
| C151 | model of C60 | - |
| C152 | models of C60, C67 | - |

## 4. Where the code and the property disagree

Each item is a theorem with a concrete witness; the positive theorem next to it has the exact hypothesis under which the property holds.

* C04: `WalkForward(test_size=0)` is accepted and `split` never stops (`C04_zero_test_size_diverges`). `get_n_splits` ignores
  `freq` (`C04_count_wrong_with_freq`).
* C05: with `previous=True`, a calendar date before the first observation is mapped to index -1 and the train set then contains
  observations of the test set (`C05_previous_look_ahead`). In offset mode the purge is subtracted from the end of the test set, not
  from the end of the train set (`C05_offset_purge_ignored`).
* C06: the code merges only fold number `n_folds` into the last fold; if the remainder is larger than one block, the last observations are
  never tested (`C06_observations_lost`).
* C08: interleaved test folds pass the check (only the first split is inspected) and the result is not chronological
  (`C08_interleaved_not_chronological`).
* C10: chained comparisons are accepted without warning and mean something else (`C10_chained_accepted`); an empty left side is read
  as 0 (`C10_empty_side_accepted`); a trailing `*` after a name gives a `TypeError` (`C10_trailing_star_type_error`).
* C11: a missing group raises `EquationToMatrixError` whatever `raise_if_group_missing` says, because only `GroupNotFoundError` is
  caught (`C11_missing_group_always_raises`).
* C46: for a sample without losses the search interval of `evar` contains negative risk aversions, where the value is below CVaR
  (`C46_no_loss_breaks_bound`).
* C21: with a lower bound on some assets only, HRP can give a cluster of several assets the weight zero, after which its own split
  divides by zero and the weights are NaN (`C21_zero_weight_cluster_not_finite`: one minimum of 0.5 among eight assets).
* C21/C22: `_convert_weights_bounds` does not check `sum(min_weights) <= 1`; HRP then returns a weight below its minimum without an
  error (`C21_min_sum_above_one_violated`, `C22_infeasible_accepted`).
* C30: `deduplicate_names(["a", "a", "a_1"])` returns `["a", "a_1", "a_1"]` (`C30_collision`).
* C31: `DropCorrelated.absolute` is documented but not read by `fit`; two assets with correlation -1 are both kept
  (`C31_absolute_pair_kept`).
* C32: `SelectNonDominated` stops only when *more* than `min_n_assets` assets were collected, so an extra front is added when the number
  is reached exactly (`C32_superfluous_front`).
* C24: with transaction costs the returns of `p + q` are not the sum of the returns (`C24_not_linear_with_costs`): both operands and the sum
  pay for trading from the same previous weights.
* C25: `ptf.mean = 7` is accepted and kept (`C25_assigned_measure_is_kept`); mutating the list `fitness_measures` in place, which
  the model does not express, leaves a stale fitness.
* C26: see the four `C26_*` findings: shared lists (`copy`, caller's list), a failing `append` that still extends the list, and
  the strictness of the date check differing between `append` and the constructor.
* C27: `population += [object]` is not validated (`C27_iadd_bypasses_validation`); a failing `extend` keeps the items before the
  offending one (`C27_raising`).
* C41: the default scorer of `ExtraRiskMeasure.SKEW` prefers negative skew (`C41_skew_is_penalised`).
* C48: the docstring of `contribution` gives `(measure(wi-h) - measure(wi+h)) / 2h`; the code computes the negation of this times the weight.
* C17: drawdown programs start from initial wealth, `get_drawdowns` from the first observation: a first loss is ignored by the measure
  (`C17_first_loss_ignored_by_measure`). With an explicit `min_acceptable_return` the MAD program computes twice the lower partial moment
  (`C17_mad_explicit_target_differs`); the first lower partial moment adds the risk-free rate to the target
  (`C17_flpm_risk_free_differs`); lower partial moments with a target, and EVaR, ignore transaction costs (`C17_flpm_ignores_costs`).
* C18: the scale is a free variable; without weight bounds an optimum may have `k < 0` and the returned portfolio may have negative
  excess return (`C18_negative_scale`).
* C19: with MAXIMIZE_RATIO the tracking error limit lacks the factor and variance limits scale with its square: both are violated at a
  concrete optimum (`C19_ratio_limits_violated`).
* C20: with MAXIMIZE_RATIO the big M bounds the scale (`C20_scale_limited`); `cardinality` with `min_weights=None` raises `TypeError`
  (`C20_no_bounds_type_error`) before the intended message.
* C33: with `y`, missing values are counted over `X` and `y` but compared with the number of columns of `X` (`C33_y_drops_observations`);
  with `fill_nan=False`, `drop_inceptions_nan=True` drops rows in the middle too, so a return spans two periods (`C33_gaps_dropped`);
  rows are dropped by label (`C33_duplicate_labels`).
* C34: `view_confidences == 0` entries are overwritten in the user's array (`C34_confidences_overwritten`); the risk free rate is added to a posterior mean that already meets
  the views, so a certain view on a return is missed by the risk free rate (`C34_risk_free_shift`). Not modelled: an integer array of confidences keeps its zeros (`1e-16` is cast to 0) and divides by zero.
* C36: when the explained covariance is singular, `cov_nearest` changes the covariance but not `cholesky` (`C36_cholesky_mismatch`).
* C43: with `is_log_normal` the projected mean lacks the "- 1" of a linear return (`C43_mean_is_gross`; the repository's tests expect the gross mean), and the in-place products change the
  attributes of the fitted moment estimators (`C43_estimator_overwritten`).
* C42: James-Stein: the coefficient of the target can be negative (`C42_james_stein_negative`; always with one or two assets) or exceed one (`C42_james_stein_overshoot`).
  Bodnar-Okhrin-Parolya: `beta_` divides by `u` where the optimum divides by `w` (`C42_bodnar_not_optimal`, `C42_bodnar_not_convex`).
* C45: `rand_weights(n, zeros=n)` is 0/0 (`C45_rand_weights_all_zero`).
* C39: the docstring of `_apply_margin_swap` says that the columns are swapped if `first_margin` is False; the code swaps if it is True, which is what all callers need. The docstrings of
  `inverse_partial_derivative` say that the first column is the probability also for `first_margin=True`; the code needs the probability in the second column then (`IsInverse` in `Copula/Spec.lean`, and as
  `sample` uses it).
* C54: `_propagate_samples` calls `inverse_partial_derivative` without `first_margin` in both branches. In the right branch the variable to be solved for is the second margin of the copula, but the call inverts the conditional
  distribution of the first margin. For exchangeable copulas this is the same; for a Clayton, Gumbel or Joe copula with rotation 90 or 270 degrees (that is, for negative dependence) the samples follow the transposed copula,
  with the tail dependence in the wrong corner. `C54_rotated_counterexample` shows it for three assets, the smallest vine that `fit` accepts.
* C44: the search of `optimal_folds_number` skips pairs as soon as a cost above 1e5 has been seen in the row. With extreme weights the skipped pairs contain the best one (`C44_weights_counterexample`).
* C57: with a splitter whose test sets interleave (accepted by `cross_val_predict`), the predictions of the clusters are concatenated fold by fold while single assets and the targets are read in sorted order: the outer estimator is fitted on
  returns of different dates (`C57_interleaved_counterexample`).
* C58: `NestedClustersOptimization.fit` selects the columns of `y` with the asset indices of each cluster (`safe_split(..., axis=1)`), so that every call with an array or data frame of targets raises as soon as one cluster has two assets.
* C59: `_set_params` pops from the dictionary it iterates over, so that `set_params(name=estimator)` always raises `RuntimeError: dictionary changed size during iteration`, after having replaced the first estimator.
* C55: with `log_transform`, the samples are transformed back linearly above 200 %, but bounds are transformed by `log1p`. For bounds (5, 10) the quantiles are mapped to returns below 3.3, and the final `np.clip` makes all of them 5:
  the asset is constant although a range was asked for (`C55_high_bounds`). With `fit_marginals=False` the documented open bounds (`None` or infinite) end in the `OverflowError` of `rng.uniform` (`C55_errors`).
* C56: `sample` warns if conditioned assets are not all central, which suggests that conditioning on a part of the central assets is fine. It is not: for three central assets joined as 0 - 1 - 2, conditioning on 0 and 2 draws asset 1
  given one of them only (`C56_part_of_central`). It is exact if all central assets are conditioned on (`C56_conditional_sampling`).
* C60: `RiskBudgeting` minimises the risk of unnormalised weights, but passes `factor = 1` to the risk functions except for the first lower partial moment. Transaction costs are then taken against the previous weights at scale 1 while the
  weights are at another scale. With two assets of equal budgets the contributions to the worst realization are 0.16 and 0.12 (`C60_previous_weights`).
* C61: `MaximumDiversification` subtracts the risk-free rate, the fees and the transaction costs from the weighted volatilities, so with a risk-free rate the weights do not maximise the diversification ratio (`C61_risk_free_rate`); and `min_return`,
  documented as a bound on the expected return, bounds the weighted volatilities (`C61_min_return`). `Portfolio.diversification` mixes divisors `T` and `T - 1`: it is below 1 for a single asset (`C61_single_asset`).
**Covariance uncertainty.** (a) `EmpiricalCovarianceUncertaintySet` documents the shape `1 / (T - 1) (I + K)(Σ ⊗ Σ)`; the code has `1 / T` and keeps only the diagonal, also with `diagonal=False` (`C65_covariance_shape`). (b) With `diagonal=False` the shape of `BootstrapCovarianceUncertaintySet` is singular for two or more assets, since the entries `(i, j)` and `(j, i)` have equal rows (`C66_singular`). (c) The worst-case variance of the homogenised problem is `k V(w / k)`, of degree one, while that of the plain variance is of degree two (`C64_worst_case`): under `MAXIMIZE_RATIO` the problem maximises return over variance rather than over the standard deviation.
**Frontier and results of MeanRisk.** (a) The targets of the efficient frontier start 1 % above the return of the minimum risk portfolio, which is never part of the frontier (`C68_attainable`); if that exceeds the greatest return the fit fails (`C68_unattainable`, with equal expected returns `C68_equal_returns`). (b) With a list as `min_return` or `max_*` and `efficient_frontier_size` the clone's `problem_values_` is a list and indexing it by name raises `TypeError` (not modelled). (c) `np.all(sizes)` does not compare the lengths (`C69_length_check_partial`, `C69_lengths`). (d) With `raise_on_failure=False` failed problems leave no trace, and a single failed problem raises `IndexError` (`C69_failure_drops`). (e) Under `MAXIMIZE_RETURN` the reported risk is any upper bound of the risk (`C70_max_return_risk`); under `MAXIMIZE_RATIO` the reported quadratic penalty and worst-case variance have a wrong power of the scale (`C70_regularization`, `C70_worst_case_variance`).
**Refit after a failure.** `_cvx_drawdown` returns no constraints if the name `__cvx_drawdown` is in the cache. The cache is cleared in `__init__` and at the end of `_solve_problem` only. When the solver fails (or anything else raises after the drawdown was built), the name stays, and the next `fit` of the same estimator builds its problem without the constraints on the drawdowns: limits such as `max_max_drawdown` are void, minimising the ulcer index returns any weights, and minimising the other drawdown measures is unbounded (`C71_limits_void`, `C71_risk_void`, `C71_witness`). C17–C20, C60–C62 and C67–C70 are about problems built with an empty cache (`C71_refit`). Also, the cache hashes `min_acceptable_return`, so an array raises `TypeError` although the type hint allows it (not modelled).
**Inputs.** (a) `input_to_array(dim=2)` pads short entries with `None` and ignores its `fill_value`; `_validate_groups` then treats `None` as a name, so an asset with two levels less than another one (for instance an asset that is not in the dictionary) raises `DuplicateGroupsError: 'None' appear in two levels` (C73). (b) `validate_input_list` looks for duplicates before it resolves the names, so `["A", 0]` passes; in `VineCopula.sample` the second condition then silently replaces the first (C74). (c) `deduplicate_names` may create a name that exists: `a, a, a_1` becomes `a, a_1, a_1` (C75). (d) A scalar parameter is not checked for NaN (`C72_scalar_unchecked`). (e) Keys of a dictionary that are no asset are ignored without warning (`C72_only_columns`), so a misspelt asset gets the default.
**Implied covariance.** (a) `check_implied_vol` calls `check_non_negative((n_observations, n_assets), ...)`, on the shape: negative implied volatilities are accepted, and with a risk premium the correlation of two assets whose last volatilities differ in sign is reversed (`C77_negative_accepted`). (b) `implied_vol /= np.sqrt(annualized_factor)` after `check_array(copy=False)` overwrites the caller's array; a second fit divides again, so that variances shrink by a factor of 252 at each fit with a risk premium (`C77_input_changed`, `C77_refit_differs`); with the regression of volatilities by a linear regressor with intercept the second fit is the same, since only the intercept changes (`C77_refit_regression`).
**Denoise and detone.** (a) `_marchenko` calls `kde.score_samples(pdf_0.reshape(-1, 1))`: the density of the eigenvalues is evaluated at the *values* of the Marchenko-Pastur density, not at `e_val_lin`. When the two densities are equal the objective is not 0 (`C78_objective_wrong`). (b) With `n_observations == n_assets`, `e_min = 0`, the density is `inf * 0` there, and `score_samples` raises on NaN (`C78_square_fails`). (c) `n_markets` is not validated (`C79_too_many`, `C79_perfectly_correlated`, `C79_negative`); the division 0/0 is refused by `cov_nearest` with "The matrix must be symmetric", or stored as NaN with `nearest=False`.
**Predict.** (a) `Portfolio.__init__` passes a scalar `previous_weights` to `input_to_array`, which refuses it, while costs and fees that are scalars are treated apart: a `MeanRisk(previous_weights=0.5)` can be fitted but `predict`, `score` and `fit_predict` raise (`C80_scalar_previous_weights`). (b) `predict` does not call `validate_data(reset=False)`: columns that are renamed or reordered after `fit` are accepted and the weights are matched by position, while dictionaries of costs are matched by name (`C80_names_ignored`, `C80_column_order`). (c) For negative costs per asset the optimization counts their absolute values, the portfolio the negative numbers; `C80_costs_agree` assumes that they are not negative.
**Model selection.** (a) `min(results, key=results.get)` keeps a first key whose criterion is NaN, since nothing is smaller (`C81_nan_first`). (b) `n_params = len(self._scipy_params)` counts `loc` and `scale` even when the caller fixed them; the AIC and BIC of restricted models are too large and can reverse the choice (`C81_fixed_counted`, `C81_fixed_changes_selection`). (c) `select_bivariate_copula` reads `copula.itau` of every candidate; `IndependentCopula` has no such attribute (`C81_independent_candidate`). (d) It stores the Kendall tau of `X` in the parameter `kendall_tau` of the clone that it returns; a later `fit` on other data uses it (`C81_refit_stale`).
**Empirical and exponentially weighted moments.** (a) The documented range of `EWCovariance.alpha` includes 1, where pandas' correction of the bias divides by 0: the matrix is NaN, refused as not symmetric with `nearest=True` and stored with `nearest=False` (`C82_ew_alpha_one`); the same for one observation. (b) `np.cov` of one asset has no dimensions, so `EmpiricalCovariance` cannot be fitted to one asset (`C82_one_asset`); `EWCovariance` can. (c) `window_size=0` is the slice `X[-0:]`, all of `X` (`C82_window_all`).
**The number of clusters.** (a) `compute_optimal_n_clusters` sums the mean distances within the clusters, `D_i / (|C_i| (|C_i| - 1))`; the documentation (and the paper) has `D_i / (2 |C_i|)`. For two pairs of assets far from each other the documented criterion gives two clusters, the code three (`C83_documented_dispersion`). (b) With the documented objective the answer would be the maximising `k`, the code returns `k + 1` (`C83_documented_index`), the elbow of the curve. (c) For two assets the list of second differences is empty and `np.argmax` raises: `HierarchicalClustering()`, the default of the hierarchical optimizations, cannot be fitted to two assets (`C83_fit_two_assets`). (d) `assert_is_distance` does not look at signs (`C83_negative_distance`).
**The variation of information.** (a) `MutualInformation()` chooses the number of bins for each pair of assets (`max` of the two Freedman-Diaconis numbers), so that the entropies of an asset differ from pair to pair and the distance, documented as a metric, violates the triangle inequality: `C84_default_not_metric` has three assets over eight days with `d(0,1) = d(1,2) = 0 < d(0,2)`. With `n_bins` given it is a pseudometric (`C84_triangle`). (b) With `normalize=True` the codependence is `I / min(H(X), H(Y))`, not documented, and `0 / 0 = NaN` for an asset with one occupied bin while its distance is 0 to itself (Python's `max(0.0, nan)` is `0.0`): `C84_constant`.
**The distance correlation.** (a) The parameter `threshold` of `DistanceCorrelation` is documented but never read (`C85_threshold`). (b) `sqrt(1 - dcorr)` is not a metric: for the returns (0,0,1,1), (0,1,2,3), (0,1,0,1) the distances are 0.30 + 0.69 < 1 (`C85_not_metric`). (c) With one constant asset its codependence and distance to the others are NaN while the diagonal has 1 and 0 (`C85_formula`, `C85_symmetric`).
**Rolling measures.** `rolling_measure` of an annualised ratio is `(mean - risk_free_rate) / risk * sqrt(factor)`, while the attribute of the same name is `(factor * mean - risk_free_rate) / (sqrt(factor) * risk)`: they differ whenever `risk_free_rate != 0` and `factor != 1` (`C86_annualised_ratio_iff`).
**Compositions.** `Portfolio.composition` renames the column of the weights to the name of the portfolio and then makes the column `asset` the index. For a portfolio with the name "asset" two columns have that label and pandas refuses (`C87_composition_fails`).
**set_portfolio_params.** (a) The documented return value is the population; with at least one parameter the method returns `None` (`C88_returns_self_iff`). (b) The valid names are those of `BasePortfolio.__init__`, which include the read-only `returns` and `observations`: the call then raises an `AttributeError` after the parameters before it have been set on the first portfolio only (`C88_not_atomic`).
**tail_concentration at the ends.** The cdf is evaluated at the quantile clipped to [1e-9, 1 - 1e-9], and is then divided by the unclipped quantile. For every copula the value is negative for 1 - 5e-10 < q < 1 (`C89_concentration_negative`) and above one for 0 < q < C(1e-9, 1e-9) (`C89_concentration_above_one`); at the accepted quantiles 0 and 1 it is infinite or NaN (`C89_concentration_ends`).
**The sign of Kendall's tau is lost in the fit of the Archimedean copulas.** The parameter is computed from the absolute value of the tau, and the rotation is chosen by the likelihood alone, so a sample with tau -1/5 can be fitted by a copula with tau +1/5 (`C90_sign_false`), and the sign of a `kendall_tau` given by the user has no effect (`C90_argument_unchecked`).
**Kendall's tau is not checked.** A constant column has the tau NaN: the Clayton, Gumbel and Gaussian copulas are then fitted with the parameter NaN and no error (Python's `min(nan, 0.9999)` is NaN), while the Joe copula raises (`C90_constant_column`). A `kendall_tau` of 2 gives the Gaussian copula with correlation 0 (`C90_argument_unchecked`).
**The Joe copula with parameter two.** `_tau_diff` has a removable singularity at 2, where Python raises ZeroDivisionError; the tau there is 2 - pi^2/6, and no fit to this tau can succeed in exact arithmetic (`C90_joe_two`).
**`SyntheticData` registers its distribution estimator under the wrong name.** `get_metadata_routing` adds it as `distance_estimator`, `fit` reads `routed_params.distribution_estimator`: every keyword that is routed to it raises AttributeError, also through any estimator around it (`C91_synthetic_fails`).
**Sub-estimators without metadata.** The loading matrix estimator of `FactorModel`, the outer estimator of `NestedClustersOptimization`, the final estimator of `StackingOptimization` and the regressor of `ImpliedCovariance` are fitted without keywords and are not in the router: what they have asked for is refused, or silently not given if another estimator has asked for it too (`C91_loading_matrix`, `C91_final_estimator`).
**A renamed keyword passed on twice.** `LoadingMatrixRegression` hands the keywords of its regressor, already translated, to scikit-learn's `MultiOutputRegressor`, which routes them again and refuses them (`C91_renamed_twice`).
**Custom constraints and objectives are imposed on the scaled weights.** With `MAXIMIZE_RATIO` and in `RiskBudgeting` the variable `w` is the weights times `factor`; `add_constraints` and `add_objective` are called with it. `lambda w: w[0] <= 0.5` then does not bound the first weight: a witness invests everything in it (`C92_ratio_constraint_violated`, `C92_budget_constraint_violated`). Constraints on proportions are fine (`C92_ratio_partial`).
**Bound methods are refused as custom functions.** `co_argcount` counts the bound object: a method `f(self, w)` is called with two arguments and fails with a TypeError that blames the user's function (`C92_bound_method`). A function `f(w, x=3)` receives the estimator as `x` (`C92_optional_parameter`).
**An uncertainty set of covariances changes the ratio.** With `risk_measure=VARIANCE` and `MAXIMIZE_RATIO` the Sharpe ratio is maximised, as the variance of the scaled weights is quadratic in the scale. With a `covariance_uncertainty_set_estimator` the worst-case variance program is linear in the scale (`factor` is in the block matrix), so that excess return over *variance* is maximised: with a set of radius zero the weights are (2/3, 1/3) instead of (7/8, 1/8) (`C64_ratio_not_sharpe`). `max_variance`, wrong for the ratio without the set (C19), is right with it (`C64_ratio_limit`).
**`SyntheticData` adds the same noise to every constant column.** `noise` has one column and is broadcast: two conditioned assets differ by a constant in the prior, are perfectly correlated, and the sample covariance is singular (`C93_same_noise`). The noise comes from `np.random`'s global state, not from the `random_state` of the distribution estimator. A column with a small but genuine standard deviation below 1e-7 also gets the noise of standard deviation 1e-6, which then dominates it.
**The default loadings understate variances and lose mean returns.** The residuals of a lasso are positively correlated with its predictions, but `FactorModel` adds the variances of the two: with intercepts the reported variance is the sample variance less `2 T/(T-1) λ |β|₁` (`C94_lasso_understates`). The default `LassoCV(fit_intercept=False)` in addition loses the mean of the residuals; an asset with no selected factor gets expected return 0 (`C94_default_partial`). With `LinearRegression` both are exact (`C94_least_squares`).
**`FactorModel` with one factor raises by default.** The default prior of the factors is `EmpiricalPrior`, whose `EmpiricalCovariance` fails for a single column (`C82_one_asset`).
**`NestedClustersOptimization` does not cut keywords in its cross-validation.** The inner estimators are fitted on the whole sample with the columns of the cluster of every keyword, but `cross_val_predict(column_indices=...)` selects columns of `X` and `y` only. With NumPy arrays, `implied_vol` then has more columns than `X` in every fold and `ImpliedCovariance` raises (`C95_cluster_columns`); with DataFrames it finds its columns by name (`C95_cluster_by_name`). A keyword with one value per observation fails already on the whole sample (`C95_vector_refused`).
**Distances with fractional powers, constant assets and one asset (C97).** `_corr_to_distance` computes its scaler with `min((-1)**power, 0, 1)`. Without absolute values and with a power that is not an integer the first is NaN and Python's `min` keeps it, so that every distance is NaN, even if all correlations are positive (`C97_fractional`). With absolute values and the power 1/2 the triangle inequality fails (`C97_half_triangle_false`). An asset with constant returns has NaN distances (`C97_nan`), and `PearsonDistance` of one asset is an array without dimensions (`C97_one_asset`).
**The Wasserstein distance is not a dependence (C98).** `_dependence` with `WASSERSTEIN_DISTANCE` compares the marginal distributions of the two columns, which are pseudo-observations. It does not depend on how the observations are paired (`C98_wasserstein_pairing`); for ranks it is 0 for every pair, so that the tree does not depend on the data (`C98_wasserstein_any_tree`). It is also added as a positive weight to a maximum spanning tree, so that the assets with the most different marginals are joined.
**Portfolios that cannot be reloaded (C99).** `__reduce__` stores the constructor arguments and reloading calls the constructor. `append` accepts a period that starts on the last date of the previous one, the constructor rejects it, so that such a `MultiPeriodPortfolio` cannot be unpickled or deep-copied (`C99_append_then_reload_false`). `Portfolio` keeps the caller's array, so that overwriting an entry changes the returns of the reloaded portfolio but not those of the original (`C99_overwritten_data_false`).
**Names of estimators in a stacking that end with an underscore (C100).** `_validate_names` accepts them, `get_params` lists their parameters as `a___alpha`, and `set_params` splits this address at the first double underscore and raises `ValueError` (`C100_trailing_underscore_false`). (As in scikit-learn.)
**The cache of expressions is keyed by hashes (C101).** `_make_key` returns `hash(key)` and the dictionary never compares the arguments. In CPython `hash(-1) == hash(-2)`, so that a second call with `min_acceptable_return=-2` in the same fit returns the expression for `-1` (`C101_minus_one_false`). The key of an array cannot be computed: `_cvx_min_acceptable_return` documents an array of shape `(n_assets,)`, but every array raises `TypeError` (`C101_array_raises`).
**Arithmetic of multi-period portfolios forgets their parameters (C102).** The operators of `MultiPeriodPortfolio` rebuild the object with `tag` and `fitness_measures` only. Risk-free rate, annualisation factor, compounding, minimum acceptable return, all confidence levels, the name and `check_observations_order` fall back to their defaults, so that e.g. `(1 * m).sharpe_ratio` differs from `m.sharpe_ratio` (`C102_parameters_lost`, `C102_excess_witness`); `Portfolio` keeps them (C24). `math.floor(m)` and `math.trunc(m)` call `np.floor` on each portfolio, which gives an array, and so always raise (`C102_floor_raises`).
**Infinite measures cannot be displayed (C103, C104).** `optimal_rounding_decimals` computes `int(-np.log10(abs(x)))`, which raises `OverflowError` for an infinite `x`. A ratio is infinite when its risk is zero (for example the Sortino ratio of a portfolio that is never below its minimum acceptable return), and then `summary()` fails as a whole (`C103_infinite_raises`, `C104_infinite_raises`). The confidence level in the name of a row has no decimals: a CVaR at 99.9% is called "CVaR at 100%", and in `Population.summary` portfolios with levels 97.6% and 98% share a row (`C104_level_false`).
**`Portfolio.diversification` mixes two volatilities (C107).** The numerator is `np.std` (denominator T), the denominator is `standard_deviation` (denominator
T - 1). The result is sqrt((T-1)/T) times the diversification ratio; a portfolio of one asset has a diversification below 1, e.g. sqrt(1/2) for two
observations. `MaximumDiversification` (C61) uses the covariance on both sides, so its ratio is not the one displayed. Theorems
`C107_diversification`, `C107_single_asset_below_one`.

**A scale of 0 is accepted (C114).** `scale_constraints` is not validated: with 0 every constraint on the weights becomes `0 <= 0` (`C114_zero_scale`), so that the optimiser is free to return any weights; nothing is raised.
C122. `StackingOptimization.fit` (`_stacking.py` L312-314) and `NestedClustersOptimization.fit` (`_nco.py` L329-331) call `check_cv(self.cv)`, which returns a splitter object as it is, and set `cv.random_state` on it when it is `None`; the copies are taken only afterwards. The user's splitter is changed by `fit`, so that later uses of it (also by other estimators) are no longer random. Proved as `C122_splitter_changed`.
**C125 (EquilibriumMu).** The documentation asks for "the asset Market Caps" as weights. `mu_` is linear in the weights, so raw capitalisations multiply all expected returns by the total capitalisation: harmless for the greatest ratio (`C125_ratio` for any unit), but the utility then no longer returns the market weights (`C125_raw_capitalisations`). The utility of `MeanRisk` has no factor 1/2, so the risk aversion must be half that of `EquilibriumMu` (`C125_same_aversion`).
**C126 (names in constraint strings).** The text is cut at every `-`, `+`, `*`, `=`, also within names and numbers. An asset called `BRK-B` can never be constrained (`C126_unreadable_invisible`); `A-B <= 0.5` is read as a difference (`C126_hyphen_difference`) or dropped with a warning (`C126_hyphen_dropped`), and so are bounds such as `1e-3` (`C126_exponent_dropped`), the form in which Python prints numbers below 0.0001.
**C127 (plots).** `Population.plot_cumulative_returns(idx=...)` is documented to select observations but applies `iloc[:, idx]` to a table with one column per portfolio. A slice either raises `ValueError` or is ignored (`C127_population_slice`); an array with as many entries as there are portfolios shuffles the curves under unshuffled names, without any message (`C127_population_positions`). `plot_distribution(tag_list=...)` raises unless all tags have the same number of portfolios, `plot_measures(to_surface=True)` raises `TypeError` as soon as one measure is a ratio (`str + None`), and curves documented to start at 0 or 1000 start after the first return (`C127_start`).
**C128 (average training size).** The "Average Training Size" of `CombinatorialPurgedCV.summary`, which `optimal_folds_number` also aims at, ignores purge and embargo: it is larger than the average size of the training sets whenever one of them is positive (`C128_average_overstated`).
**The dendrogram with a single cluster (C129).** `linkage_matrix[-(n_clusters_ - 1), 2]` is the first row instead of a row after the last if there is a single cluster (`max_clusters=1`): all links are blue, which the documentation explains as clusters of a single asset (`C129_single_cluster`).
**The dendrogram with duplicated names (C129).** The assets are found by their name, so the second of two columns with the same name never appears; the `assert` compares names and does not notice. If the label of this asset disappears the plot raises an `IndexError` (`C129_duplicate_names`, `C129_duplicate_names_fail`).
**Student copula by maximum likelihood (C130).** The documentation says that both parameters maximise the log-likelihood; L-BFGS-B starts at three degrees of freedom and the correlation of Kendall's tau and finds a local optimum (`C130_student_partial`).
**Fitness with NaN (C131).** A NaN is neither greater nor smaller, so `dominate` ignores this measure; dominance is then not transitive and three portfolios can dominate each other in a circle. `non_denominated_sort` finds an empty first front and its `while` loop never ends (`C131_cycle`, `C131_sort_never_ends`).
**Equal fitness (C131).** `==` compares the fitness only. `portfolio in multi_period_portfolio`, `population.index`, `count` and `remove` take portfolios of equal fitness for one another (`C131_twins`), and portfolios with different fitness measures are compared by their numbers (`C131_mixed_measures`), which `Population.non_denominated_sort` refuses.
**Repeated views count several times** (C134). `BlackLitterman` takes the errors of the views as independent, so the same view listed twice moves the posterior further (two thirds of the way instead of one half without confidences); listed twice with confidence 1 it makes `np.linalg.solve` raise.
**Transaction costs do not enter the minimisation of most risks** (C135). `MeanRisk` with `MINIMIZE_RISK` and a measure computed before costs (C17) returns the same weights whatever `transaction_costs` and `previous_weights` are, unless turnover or returns are limited; for CVaR, the drawdown measures and the worst realization costs are included.
**C136: copies of one asset do not share equally in HRP.** `HierarchicalRiskParity` cuts the list of leaves in two halves of `n // 2` and `n - n // 2` leaves whatever the dendrogram, and gives halves of equal risk equal weight. Three copies of one asset get 1/2, 1/4 and 1/4 (`C136_hrp_copies_unequal`), so the weights depend on the order of the leaves even when the assets are indistinguishable.
**C138: the L2 penalty depends on how assets are listed.** `l2_coef * sum w²` of a position split over two copies of an asset is half that of the whole position (`C138_l2_favours_copies`), so with `l2_coef > 0` the fit prefers assets that are listed several times, although nothing is gained in risk or return.

**C139: selectors fitted to what they have kept.** `np.corrcoef(X.T)` of a single asset is a number, so `DropCorrelated.fit` raises an `IndexError` at `corr[triu_idx]` when the data has one asset (`C139_one_asset`), for instance the one it has left itself (`C139_refused_again`) or another selector before it in a pipeline. `SelectNonDominated` collects the assets of the best portfolios with `nonzero_assets_index`, which ignores weights of at most `1e-5`: an asset can be kept for its portfolio with an asset that is dropped, and a second selection drops it (`C139_tiny_weights`).

**C142: two correlated assets.** The mean correlations of two assets are always equal (both are `(1 + corr) / 2`), so `DropCorrelated` on two assets drops the second column, whichever asset that is (`C142_second_dropped`); in floating point the two means are sums of the same two numbers, so this is not a matter of rounding.

**C143: selling what has been dropped is free.** `previous_weights` given by name is reduced to the columns the optimizer sees. If a selector before it in a pipeline drops an asset that was held, neither the optimization nor the predicted portfolio charges the costs of selling it (`C143_sale_not_charged`); the returns are too high by exactly the cost rates of the dropped assets times their previous weights (`C143_predict`). With an array instead of a dictionary the prediction fails (`C143_array_refused`).
**C145: `measures_df` is not of all measures.** Its docstring says "DataFrame of all measures", but it leaves out the enumeration `ExtraRiskMeasure`: VaR, drawdown at risk, entropic risk measure, the fourth moments, skew and kurtosis have no row, although the ratios to the first three have one and `summary` shows all of them (`C145_extra_missing`).
**Copies of assets and the Wasserstein ball (C138).** The ball of `DistributionallyRobustCVaR` is measured in the 1-norm of the assets, so its dual is the greatest position. Listing every asset c times and splitting the positions divides the part of the objective that guards against the ball by c (`C138_radius_favours_copies`; one asset listed twice has a worst disutility of 15 % instead of 30 %).

**The unit of the returns in `DistributionallyRobustCVaR`.** The program adds `1 + returns` to the support, so `-1` is a total loss in whatever unit the returns are. With returns in percent and losses below -1 that exceed the radius on average over the observations (one asset for each observation), the program is unbounded for every portfolio and no fit has an optimum (`C113_robust_total_loss`); nothing checks the returns. The other optimisers do not depend on the unit.

**The radius of `DistributionallyRobustCVaR` has a ceiling.** From the mean distance of the sample to a total loss on (about the number of assets, for small returns), every long-only portfolio is optimal (`C149_any_portfolio`).

## 5. Axioms per theorem

Output of `#print axioms` for every theorem named in the manifest.

* axioms: none
  * `Skfolio.Cache.C101_keyword_false`
* axioms: propext
  * `Skfolio.WalkForward.C04_count_wrong_with_freq`
  * `Skfolio.WalkForward.C05_offset_purge_ignored`
  * `Skfolio.Portfolio.C25_assignment_takes_effect`
  * `Skfolio.Portfolio.C25_assigned_measure_is_kept`
  * `Skfolio.Portfolio.Multi.C26_copy_then_append`
  * `Skfolio.Portfolio.Multi.C26_caller_list`
  * `Skfolio.Portfolio.Multi.C26_failed_append_corrupts`
  * `Skfolio.Portfolio.Multi.C26_append_accepts_equal_date`
  * `Skfolio.Selection.C30_collision`
  * `Skfolio.Copula.C39_rotate_back`
  * `Skfolio.Portfolio.Score.C41_ratio_denominators`
  * `Skfolio.Inputs.C72_scalar_unchecked`
  * `Skfolio.Portfolio.C88_returns_self_iff`
  * `Skfolio.Portfolio.C88_not_atomic`
  * `Skfolio.Routing.C91_loading_matrix`
  * `Skfolio.Routing.C91_synthetic_data`
  * `Skfolio.Routing.C91_renamed_twice`
  * `Skfolio.FitParams.C95_target_refused`
  * `Skfolio.FitParams.C95_vector_refused`
  * `Skfolio.Portfolio.Pickle.C99_append_then_reload_false`
  * `Skfolio.Clone.C122_splitter_changed`
  * `Skfolio.Cluster.Dendrogram.C129_duplicate_names_fail`
* axioms: propext, Classical.choice, Quot.sound
  * `Skfolio.Sorting.C01_dominate_iff`
  * `Skfolio.Sorting.C01_dominate_error_iff`
  * `Skfolio.Sorting.C01_irrefl`
  * `Skfolio.Sorting.C01_asymm`
  * `Skfolio.Sorting.C01_trans`
  * `Skfolio.Sorting.C02_fronts_are_pareto_layers`
  * `Skfolio.Sorting.C02_terminates`
  * `Skfolio.Sorting.C02_first_front`
  * `Skfolio.Sorting.C02_front_structure`
  * `Skfolio.WalkForward.C03_no_look_ahead`
  * `Skfolio.WalkForward.C05_period_no_look_ahead`
  * `Skfolio.WalkForward.C05_period_tests_ordered`
  * `Skfolio.WalkForward.C05_period_test_dates`
  * `Skfolio.WalkForward.C05_offset_partial`
  * `Skfolio.Combinatorial.C06_init`
  * `Skfolio.Combinatorial.C06_folds`
  * `Skfolio.Combinatorial.C06_all_tested_iff`
  * `Skfolio.Combinatorial.C06_train_test`
  * `Skfolio.Combinatorial.C07_counts`
  * `Skfolio.Combinatorial.C07_reshape_exact`
  * `Skfolio.Combinatorial.C07_path_ids_defined`
  * `Skfolio.Combinatorial.C07_paths_bijective`
  * `Skfolio.Combinatorial.C08_paths_in_fold_order`
  * `Skfolio.Combinatorial.C08_path_covers_sample`
  * `Skfolio.Validation.C08_plain`
  * `Skfolio.Validation.C08_plain_observations`
  * `Skfolio.Validation.C08_plain_chronological`
  * `Skfolio.Validation.C08_interleaved_not_chronological`
  * `Skfolio.Validation.C08_paths_no_overlap`
  * `Skfolio.Equations.C09_constraint_string`
  * `Skfolio.Equations.C09_equations_to_matrix`
  * `Skfolio.Equations.C10_no_comparison`
  * `Skfolio.Equations.C10_strict_rejected`
  * `Skfolio.Equations.C10_accepted_partial`
  * `Skfolio.Equations.C10_unknown_name_rejected`
  * `Skfolio.Equations.C10_report`
  * `Skfolio.Equations.C10_chained_accepted`
  * `Skfolio.Equations.C10_empty_side_accepted`
  * `Skfolio.Equations.C10_trailing_star_type_error`
  * `Skfolio.Equations.C11_rows`
  * `Skfolio.Equations.C11_missing_group_always_raises`
  * `Skfolio.Measures.C12_defined`
  * `Skfolio.Measures.C12_worst`
  * `Skfolio.Measures.C12_order`
  * `Skfolio.Measures.C12_cvar_monotone_in_beta`
  * `Skfolio.Measures.C12_var_iff_quantile`
  * `Skfolio.Measures.C12_cvar_zero`
  * `Skfolio.Measures.C12_var_one`
  * `Skfolio.Measures.C13_rockafellar_uryasev`
  * `Skfolio.Measures.C13_permutation`
  * `Skfolio.Measures.C13_translation`
  * `Skfolio.Measures.C13_homogeneous`
  * `Skfolio.Measures.C13_monotone`
  * `Skfolio.Measures.C13_subadditive`
  * `Skfolio.Measures.C13_convex`
  * `Skfolio.Measures.C14_shortfall`
  * `Skfolio.Measures.C14_nonpositive`
  * `Skfolio.Measures.C14_max_and_average`
  * `Skfolio.Measures.C14_order`
  * `Skfolio.Measures.C14_ulcer_squared`
  * `Skfolio.Measures.C14_ulcer_between`
  * `Skfolio.Measures.C15_variance_translation`
  * `Skfolio.Measures.C15_variance_homogeneous`
  * `Skfolio.Measures.C15_variance_zero_iff`
  * `Skfolio.Measures.C15_semi_variance_split`
  * `Skfolio.Measures.C15_semi_variance_le`
  * `Skfolio.Measures.C15_mad_flpm`
  * `Skfolio.Measures.C15_gini`
  * `Skfolio.Measures.C15_gini_permutation`
  * `Skfolio.Measures.C15_mad_le_gini`
  * `Skfolio.Measures.C16_upper`
  * `Skfolio.Measures.C16_lower`
  * `Skfolio.Convex.C17_standard_deviation`
  * `Skfolio.Convex.C17_variance`
  * `Skfolio.Convex.C17_variance_measure`
  * `Skfolio.Convex.C17_semi_deviation`
  * `Skfolio.Convex.C17_ulcer_index`
  * `Skfolio.Convex.C17_evar`
  * `Skfolio.Convex.C17_edar`
  * `Skfolio.Convex.C17_mad_explicit_target_differs`
  * `Skfolio.Convex.C17_flpm_risk_free_differs`
  * `Skfolio.Convex.C17_flpm_ignores_costs`
  * `Skfolio.Convex.C17_first_lower_partial_moment_gross`
  * `Skfolio.Convex.C17_first_lower_partial_moment`
  * `Skfolio.Convex.C17_mean_absolute_deviation_gross`
  * `Skfolio.Convex.C17_mean_absolute_deviation`
  * `Skfolio.Convex.C17_semi_variance_gross`
  * `Skfolio.Convex.C17_semi_variance`
  * `Skfolio.Convex.C17_worst_realization`
  * `Skfolio.Convex.C17_cvar`
  * `Skfolio.Convex.C17_average_drawdown`
  * `Skfolio.Convex.C17_ulcer_squared`
  * `Skfolio.Convex.C17_max_drawdown`
  * `Skfolio.Convex.C17_cdar`
  * `Skfolio.Convex.C17_first_loss_ignored_by_measure`
  * `Skfolio.Convex.C17_gini_mean_difference`
  * `Skfolio.Convex.C18_negative_scale`
  * `Skfolio.Convex.C18_ratio`
  * `Skfolio.Convex.C18_ratio_division`
  * `Skfolio.Convex.C18_returned_allowed`
  * `Skfolio.Convex.C18_scale_positive`
  * `Skfolio.Convex.C19_limits`
  * `Skfolio.Convex.C19_limits_no_ratio`
  * `Skfolio.Convex.C19_ratio_partial`
  * `Skfolio.Convex.C19_ratio_limits_violated`
  * `Skfolio.Convex.C19_weight_limits`
  * `Skfolio.Convex.C19_weight_limits_mip`
  * `Skfolio.Convex.C20_sound`
  * `Skfolio.Convex.C20_complete`
  * `Skfolio.Convex.C20_scale_limited`
  * `Skfolio.Convex.C20_no_bounds_type_error`
  * `Skfolio.Hierarchical.C21_refines_recursive_bisection`
  * `Skfolio.Hierarchical.C21_terminates`
  * `Skfolio.Hierarchical.C21_budget`
  * `Skfolio.Hierarchical.C21_bounds`
  * `Skfolio.Hierarchical.C21_finite_positive_min`
  * `Skfolio.Hierarchical.C21_finite_zero_min`
  * `Skfolio.Hierarchical.C21_risk_parity`
  * `Skfolio.Hierarchical.C21_zero_weight_cluster_not_finite`
  * `Skfolio.Hierarchical.C21_min_sum_above_one_violated`
  * `Skfolio.Hierarchical.C22_accepted_iff`
  * `Skfolio.Hierarchical.C22_feasible_partial`
  * `Skfolio.Hierarchical.C22_feasible_accepted`
  * `Skfolio.Hierarchical.C22_infeasible_accepted`
  * `Skfolio.Nested.C23_nco_weights`
  * `Skfolio.Nested.C23_nco_cluster`
  * `Skfolio.Nested.C23_nco_budget`
  * `Skfolio.Nested.C23_nco_nonneg`
  * `Skfolio.Nested.C23_stacking_weights`
  * `Skfolio.Nested.C23_stacking_budget`
  * `Skfolio.Nested.C23_stacking_nonneg`
  * `Skfolio.Portfolio.Arith.C24_returns`
  * `Skfolio.Portfolio.Arith.C24_scaling`
  * `Skfolio.Portfolio.Arith.C24_rounding`
  * `Skfolio.Portfolio.Arith.C24_sum`
  * `Skfolio.Portfolio.Arith.C24_linear`
  * `Skfolio.Portfolio.Arith.C24_not_linear_with_costs`
  * `Skfolio.Portfolio.C25_never_stale`
  * `Skfolio.Portfolio.C25_copy_and_read_preserve`
  * `Skfolio.Portfolio.Multi.C26_concatenation_partial`
  * `Skfolio.Portfolio.Multi.C26_order_partial`
  * `Skfolio.Portfolio.Multi.C26_rebuild_is_strict`
  * `Skfolio.Portfolio.Multi.C26_raising_changes_nothing`
  * `Skfolio.Portfolio.Multi.C26_effect`
  * `Skfolio.Portfolio.Multi.C26_accepts`
  * `Skfolio.Portfolio.Pop.C27_slices`
  * `Skfolio.Portfolio.Pop.C27_delete`
  * `Skfolio.Portfolio.Pop.C27_effects`
  * `Skfolio.Portfolio.Pop.C28_sort_measure`
  * `Skfolio.Portfolio.Pop.C28_quantile`
  * `Skfolio.Portfolio.Pop.C28_extremes`
  * `Skfolio.Portfolio.Pop.C28_monotone`
  * `Skfolio.Selection.C29_sample_is_resample`
  * `Skfolio.Selection.C29_all_samples`
  * `Skfolio.Selection.C30_output`
  * `Skfolio.Selection.C30_distinct_partial`
  * `Skfolio.Selection.C31_no_correlated_pair_kept`
  * `Skfolio.Selection.C31_drop_is_justified`
  * `Skfolio.Selection.C31_drops_are_justified_in_turn`
  * `Skfolio.Selection.C31_uncorrelated_kept`
  * `Skfolio.Selection.C31_not_all_dropped`
  * `Skfolio.Selection.C31_top_pair`
  * `Skfolio.Selection.C31_absolute_pair_kept`
  * `Skfolio.Selection.C32_k_extremes`
  * `Skfolio.Selection.C32_non_dominated_min`
  * `Skfolio.Selection.C32_non_dominated_first_front`
  * `Skfolio.Selection.C32_pair_is_min_variance`
  * `Skfolio.Selection.C32_superfluous_front`
  * `Skfolio.Selection.C32_drop_zero_variance`
  * `Skfolio.Preprocessing.C33_split`
  * `Skfolio.Preprocessing.C33_returns`
  * `Skfolio.Preprocessing.C33_compounding`
  * `Skfolio.Preprocessing.C33_log_returns`
  * `Skfolio.Preprocessing.C33_missing_prices`
  * `Skfolio.Preprocessing.C33_y_drops_observations`
  * `Skfolio.Preprocessing.C33_gaps_dropped`
  * `Skfolio.Preprocessing.C33_duplicate_labels`
  * `Skfolio.Prior.C34_confidences_checked`
  * `Skfolio.Prior.C34_certain_views`
  * `Skfolio.Prior.C34_uncorrelated_views`
  * `Skfolio.Prior.C34_single_view`
  * `Skfolio.Prior.C34_posterior_covariance`
  * `Skfolio.Prior.C34_defined`
  * `Skfolio.Prior.C34_bayes`
  * `Skfolio.Prior.C34_confidences_overwritten`
  * `Skfolio.Prior.C34_risk_free_shift`
  * `Skfolio.Moments.C35_well_defined`
  * `Skfolio.Moments.C35_correlation`
  * `Skfolio.Moments.C35_statistic`
  * `Skfolio.Moments.C35_fit`
  * `Skfolio.Prior.C36_psd`
  * `Skfolio.Prior.C36_covariance`
  * `Skfolio.Prior.C36_mean`
  * `Skfolio.Prior.C36_cholesky_mismatch`
  * `Skfolio.Moments.C37_roundtrip`
  * `Skfolio.Moments.C37_roundtrip_corr`
  * `Skfolio.Moments.C37_correlation`
  * `Skfolio.Moments.C37_covariance`
  * `Skfolio.Moments.C38_distance`
  * `Skfolio.Moments.C38_decreasing`
  * `Skfolio.Moments.C38_triangle`
  * `Skfolio.Copula.C39_rotate_square`
  * `Skfolio.Copula.C39_mass`
  * `Skfolio.Copula.C39_copula`
  * `Skfolio.Copula.C39_partial`
  * `Skfolio.Copula.C39_inverse`
  * `Skfolio.Copula.C39_density`
  * `Skfolio.Copula.C39_select_rotation`
  * `Skfolio.Copula.C40_open_unit_interval`
  * `Skfolio.Copula.C40_order`
  * `Skfolio.Copula.C40_invariant`
  * `Skfolio.Copula.C40_mean`
  * `Skfolio.Copula.C40_rank_is_mean_place`
  * `Skfolio.Portfolio.Score.C41_dominates`
  * `Skfolio.Portfolio.Score.C41_comparison`
  * `Skfolio.Portfolio.Score.C41_scorer`
  * `Skfolio.Portfolio.Score.C41_skew_is_penalised`
  * `Skfolio.Moments.C42_bayes_stein`
  * `Skfolio.Moments.C42_james_stein_partial`
  * `Skfolio.Moments.C42_target`
  * `Skfolio.Moments.C42_bodnar_not_optimal`
  * `Skfolio.Moments.C42_james_stein_negative`
  * `Skfolio.Moments.C42_james_stein_overshoot`
  * `Skfolio.Moments.C42_bodnar_not_convex`
  * `Skfolio.Moments.C42_equilibrium`
  * `Skfolio.Prior.C43_log_normal_partial`
  * `Skfolio.Prior.C43_mean_is_gross`
  * `Skfolio.Prior.C43_settings`
  * `Skfolio.Prior.C43_estimator_overwritten`
  * `Skfolio.Combinatorial.C44_optimal_partial`
  * `Skfolio.Combinatorial.C44_default_weights`
  * `Skfolio.Combinatorial.C44_weights_counterexample`
  * `Skfolio.Naive.C45_equal_weighted`
  * `Skfolio.Naive.C45_inverse_volatility`
  * `Skfolio.Naive.C45_inverse_volatility_uncorrelated`
  * `Skfolio.Naive.C45_inverse_volatility_scale`
  * `Skfolio.Naive.C45_random`
  * `Skfolio.Naive.C45_rand_weights`
  * `Skfolio.Naive.C45_rand_weights_all_zero`
  * `Skfolio.Measures.C46_entropic_bounds_cvar`
  * `Skfolio.Measures.C46_search_interval`
  * `Skfolio.Measures.C46_no_loss_breaks_bound`
  * `Skfolio.Hierarchical.C47_equal_risk_along_dendrogram`
  * `Skfolio.Hierarchical.C47_finite_and_positive`
  * `Skfolio.Hierarchical.C47_budget_and_bounds`
  * `Skfolio.Hierarchical.C47_closest`
  * `Skfolio.Hierarchical.C47_only_solver_fails`
  * `Skfolio.Portfolio.Arith.C48_mean`
  * `Skfolio.Portfolio.Arith.C48_variance`
  * `Skfolio.Moments.C50_nearest`
  * `Skfolio.Moments.C50_set_covariance`
  * `Skfolio.Copula.C51_clayton`
  * `Skfolio.Copula.C51_gaussian`
  * `Skfolio.Copula.C51_student`
  * `Skfolio.Copula.C51_gaussian_copula`
  * `Skfolio.Copula.C51_student_copula`
  * `Skfolio.Copula.C51_gumbel`
  * `Skfolio.Copula.C51_joe`
  * `Skfolio.Copula.C52_tail_concentration`
  * `Skfolio.Copula.C52_reflection`
  * `Skfolio.Vine.C53_number_of_edges`
  * `Skfolio.Vine.C53_conditioned`
  * `Skfolio.Vine.C53_data`
  * `Skfolio.Vine.C53_score`
  * `Skfolio.Vine.C53_every_pair`
  * `Skfolio.Vine.C54_sampling_partial`
  * `Skfolio.Vine.C54_exchangeable_partial`
  * `Skfolio.Vine.C54_rosenblatt_partial`
  * `Skfolio.Vine.C54_rotated_counterexample`
  * `Skfolio.Nested.C57_nco_aligned`
  * `Skfolio.Nested.C57_nco_returns`
  * `Skfolio.Nested.C57_stacking_aligned`
  * `Skfolio.Nested.C57_prefit_returns`
  * `Skfolio.Nested.C57_interleaved_counterexample`
  * `Skfolio.Nested.C58_targets_only_singletons_partial`
  * `Skfolio.Vine.C55_back_strictMono`
  * `Skfolio.Vine.C55_back`
  * `Skfolio.Vine.C55_conditioned`
  * `Skfolio.Vine.C55_value_probability`
  * `Skfolio.Vine.C55_truncated_partial`
  * `Skfolio.Vine.C55_free`
  * `Skfolio.Vine.C55_high_bounds`
  * `Skfolio.Vine.C55_errors`
  * `Skfolio.Vine.C55_open_bounds`
  * `Skfolio.Vine.C56_central_nodes`
  * `Skfolio.Vine.C56_centre`
  * `Skfolio.Vine.C56_single`
  * `Skfolio.Vine.C56_two`
  * `Skfolio.Vine.C56_sampling_order`
  * `Skfolio.Vine.C56_conditional_sampling`
  * `Skfolio.Vine.C56_exists`
  * `Skfolio.Vine.C56_part_of_central`
  * `Skfolio.Convex.C60_first_lower_partial_moment`
  * `Skfolio.Convex.C60_variance`
  * `Skfolio.Convex.C60_budgets`
  * `Skfolio.Convex.C60_sufficient`
  * `Skfolio.Convex.C60_previous_weights`
  * `Skfolio.Convex.C60_subgradient`
  * `Skfolio.Convex.C60_contributions`
  * `Skfolio.Convex.C61_cross`
  * `Skfolio.Convex.C61_maximum`
  * `Skfolio.Convex.C61_at_least_one`
  * `Skfolio.Convex.C61_portfolio_diversification`
  * `Skfolio.Convex.C61_single_asset`
  * `Skfolio.Convex.C61_risk_free_rate`
  * `Skfolio.Convex.C61_min_return`
  * `Skfolio.Convex.C62_bound`
  * `Skfolio.Convex.C62_attained`
  * `Skfolio.Convex.C62_approached`
  * `Skfolio.Convex.C62_optimal`
  * `Skfolio.Convex.C62_radius_zero`
  * `Skfolio.Uncertainty.C63_worst_case`
  * `Skfolio.Uncertainty.C63_min_return`
  * `Skfolio.Uncertainty.C63_maximize_return`
  * `Skfolio.Uncertainty.C64_bound`
  * `Skfolio.Uncertainty.C64_worst_case`
  * `Skfolio.Uncertainty.C64_documented`
  * `Skfolio.Uncertainty.C64_minimum`
  * `Skfolio.Uncertainty.C64_ratio_limit`
  * `Skfolio.Uncertainty.C64_ratio`
  * `Skfolio.Uncertainty.C64_ratio_not_sharpe`
  * `Skfolio.Uncertainty.C65_commutation`
  * `Skfolio.Uncertainty.C65_covariance_shape`
  * `Skfolio.Uncertainty.C65_covariance_shape_diagonal`
  * `Skfolio.Uncertainty.C65_mu_shape`
  * `Skfolio.Uncertainty.C65_covariance_set`
  * `Skfolio.Uncertainty.C66_centre`
  * `Skfolio.Uncertainty.C66_shapes`
  * `Skfolio.Uncertainty.C66_transposed`
  * `Skfolio.Uncertainty.C66_singular`
  * `Skfolio.Convex.C67_minimize_risk`
  * `Skfolio.Convex.C67_maximize_return`
  * `Skfolio.Convex.C67_maximize_utility`
  * `Skfolio.Convex.C68_equal_returns`
  * `Skfolio.Convex.C68_targets`
  * `Skfolio.Convex.C68_points`
  * `Skfolio.Convex.C68_monotone`
  * `Skfolio.Convex.C68_efficient`
  * `Skfolio.Convex.C68_last`
  * `Skfolio.Convex.C68_attainable`
  * `Skfolio.Convex.C68_unattainable`
  * `Skfolio.Convex.C69_aligned`
  * `Skfolio.Convex.C69_single`
  * `Skfolio.Convex.C69_failure_raises`
  * `Skfolio.Convex.C69_failure_drops`
  * `Skfolio.Convex.C69_length_check_partial`
  * `Skfolio.Convex.C69_lengths`
  * `Skfolio.Convex.C70_return`
  * `Skfolio.Convex.C70_risk`
  * `Skfolio.Convex.C70_objective`
  * `Skfolio.Convex.C70_max_return_risk`
  * `Skfolio.Convex.C70_regularization`
  * `Skfolio.Convex.C70_worst_case_variance`
  * `Skfolio.Convex.C71_shared`
  * `Skfolio.Convex.C71_refit`
  * `Skfolio.Convex.C71_limits_void`
  * `Skfolio.Convex.C71_risk_void`
  * `Skfolio.Convex.C71_witness`
  * `Skfolio.Inputs.C72_accepted`
  * `Skfolio.Inputs.C72_by_name`
  * `Skfolio.Inputs.C72_only_columns`
  * `Skfolio.Inputs.C72_default`
  * `Skfolio.Inputs.C72_convex`
  * `Skfolio.Inputs.C72_hierarchical`
  * `Skfolio.Inputs.C73_membership`
  * `Skfolio.Inputs.C73_accepted_iff`
  * `Skfolio.Inputs.C73_missing_asset_refused`
  * `Skfolio.Inputs.C73_constraints_partial`
  * `Skfolio.Inputs.C73_cardinalities_partial`
  * `Skfolio.Inputs.C73_witness`
  * `Skfolio.Inputs.C74_strict`
  * `Skfolio.Inputs.C74_lenient`
  * `Skfolio.Inputs.C74_in_range`
  * `Skfolio.Inputs.C74_distinct_partial`
  * `Skfolio.Inputs.C74_same_asset_twice`
  * `Skfolio.Inputs.C75_entry`
  * `Skfolio.Inputs.C75_length`
  * `Skfolio.Inputs.C75_unchanged`
  * `Skfolio.Inputs.C75_distinct_iff`
  * `Skfolio.Inputs.C75_not_distinct`
  * `Skfolio.Moments.C76_regression`
  * `Skfolio.Moments.C76_no_look_ahead`
  * `Skfolio.Moments.C76_target`
  * `Skfolio.Moments.C76_oldest_ignored`
  * `Skfolio.Moments.C77_refit_regression`
  * `Skfolio.Moments.C77_regression_vols`
  * `Skfolio.Moments.C77_premium_vols`
  * `Skfolio.Moments.C77_covariance`
  * `Skfolio.Moments.C77_negative_accepted`
  * `Skfolio.Moments.C77_input_changed`
  * `Skfolio.Moments.C77_refit_differs`
  * `Skfolio.Moments.C77_refit_partial`
  * `Skfolio.Moments.C78_cleaned`
  * `Skfolio.Moments.C78_fit`
  * `Skfolio.Moments.C78_succeeds`
  * `Skfolio.Moments.C78_positive_definite`
  * `Skfolio.Moments.C78_square_fails`
  * `Skfolio.Moments.C78_objective_wrong`
  * `Skfolio.Moments.C79_fit`
  * `Skfolio.Moments.C79_none_removed`
  * `Skfolio.Moments.C79_all_removed`
  * `Skfolio.Moments.C79_too_many`
  * `Skfolio.Moments.C79_perfectly_correlated`
  * `Skfolio.Moments.C79_negative`
  * `Skfolio.Predict.C80_predict`
  * `Skfolio.Predict.C80_population`
  * `Skfolio.Predict.C80_scalar_previous_weights`
  * `Skfolio.Predict.C80_costs_agree`
  * `Skfolio.Predict.C80_column_order`
  * `Skfolio.ModelSelection.C81_worth`
  * `Skfolio.ModelSelection.C81_univariate_succeeds`
  * `Skfolio.ModelSelection.C81_univariate`
  * `Skfolio.ModelSelection.C81_nan_first`
  * `Skfolio.ModelSelection.C81_bic_parsimony`
  * `Skfolio.ModelSelection.C81_fixed_counted`
  * `Skfolio.ModelSelection.C81_independent`
  * `Skfolio.ModelSelection.C81_copula`
  * `Skfolio.ModelSelection.C81_independent_candidate`
  * `Skfolio.ModelSelection.C81_refit_stale`
  * `Skfolio.ModelSelection.C81_rotation`
  * `Skfolio.ModelSelection.C81_rotation_mle`
  * `Skfolio.ModelSelection.C81_fixed_changes_selection`
  * `Skfolio.Moments.C82_window`
  * `Skfolio.Moments.C82_window_all`
  * `Skfolio.Moments.C82_empirical_mu`
  * `Skfolio.Moments.C82_ew_mu`
  * `Skfolio.Moments.C82_ew_mu_constant`
  * `Skfolio.Moments.C82_ew_mu_update`
  * `Skfolio.Moments.C82_empirical_covariance`
  * `Skfolio.Moments.C82_one_asset`
  * `Skfolio.Moments.C82_ew_covariance`
  * `Skfolio.Moments.C82_ew_alpha_one`
  * `Skfolio.Cluster.C83_round_sqrt`
  * `Skfolio.Cluster.C83_optimal`
  * `Skfolio.Cluster.C83_two_assets`
  * `Skfolio.Cluster.C83_scale`
  * `Skfolio.Cluster.C83_relabel`
  * `Skfolio.Cluster.C83_documented_dispersion`
  * `Skfolio.Cluster.C83_documented_index`
  * `Skfolio.Cluster.C83_fit_max_clusters`
  * `Skfolio.Cluster.C83_fit`
  * `Skfolio.Cluster.C83_fit_two_assets`
  * `Skfolio.Cluster.C83_refused`
  * `Skfolio.Cluster.C83_negative_distance`
  * `Skfolio.Distance.C84_succeeds`
  * `Skfolio.Distance.C84_formula`
  * `Skfolio.Distance.C84_symmetric`
  * `Skfolio.Distance.C84_bounds`
  * `Skfolio.Distance.C84_triangle`
  * `Skfolio.Distance.C84_zero_iff`
  * `Skfolio.Distance.C84_constant`
  * `Skfolio.Distance.C84_bins`
  * `Skfolio.Distance.C84_default_not_metric`
  * `Skfolio.Distance.C85_symmetric`
  * `Skfolio.Distance.C85_bounds`
  * `Skfolio.Distance.C85_formula`
  * `Skfolio.Distance.C85_zero_iff`
  * `Skfolio.Distance.C85_one_iff`
  * `Skfolio.Distance.C85_affine`
  * `Skfolio.Distance.C85_not_metric`
  * `Skfolio.Distance.C85_threshold`
  * `Skfolio.Portfolio.C86_defined`
  * `Skfolio.Portfolio.C86_rolling`
  * `Skfolio.Portfolio.C86_full_window`
  * `Skfolio.Portfolio.C86_no_lookahead`
  * `Skfolio.Portfolio.C86_annualised_ratio_iff`
  * `Skfolio.Portfolio.C87_multi_composition`
  * `Skfolio.Portfolio.C87_weights_per_observation`
  * `Skfolio.Portfolio.C87_get_weight`
  * `Skfolio.Portfolio.C87_weights_give_returns`
  * `Skfolio.Portfolio.C88_raises_iff`
  * `Skfolio.Copula.C89_gaussian`
  * `Skfolio.Copula.C89_student`
  * `Skfolio.Copula.C89_clayton`
  * `Skfolio.Copula.C89_joe`
  * `Skfolio.Copula.C89_gumbel`
  * `Skfolio.Copula.C89_independent`
  * `Skfolio.Copula.C89_concentration_partial`
  * `Skfolio.Copula.C89_concentration_refuses`
  * `Skfolio.Copula.C89_concentration_negative`
  * `Skfolio.Copula.C89_concentration_above_one`
  * `Skfolio.Copula.C89_concentration_ends`
  * `Skfolio.Copula.C90_gaussian`
  * `Skfolio.Copula.C90_student`
  * `Skfolio.Copula.C90_clayton`
  * `Skfolio.Copula.C90_gumbel`
  * `Skfolio.Copula.C90_joe_formula`
  * `Skfolio.Copula.C90_joe`
  * `Skfolio.Copula.C90_joe_two`
  * `Skfolio.Copula.C90_elliptical_rho`
  * `Skfolio.Copula.C90_argument_unchecked`
  * `Skfolio.Copula.C90_constant_column`
  * `Skfolio.Copula.C90_sign_false`
  * `Skfolio.Copula.C90_turned`
  * `Skfolio.Copula.C90_gaussian_tau`
  * `Skfolio.Copula.C90_student_tau`
  * `Skfolio.Copula.C90_sample_tau`
  * `Skfolio.Copula.C90_sample_invariant`
  * `Skfolio.Routing.C91_final_estimator`
  * `Skfolio.Routing.C91_shadowed`
  * `Skfolio.Routing.C91_delivered_partial`
  * `Skfolio.Routing.C91_unasked`
  * `Skfolio.Routing.C91_synthetic_fails`
  * `Skfolio.Convex.C92_call`
  * `Skfolio.Convex.C92_bound_method`
  * `Skfolio.Convex.C92_optional_parameter`
  * `Skfolio.Convex.C92_constraints`
  * `Skfolio.Convex.C92_minimize_risk`
  * `Skfolio.Convex.C92_maximize_return`
  * `Skfolio.Convex.C92_maximize_utility`
  * `Skfolio.Convex.C92_ratio_partial`
  * `Skfolio.Convex.C92_budget_partial`
  * `Skfolio.Convex.C92_robust`
  * `Skfolio.Convex.C92_ratio_constraint_violated`
  * `Skfolio.Convex.C92_budget_constraint_violated`
  * `Skfolio.Prior.C93_returns`
  * `Skfolio.Prior.C93_moments`
  * `Skfolio.Prior.C93_fits`
  * `Skfolio.Prior.C93_refused`
  * `Skfolio.Prior.C93_constant`
  * `Skfolio.Prior.C93_same_noise`
  * `Skfolio.Prior.C94_rows`
  * `Skfolio.Prior.C94_assets_alone`
  * `Skfolio.Prior.C94_least_squares`
  * `Skfolio.Prior.C94_least_squares_covariances`
  * `Skfolio.Prior.C94_lasso_understates`
  * `Skfolio.Prior.C94_default_partial`
  * `Skfolio.FitParams.C95_folds`
  * `Skfolio.FitParams.C95_fit_and_predict`
  * `Skfolio.FitParams.C95_refused`
  * `Skfolio.FitParams.C95_cluster_whole`
  * `Skfolio.FitParams.C95_cluster_folds_partial`
  * `Skfolio.FitParams.C95_cluster_columns`
  * `Skfolio.FitParams.C95_cluster_by_name`
  * `Skfolio.FitParams.C95_nco`
  * `Skfolio.Vine.C96_values`
  * `Skfolio.Vine.C96_fresh`
  * `Skfolio.Vine.C96_dropped`
  * `Skfolio.Distance.C97_metric`
  * `Skfolio.Distance.C97_zero`
  * `Skfolio.Distance.C97_invariant`
  * `Skfolio.Distance.C97_covariance`
  * `Skfolio.Distance.C97_nan`
  * `Skfolio.Distance.C97_one_asset`
  * `Skfolio.Distance.C97_fractional`
  * `Skfolio.Distance.C97_half_triangle_false`
  * `Skfolio.Vine.C98_kendall`
  * `Skfolio.Vine.C98_kendall_ranks`
  * `Skfolio.Vine.C98_kendall_extreme`
  * `Skfolio.Vine.C98_wasserstein_pairing`
  * `Skfolio.Vine.C98_wasserstein_zero`
  * `Skfolio.Vine.C98_wasserstein_any_tree`
  * `Skfolio.Portfolio.Pickle.C99_measures`
  * `Skfolio.Portfolio.Pickle.C99_multi`
  * `Skfolio.Portfolio.Pickle.C99_multi_history`
  * `Skfolio.Portfolio.Pickle.C99_overwritten_data_false`
  * `Skfolio.Nested.Address.C100_validate`
  * `Skfolio.Nested.Address.C100_get`
  * `Skfolio.Nested.Address.C100_set_nested`
  * `Skfolio.Nested.Address.C100_set_get`
  * `Skfolio.Nested.Address.C100_set_listed`
  * `Skfolio.Nested.Address.C100_set_own`
  * `Skfolio.Nested.Address.C100_replace_raises`
  * `Skfolio.Nested.Address.C100_set_unknown`
  * `Skfolio.Nested.Address.C100_trailing_underscore_false`
  * `Skfolio.Nested.Address.C100_hidden_argument`
  * `Skfolio.Nested.Address.C100_shared_false`
  * `Skfolio.Cache.C101_array_raises`
  * `Skfolio.Portfolio.MultiArith.C102_unary`
  * `Skfolio.Portfolio.MultiArith.C102_per_period`
  * `Skfolio.Portfolio.MultiArith.C102_sum`
  * `Skfolio.Portfolio.MultiArith.C102_linear`
  * `Skfolio.Portfolio.MultiArith.C102_excess_witness`
  * `Skfolio.Display.C103_close`
  * `Skfolio.Display.C103_order`
  * `Skfolio.Display.C103_zero`
  * `Skfolio.Display.C103_decimals`
  * `Skfolio.Display.C103_infinite_raises`
  * `Skfolio.Display.C104_rows`
  * `Skfolio.Display.C104_formatted`
  * `Skfolio.Display.C104_added_rows`
  * `Skfolio.Display.C104_infinite_raises`
  * `Skfolio.Display.C104_levels`
  * `Skfolio.Display.C104_level_false`
  * `Skfolio.Validation.C105_windows`
  * `Skfolio.Validation.C105_causal`
  * `Skfolio.Validation.C105_weights`
  * `Skfolio.Validation.C105_extend`
  * `Skfolio.Validation.C105_period_causal`
  * `Skfolio.Validation.C105_runs`
  * `Skfolio.Measures.C106_order`
  * `Skfolio.Measures.C106_order_tail`
  * `Skfolio.Measures.C106_drawdown_order_matters`
  * `Skfolio.Measures.C106_leverage`
  * `Skfolio.Measures.C106_leverage_tail`
  * `Skfolio.Measures.C106_leverage_drawdowns`
  * `Skfolio.Measures.C106_leverage_drawdown_measures`
  * `Skfolio.Measures.C106_compounded_leverage_false`
  * `Skfolio.Measures.C106_cash`
  * `Skfolio.Measures.C106_cash_tail`
  * `Skfolio.Measures.C106_fixed_target_false`
  * `Skfolio.Measures.C106_deviations`
  * `Skfolio.Measures.C106_skew_kurtosis`
  * `Skfolio.Measures.C106_symmetric_no_skew`
  * `Skfolio.Measures.C106_entropic`
  * `Skfolio.Portfolio.FromAssets.C107_mean`
  * `Skfolio.Portfolio.FromAssets.C107_variance`
  * `Skfolio.Portfolio.FromAssets.C107_variance_default`
  * `Skfolio.Portfolio.FromAssets.C107_variance_shape`
  * `Skfolio.Portfolio.FromAssets.C107_diversification_ratio`
  * `Skfolio.Portfolio.FromAssets.C107_diversification`
  * `Skfolio.Portfolio.FromAssets.C107_single_asset_below_one`
  * `Skfolio.Portfolio.FromAssets.C107_sric`
  * `Skfolio.Convex.C108_distributionally_robust`
  * `Skfolio.Convex.C108_weight_constraints`
  * `Skfolio.Convex.C108_mean_risk`
  * `Skfolio.Convex.C108_refused`
  * `Skfolio.Convex.C108_maximum_diversification`
  * `Skfolio.Convex.C108_risk_budgeting`
  * `Skfolio.Convex.C108_naive`
  * `Skfolio.Hierarchical.C108_hrp`
  * `Skfolio.Hierarchical.C108_herc_unbounded`
  * `Skfolio.Hierarchical.C108_herc`
  * `Skfolio.Convex.C109_distributionally_robust`
  * `Skfolio.Measures.C109_moments`
  * `Skfolio.Measures.C109_deviations`
  * `Skfolio.Measures.C109_gini`
  * `Skfolio.Measures.C109_tail`
  * `Skfolio.Measures.C109_entropic`
  * `Skfolio.Measures.C109_evar`
  * `Skfolio.Measures.C109_drawdowns`
  * `Skfolio.Measures.C109_edar`
  * `Skfolio.Measures.C109_assets`
  * `Skfolio.Measures.C109_var_false`
  * `Skfolio.Measures.C109_compounded_false`
  * `Skfolio.Measures.C110_mean`
  * `Skfolio.Measures.C110_fixed_target`
  * `Skfolio.Measures.C110_tail`
  * `Skfolio.Measures.C110_drawdowns`
  * `Skfolio.Measures.C110_drawdown_measures`
  * `Skfolio.Measures.C110_two_sided_false`
  * `Skfolio.Convex.C111_risk_budgeting`
  * `Skfolio.Convex.C111_risk_budgeting_reordered`
  * `Skfolio.Convex.C111_risk_budgeting_equal`
  * `Skfolio.Convex.C111_maximum_diversification`
  * `Skfolio.Convex.C111_regularised`
  * `Skfolio.Convex.C111_variance`
  * `Skfolio.Convex.C111_standard_deviation`
  * `Skfolio.Convex.C111_maximum_sharpe`
  * `Skfolio.Convex.C111_reordered`
  * `Skfolio.Convex.C111_equal_treatment`
  * `Skfolio.Convex.C111_twins_false`
  * `Skfolio.Convex.C112_distributionally_robust`
  * `Skfolio.Convex.C112_robust_not_binding`
  * `Skfolio.Convex.C112_feasible`
  * `Skfolio.Convex.C112_objective`
  * `Skfolio.Convex.C112_not_binding`
  * `Skfolio.Convex.C112_maximize_ratio`
  * `Skfolio.Convex.C112_minimize_risk`
  * `Skfolio.Convex.C112_maximize_return`
  * `Skfolio.Convex.C112_maximize_utility`
  * `Skfolio.Convex.C113_robust_total_loss`
  * `Skfolio.Convex.C113_mean_risk`
  * `Skfolio.Convex.C113_mean_risk_ratio`
  * `Skfolio.Convex.C113_risk_budgeting`
  * `Skfolio.Convex.C113_inverse_volatility`
  * `Skfolio.Hierarchical.C113_hrp`
  * `Skfolio.Hierarchical.C113_herc`
  * `Skfolio.Convex.C114_weight_constraints`
  * `Skfolio.Convex.C114_mean_risk`
  * `Skfolio.Convex.C114_risk_budgeting`
  * `Skfolio.Convex.C114_distributionally_robust`
  * `Skfolio.Convex.C114_zero_scale`
  * `Skfolio.Convex.C115_mean_risk`
  * `Skfolio.Convex.C115_risk_budgeting`
  * `Skfolio.Convex.C115_distributionally_robust`
  * `Skfolio.Convex.C115_empirical_moments`
  * `Skfolio.Convex.C115_window_order_matters`
  * `Skfolio.Convex.C115_drawdown_order_matters`
  * `Skfolio.Convex.C116_minimum_variance`
  * `Skfolio.Convex.C116_risk_parity`
  * `Skfolio.Convex.C116_maximum_diversification`
  * `Skfolio.Hierarchical.C116_hrp`
  * `Skfolio.Convex.C117_risk_aversion`
  * `Skfolio.Convex.C117_l2`
  * `Skfolio.Convex.C117_l1`
  * `Skfolio.Convex.C117_utility_efficient`
  * `Skfolio.Convex.C117_no_aversion`
  * `Skfolio.Convex.C117_ratio_efficient`
  * `Skfolio.Convex.C118_risk_convex`
  * `Skfolio.Convex.C118_frontier`
  * `Skfolio.Convex.C118_return_concave`
  * `Skfolio.Convex.C119_uncertainty`
  * `Skfolio.Convex.C119_uncertainty_value`
  * `Skfolio.Convex.C119_no_uncertainty`
  * `Skfolio.Convex.C119_costs`
  * `Skfolio.Convex.C119_costs_utility`
  * `Skfolio.Convex.C119_radius`
  * `Skfolio.Convex.C120_distributionally_robust`
  * `Skfolio.Convex.C120_risk`
  * `Skfolio.Convex.C120_return`
  * `Skfolio.Convex.C120_within`
  * `Skfolio.Convex.C120_minimize_risk`
  * `Skfolio.Convex.C120_maximize_return`
  * `Skfolio.Convex.C120_maximize_utility`
  * `Skfolio.Convex.C120_ratio`
  * `Skfolio.Convex.C121_ratio`
  * `Skfolio.Convex.C121_risk`
  * `Skfolio.Convex.C121_return`
  * `Skfolio.Convex.C121_within`
  * `Skfolio.Convex.C121_best`
  * `Skfolio.Clone.C122_splitter`
  * `Skfolio.Clone.C122_given`
  * `Skfolio.Clone.C122_cross_val`
  * `Skfolio.Inputs.C123_default_names`
  * `Skfolio.Inputs.C123_feature_names`
  * `Skfolio.Inputs.C123_annualized`
  * `Skfolio.Inputs.C123_annualized_members`
  * `Skfolio.Moments.C124_empirical_mu`
  * `Skfolio.Moments.C124_ew_mu`
  * `Skfolio.Moments.C124_empirical_covariance`
  * `Skfolio.Moments.C124_empirical_covariance_shift`
  * `Skfolio.Moments.C124_ew_covariance`
  * `Skfolio.Moments.C124_gerber`
  * `Skfolio.Moments.C124_gerber_fit`
  * `Skfolio.Moments.C124_gerber_shift`
  * `Skfolio.Moments.C124_shrunk_mu_shift`
  * `Skfolio.Moments.C124_shrunk_mu_units`
  * `Skfolio.Moments.C124_bodnar_shift`
  * `Skfolio.Convex.C125_utility`
  * `Skfolio.Convex.C125_utility_optimum`
  * `Skfolio.Convex.C125_ratio`
  * `Skfolio.Convex.C125_two_funds`
  * `Skfolio.Convex.C125_same_aversion`
  * `Skfolio.Convex.C125_raw_capitalisations`
  * `Skfolio.Equations.C126_unreadable_invisible`
  * `Skfolio.Equations.C126_bound_partial`
  * `Skfolio.Equations.C126_asset_bound_partial`
  * `Skfolio.Equations.C126_hyphen_difference`
  * `Skfolio.Equations.C126_hyphen_dropped`
  * `Skfolio.Equations.C126_exponent_dropped`
  * `Skfolio.Equations.C126_factor_dropped`
  * `Skfolio.Equations.C126_numeric_name`
  * `Skfolio.Equations.C126_hyphen_example`
  * `Skfolio.Portfolio.Plot.C127_portfolio_slice`
  * `Skfolio.Portfolio.Plot.C127_portfolio_all`
  * `Skfolio.Portfolio.Plot.C127_portfolio_positions`
  * `Skfolio.Portfolio.Plot.C127_portfolio_log`
  * `Skfolio.Portfolio.Plot.C127_portfolio_returns`
  * `Skfolio.Portfolio.Plot.C127_start`
  * `Skfolio.Portfolio.Plot.C127_population_all_partial`
  * `Skfolio.Portfolio.Plot.C127_population_slice`
  * `Skfolio.Portfolio.Plot.C127_population_positions`
  * `Skfolio.Portfolio.Plot.C127_population_mixed`
  * `Skfolio.Portfolio.Plot.C127_distribution_all`
  * `Skfolio.Portfolio.Plot.C127_fronts`
  * `Skfolio.Combinatorial.C128_index_table`
  * `Skfolio.Combinatorial.C128_folds_table`
  * `Skfolio.Combinatorial.C128_average_partial`
  * `Skfolio.Combinatorial.C128_average_overstated`
  * `Skfolio.Combinatorial.C128_summary`
  * `Skfolio.Combinatorial.C128_summary_average_partial`
  * `Skfolio.Cluster.Dendrogram.C129_heat_map_partial`
  * `Skfolio.Cluster.Dendrogram.C129_duplicate_names`
  * `Skfolio.Cluster.Dendrogram.C129_squares_partial`
  * `Skfolio.Cluster.Dendrogram.C129_colours_partial`
  * `Skfolio.Cluster.Dendrogram.C129_single_cluster`
  * `Skfolio.Copula.C130_archimedean`
  * `Skfolio.Copula.C130_error`
  * `Skfolio.Copula.C130_clayton_beats_tau`
  * `Skfolio.Copula.C130_gumbel_beats_tau`
  * `Skfolio.Copula.C130_joe_beats_tau`
  * `Skfolio.Copula.C130_turned`
  * `Skfolio.Copula.C130_gaussian`
  * `Skfolio.Copula.C130_student_itau`
  * `Skfolio.Copula.C130_student_partial`
  * `Skfolio.Portfolio.Compare.C131_eq`
  * `Skfolio.Portfolio.Compare.C131_gt`
  * `Skfolio.Portfolio.Compare.C131_ge`
  * `Skfolio.Portfolio.Compare.C131_preorder`
  * `Skfolio.Portfolio.Compare.C131_nan_not_equal`
  * `Skfolio.Portfolio.Compare.C131_asymm`
  * `Skfolio.Portfolio.Compare.C131_cycle`
  * `Skfolio.Portfolio.Compare.C131_sort_never_ends`
  * `Skfolio.Portfolio.Compare.C131_contains`
  * `Skfolio.Portfolio.Compare.C131_remove_partial`
  * `Skfolio.Portfolio.Compare.C131_twins`
  * `Skfolio.Measures.C132_mean`
  * `Skfolio.Measures.C132_tail`
  * `Skfolio.Measures.C132_absolute`
  * `Skfolio.Measures.C132_deviations`
  * `Skfolio.Measures.C132_gini`
  * `Skfolio.Measures.C132_drawdowns`
  * `Skfolio.Measures.C132_drawdown_measures`
  * `Skfolio.Measures.C132_weights`
  * `Skfolio.Measures.C132_portfolios`
  * `Skfolio.Convex.C133_risk`
  * `Skfolio.Convex.C133_return`
  * `Skfolio.Convex.C133_minimize_risk`
  * `Skfolio.Convex.C133_maximize_return`
  * `Skfolio.Convex.C133_maximize_utility`
  * `Skfolio.Convex.C133_long_only`
  * `Skfolio.Prior.C134_scale_of_views`
  * `Skfolio.Prior.C134_order_of_views`
  * `Skfolio.Prior.C134_agreeing_views`
  * `Skfolio.Prior.C134_linear_in_views`
  * `Skfolio.Prior.C134_more_views`
  * `Skfolio.Prior.C134_order_of_assets`
  * `Skfolio.Prior.C134_repeated_view`
  * `Skfolio.Prior.C134_repeated_certain_view`
  * `Skfolio.Convex.C135_stays`
  * `Skfolio.Convex.C135_trades_pay`
  * `Skfolio.Convex.C135_no_trade`
  * `Skfolio.Convex.C135_minimum_risk_ignores_costs`
  * `Skfolio.Hierarchical.C136_hrp_two_assets`
  * `Skfolio.Hierarchical.C136_herc_one_cluster`
  * `Skfolio.Hierarchical.C136_hrp_copies_unequal`
  * `Skfolio.Nested.C136_nco_single_assets`
  * `Skfolio.Nested.C136_nco_one_cluster`
  * `Skfolio.Nested.C136_stacking_agree`
  * `Skfolio.Nested.C136_prefit_agree`
  * `Skfolio.Convex.C137_proportions`
  * `Skfolio.Convex.C137_default`
  * `Skfolio.Convex.C137_no_exclusion`
  * `Skfolio.Convex.C137_zero_budget`
  * `Skfolio.Convex.C138_risk`
  * `Skfolio.Convex.C138_return`
  * `Skfolio.Convex.C138_within`
  * `Skfolio.Convex.C138_minimize_risk`
  * `Skfolio.Convex.C138_maximize_return`
  * `Skfolio.Convex.C138_maximize_utility`
  * `Skfolio.Convex.C138_ratio`
  * `Skfolio.Convex.C138_default_limits`
  * `Skfolio.Convex.C138_l2_favours_copies`
  * `Skfolio.Convex.C138_radius_favours_copies`
  * `Skfolio.Selection.C139_drop_correlated`
  * `Skfolio.Selection.C139_refused_again`
  * `Skfolio.Selection.C139_k_extremes`
  * `Skfolio.Selection.C139_non_dominated_first_front`
  * `Skfolio.Selection.C139_non_dominated_min`
  * `Skfolio.Selection.C139_tiny_weights`
  * `Skfolio.Validation.C140_paths`
  * `Skfolio.Validation.C140_no_leak`
  * `Skfolio.Portfolio.Pop.C141_defined`
  * `Skfolio.Portfolio.Pop.C141_mean_between`
  * `Skfolio.Portfolio.Pop.C141_std_zero_iff`
  * `Skfolio.Portfolio.Pop.C141_std_bounds`
  * `Skfolio.Portfolio.Pop.C141_outliers`
  * `Skfolio.Portfolio.Pop.C141_order`
  * `Skfolio.Portfolio.Pop.C141_affine`
  * `Skfolio.Portfolio.Pop.C141_add`
  * `Skfolio.Selection.C142_k_extremes`
  * `Skfolio.Selection.C142_drop_correlated`
  * `Skfolio.Selection.C142_second_dropped`
  * `Skfolio.Selection.C142_non_dominated_first_front`
  * `Skfolio.Selection.C142_non_dominated_min`
  * `Skfolio.Predict.C143_predict`
  * `Skfolio.Predict.C143_array_refused`
  * `Skfolio.Predict.C143_sale_not_charged`
  * `Skfolio.Measures.C144_averages`
  * `Skfolio.Measures.C144_between`
  * `Skfolio.Measures.C144_variance`
  * `Skfolio.Measures.C144_variance_within`
  * `Skfolio.Measures.C144_worst`
  * `Skfolio.Measures.C144_var`
  * `Skfolio.Measures.C144_cvar`
  * `Skfolio.Measures.C144_max_drawdown`
  * `Skfolio.Measures.C144_cvar_can_exceed`
  * `Skfolio.Measures.C144_drawdown_can_exceed`
  * `Skfolio.Measures.C144_mad_not_average`
  * `Skfolio.Portfolio.Multi.C144_history`
  * `Skfolio.Display.C145_rows_partial`
  * `Skfolio.Display.C145_agrees`
  * `Skfolio.Display.C145_extra_missing`
  * `Skfolio.Convex.C146_utility_least_risk`
  * `Skfolio.Convex.C146_utility_most_return`
  * `Skfolio.Convex.C146_ratio_least_risk`
  * `Skfolio.Convex.C146_ratio_most_utility`
  * `Skfolio.Combinatorial.C147_combinatorial`
  * `Skfolio.WalkForward.C147_period_expand_train`
  * `Skfolio.WalkForward.C147_period_reduce_test`
  * `Skfolio.WalkForward.C147_period_purge`
  * `Skfolio.Convex.C148_portfolio`
  * `Skfolio.Convex.C148_promise`
  * `Skfolio.Convex.C148_fit`
  * `Skfolio.Convex.C149_any_portfolio`
  * `Skfolio.Convex.C149_bound`
  * `Skfolio.Convex.C150_risk`
  * `Skfolio.Convex.C150_risk_budgeting`
  * `Skfolio.Convex.C150_inverse_volatility`
  * `Skfolio.Convex.C150_maximum_diversification`
  * `Skfolio.Convex.C151_monotone`
  * `Skfolio.Convex.C151_moved`
  * `Skfolio.Convex.C151_moved_strict`
  * `Skfolio.Convex.C151_raised`
  * `Skfolio.Convex.C152_capital`
  * `Skfolio.Convex.C152_equal`
  * `Skfolio.Convex.C152_stand_alone`
  * `Skfolio.Convex.C152_least`
* axioms: propext, Quot.sound
  * `Skfolio.WalkForward.C03_split_shape`
  * `Skfolio.WalkForward.C04_tests_tile`
  * `Skfolio.WalkForward.C04_count`
  * `Skfolio.WalkForward.C04_error_iff`
  * `Skfolio.WalkForward.C04_zero_test_size_diverges`
  * `Skfolio.WalkForward.C05_previous_look_ahead`
  * `Skfolio.Combinatorial.C06_observations_lost`
  * `Skfolio.Combinatorial.C06_error_iff`
  * `Skfolio.Validation.C08_plain_ok_iff`
  * `Skfolio.Validation.C08_plain_shuffled`
  * `Skfolio.Measures.C12_cvar_one_undefined`
  * `Skfolio.Convex.C17_drawdowns_agree`
  * `Skfolio.Nested.C23_nco_noise`
  * `Skfolio.Portfolio.Multi.C26_out_of_range`
  * `Skfolio.Portfolio.Pop.C27_crossed`
  * `Skfolio.Portfolio.Pop.C27_insert`
  * `Skfolio.Portfolio.Pop.C27_out_of_range`
  * `Skfolio.Portfolio.Pop.C27_only_portfolios_partial`
  * `Skfolio.Portfolio.Pop.C27_iadd_bypasses_validation`
  * `Skfolio.Portfolio.Pop.C27_raising`
  * `Skfolio.Selection.C32_k_must_be_positive`
  * `Skfolio.Selection.C32_non_dominated_all`
  * `Skfolio.Selection.C32_candidates`
  * `Skfolio.Selection.C32_select_complete`
  * `Skfolio.Selection.C32_select_non_expiring`
  * `Skfolio.Preprocessing.C33_columns_kept`
  * `Skfolio.Preprocessing.C33_no_column_lost`
  * `Skfolio.Preprocessing.C33_threshold`
  * `Skfolio.Combinatorial.C44_too_few`
  * `Skfolio.Portfolio.Pop.C49_filter`
  * `Skfolio.Nested.C59_set_params_partial`
  * `Skfolio.Nested.C59_replace_raises`
  * `Skfolio.Convex.C71_constraints_present`
  * `Skfolio.Moments.C76_windows`
  * `Skfolio.Predict.C80_score`
  * `Skfolio.Predict.C80_names_ignored`
  * `Skfolio.ModelSelection.C81_values`
  * `Skfolio.Portfolio.C87_composition`
  * `Skfolio.Portfolio.C87_composition_fails`
  * `Skfolio.Portfolio.C87_multi_composition_fails`
  * `Skfolio.Portfolio.C88_sets_parameters`
  * `Skfolio.Portfolio.C88_never_stale`
  * `Skfolio.Portfolio.C88_invalid_name`
  * `Skfolio.FitParams.C95_accepted`
  * `Skfolio.Portfolio.Pickle.C99_portfolio`
  * `Skfolio.Portfolio.Pickle.C99_assigned_measure_lost`
  * `Skfolio.Cache.C101_exact`
  * `Skfolio.Cache.C101_transparent`
  * `Skfolio.Cache.C101_once`
  * `Skfolio.Cache.C101_minus_one_false`
  * `Skfolio.Portfolio.MultiArith.C102_rounding`
  * `Skfolio.Portfolio.MultiArith.C102_parameters_lost`
  * `Skfolio.Portfolio.MultiArith.C102_floor_raises`
  * `Skfolio.Display.C104_percent`
  * `Skfolio.Clone.C122_clone`
  * `Skfolio.Clone.C122_check`
  * `Skfolio.Portfolio.Plot.C127_distribution_tags_partial`
  * `Skfolio.Portfolio.Plot.C127_surface`
  * `Skfolio.Portfolio.Compare.C131_mixed_measures`
  * `Skfolio.Hierarchical.C136_hrp_one_asset`
  * `Skfolio.Selection.C139_select_complete`
  * `Skfolio.Selection.C139_select_non_expiring`
  * `Skfolio.Selection.C139_drop_zero_variance`
  * `Skfolio.Selection.C139_one_asset`
  * `Skfolio.Validation.C140_error_iff`
  * `Skfolio.Selection.C142_select_complete`
  * `Skfolio.Selection.C142_select_non_expiring`
  * `Skfolio.Selection.C142_drop_zero_variance`
  * `Skfolio.Predict.C143_nothing_sold`
  * `Skfolio.WalkForward.C147_expand_train`
  * `Skfolio.WalkForward.C147_reduce_test`
  * `Skfolio.WalkForward.C147_purge`
