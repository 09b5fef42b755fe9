# Formal model of PhiK in Lean 4 — design

The source is `/repo` (pinned, read as text, never run). The model is in `lean/Verif/Model/*.lean`, one file per
Python/C++ module, function by function; each definition cites the lines it models. Independent specifications are in
`lean/Verif/Spec.lean` (and small `Spec` sections), helper lemmas in `lean/Verif/Lemmas/*.lean`, and the property
theorems in `lean/Verif/Props/*.lean`.

## Modelling decisions

* **Exceptions are values** (`Except Err`). Python functions that mutate a DataFrame run in a state monad over a heap of
  frames, so aliasing, `copy()` and `inplace=True` are explicit.
* **Cells** of a DataFrame are `nan`, a finite number (`ℚ`: every finite double is rational) or a string.
  Datetime dtypes are not modelled; bool columns are covered as columns with `numeric = false` and the numbers 0 and 1
  (`select_dtypes(np.number)` leaves them out, everything else treats them as values). Repeated column names have their own
  model (`Model/Duplicates.lean`). Infinite values have their own model
  (`Model/Infinite.lean`, from `bin_edges` to `phik_matrix`). Categorical columns have
  their own model (`Model/Categorical.lean`), for the matrix functions on binned frames with `dropna=True`.
* **pandas** `groupby([a,b])[a].count().unstack().fillna(0)`, `crosstab`, `pivot_table`, `reindex`, `select_dtypes`,
  `replace`, `fillna`, `drop`, and **numpy** `searchsorted`, `linspace`, `quantile`, boolean masks, and **scipy**
  `expected_freq`, `chi2_contingency` (incl. the 2x2 continuity correction), `percentileofscore` are written out as
  Lean functions (trusted transcription of library behaviour).
* **Numbers**: counting, binning and Pearson chi2 are over `ℚ` or an arbitrary ordered field (hence also `ℝ`);
  logs, square roots and root finding over `ℝ`. Floating point rounding is not modelled except where stated: binning
  takes a rounding function (`id` for exact arithmetic, `rne53` for binary64 round-to-nearest-even), and the Patefield
  sampler is parameterised by an abstract float structure.
* **External numerics** (`mvn.mvnun`, `brentq`, `norm.ppf`, `chi2.sf`, `betainc`, `poisson.sf`, `gammaln`, RNG draws)
  are parameters; what a theorem assumes about one is a hypothesis visible in its statement, and a concrete instance
  meeting it is given beside the theorem.
* **joblib.Parallel** is modelled by an arbitrary execution order of the tasks with results returned in submission order.

## Plan per property

| id | property | model and proof plan |
|---|---|---|
| C01 | Bin index of a value | `bin_array` over lists with numpy's left binary search; induction on the search interval gives the edge characterisation. |
| C02 | Returned bin labels are the populated bins | same model; labels as a filter over 1..len-1; membership, order and no-repetition. |
| C03 | Automatic uniform binning loses no record | `bin_edges` with rounding = id; linspace first edge < min, last = max; combine with C01. |
| C04 | Automatic quantile binning loses no record | `np.quantile` (linear interpolation on the sorted data); first and last quantile are min and max; edges sorted. |
| C05 | Automatic binning in double precision keeps the smallest record (violated) | `rne53` rounding on ℚ; exact threshold of absorption; then all edges >= min so the left search returns 0. |
| C06 | bin_data touches only the requested columns | `bin_data` as a fold over columns; induction over the column list. |
| C07 | bin_data argument errors | error branches of the same fold, with the Python local `xbins` as explicit optional state; witness for the stale case. |
| C08 | Contingency table counts | `groupby/unstack/fillna` on pair lists; counts by induction on the record list. |
| C09 | Missing, underflow and overflow records | the in-place replacement sequence as frame transformers; case analysis on cells and flags. |
| C10 | Sentinel strings do not clash with user categories (violated) | negation with a concrete witness, and the positive theorem for sentinel-free columns. |
| C11 | Caller's DataFrame is not modified | heap monad; every public function only allocates or writes to references it allocated; induction over call sequences. |
| C12 | Re-using a rebinned frame | idempotence of the replacement sequence; the result of each of the four functions depends on the frame only through the frame with the flags applied, so by induction any sequence of calls returns the results of first calls; witnesses for differing flags. |
| C13 | Column quality filter | filter specification of `dq_check_nunique_values`. |
| C14 | Shape, labels, symmetry and diagonal of the phik matrix | `combinations_with_replacement`, `pivot_table`, `reindex`; entry = the pair's value. |
| C15 | phik lies in [0,1] | case analysis of `phik_from_chi2` with the root finder's contract. |
| C16 | When phik is exactly 0 or 1 | same. |
| C17 | phik of a data table never fails to bracket | signs of the objective at 0 and 1; arithmetic of shapes and totals of data tables. |
| C18 | Bounds on the Pearson chi2 | Finset-sum inequalities over an arbitrary ordered field. |
| C19 | Empty rows and columns do not matter for chi2 | row/column masks and sums over kept indices. |
| C20 | Category order and names are irrelevant | sums over permuted finite index types; frame-level renaming via label sets. |
| C21 | Half-grid evaluation of the bivariate normal is complete | list permutation between the half grid doubled and the full grid; parity case split. |
| C22 | phik inverts the chi2 curve | intermediate value theorem/ monotonicity on top of the root finder's contract. For square tables the monotonicity itself is proved of the true bivariate normal integrals: the increments of the matrix of cell probabilities are positive semidefinite (semigroup property of the Gaussian kernel), and the Schur product theorem does the rest (`Props/GaussianMono.lean`). For tables with two rows or two columns the derivative of the distance is computed (`Lemmas/BinaryGrid`): it is a sum over the bins of products of two quantities of which the bins left and right of zero are paired; the truncation at 5 standard deviations is controlled by explicit tail bounds (`Lemmas/BinaryGridSum`, `Lemmas/BinaryMono`, `Props/BinaryTables`). For r x c tables with 3 ≤ r ≠ c ≥ 3 it remains a hypothesis. |
| C23 | Degrees of freedom | arithmetic over shapes. |
| C24 | Global correlation range and failure | Mathlib matrices: Cauchy–Schwarz for positive definite matrices; det = 0 branch. |
| C25 | Parallel evaluation equals serial evaluation | execution orders as permutations of task indices; induction over the order. |
| C26 | Array interface agrees with the matrix interface | string conversion injective on the occurring cells, then permutation invariance C20; witness for NaN. |
| C27 | Perfectly associated columns (violated for binary columns) | closed form of chi2 for diagonal tables; strict inequality for 2x2. |
| C28 | Spark histogram keys | `splitOn ':'` facts on character lists. |
| C29 | Monte-Carlo p-value | counting formula of `percentileofscore(kind='rank')`. |
| C30 | Low-statistics switch of the hybrid method (violated) | negation with witnesses plus the exact region of agreement. |
| C31 | Chernoff fallback is well defined | real analysis of u - log u. |
| C32 | Log-likelihood statistic is non-negative | Gibbs inequality (log x <= x - 1). |
| C33 | Shape, labels and symmetry of the significance matrix | as C14. |
| C34 | Unknown method names are rejected | dispatch functions over all strings. |
| C35 | Totals fixed by the sampling methods (violated for the product methods' names) | draws as a parameter with the multinomial contract (sum = n); swapped-axis theorem and witness against the documented claim. |
| C36 | Hypergeometric sampling preserves both margins | `rcont2` as nested loops over integers with abstract floats; invariant on remaining row/column totals. |
| C37 | Orientation of the hypergeometric sample | reshape of the column-major buffer; chi2 transposition invariance. |
| C38 | Hypergeometric sampling terminates | fuel-indexed loops; explicit fuel bounds are proved sufficient. |
| C39 | Memory and integer safety of the hypergeometric sampler | every array access, division and int operation is checked in the model and returns an error when illegal; the theorem is that no error is reachable. |
| C40 | Random number generator | Schrage decomposition by integer arithmetic (`omega`), with 32-bit range checks. |
| C41 | Reproducibility and history independence of the sampler | static variables threaded as state; output independent of it. `seed or randint` modelled literally. |
| C42 | Invalid margins are rejected | guards of `rcont2`. |
| C43 | Expected frequencies of the outlier test | algebra per cell. |
| C44 | Outlier p-values | contract `OutSpec` for the tail functions, met by the true functions; incomplete beta ratio = gamma mixture of Poisson tails (integration by parts, C60). |
| C45 | Outlier Z-values | extended-real float values with NaN; whole table with exact functions; identities of log/exp for the fallback. |
| C46 | Bin labels of the outlier matrix | sorted distinct bin indices vs. label list: list lemma on filtering by missing positions. |
| C47 | One outlier matrix per pair | pairs enumeration and dictionary semantics; injectivity of joining with ':'. |
| C48 | Incomplete beta: complement and logarithms | field identities on the branch structure; gammaln symmetric in a,b. |
| C49 | Continued fraction evaluation | loop invariant: the variables are the classical numerators and denominators of the continued fraction (a Mathlib GenContFract) up to a common factor; in the domain of the calls all denominators are positive, even convergents decrease to the hypergeometric limit. |
| C50 | Poisson uncertainties | case analysis / monotone quantile hypothesis; limit for large counts from the characteristic function of the gamma distribution and Levy's theorem (Lemmas/GammaCLT). |
| C51 | z_from_logp | case analysis, monotonicity of u - log u. |
| C52 | Pair selection in the report | selection predicate with NaN comparisons, characterised over the whole report; every report with a NaN pair raises AttributeError; witness frames for that and for the name collision. |
| C53 | Correlation plot keeps labels and values together | figures as lists of ticks and notes; reversal of columns and labels; the figure is characterised completely (`ShowsCells`, `AxisShows`). |
| C54 | Theoretical bivariate table | table definition; error branch for negative dimensions. |
| C55 | Simulated chi2 distribution | composition of the samplers (C35, C36) with the chi2 bounds (C18, C32) and the task scheduler (C25). |
| C56 | p-values and Z-values are well formed | case analysis of the three methods over all numerical environments meeting `SigSpec`; Z is the negated normal quantile of p. |
| C57 | Histogram fitted by the hybrid method | partition of the line by the edges; Poisson probabilities are at most 1, so residuals are real. |
| C58 | Significance as a function of chi2 and of the table | monotonicity of tail probabilities; invariance through `SameTable` (C19, C20); totality of the Monte-Carlo method for all draws. |
| C59 | Significance from arrays | same construction as C26. |
| C60 | Accuracy of the incomplete beta function | the even convergents approach Gauss' hypergeometric quotient geometrically; the quotient is the incomplete beta integral (integration by parts). |
| C61 | Edges of automatic binning | `np.linspace` and `np.nanquantile` with the linear rule over ℚ with a rounding function; error bounds for the gap between neighbouring edges; monotonicity of interpolation. |
| C62 | Outlier significances from arrays | same construction as C26; the labels of a binned column are never numbers (categories of C46). |
| C63 | The report agrees with the single functions | the shared binned frame is threaded through the heap; the in-place replacement of missing values is idempotent, so that every later function sees what it would see alone. |
| C64 | Histogram with a curve | `linspace` in closed form; the bars partition the range between the edges. |
| C65 | Distribution of the fixed-margin sampler | the sampler takes its generator as a parameter; run with exact real arithmetic on a tape of numbers from (0, 1]. The two-sided search of one entry cuts (0, 1] into intervals of hypergeometric lengths; the tapes leading to a table form a box whose volume telescopes to the product formula; a double count of permutations shows that this is the share of shuffles (`Lemmas/HyperCell, HyperTable, Shuffle`). Not covered: rounding, and the quality of the linear congruential generator. |
| C66 | The order of the records is irrelevant | relational program logic: `M.Same R m m'` says that two programs started in worlds holding the same records in different orders end alike with results related by `R`; it is proved for every primitive of the model monad and composed through every entry point. The two data facts underneath: bin edges and the cross table are functions of the multiset of (pairs of) values (`Lemmas/RecordOrder`). Exact sums: a float sum over records does not occur on the way (only sums over table cells). |
| C67 | An entry depends on its own two columns only | from C06, C13, C14, C33 and the symmetry of C20/C58: the entry of two columns is phik of the records of the two columns as binned by themselves, and this determines it. Outlier matrices: edges, categories and counts of C46/C47 are unique (`edgesFor_unique`, `outlier_unique`). Calls whose `bins` has an entry that is neither a number nor a list are excluded: there the edges of another column are used (C07). |
| C68 | The scale of an interval variable does not matter | `np.quantile` interpolates between two neighbours of the sorted data with a weight below one, so whether a datum lies above a quantile edge depends on the order only (`Lemmas/Monotone`); uniform edges of shifted data are the shifted edges; then an induction over the column loop of `bin_data` gives equal binned frames, and the rest of each pipeline looks at that frame only (`Local`). Exact arithmetic for computed edges (`fl = id`); any rounding for explicit edges. The change of unit is refuted by a witness (`unit_matters`). Outliers: the binned frames are equal, and the dictionary of edges enters the labels only (`outlierFromRebinned_dict`). |
| C69 | False alarms of the Monte-Carlo method | Probability over the joint law of the observed and the simulated values (`Spec/FalseAlarm`: exchangeable). Counting: at most `2 alpha n + 2` of `n + 1` values have a p-value of at most `alpha` among the others, exactly `k + 1` have one of at most `k/n` if they differ; averaging over the permutations gives the probabilities. i.i.d. values are exchangeable (product measure). End to end (`FalseAlarmTable`): shuffled records against runs of the fixed-margin sampler on independent tapes, by the shuffle law of C65 and counting tuples of permutations. |
| C70 | Repeated records | `Spec/PhikShape`: the table with every count times `k`, the frame with every column's cells `k` times over. Homogeneity of the statistic, and of the objective of the root search, hence the same root for a root finder that is free of the scale (`ScaleFree`); for any root finder within tolerance by strict monotonicity of the theoretical distance. Records: counts, extreme values and edges of repeated records. Two by two tables: counterexample. |
| C71 | Monotonicity in chi2 and noise correction | `phik_near`: phik lies within the tolerance of the unique correlation whose theoretical distance is the clamped chi2 value (strict monotonicity for square grids from `GaussianMono`, for grids with two rows or columns from `BinaryTables`); comparison of the clamped values gives the inequalities, continuity of the theoretical distance gives the limit. |
| C72 | The global correlation is the best linear one | For a positive definite matrix `V` with unit diagonal, `1 - 1/V⁻¹_ii` is the maximum of `(∑ w_j V_ij)² / (∑ w_j w_k V_jk)` over combinations of the others: the form at `e_i + s w - V⁻¹e_i / V⁻¹_ii` is not negative for any `s` (discriminant), and the combination read off `V⁻¹ e_i` attains it. More columns: principal submatrix, combinations extended by zeros; frames through the locality theorem of C67. |
| C73 | Averages over uncorrelated data | First and second moments of a cell count over all permutations (sums over permutations of functions of one or two images), hence the averages over shuffles. The sampler: its law (C65) and finitely many tables; the events are measurable up to null sets because their outer measures add up to one; integral of a statistic = average over shuffles. |
| C74 | Distribution of the multinomial samplers | Spec/Multinomial.lean: ideal binomial generator (independent binomial answers, as a property of a measure and the requests), multinomial probability. The loop of conditional binomial draws returns a given list exactly for one list of (trials, probability, result); the product of their probabilities is the multinomial one (induction). Joint law of several draws, hence of rows, columns and simulations; independence of simulations as equality of measures on countable sets of tables. Averages: derivative of the multinomial theorem. An ideal generator is constructed from quantiles of an infinite product of uniform measures. |
| C75 | Distribution of the Monte-Carlo p-value | From C74: the event that k of nsim values are in a set is the disjoint union over the k-subsets of the simulations; the p-value (C29) lies between the fractions above and not below. |
| C76 | More and more simulations | The simulated tables are pairwise independent, identically distributed random variables (C74); Mathlib's strong law of large numbers for the indicators of a larger and of an equal statistic, and for the statistic; the p-value formula (C29) is squeezed between the averages. |
| C77 | The other test statistics | General lemma for scipy's power divergence: a cell formula may be changed by a multiple of (observed - expected), since both sums agree also after the continuity correction; tangent-line inequalities per statistic. Comparison: log x <= x - 1 and Bernoulli's inequality cell by cell, after centring (`statistic_centred`). |
| C78 | Categories that do not occur (violated) | Model/Categorical: columns with categories, `groupby` over the product of the axes (pandas observed=False). Proof: histogram = specification table; `phik_of_counts` gives phik for every count table with empty rows or columns; `SameTable` for the unchanged chi2; labels matched by an explicit bijection for the case where every category occurs. |
| C79 | Categories that do not occur and the significance (violated) | `sigPairD`, `sigFromRebinnedD` (the significance loop over columns with or without categories). Strict monotonicity of the chi2 tail in the number of degrees of freedom from the Gamma density ratio (a convex-likelihood-ratio argument on the true measure), then two tables equal up to empty rows and columns |
| C80 | Bin edges given by the caller (violated in two ways) | the model functions already take optional edges; the curve is specified over the full grid (`gridDistance`, `gridTheory`), the half-grid lemma of C21 connects them, strict monotonicity for equal edges on both axes from the Ornstein-Uhlenbeck semigroup (C22) for arbitrary cells |
| C81 | The names of the columns are only labels (violated for arrays) | every function without side effects commutes with renaming; a relation between the two process states (the frame and the new frames renamed, warnings permuted) is preserved by every step of the programs |
| C82 | Infinite values in a column (violated for automatic bins) | Model/Infinite.lean: IEEE numbers with infinities and NaN, numpy's linspace and its stateful searchsorted, the functions up to phik_matrix. The search is the number of edges below the value (invariant on the bounds); automatic edges of infinite data are NaN or the maximum, so no edge is below a value; conservative over the model without infinities by commuting with the embedding; every stage of phik_matrix commutes with one-to-one replacements in categorical columns |
| C83 | Coarser categories or bins never raise the test statistic (phik may rise) | Every statistic is a sum of `e f(o/e)` with `f` convex (Divergence.of_convex), so sublinear in the pair (o, e); summing over the cells that are taken together gives the inequality (cellSum_merge). The correction of a two by two table moves a cell towards its expectation (corrected_le). If the finer table is two by two the coarser one is the same up to order or has a single row or column. Tables of records with mapped values are merged tables (table_merge); leaving out inner edges maps bins to bins (coarse_bin). The rise of phik is a concrete pair of tables, for every integrator with the stated contract and every exact root finder. |
| C84 | phik of a growing sample converges to phik of the distribution | Spec/Consistency: joint distributions, phi2, mutual information, phik of a distribution, independent draws (elementary: probabilities of single and pairs of records), laws of the complete records, binLabel. Deterministic part: statistics are homogeneous and continuous in the proportions, the continuity correction moves counts by at most 1/2, the pedestal is constant; the curve is inverted by strict monotonicity. Random part: strong law of large numbers for the indicator of every value, tables reindexed by labels. Witness: infinite product measure. Automatic bins (Props/AutoBins): the extreme values occur among enough draws (almost surely; outside events of vanishing probability for C86), from then on the edges are those of a column with just these two values, and the binned records are independent draws from the image law. Quantile bins (Spec/Quantiles, Props/QuantileBins): the sorted sample around position t(n-1) is constant from some point on where the distribution function jumps across t with a margin for the rounding of t, so interpolation has equal neighbours. |
| C85 | A dependence becomes significant with ever more records | chi2 and G per record converge to phi2 and twice the mutual information (C84), both positive for dependent variables (Gibbs), so the statistics tend to infinity; quantiles and the Chernoff fallback are unbounded (elementary inequalities); the table of the records is the table of counts up to the order of rows and columns; the binning and quality check are traced for two columns. Hypothesis TailsVanish is proved for the true distribution functions and for functions that underflow. Automatic bins (Props/AutoBins): the extreme values occur among enough draws (almost surely; outside events of vanishing probability for C86), from then on the edges are those of a column with just these two values, and the binned records are independent draws from the image law. Cressie-Read: at least 3/5 of the likelihood ratio (C77). |
| C86 | The asymptotic p-values of independent variables are right | The counts are sums of independent indicator vectors, so by a vector central limit theorem (Cramer-Wold and Levy continuity from the one-dimensional theorem in Mathlib) the normalised deviations from p_i q_j tend to a Gaussian; each statistic is near a quadratic form in them, uniformly on bounded sets (Taylor estimate of each cell function), also with Yates' correction, which is of lower order; a Helmert-like orthonormal basis turns the form into the squared norm of a standard Gaussian vector of dimension (r-1)(c-1), whose law is the chi2 law (Gamma convolution); the mapping and portmanteau theorems give the probabilities of events. The matrix functions are traced as in C85. Automatic bins (Props/AutoBins): the extreme values occur among enough draws (almost surely; outside events of vanishing probability for C86), from then on the edges are those of a column with just these two values, and the binned records are independent draws from the image law. |
| C87 | significance_matrix returns | From C13, C14, C31, C33 and C58: the only failures of the pair loop are those of significance_from_hist2d for a table of data with two rows and columns, where the statistic is finite, the number of degrees of freedom is positive and the fallback can be evaluated; binning of columns that passed the quality check succeeds. For the Monte-Carlo methods: for every sampler whose tables have the grid of the data. |
| C88 | Rounding errors of the Pearson statistic and of phik's pedestal | scipy's chi2_contingency in rounded rational arithmetic, sums as arbitrary trees of additions. Sums of integers below 2^52 are exact; the expectations have a relative error of two roundings; the terms and their sum have relative errors of D+4 roundings; the deviation from the exact terms is a vector in the norm weighted with the expectations, so the triangle inequality gives the error of the square root, the error of the expectations contributing 2^-48 sqrt(N) (Yates' correction is 1-Lipschitz). Exact independence with N^2 <= 2^52: no operation rounds. The counterexample is computed by the kernel. |
| C89 | Repeated column names | The loops of the quality check with a lookup that fails for a repeated name. Induction over the loops: a repeated name is in the interval columns or in the other columns, so one of the loops meets it; without repeated names the loops give the lists and warnings of the existing model. For binned data the tasks of the pairs are run with the same lookup and the overview table is computed as before. |
| C90 | Files of the package | The disk as a list of (directory, name), the dictionaries made at import, operations on the disk, lookup and existence check at the call. Induction over the listing. |
| C91 | Number of simulated records in floating point arithmetic | The expectations, their sum, the probabilities and numpy's multinomial (its checks with compensated summation, the loop of binomial draws) with every operation followed by a rounding function of relative error 2^-53, sums in any order of depth at most 4096. The computed sum is within 1/2 of the number of records, so truncation loses at most one record and rounding to the nearest integer none; a bound for the compensated sum by induction shows that numpy's check passes. Negative results by kernel computation with an exact model of binary64. |
| C92 | phik against Cramér's V | Gebelein's inequality for step functions proved by log-convexity of the covariance in log(rho) (Cauchy–Schwarz and the Ornstein–Uhlenbeck semigroup of Lemmas/OU) and a linear bound near rho = 0; Schur products of positive semidefinite matrices give distance(c)/c² ≤ distance(d)/d² and distance(c) ≥ c² binnedVariance²; numbers for the binned variance from the first moments of the bins. |
| C93 | phik is stable against small changes of chi2 and against rounding errors | distance(c)/c² is non-decreasing (Gebelein, C92) and distance(c) ≥ c² binnedVariance², so the square of the root is Lipschitz in chi2; combined with the rounding error of chi2 of C88. |
| C94 | The outlier significance finds every over- and under-represented combination in a large enough sample | The count tail of a cell is an incomplete beta function with parameters A and E tau + 1 (E = B C / D, tau = D^2/(CD+BD+BC)); Chebyshev's inequality for the beta distribution gives the limits 0 and 1 of the p-value on the two sides of A D = B C, which is the comparison with the product of the margins. For CI method 'exact_poisson' tau is between constant multiples of this. Strong law of large numbers for the frequencies; the names and counts of the outlier matrix come from C46. Automatic bins (Props/OutlierAuto): from some point on the computed edges are those of the distribution. |
| C95 | The outlier significance of an ordinary combination is standard normal for large samples | The count tail of a cell is the tail of a Poisson variable whose mean has a gamma distribution (NegBinCLT: characteristic functions of the mixture, Levy's continuity theorem), so the p-value is normCdf(-x) in the limit, x the scaled difference of count and expectation with the variance the code propagates (Poisson variance of the count plus the error of B C / D). Along i.i.d. records the residual of the cell, divided by sqrt(q p_i (1-p_i) q_j (1-q_j)), tends to a standard normal variable (Mathlib's central limit theorem); the two variances agree exactly when p_ij = p_i q_j. Uniformity over tables with bounded deviations by compactness, tightness by Chebyshev, Slutsky's theorem; names and counts of the frames from C46/C94. Automatic bins as for C94; CI method 'exact_poisson' by the limit of its uncertainty (C50). Joint law: the vector of scaled residuals by the multivariate central limit theorem (Cramer-Wold from Mathlib's one-dimensional theorem, Lemmas/VectorLimit), Slutsky for the vector of p-values, orthants by the portmanteau theorem. |
| C96 | Neither order nor names of the categories matter for outliers | One cell of the estimate is a function of the count, its row, column and total sums that is symmetric in row and column (`estimateCell_perm`, `estimateCell_transpose`); the matrix is made cell by cell (`outlierFromHist2d_ok_iff`). Frames: the categories and counts of C46/C47 of the exchanged columns are the exchanged ones; for renamed values the categories correspond one-to-one. |
| C97 | The functions of two arrays do not depend on the order of the arrays | `array_like_to_dataframe` of the exchanged arrays is the frame with its columns in the opposite order (`arrays_flipped`); `bin_data` of such a frame bins every column alike (`binLoop_flipped`, and `binDataCore_order` when the guessed interval columns come in the other order); the table of exchanged pairs is transposed (`histOfPairs_swap`), and phik, the asymptotic Z and the outlier matrix of a transposed table are known from C20, C33, C96. The renaming of 'x' and 'y' uses `series_names` (C81). |
| C98 | Incomplete records do not matter for a pair of variables (violated for automatic bins) | A binned column is its raw column under a cell-wise function that keeps missing values (`binned_alike`), the same for both frames if the bins agree; a missing value is viewed as 'left out', so the counts of visible pairs are counts over complete records (`count_complete`), which are permutation invariant; an entry is a function of the table (C67's `phik_entry`, `sig_entry`, `outlier_entry`). Witness for automatic bins by computing the edges of [0, 1, 100] and [0, 1]. |
| C99 | Rounding errors of the outlier significances | `Model/FloatOutliers.lean` is the computation with a rounding after every operation. The sums and differences are exact integers; every further step keeps a bracket (1-u)^k x <= y <= (1+u)^k x (`Within`), which products, quotients, sums, squares and square roots propagate. The regularised incomplete beta function I_x(n,b) grows at most like x^n and b^n (`Lemmas/BetaSens.lean`: substitution in the integral; Chebyshev argument and the recursion of the beta function), so a bracket of the arguments gives one of the p-value. Z: upper tail <= 1.257 times the density (`Lemmas/NormalTail.lean`). Compared with the exact model of C45 (`outlier_table`). |
| C100 | More records around a combination (violated in two ways) | Model: the outlier table of C45/C66 (outlierFromHist2d) with exact functions. Spec/OutlierMono: the relations 'the second table has more records in the cell / in its row / in its column / elsewhere and nothing else differs'. The gamma shape of a cell is 1+1/(1/B+1/C+1/D) if B and C are positive and 2 otherwise, its rate is D/(B+C+BC/D); the tail probability grows with the shape (monotonicity of the regularised incomplete beta function in b, from Lemmas/BetaSens) and strictly with 1/rate (the beta integral). Z is compared through the strictly monotone normal distribution. The two violations are proved with explicit tables: at B=0 the shape jumps from 2 to at most 1.5, and with D the shape grows faster than the rate. |
| C101 | The largest significance a number of records can have | Model: getChi2, sigFromHist2d, sigFromRebinned with the true distribution functions (trueSig). log x <= x/c - 1 + log c, summed over the cells with c = 1 + chi2/n, gives the statistic's bound (the continuity correction keeps totals, statistic_centred); C18 bounds chi2. A chi2 variable is a sum of squares of normal variables (Lemmas/ChiSquare), so its tail is at least the two-sided normal tail of one of them. Matrices by the entry theorem of C33. The maximum is attained by diagonal tables. |
| C102 | How many records make a deviation from independence significant | Model: getChi2, sigFromHist2d, sigFromRebinned with the true distribution functions (trueSig). Spec/Deviation defines D. Cell by cell |o-e| <= cell/(2s) + s e/2 + const (o-e) for every s > 0 (for the log-likelihood from log t >= 5/2 - 1/(4t) - 27/(4(t+2)), whose difference has derivative (t-1)^3/(t^2 (t+2)^2)); the sums of o and e agree (C32), s = D/n gives D^2/n (Pinsker's inequality). Chernoff's bound with the moment generating function of chi2 at 1/4. Matrices by the entry theorem of C33. phik: C92 (Cramér's V) with chi2 >= D^2/n. |
| C103 | The influence of a few records on the default test statistic | Model: getChi2, IsTable (the table of hist2d_from_rebinned_df). The statistic is written with f(x) = x log x; a further record changes it by twice step(cell) - step(row) - step(column) + step(total), where step(x) = f(x+1) - f(x) is increasing (derivative) and at most 1 + log(x+1); since cell <= row, column <= total the change is between -step(total) and step(total). Induction over the further records; tables of different shape are compared over the axes of the larger one (empty rows and columns are dropped, Sub). |

## Trusted base

* **Lean 4.33.0's kernel**, and the axioms `propext`, `Classical.choice`, `Quot.sound` (the standard three; every property
  theorem depends on a subset of them, `#print axioms` shows nothing else). No axiom is added, nothing is left unproved
  and no proof goes through compiled code.
* **The transcription** of Python/C++ into Lean: `Model/*.lean`, each definition citing the lines it models.
* **The library transcriptions** listed under *Modelling decisions* (pandas, numpy, scipy 1.7 behaviour, joblib), and the
  numpy legacy `multinomial` loop over binomial draws.
* **Contracts** on external numerics, visible as hypotheses: `MvnSpec` (bivariate normal integral), `BrentqSpec` (root
  finder), `GoodDraws` (range of numpy's random draws), `IdealBinom` (its distribution, C74-C75), `SigSpec`, `OutSpec`, `QuantSpec` (tail probabilities and quantiles), `RoundOK`/`FloatLaws`
  (float rounding used by the Patefield sampler). Beside each there is an instance that meets it. `MvnSpec` is proved of the
  true integrals: `gaussMvn` is the probability of a rectangle under two standard normals with the given correlation
  (`Spec/Gaussian.lean`), equal to the integral of the bivariate normal density (`gaussMvn_density`), and
  `gaussian_mvn_spec` proves the contract; the distance between scipy's quadrature and this integral is trusted.

### Modelled

| source file | model | scope |
|---|---|---|
| `phik/binning.py` | `Model/Binning.lean`, `Model/Frame.lean`, `Model/PhikMatrix.lean`, `Model/Named.lean` | `bin_edges`, `bin_array`, `bin_data`, `auto_bin_data`, `hist2d*`, `create_correlation_overview_table` |
| `phik/data_quality.py` | `Model/Frame.lean` | both checks, with warnings as a log |
| `phik/statistics.py` | `Model/Stats.lean`; `Model/FloatStats.lean` with rounding errors (Pearson statistic, degrees of freedom) | all functions |
| `phik/bivariate.py` | `Model/Bivariate.lean` | all functions, `mvnun`/`brentq` abstract |
| `phik/phik.py` | `Model/PhikMatrix.lean`, `Model/Categorical.lean` | all functions; `phik_from_rebinned_df` also for categorical columns |
| `phik/definitions.py`, `phik/utils.py` | constants and `array_like_to_dataframe`, `guess_interval_cols` in `Model/Frame.lean`/`PhikMatrix.lean`/`Named.lean` (names of Series) | not: Series without a name, two Series of the same name |
| `phik/simulation.py` | `Model/Simulation.lean`; `Model/FloatSim.lean` with rounding errors (number of records, probabilities, margins) | all functions |
| `phik/simcore/asa159.cpp`, `simulation.hpp` | `Model/Rcont2.lean` | `rcont2`, `r8_uniform_01`, `_sim_2d_data_patefield`, static variables, 32-bit `int`; arithmetic and generator are parameters |
| `phik/significance.py` | `Model/Significance.lean` and `Model/Categorical.lean` (categorical columns: `sigPairD`, `sigFromRebinnedD`) | all functions, `chi2.sf`, `norm.*`, `least_squares` abstract |
| `phik/decorators/*` | none | they forward to the functions above |
| `phik/binning.py`, `phik/data_quality.py`, `phik/phik.py` with infinite values | `Model/Infinite.lean` | `bin_edges` (uniform), `bin_array`, `bin_data`, the quality check without warnings, `phik_matrix` |
| `phik/resources.py` | `Model/Resources.lean` | all functions; the disk is a list of files |
| the functions on data frames with repeated column names | `Model/Duplicates.lean` | the quality check and all functions on frames; `phik_from_rebinned_df` |
| `phik/betainc.py` | `Model/Betainc.lean` | all functions, exact arithmetic with an exponential that may underflow |
| `phik/outliers.py` | `Model/Outliers.lean` | all functions, scipy's `betainc`, `poisson`, `chi2.ppf`, `norm.ppf` abstract |
| `phik/report.py` | `Model/Report.lean`, `Model/HistPlot.lean` | `plot_correlation_matrix`, `correlation_report`, the bins and points of `plot_hist_and_func`; figures as cells, ticks and numbers |

### Not modelled

File and figure output, matplotlib drawing, logging, the pandas accessor registration, the entry points,
Python's `warnings` filters, joblib's process start-up and pickling, memory exhaustion, infinities in the data except in `Model/Infinite.lean`,
datetime dtypes, categorical dtypes except in `Model/Categorical.lean`, repeated column names except in `Model/Duplicates.lean`.

## Findings (places where the code does not do what its documentation says)

1. The array interface turns a missing value in a categorical variable into a category `'nan'` (C26); `np.array([x, y])`
   of mixed lists does so even for numbers.
2. Automatic binning widens the lower edge by an absolute 1e-14, which is absorbed in double precision above about 45 (C05).
3. `'NaN'`, `'UF'`, `'OF'` used as genuine categories clash with the sentinels (C10); using a rebinned frame twice with
   other flags resurrects dropped records (C12).
4. `bin_data` reuses the previous column's bins for a column without a bin specification of a usable type (C07).
5. `row_product_multinominal` keeps the column totals and `col_product_multinominal` the row totals (C35).
6. `sim_2d_data_patefield` returns the transposed table (C37), and `seed=0` is replaced by a random seed (C41); that seed
   can itself be 0, for which the generator is stuck (C40).
7. The Patefield sampler overflows 32-bit integers as soon as `nrowt[0]*ncolt[0]` exceeds 2^31-1 (C39).
8. The average number of records per bin is computed as `n/rows*cols` (C30).
9. With `nsim=0`, the Monte-Carlo p-value is 0 (C29). The hybrid method raises `ValueError` when its p-value is 0 and f=0 (C31).
10. A 2x2 table of perfectly associated binary columns has phik below 1 because of the continuity correction (C27).
11. The global correlation may exceed 1, and may divide by zero, when the phik matrix is not positive definite (C24).
12. `bivariate_normal_theory` with only one of `nx, sx` given, or an asymmetric `sx`, gives wrong tables (C21, C54).
13. Spark histogram keys with colons collide or are truncated (C28).
14. The multinomial sampler's record number is the truncated float sum of the table, which may lose one record.
15. An unknown `significance_method` raises an error that names the simulation method instead (C34).
16. `dq_check_hist2d` reports the number of rows in the warning about columns.
17. `z_from_logp` uses `2*log(2*pi)` in its asymptotic formula (C51).
18. A cell with records that is alone in its row and column (B = C = 0 < D) gets Z = NaN in the outlier matrix, because the
    logarithmic mid-p evaluation subtracts infinities; the plain variant gives +infinity (C45). An empty one gets p = 1/2.
19. `outlier_significance_matrices` loses matrices when two pairs have the same name after joining with ':' (C47).
20. In `outlier_significance_matrix` a column that the data-quality check drops (all values equal for a non-interval column)
    leaves one column, and the function raises `ValueError` instead of warning and returning NaN.
21. For an interval column whose edges print alike with the chosen number of decimals two rows get the same label (C46).
22. The prior mean of the outlier p-value is `e + s^2/e`, which is not increasing in `e`; for `D > 0` and `B*C = 0` the
    expectation is 0 (C44, C45).
23. The stopping rule of the continued fraction compares the first even convergent with 1, not with a previous value (C49).
24. Empty rows or columns lower `estimate_simple_ndof` (C23).
25. `correlation_report` raises `AttributeError` whenever a pair has fewer than two common categories (its phik and
    significance are NaN, which counts as selected) (C52); it also selects pairs with a significance below minus the threshold.
26. `correlation_report` loses outlier matrices when two pairs have the same name after joining with ':' and replacing
    spaces (C52).
27. `plot_correlation_matrix`: `matrix_numbers` together with edge labels raises `IndexError`; `top` other than 20 does not
    set the number of characters (17 are kept); numeric tick labels are rounded to integers (C53).
28. `significance_matrix` has no `quantile` argument, so that the significances of a report with `quantile=True` cannot be
    reproduced with it (C63 states the agreement with the public steps).
29. `plot_hist_and_func`: `if xmax:` should be `if xlimit:`; an integer number of bins without `xlimit` raises `TypeError`; by
    default fewer than 50 points give a single edge and an `IndexError`; for edges of unequal widths the curve uses the width of
    the first bin for all (C64).
30. `outlier_significance_from_binned_array` bins numeric input again into ten uniform bins (C62).
31. Equal-width binning is not invariant under a change of the unit, even in exact arithmetic: the first edge is lowered by the absolute amount 1e-14 (C68).
32. The Monte-Carlo p-value is not conservative: without any correlation it is 0 with probability `1/(n+1)`, and if all simulated values equal the observed one it is `(n-1)/(2n)`, below one half (C69).
33. phik of binary variables depends on the amount of data even without noise correction: two identical binary columns with one record per category have phik 0, and a positive phik when each record is written twice, because of the Yates correction (C70).
34. The 'MC' p-value counts a simulated value equal to the observed one as a half (less half a count): with more and more simulations it converges to P(T > t) + P(T = t)/2, not to the P(T >= t) of the usual exact test, so on small discrete tables it is systematically smaller than that (C76).
35. `lambda_` 'freeman-tukey', 'neyman' and 'mod-log-likelihood' make chi2 NaN or infinite as soon as two occurring categories never occur together (unless the table is two by two) (C77).
36. Categories of a categorical dtype that do not occur lower phik: a column and its copy with three occurring categories and one unused category do not have phik 1 (phik_copy_unused), because `groupby` keeps the unused categories as rows and columns of zeros, which chi2 drops but the shape given to phik_from_chi2 includes.
37. With a categorical column and no record with a value in both columns phik_matrix raises ValueError for the whole frame, where plain columns give NaN for the pair (phik_matrix_no_record).
38. `significance_from_rebinned_df` on columns of categorical dtype with a category that does not occur: the asymptotic method counts degrees of freedom for the empty rows and columns, so Z is strictly too low (C79, `sig_unused`, `sig_copy_unused`).
39. `chi2_from_phik(rho, n, sx=..., sy=...)` with `nx`, `ny` left at their default -1 silently uses `min(nx-1, ny-1) = -2` as the largest chi2: the result is never positive and -2n at rho = 1 (C80, `given_edges_default`).
40. Edges that are not symmetric around zero: `_mvn_array` evaluates one half of the grid and counts it twice, so chi2 is that of another grid (C80, `asymmetric_edges`); nothing rejects such edges.
41. `num_vars=['x']`, the documented way to name a variable of `phik_from_array` and `significance_from_array`, is a KeyError when `x` is a Series whose name is not 'x' (C81, `documented_names`).
42. `hist2d_from_array` (and `Series.hist2d`) of a list of numbers beside a list of strings turns the numbers into strings: nothing is binned and missing values are counted as 'nan' although `dropna=True` (C81, `hist2d_array_text`).
43. One infinite value in an interval column with automatic uniform bins makes every record of the column an underflow; `phik_matrix` then returns NaN for the column without a specific warning (C82, `infinite_auto_all_underflow`, `infinite_column_lost`).
44. phik of coarser categories can be larger than phik of the finer ones although chi2 is the same: a 3x3 table with phik below 1 becomes phik = 1 when two categories with the same profile are taken together (C83, `merge_raises_phik`).
45. phik of two equal columns is not always computed as exactly 1: for three categories of five records each the chi2 computed in binary64 arithmetic is slightly below its maximum 30 (`perfect_association_rounded_violated`), so the code does not take the branch that returns 1 but calls the root finder; the `isclose` in `phik_from_chi2` catches only values above the maximum.
46. `phik_from_rebinned_df` compares the names of the columns to find the diagonal: for binned data whose columns all have the same name it returns ones everywhere, also for unrelated columns (`same_name_everywhere`).
47. `sim_2d_data` truncates the computed sum of the expectations to the number of records: for the table [[1, 0], [1, 1]] the sum is 2.9999999999999996 in binary64, so every data set simulated with 'multinominal' has 2 records instead of 3 (`float_multinominal_records_violated`); never more than one is missing.
48. With 'multinominal' and `alt_hypothesis=True` an empty last cell keeps a rounding error as its probability: records can be drawn there (`float_multinominal_support_violated`).
49. phik is not robust to single records: with m records in every cell of a 2x2 table phik is 0; one more record with a new category in both columns gives phik ≥ 0.69 for every m ≥ 25 (chi2 = N whatever m) — C92 `one_record_violated`.
50. C97: bins = {'x': unsupported, 'y': edges} with guessed interval columns: hist2d_from_array(x, y) raises UnboundLocalError, the exchanged call returns a table in which one variable is binned with the edges of the other (`hist2d_exchange_violated`).
51. C98: a record that is left out of a pair because the other variable is missing still determines automatic bin edges: phik of the complete records alone differs (`incomplete_record_matters`).
52. C100: adding the first other record to the row of a combination can raise its significance: [[1,0],[100,1]] -> [[1,1],[100,1]]; the first table has one record where none is expected, yet a p-value above 0.999 (a deficit), because with expectation 0 the error of the expectation is used as its mode.
53. C100: adding a record outside row and column, which halves the expectation, can lower the significance: [[0,100],[100,1]] -> [[0,100],[100,2]].
