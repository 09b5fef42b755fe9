{"id": "C01", "title": "Bin index of a value", "statement": "For sorted bin edges, binning a numeric column gives a value x the bin k exactly when edges[k-1] < x <= edges[k], the underflow mark 'UF' exactly when x <= edges[0], the overflow mark 'OF' exactly when x > the last edge, and NaN exactly when x is NaN; in particular every input value gets exactly one of these and the output has one entry per input entry, in order.", "quantifier": "all lists of values (with NaN) and all non-empty sorted lists of bin edges", "why_tests_cant": "boundary values, empty bins, one-edge binnings and NaN interact; a test samples a few values", "anchors": ["phik/binning.py:bin_array", "phik/definitions.py"]}
{"id": "C02", "title": "Returned bin labels are the populated bins", "statement": "The bin labels returned with retbins=True are the (low, high) edge pairs of exactly those bins that contain at least one value, in increasing order, each once.", "quantifier": "all value lists and all sorted edge lists", "why_tests_cant": "which bins are empty depends on the data", "anchors": ["phik/binning.py:bin_array", "phik/binning.py:bin_data"]}
{"id": "C03", "title": "Automatic uniform binning loses no record", "statement": "With an integer bins>=1 and quantile=False, in exact arithmetic, every non-NaN value of a numeric column with at least one value is put in a regular bin 1..bins: no value of the data that defined the binning becomes underflow or overflow.", "quantifier": "all numeric columns with at least one non-NaN value, all bins>=1 (columns of up to 2^52 entries)", "why_tests_cant": "must hold for the extreme values of every data set", "anchors": ["phik/binning.py:bin_edges", "phik/binning.py:bin_array"]}
{"id": "C04", "title": "Automatic quantile binning loses no record", "statement": "With an integer bins>=1 and quantile=True, in exact arithmetic, every non-NaN value of a numeric column with at least one value is put in a regular bin 1..bins, including when quantile edges coincide.", "quantifier": "all numeric columns with at least one non-NaN value, all bins>=1 (columns of up to 2^52 entries)", "why_tests_cant": "ties make quantile edges coincide in data-dependent ways", "anchors": ["phik/binning.py:bin_edges", "phik/binning.py:bin_array"]}
{"id": "C05", "title": "Automatic binning in double precision keeps the smallest record (violated)", "statement": "In binary64 arithmetic the smallest value of a column should not become underflow. The code subtracts 1e-14 from the minimum: this separates the first edge from the minimum exactly when -128 < min <= 128; for every minimum outside that range the subtraction is absorbed and every record at the minimum is marked 'UF' (and dropped by default).", "quantifier": "all binary64 minima and all columns (columns of up to 2^52 entries)", "why_tests_cant": "needs a sweep over magnitudes of the minimum; the shipped tests use one data set", "anchors": ["phik/binning.py:bin_edges"]}
{"id": "C06", "title": "bin_data touches only the requested columns", "statement": "bin_data returns a frame with the same columns in the same order and the same number of rows, in which every column not listed in cols is unchanged, and every listed column is the input column binned with the binning requested for that column (a count, a shared edge list, or the dictionary entry).", "quantifier": "all frames, column lists and bins arguments of the documented types", "why_tests_cant": "unbounded columns and per-column options", "anchors": ["phik/binning.py:bin_data"]}
{"id": "C07", "title": "bin_data argument errors", "statement": "A bins dictionary lacking one of the columns raises ValueError before anything is binned; a bins argument of an unsupported type raises (UnboundLocalError) whenever there is a column to bin. A requested column that is missing (KeyError), or has an entry of text that float() cannot read (ValueError), makes the call raise. Violated in one case: an unsupported entry inside a bins dictionary (e.g. a numpy integer or a tuple) is silently replaced by the edges of the previously binned column when it is not the first column.", "quantifier": "all frames, column lists and bins arguments", "why_tests_cant": "the stale-variable case needs an unsupported entry after a supported one", "anchors": ["phik/binning.py:bin_data"]}
{"id": "C08", "title": "Contingency table counts", "statement": "hist2d of two columns has one row per distinct kept value of the first column and one column per distinct kept value of the second, both sorted without repetition; each cell is the number of records with that pair of values; no row or column is all zero, and the sum of the cells is the number of kept records.", "quantifier": "all two-column frames", "why_tests_cant": "any number of records and categories, any pattern of missing values", "anchors": ["phik/binning.py:hist2d_from_rebinned_df", "phik/binning.py:hist2d"]}
{"id": "C09", "title": "Missing, underflow and overflow records", "statement": "A record is left out of the contingency table exactly when one of its two values is NaN and dropna=True, or is 'UF' and drop_underflow=True, or is 'OF' and drop_overflow=True; otherwise NaN, 'UF', 'OF' are categories of their own. dropna=False does not bring back dropped underflow/overflow records.", "quantifier": "all frames, all eight combinations of the three flags", "why_tests_cant": "the three in-place replacements interact through their order", "anchors": ["phik/binning.py:hist2d_from_rebinned_df", "phik/phik.py:phik_from_rebinned_df", "phik/significance.py:significance_from_rebinned_df"]}
{"id": "C10", "title": "Sentinel strings do not clash with user categories (violated)", "statement": "A genuine category of a categorical column should be counted like any other. Violated: records whose category is literally 'UF' or 'OF' are dropped by default, and with dropna=False a category 'NaN' is merged with missing values. For columns free of these three strings the property holds.", "quantifier": "all categorical columns", "why_tests_cant": "depends on the category names in the user's data", "anchors": ["phik/definitions.py", "phik/binning.py:hist2d_from_rebinned_df", "phik/phik.py:phik_from_rebinned_df"]}
{"id": "C11", "title": "Caller's DataFrame is not modified", "statement": "phik_matrix, global_phik_array, significance_matrix, hist2d, bin_data, outlier_significance_matrix and outlier_significance_matrices leave the DataFrame they are given (and every other existing DataFrame) unchanged, whether they return or raise, in any sequence of calls.", "quantifier": "all frames, all argument values, all finite sequences of calls", "why_tests_cant": "in-place replace and drop are used internally; a leak shows only for some argument combinations", "anchors": ["phik/phik.py", "phik/significance.py", "phik/outliers.py", "phik/binning.py", "phik/data_quality.py"]}
{"id": "C12", "title": "Re-using a rebinned frame", "statement": "phik_from_rebinned_df, significance_from_rebinned_df, hist2d_from_rebinned_df and outlier_significance_matrix_from_rebinned_df modify the frame they are given, but in any sequence of calls of these with the same flags every call returns (or raises) what it would have as the first one, whenever dropna=True or no underflow (overflow) is dropped from the frame. Violated otherwise: with dropna=False and drop_underflow=True the dropped underflow records of the first call come back as the category 'NaN' in the second; and after a call with drop_underflow=True a call with drop_underflow=False no longer sees the underflow records.", "quantifier": "all frames, all sequences of calls with given flags", "why_tests_cant": "a history property of aliased mutable frames", "anchors": ["phik/phik.py:phik_from_rebinned_df", "phik/significance.py:significance_from_rebinned_df", "phik/report.py:correlation_report"]}
{"id": "C13", "title": "Column quality filter", "statement": "The data-quality step keeps exactly the interval columns with at least two distinct non-NaN values and the other columns with at least two distinct non-NaN values, or at least one when dropna=False; it keeps the order and content of the kept columns and returns exactly the kept requested interval columns, ignoring requested columns that do not exist; a warning is issued for every dropped column.", "quantifier": "all frames, interval column lists and dropna values", "why_tests_cant": "unbounded numbers of columns and values", "anchors": ["phik/data_quality.py:dq_check_nunique_values"]}
{"id": "C14", "title": "Shape, labels, symmetry and diagonal of the phik matrix", "statement": "The phik matrix has as row and column labels the kept columns in the order of the input frame, is symmetric, and has 1 on the diagonal; the entry of two distinct columns is phik of the contingency table of that pair (NaN when the table has fewer than two rows or columns).", "quantifier": "all frames with distinct column names", "why_tests_cant": "ordering, pivoting and re-indexing go through sorted labels; holds for every number of columns and every naming", "anchors": ["phik/phik.py:phik_from_rebinned_df", "phik/phik.py:_calc_phik", "phik/binning.py:create_correlation_overview_table"]}
{"id": "C15", "title": "phik lies in [0,1]", "statement": "Whenever phik of a contingency table is a number, it is between 0 and 1.", "quantifier": "all tables, with or without noise correction", "why_tests_cant": "all tables of all shapes", "anchors": ["phik/bivariate.py:phik_from_chi2", "phik/phik.py:phik_from_hist2d"]}
{"id": "C16", "title": "When phik is exactly 0 or 1", "statement": "phik is 0 whenever the chi2 of the table does not exceed the noise pedestal, is 1 whenever chi2 reaches its maximum n*min(rows-1,cols-1) and exceeds the pedestal, and strictly in between it is a root of the theoretical chi2 curve.", "quantifier": "all tables", "why_tests_cant": "threshold comparisons for all values", "anchors": ["phik/bivariate.py:phik_from_chi2"]}
{"id": "C17", "title": "phik of a data table never fails to bracket", "statement": "For every contingency table built from data (no empty row or column, at least two of each), the maximum chi2 exceeds the noise pedestal, the theoretical chi2 at rho=0 is below and at rho=1 above the observed chi2 whenever a root search is started, so the root finder never raises 'f(a) and f(b) must have different signs' and a number is returned.", "quantifier": "all data-derived tables of all shapes", "why_tests_cant": "depends on count, shape and noise pedestal jointly", "anchors": ["phik/bivariate.py:phik_from_chi2", "phik/bivariate.py:chi2_from_phik", "phik/phik.py:phik_from_hist2d"]}
{"id": "C18", "title": "Bounds on the Pearson chi2", "statement": "The Pearson chi2 used for phik is non-negative, is at most n*min(rows-1, cols-1), and (except for the 2x2 case where a continuity correction applies) is zero exactly when the table is the product of its margins.", "quantifier": "all non-negative tables with positive total", "why_tests_cant": "an inequality over all tables", "anchors": ["phik/statistics.py:get_chi2_using_dependent_frequency_estimates"]}
{"id": "C19", "title": "Empty rows and columns do not matter for chi2", "statement": "For every non-negative table with a positive total the chi2 computation succeeds (no zero expected frequency reaches scipy), and its result is unchanged by inserting or removing all-zero rows or columns; an all-zero or empty table is rejected with ValueError.", "quantifier": "all non-negative tables", "why_tests_cant": "positions and number of empty rows are unbounded", "anchors": ["phik/statistics.py:get_chi2_using_dependent_frequency_estimates"]}
{"id": "C20", "title": "Category order and names are irrelevant", "statement": "chi2, the degrees of freedom and phik do not change when the rows or the columns of the table are permuted or the table is transposed; hence re-coding the categories of a categorical column by a one-to-one renaming, or exchanging the two columns, does not change phik.", "quantifier": "all tables, all permutations, all injective renamings", "why_tests_cant": "all permutations of all tables", "anchors": ["phik/phik.py:phik_from_hist2d", "phik/phik.py:_calc_phik", "phik/bivariate.py:_mvn_array", "phik/statistics.py"]}
{"id": "C21", "title": "Half-grid evaluation of the bivariate normal is complete", "statement": "For bin edges symmetric around zero, the list of cell integrals produced by evaluating only half of the grid and repeating it contains exactly the integrals of all nx*ny cells, for every parity of nx and ny, so every sum over it equals the sum over the full grid. It is not complete for edges that are not symmetric.", "quantifier": "all nx, ny and all symmetric edges", "why_tests_cant": "four parity cases times all sizes", "anchors": ["phik/bivariate.py:_mvn_array"]}
{"id": "C22", "title": "phik inverts the chi2 curve", "statement": "Converting a correlation rho to a theoretical chi2 and back to phik with the same binning and record count returns rho up to the root finder's tolerance, for every rho in [0,1] whenever the chi2 curve is strictly increasing; it is for square tables and for tables with two rows or two columns, with the true bivariate normal integrals.", "quantifier": "all rho in [0,1], record counts, shapes and pedestals below the maximum", "why_tests_cant": "all parameter values", "anchors": ["phik/bivariate.py:phik_from_chi2", "phik/bivariate.py:chi2_from_phik"]}
{"id": "C23", "title": "Degrees of freedom", "statement": "For every table, the theoretical number of degrees of freedom is (rows-1)*(cols-1); the simple estimate is that number minus the number of cells with zero expectation, floored at zero; it equals (rows-1)*(cols-1) when no row or column is empty.", "quantifier": "all tables", "why_tests_cant": "all shapes and zero patterns", "anchors": ["phik/statistics.py:estimate_simple_ndof", "phik/statistics.py:theoretical_ndof"]}
{"id": "C24", "title": "Global correlation range and failure (violated in general)", "statement": "When the phik matrix is positive definite every global correlation is a number in [0,1), zero exactly when the column is uncorrelated with all others; for two columns it is their phik; a singular phik matrix, for instance of a frame with a duplicated column of three or more categories, raises LinAlgError. Violated in general: the phik matrix of data need not be positive definite, and then a documented correlation in [0,1] can be sqrt(2) or the result of a division by zero.", "quantifier": "all matrices of all sizes", "why_tests_cant": "all matrices", "anchors": ["phik/phik.py:global_phik_from_rebinned_df"]}
{"id": "C25", "title": "Parallel evaluation equals serial evaluation", "statement": "The phik matrix does not depend on the number of cores or on the order in which the workers finish: for every schedule the result equals that of the serial loop, and an exception in some pair is never lost.", "quantifier": "all schedules (execution orders) and all frames", "why_tests_cant": "schedules cannot be enumerated by tests", "anchors": ["phik/phik.py:phik_from_rebinned_df", "phik/config.py"]}
{"id": "C26", "title": "Array interface agrees with the matrix interface", "statement": "For binned data without missing values (and with missing values if dropna=False or neither underflow nor overflow is dropped), phik_from_binned_array returns the off-diagonal entry of phik_from_rebinned_df on the same two columns, for every combination of the drop flags. Violated with missing values: with the default flags NaN records are turned into the category 'nan' instead of being dropped.", "quantifier": "all pairs of columns", "why_tests_cant": "string conversion changes the order of categories and the meaning of NaN", "anchors": ["phik/phik.py:phik_from_array", "phik/phik.py:phik_from_binned_array"]}
{"id": "C27", "title": "Perfectly associated columns (violated for binary columns)", "statement": "For two identical columns with k>=3 categories phik is exactly 1. Violated for k=2: because of the continuity correction the chi2 of every perfectly associated 2x2 table is strictly below its maximum, so phik is not 1 by construction.", "quantifier": "all counts", "why_tests_cant": "all counts", "anchors": ["phik/statistics.py:get_chi2_using_dependent_frequency_estimates", "phik/bivariate.py:phik_from_chi2"]}
{"id": "C28", "title": "Spark histogram keys", "statement": "A histogram keyed 'a:b' yields the entry for the pair (a,b) when neither name contains a colon, and 1 when a and b are the same; the matrix of a dictionary with all pairs of names is symmetric with sorted labels for every execution order; a key without a colon never yields a value (IndexError); a name containing a colon is truncated to its first two parts, and two pairs of such names can have the same key; a value that is not an array raises TypeError.", "quantifier": "all strings", "why_tests_cant": "all names", "anchors": ["phik/phik.py:_phik_from_row", "phik/phik.py:spark_phik_matrix_from_hist2d_dict"]}
{"id": "C29", "title": "Monte-Carlo p-value", "statement": "The MC p-value is in [0,1], is non-increasing in the observed chi2, does not depend on the order of the simulated values, equals 1 when every simulated value exceeds the observed one and 0 when every simulated value is below it.", "quantifier": "all non-empty lists of simulated values and all chi2", "why_tests_cant": "ties and all list lengths", "anchors": ["phik/significance.py:significance_from_chi2_MC"]}
{"id": "C30", "title": "Low-statistics switch of the hybrid method (violated)", "statement": "The hybrid significance is documented to use h(x|f) exactly when there are on average at most 4 records per bin, i.e. n/(rows*cols) <= 4. Violated: the code tests n/rows*cols <= 4; the two agree exactly for one-column tables or n = 0, and the code's test is not even symmetric under exchanging the two variables.", "quantifier": "all tables", "why_tests_cant": "needs tables between the two thresholds", "anchors": ["phik/significance.py:significance_from_chi2_hybrid"]}
{"id": "C31", "title": "Chernoff fallback is well defined", "statement": "When the p-value underflows to 0, the fallback significance is the square root of u-log u with u = -log(2 pi) + ndof*(z-1-log z), z = chi2/ndof; it is a positive real number whenever u > 0, and it increases with chi2 once chi2 >= ndof and u >= 1.", "quantifier": "all chi2 and ndof > 0", "why_tests_cant": "extreme values", "anchors": ["phik/significance.py:significance_from_chi2_ndof", "phik/significance.py:significance_from_chi2_hybrid"]}
{"id": "C32", "title": "Log-likelihood statistic is non-negative", "statement": "The log-likelihood (G) statistic of every non-negative table with positive total is >= 0, also with the 2x2 continuity correction, and is 0 for a table equal to the product of its margins.", "quantifier": "all tables", "why_tests_cant": "an inequality over all tables", "anchors": ["phik/statistics.py:get_chi2_using_dependent_frequency_estimates"]}
{"id": "C33", "title": "Shape, labels and symmetry of the significance matrix", "statement": "The significance matrix has the kept columns in input order on both axes and is symmetric; pairs whose table has fewer than two rows or columns are NaN with one warning each; every other entry is the Z-value of that pair's table.", "quantifier": "all frames with distinct column names", "why_tests_cant": "sorting, pivoting and NaN dropping inside the table construction", "anchors": ["phik/significance.py:significance_from_rebinned_df", "phik/binning.py:create_correlation_overview_table"]}
{"id": "C34", "title": "Unknown method names are rejected", "statement": "An unknown significance_method, simulation method, CI_method or product-multinomial axis raises NotImplementedError and never silently selects another method.", "quantifier": "all strings / axes", "why_tests_cant": "all strings", "anchors": ["phik/significance.py:significance_from_hist2d", "phik/simulation.py:sim_data", "phik/simulation.py:sim_2d_product_multinominal", "phik/outliers.py:get_uncertainty"]}
{"id": "C35", "title": "Totals fixed by the sampling methods (violated for the product methods' names)", "statement": "'multinominal' keeps the total; each product method keeps the totals along one axis, for every random draw. Violated: 'row_product_multinominal' keeps the column totals and 'col_product_multinominal' keeps the row totals, the opposite of the documentation.", "quantifier": "all tables with integer totals and all random draws", "why_tests_cant": "all draws", "anchors": ["phik/simulation.py:sim_2d_data", "phik/simulation.py:sim_2d_product_multinominal", "phik/simulation.py:sim_data"]}
{"id": "C36", "title": "Hypergeometric sampling preserves both margins", "statement": "The table built by the Patefield algorithm has exactly the requested row and column totals and no negative entry, for every valid pair of margins, every seed and every outcome of the floating point comparisons.", "quantifier": "all margins (positive, equal sums, at least 2x2), all seeds, all float behaviours", "why_tests_cant": "all margins and random streams", "anchors": ["phik/simcore/asa159.cpp:rcont2", "phik/simulation.py:sim_2d_data_patefield"]}
{"id": "C37", "title": "Orientation of the hypergeometric sample", "statement": "sim_2d_data_patefield returns the sampled table transposed: for an r x c input the result is c x r, its row totals are the input's column totals and vice versa; the chi2 computed from it is the same as for the untransposed table.", "quantifier": "all tables and seeds", "why_tests_cant": "square tables hide it", "anchors": ["phik/simulation.py:sim_2d_data_patefield", "phik/simulation.py:_simulate_and_fit"]}
{"id": "C38", "title": "Hypergeometric sampling terminates", "statement": "The rejection loop of the Patefield algorithm ends after at most two passes per cell and the search loops inside each pass end, for every margins and seed in 1..2^31-2, assuming only that multiplying by a factor not above one does not increase a non-negative float.", "quantifier": "all margins, all valid seeds", "why_tests_cant": "non-termination cannot be observed by a test", "anchors": ["phik/simcore/asa159.cpp:rcont2"]}
{"id": "C39", "title": "Memory and integer safety of the hypergeometric sampler", "statement": "Every access to the factorial table, the work array, the margin arrays and the result is within bounds, no variable is read before it is set, every cell of the (uninitialised) result array is written, no division by zero occurs, and no 32-bit integer computation overflows when the total is at most 46340. Violated above: there are valid margins with a total far below 2^31 for which an intermediate product exceeds the int range.", "quantifier": "all margins and seeds", "why_tests_cant": "undefined behaviour may stay invisible in tests", "anchors": ["phik/simcore/asa159.cpp:rcont2", "phik/simcore/simulation.hpp"]}
{"id": "C40", "title": "Random number generator", "statement": "For every seed in 1..2^31-2 the generator's next state is 16807*seed mod (2^31-1), lies again in 1..2^31-2, and no intermediate value leaves the 32-bit range; states 0 and 2^31-1 are absorbing at 0.", "quantifier": "all seeds and all numbers of draws", "why_tests_cant": "2^31 seeds and unbounded streams", "anchors": ["phik/simcore/asa159.cpp:r8_uniform_01"]}
{"id": "C41", "title": "Reproducibility and history independence of the sampler", "statement": "With an explicit non-zero seed the sampled table depends only on the margins and the seed, not on previous calls (successful or failed). Violated for seed=0, which is replaced by a random seed.", "quantifier": "all sequences of previous calls", "why_tests_cant": "history property over static variables", "anchors": ["phik/simulation.py:sim_2d_data_patefield", "phik/simcore/asa159.cpp:rcont2"]}
{"id": "C42", "title": "Invalid margins are rejected", "statement": "Fewer than two rows or columns, a non-positive row or column total, or unequal sums make the sampler raise an error and leave the result untouched, never producing a table.", "quantifier": "all margin vectors with sums in the range of a C int", "why_tests_cant": "all invalid inputs", "anchors": ["phik/simcore/asa159.cpp:rcont2", "phik/simcore/simulation.hpp:_sim_2d_data_patefield"]}
{"id": "C43", "title": "Expected frequencies of the outlier test", "statement": "For every cell the expectation is B*C/D of the other three blocks of the table and its error is the propagated error; it is NaN exactly when D is zero; for a table that is the product of its margins the expectation equals the observation wherever it is defined.", "quantifier": "all tables and cells", "why_tests_cant": "all tables", "anchors": ["phik/outliers.py:get_independent_frequency_estimates"]}
{"id": "C44", "title": "Outlier p-values", "statement": "The p-value of observing n or more is 1 for n=0, lies in [0,1], is non-increasing in n; the mid-p value is the average of the p-values of n and n+1 and hence lies between them; the incomplete beta function is always called inside its domain (a>=1, b>1, 0<x<1). For exact functions it is the probability of n or more counts of a Poisson distribution whose mean follows the gamma distribution of Linnemann's method (the Poisson probability itself when there is no uncertainty).", "quantifier": "all counts, expectations and errors", "why_tests_cant": "all real parameters", "anchors": ["phik/outliers.py:poisson_obs_p", "phik/outliers.py:poisson_obs_mid_p"]}
{"id": "C45", "title": "Outlier Z-values", "statement": "Z decreases with the p-value, is NaN where no prediction is possible (D=0), is -infinity for zero observed counts in the plain variant, and falls back to the logarithmic evaluation exactly when the p-value is numerically 0 or 1; the logarithmic mid-p evaluation returns the logarithms of the same mid-p value and of its complement. Violated: Z is also NaN for a cell with records that is alone in its row and column (B=C=0, D>0), where the plain variant gives +infinity; an empty such cell gets p=1/2 and Z=0.", "quantifier": "all counts, expectations and errors; all tables and both CI methods", "why_tests_cant": "numerical extremes", "anchors": ["phik/outliers.py:poisson_obs_z", "phik/outliers.py:poisson_obs_mid_z", "phik/outliers.py:log_poisson_obs_mid_p", "phik/statistics.py:z_from_logp"]}
{"id": "C46", "title": "Bin labels of the outlier matrix", "statement": "In the outlier significance matrix the label of each row/column of a binned variable is the edge interval of the bin whose records it counts, even when bins are empty or disappear because of missing values in the other variable; unbinned and UF/OF/NaN categories keep their own name.", "quantifier": "all two-column frames, all flags", "why_tests_cant": "misalignment shows only for particular patterns of missing bins", "anchors": ["phik/outliers.py:outlier_significance_matrix_from_rebinned_df"]}
{"id": "C47", "title": "One outlier matrix per pair", "statement": "outlier_significance_matrices returns one matrix per requested pair (all unordered pairs in column order by default), under the key 'a:b', when no column name contains a colon. Violated with colons: two pairs can share a key and one result is lost.", "quantifier": "all frames and combinations", "why_tests_cant": "needs particular names", "anchors": ["phik/outliers.py:outlier_significance_matrices", "phik/outliers.py:outlier_significance_matrices_from_rebinned_df"]}
{"id": "C48", "title": "Incomplete beta: complement and logarithms", "statement": "For 0<x<1 away from the branch point incompbeta(a,b,x) + incompbeta(b,a,1-x) = 1; at x=0 and x=1 the values are 0 and 1; log_incompbeta returns the logarithms of incompbeta and of its complement wherever those are positive.", "quantifier": "all a,b>0 and x", "why_tests_cant": "all real parameters", "anchors": ["phik/betainc.py:incompbeta", "phik/betainc.py:log_incompbeta"]}
{"id": "C49", "title": "Continued fraction evaluation", "statement": "For a>0 contfractbeta never returns anything but a convergent of the continued fraction of the incomplete beta function: iteration i = 0, 1, ... (at most ITMAX+1 of them) yields convergent number 2i+4, and the first iteration whose convergent differs from the one before (in the first iteration: from 1, not from the second convergent) by less than EPS relative is returned; inside the domain in which incompbeta calls it (b>0, 0<x<=(a+1)/(a+b+2)) it raises ValueError if and only if there is no such iteration, never divides by zero, and for every EPS>0 some ITMAX is enough. The convergents tend to the incomplete beta integral divided by x^a(1-x)^b/a.", "quantifier": "all real a>0, b, x, all integers ITMAX, all real EPS", "why_tests_cant": "loop of unbounded length", "anchors": ["phik/betainc.py:contfractbeta"]}
{"id": "C50", "title": "Poisson uncertainties", "statement": "The standard uncertainty is sqrt(x) for x>=1 and 1 below, so always >=1 and continuous at 1; the exact uncertainty is half the width of the interval between the chi2 quantiles and non-negative; for whole counts it is positive, and its ratio to the square root of the count tends to 1, so the two methods agree for large counts.", "quantifier": "all x>=0", "why_tests_cant": "all reals", "anchors": ["phik/outliers.py:get_uncertainty", "phik/outliers.py:get_poisson_uncertainty", "phik/outliers.py:get_exact_poisson_uncertainty"]}
{"id": "C51", "title": "z_from_logp", "statement": "log p = -infinity gives +infinity, flip_sign negates the result, Z is strictly decreasing in p in the normal range; in the underflow range the approximation is strictly decreasing in log p.", "quantifier": "all log p <= 0", "why_tests_cant": "extreme values", "anchors": ["phik/statistics.py:z_from_logp"]}
{"id": "C52", "title": "Pair selection in the report", "statement": "The report evaluates outliers for exactly the pairs with |significance| >= threshold and phik >= threshold, keyed by the two names with spaces replaced. Violated for NaN: a pair with NaN significance is not skipped, and the report then fails with AttributeError because no matrix can be made for it (unless another step raises an exception first).", "quantifier": "all matrices and thresholds", "why_tests_cant": "NaN comparisons", "anchors": ["phik/report.py:correlation_report"]}
{"id": "C53", "title": "Correlation plot keeps labels and values together", "statement": "With or without identity_layout every plotted cell shows the number belonging to its row and column labels.", "quantifier": "all matrices and label lists", "why_tests_cant": "all sizes", "anchors": ["phik/report.py:plot_correlation_matrix"]}
{"id": "C54", "title": "Theoretical bivariate table", "statement": "bivariate_normal_theory(rho, nx, ny, n) returns an ny x nx table whose entries are n times the cell integrals, raised to machine epsilon where smaller, so all entries are positive; n<1 raises ValueError. Violated for the documented alternative of passing sx, sy without nx, ny, which raises.", "quantifier": "all sizes, rho and n", "why_tests_cant": "all sizes", "anchors": ["phik/bivariate.py:bivariate_normal_theory"]}
{"id": "C55", "title": "Simulated chi2 distribution", "statement": "For a table of counts without empty rows or columns, sim_chi2_distribution returns exactly nsim values, the k-th being the chi2 (or G, or Cressie-Read) statistic of the k-th sampled table; every sampled table has as many records as the data; the values are non-negative, and a Pearson value is at most n*min(rows-1, columns-1); the returned list does not depend on how the workers are scheduled.", "quantifier": "all data tables of at least 2x2, all sampling methods, all random draws, all nsim, all schedules", "why_tests_cant": "all draws and schedules", "anchors": ["phik/simulation.py:sim_chi2_distribution", "phik/simulation.py:_simulate_and_fit"]}
{"id": "C56", "title": "p-values and Z-values are well formed", "statement": "Whatever the method, a returned p-value is NaN or lies in [0,1]; the Z-value is NaN exactly with it and otherwise equals minus the normal quantile of p (so Z > 0 exactly when p < 1/2), except when p underflows to 0, where Z is a real number of at least 1.", "quantifier": "all tables, methods, simulated values and distribution functions that satisfy the stated contract", "why_tests_cant": "infinitely many tables and all underflow patterns", "anchors": ["phik/significance.py:significance_from_chi2_ndof", "phik/significance.py:significance_from_chi2_MC", "phik/significance.py:significance_from_chi2_hybrid", "phik/significance.py:significance_from_hist2d"]}
{"id": "C57", "title": "Histogram fitted by the hybrid method", "statement": "The histogram of simulated values counts every value exactly once; each residual handed to the minimiser is the square root of minus the logarithm of a Poisson probability and is never NaN when the expectation is positive.", "quantifier": "all non-empty lists of simulated values and all positive numbers of bins", "why_tests_cant": "all lists", "anchors": ["phik/significance.py:fit_test_statistic_distribution"]}
{"id": "C58", "title": "Significance as a function of chi2 and of the table", "statement": "A larger observed chi2 never gives a larger p-value (all methods); the asymptotic significance does not change when rows or columns are permuted or exchanged; the Monte-Carlo method always returns, with the documented p-value of the simulated chi2 values.", "quantifier": "all tables, permutations, draws and schedules", "why_tests_cant": "all pairs of tables", "anchors": ["phik/significance.py:significance_from_hist2d"]}
{"id": "C59", "title": "Significance from arrays", "statement": "significance_from_binned_array returns (NaN, NaN) when the table has fewer than two rows or columns and otherwise the significance of the table of the two arrays; unequal lengths raise ValueError; with the asymptotic method the Z-value is the one of the significance matrix for the same records.", "quantifier": "all arrays whose text rendering keeps numbers apart", "why_tests_cant": "all arrays and flag combinations", "anchors": ["phik/significance.py:significance_from_binned_array"]}
{"id": "C60", "title": "Accuracy of the incomplete beta function", "statement": "Whatever incompbeta(a,b,x) returns for a,b>0, 0<x<1 is close to the true regularised incomplete beta function: the tail that is evaluated (the lower one below the branch point (a+1)/(a+b+2), the upper one above) has relative error at most 3e-7 * max(1, 1/(a+b)) / (1-x) respectively / x.", "quantifier": "all a,b>0 and 0<x<1 for which it returns, exact arithmetic", "why_tests_cant": "uncountably many parameters; the stopping criterion compares successive convergents, which bounds the error only through the convergence rate", "anchors": ["phik/betainc.py:incompbeta", "phik/betainc.py:contfractbeta"]}
{"id": "C61", "title": "Edges of automatic binning", "statement": "For an integer bin specification n, the uniform edges divide [min, max] into n equal intervals, the quantile edges are the i/n-quantiles so that without ties every bin holds the same number of records up to one or two, and in both cases the edges come out in increasing order in exact arithmetic and in binary64 arithmetic, so that no record is put in a wrong bin because of rounding in the edges.", "quantifier": "all columns of numbers, all n (n \u2264 2^48 for binary64)", "why_tests_cant": "rounding errors show only for particular values and sizes", "anchors": ["phik/binning.py:bin_edges"]}
{"id": "C63", "title": "The report agrees with the single functions", "statement": "correlation_report(data, ...) returns exactly what phik_matrix, global_phik_array, significance_matrix (with the same binning) and outlier_significance_matrices return for the same data and arguments: later parts of the report do not see changes made by earlier ones. It draws one figure per matrix showing these numbers under their labels, lists the files it writes, and raises only if one of the single functions raises, no column passes the quality check, or an outlier matrix of a selected pair is NaN. The caller's data frame is unchanged.", "quantifier": "all data frames with distinct column names and all arguments", "why_tests_cant": "the report shares one binned frame between functions that modify it in place; all frames and flags", "anchors": ["phik/report.py:correlation_report"]}
{"id": "C62", "title": "Outlier significances from arrays", "statement": "outlier_significance_from_array(x, y, ...) raises ValueError for arrays of different lengths and otherwise returns what outlier_significance_matrix returns for the data frame with columns x and y (all entries converted to text if one of them is a text). outlier_significance_from_binned_array should take the entries as bins; it does so for texts, but numeric input is binned again into ten uniform bins, so that no bin index ever labels a row or column.", "quantifier": "all pairs of arrays and all arguments", "why_tests_cant": "all arrays, flags and bin specifications", "anchors": ["phik/outliers.py:outlier_significance_from_array", "phik/outliers.py:outlier_significance_from_binned_array"]}
{"id": "C64", "title": "Histogram with a curve", "statement": "plot_hist_and_func draws, for a number of bins and limits, that number of bins of equal width between the limits, each as high as its number of records, and the curve through N*width*density at the bin centres; by default one bin per 50 records between the smallest and the largest record. Violated: the upper limit is ignored when the largest record is 0, a number of bins without limits raises TypeError, and fewer than 50 records raise IndexError by default. For given edges the bars are right, and the curve is right if the widths are equal.", "quantifier": "all lists of records, densities, numbers of bins, limits and increasing edges (exact arithmetic)", "why_tests_cant": "all data and limits; the defect shows for one value of the maximum only", "anchors": ["phik/report.py:plot_hist_and_func"]}
{"id": "C65", "title": "Distribution of the fixed-margin sampler", "statement": "Given independent random numbers uniform on (0, 1], sim_2d_data_patefield returns each table with the margins of the data with exactly the probability that the table arises when the values of one variable are shuffled at random against the other (the permutation null hypothesis): product of the factorials of all totals / (N! * product of the factorials of all cells). Every sequence of such numbers gives a table, and no number is drawn a second time for an entry.", "quantifier": "all margins with at least two rows and columns, positive totals and at most 46340 records; all tables; all random numbers (exact arithmetic, ideal generator)", "why_tests_cant": "an equality of probabilities over all tables and margins; a test can only sample frequencies", "anchors": ["phik/simcore/asa159.cpp:rcont2", "phik/simulation.py:sim_2d_data_patefield"]}
{"id": "C66", "title": "The order of the records is irrelevant", "statement": "If the rows of a data frame are put in another order (all columns reordered alike), hist2d, phik_matrix, global_phik_array, significance_matrix (given the same simulated tables), outlier_significance_matrix, outlier_significance_matrices and correlation_report return the same result or raise the same exception and issue the same warnings; bin_data returns the same bin edges and the same binned records in the new order. The same holds for phik_from_array, significance_from_array and outlier_significance_from_array when both arrays are reordered alike.", "quantifier": "all frames and arrays, all reorderings, all parameters, all schedules of the parallel runs", "why_tests_cant": "a relation between two runs for all frames and all reorderings; tests can only compare a few shuffles", "anchors": ["phik/binning.py:bin_data", "phik/binning.py:hist2d", "phik/phik.py:phik_matrix", "phik/phik.py:global_phik_array", "phik/significance.py:significance_matrix", "phik/outliers.py:outlier_significance_matrices", "phik/report.py:correlation_report", "phik/phik.py:phik_from_array"]}
{"id": "C67", "title": "An entry of a matrix depends on its own two columns only", "statement": "If two data frames both contain the columns a and b (same names, same values), then phik_matrix called on both with the same options lists a in both results or in neither, and gives the pair (a, b) the same correlation: other columns may be added, removed, reordered or changed, and a and b may come in another order. significance_matrix has the same property for the asymptotic method, and for the simulating methods if a and b come in the same order and their tables meet the same simulations. outlier_significance_matrices gives the pair a:b the same matrix, labels included, in both calls, for all pairs or selected ones, and it is the one outlier_significance_matrix gives for the frame with these two columns only.", "quantifier": "all pairs of frames sharing two columns, all options whose bins give edges or a number for every interval column, all schedules; for outliers: ascending edges or numbers of bins, names without colons", "why_tests_cant": "relates two runs on arbitrary frames; tests compare a few frames", "anchors": ["phik/phik.py:phik_matrix", "phik/phik.py:_calc_phik", "phik/significance.py:significance_matrix", "phik/binning.py:bin_data", "phik/data_quality.py:dq_check_nunique_values", "phik/outliers.py: outlier_significance_matrices"]}
{"id": "C68", "title": "The scale of an interval variable does not matter", "statement": "If interval columns are given on another scale, the results stay the same: with quantile bins any strictly increasing transformation of a column's values, with equal-width bins any shift, and with explicit bin edges any strictly increasing transformation applied to the values and the edges alike leave the binned frame of bin_data, the table of hist2d and the results of phik_matrix, global_phik_array and (not for quantile bins, which it does not offer) significance_matrix unchanged, including exceptions and warnings. outlier_significance_matrix and outlier_significance_matrices, when they return for both, give the same values cell by cell (the labels name the edges) and the same warnings. A change of the unit with equal-width bins is not covered: the first edge is moved by the fixed amount 1e-14, so a value next to an edge can change its bin.", "quantifier": "all frames, all increasing transformations, all options; computed edges in exact arithmetic", "why_tests_cant": "relates two runs for every frame and every increasing function", "anchors": ["phik/binning.py:bin_edges", "phik/binning.py:bin_array", "phik/binning.py:bin_data", "phik/binning.py:hist2d", "phik/phik.py:phik_matrix", "phik/phik.py:global_phik_array", "phik/significance.py:significance_matrix", "phik/outliers.py: outlier_significance_matrices"]}
{"id": "C69", "title": "False alarms of the Monte-Carlo method", "statement": "If the observed value of the test statistic and the n simulated ones are exchangeable (no correlation; in particular independent with the same law), the probability that significance_from_chi2_MC reports a p-value of at most alpha is at most (2 alpha n + 2)/(n + 1); if ties have probability zero, a p-value of at most k/n has probability exactly (k + 1)/(n + 1). The p-value is therefore not conservative: it is 0 with probability 1/(n + 1) rather than never, and if all values are equal it is below one half with certainty. In particular, the bound holds if the records of one variable are shuffled at random and the simulated tables come from the fixed-margin sampler with independent uniform random numbers, for chi2 and any other statistic.", "quantifier": "all numbers of simulations, all thresholds, all exchangeable laws of the values", "why_tests_cant": "a statement about probabilities, for all laws; a test sees a finite sample from one law", "anchors": ["phik/significance.py:significance_from_chi2_MC", "phik/simulation.py:sim_2d_data_patefield", "phik/simcore/asa159.cpp:rcont2"]}
{"id": "C70", "title": "Repeated records", "statement": "Repeating every record k times multiplies the chi2 of a table by k and leaves phik without noise correction unchanged (phik_from_hist2d, and phik_matrix with equal-width or explicit bins), for tables that are not two by two: phik measures the strength of a correlation and not the amount of data. This needs a root finder whose answer does not depend on the scale of the function; for any root finder with the documented tolerance phik of a table that is square or has two rows or two columns changes by no more than twice the tolerance. For two by two tables, where the Yates correction depends on the amount of data, it fails: two identical binary columns with one record in each category have phik 0, and a positive phik if the records are repeated.", "quantifier": "all tables that are not two by two, all frames, all k, all options without noise correction, all schedules", "why_tests_cant": "relates two runs on every table and every k", "anchors": ["phik/phik.py:phik_from_hist2d", "phik/phik.py:phik_matrix", "phik/statistics.py:get_chi2_using_dependent_frequency_estimates", "phik/bivariate.py:phik_from_chi2"]}
{"id": "C71", "title": "Monotonicity in chi2, and the effect of the noise correction", "statement": "For a fixed grid phik_from_chi2 does not decrease with chi2 and does not increase with the noise pedestal, up to twice the tolerance of the root finder. Hence the noise correction never raises phik of a table by more than that tolerance; and it fades with more data: if the records of a table that is not two by two are repeated k times, phik with noise correction approaches phik without it, up to the tolerance, as k grows.", "quantifier": "all tables built from data that are square or have two rows or two columns, the true bivariate normal integrals, all root finders with the documented tolerance", "why_tests_cant": "an inequality between two runs for every table, and a limit", "anchors": ["phik/bivariate.py:phik_from_chi2", "phik/phik.py:phik_from_hist2d", "phik/statistics.py:estimate_simple_ndof"]}
{"id": "C72", "title": "The global correlation is the best linear one", "statement": "If the phik matrix is positive definite, the global correlation of a column is the highest possible correlation, with phik for the pairwise correlations, between the column and a linear combination of the other columns: no combination has a higher one, and some combination attains it. So it is not less than any phik of the column, and adding columns to the frame never lowers it.", "quantifier": "all positive definite phik matrices of all sizes, all linear combinations, all frames with more columns", "why_tests_cant": "a supremum over all linear combinations, for all matrices", "anchors": ["phik/phik.py:global_phik_from_rebinned_df", "phik/phik.py:global_phik_array"]}
{"id": "C73", "title": "Averages over uncorrelated data", "statement": "If the values of one of two variables are shuffled at random, or a table is drawn with the fixed-margin (hypergeometric) sampler, the average count of a cell is its expected frequency (row total times column total over N), and the average of Pearson's chi2 is exactly (r-1)(c-1) N/(N-1) for r by c categories, unless the table is two by two. So the noise pedestal that phik subtracts is the average chi2 of uncorrelated data with the same totals, times (N-1)/N.", "quantifier": "all records, all numbers of categories, all statistics of the table; sampler in exact arithmetic with ideal random numbers", "why_tests_cant": "an exact average over all N! shuffles, for every N and every choice of totals", "anchors": ["phik/statistics.py:estimate_simple_ndof", "phik/statistics.py:get_chi2_using_dependent_frequency_estimates", "phik/simulation.py:sim_2d_data_patefield", "phik/simcore/asa159.cpp:rcont2"]}
{"id": "C74", "title": "Distribution of the multinomial samplers", "statement": "If numpy's binomial generator is ideal (independent binomial variables), then a table sampled with simulation_method 'multinominal' has exactly the multinomial distribution with the shares of the cells in the given table, and one sampled with a product method is one independent multinomial draw for every row (method named after columns) or column. Every cell has on average its content in the given table. The values returned by sim_chi2_distribution are independent, each with the distribution of the statistic of such a sample of the expected frequencies, in any order of the workers.", "quantifier": "all tables of counts, all sampled tables, all lists of returned values, any number of simulations and order of workers; ideal binomial generator", "why_tests_cant": "a probability law for every outcome of a random generator, not visible in any finite sample", "anchors": ["phik/simulation.py:sim_2d_data", "phik/simulation.py:sim_2d_product_multinominal", "phik/simulation.py:sim_data", "phik/simulation.py:sim_chi2_distribution"]}
{"id": "C75", "title": "Distribution of the Monte-Carlo p-value", "statement": "With an ideal binomial generator the number of simulated test statistics above (or not below) the observed one is binomial: nsim trials with the true probability, under independence with the observed row and column totals as expectations, of a statistic above (not below) the observed one. Hence the chance that the 'MC' p-value of significance_from_hist2d is at most k/nsim lies between the two binomial distribution functions at k.", "quantifier": "all tables of data with at least two rows, all multinomial methods, three statistics (Pearson, log-likelihood, Cressie-Read), all nsim and k, all orders of the workers; ideal binomial generator", "why_tests_cant": "a probability law of the p-value for all tables and numbers of simulations", "anchors": ["phik/significance.py:significance_from_chi2_MC", "phik/significance.py:significance_from_hist2d", "phik/simulation.py:sim_chi2_distribution"]}
{"id": "C76", "title": "More and more simulations", "statement": "With an ideal binomial generator, when the number of simulations grows the 'MC' p-value of significance_from_hist2d exists for every number of simulations and converges, with probability one, to the probability (under independence with the observed totals as expectations) of a statistic above the observed one plus half the probability of one equal to it; and estimate_ndof of the simulated values converges to the expectation of the statistic. The limit is therefore not P(statistic >= observed): on discrete tables it is smaller by half the probability of a tie.", "quantifier": "all tables of data with at least two rows, all multinomial methods, three statistics (Pearson, log-likelihood, Cressie-Read), all orders of the workers; almost every outcome of an ideal binomial generator", "why_tests_cant": "a limit with probability one over infinite sequences of random draws", "anchors": ["phik/significance.py:significance_from_chi2_MC", "phik/significance.py:significance_from_hist2d", "phik/simulation.py:sim_chi2_distribution", "phik/statistics.py:estimate_ndof"]}
{"id": "C77", "title": "The other test statistics", "statement": "With lambda_ 'cressie-read', 'freeman-tukey', 'neyman' or 'mod-log-likelihood' the chi2 computation gives the textbook statistic of the table without its empty rows and columns (for Freeman-Tukey four times the summed squared differences of the square roots, for Neyman the squared deviations over the observations), with the continuity correction for two by two; it is non-negative and zero exactly for tables that are the product of their margins (two by two: within one half of it). For the last three an empty cell between non-empty rows and columns of a larger table gives NaN or infinity, not an error or a finite value. The Cressie-Read statistic of every table is at least 3/5 of the likelihood ratio and at most 6/5 of Pearson's chi2, and the likelihood ratio is at most twice Pearson's.", "quantifier": "all non-negative tables with positive total", "why_tests_cant": "an identity and an inequality over all tables", "anchors": ["phik/statistics.py:get_chi2_using_dependent_frequency_estimates"]}
{"id": "C78", "title": "Categories that do not occur (violated)", "statement": "Columns of pandas' categorical dtype give the same phik as plain columns with the same entries. This holds when every category occurs in a record with a value in both columns. It fails when a category does not occur: the table gets rows or columns of zeros, which leave chi2 unchanged but count in the shape phik compares it with. Then a column with three or more occurring categories and its copy have phik below 1 instead of 1, a pair that gives NaN as plain columns can give 0, and a pair without a common record makes the whole call raise ValueError instead of giving NaN. In every other case phik_from_rebinned_df returns the symmetric labelled matrix whose entries are phik of the table over all categories, a number in [0,1].", "quantifier": "all frames of plain and categorical columns with distinct names, all entries and category lists (unordered, with or without categories that occur), all schedules, all drop flags, with dropna=True", "why_tests_cant": "The set of category lists and entries is unbounded, and the deviation depends on the true integrals and the root finder.", "anchors": ["phik/phik.py:phik_from_rebinned_df", "phik/phik.py:_calc_phik", "phik/phik.py:phik_from_hist2d", "phik/statistics.py:get_chi2_using_dependent_frequency_estimates", "phik/statistics.py:estimate_simple_ndof"]}
{"id": "C79", "title": "Categories that do not occur and the significance (violated)", "statement": "The significance of two columns should depend on the records only, so declaring a category that no record has should not change it. Violated: chi2 is unchanged, but the asymptotic method counts a row or column for every declared category, so the p-value is strictly larger and Z strictly smaller than for plain columns with the same entries; this holds already for a column and its own copy. The significance matrix of a frame of plain and categorical columns is labelled with the columns, symmetric and holds for every pair the significance of the table over all categories; with the asymptotic method it exists whenever every two columns share a record.", "quantifier": "all tables of counts, all pairs of columns with categorical dtype, all frames, both flow flags, all numbers of degrees of freedom", "why_tests_cant": "all tables, categories and chi2 values; the comparison rests on a strict inequality between chi2 distributions for all degrees of freedom", "anchors": ["phik/significance.py:significance_from_chi2_asymptotic", "phik/significance.py:significance_from_rebinned_df", "phik/statistics.py:theoretical_ndof", "phik/binning.py:hist2d_from_rebinned_df"]}
{"id": "C80", "title": "Bin edges given by the caller (violated in two ways)", "statement": "chi2_from_phik and phik_from_chi2 accept bin edges instead of numbers of bins. For edges symmetric around zero, chi2 is the curve of exactly that grid, phik is 0 below the pedestal, 1 at the maximum and otherwise the root of that curve, and the two functions are inverse to each other (unconditionally when both axes use the same edges, of any widths). phik_from_chi2 raises ValueError for a negative pedestal or for edges without the number of bins. Violated: chi2_from_phik with edges and the numbers of bins left at their default returns values that are never positive (-2n for correlation 1); and with edges that are not symmetric around zero the sum is not over the cells of the grid.", "quantifier": "all edges, numbers of bins, record counts, pedestals, correlations and chi2 values", "why_tests_cant": "all real-valued edges and parameters", "anchors": ["phik/bivariate.py:chi2_from_phik", "phik/bivariate.py:phik_from_chi2", "phik/bivariate.py:_mvn_array", "phik/bivariate.py:bivariate_normal_theory"]}
{"id": "C81", "title": "The names of the columns are only labels (violated for arrays)", "statement": "Renaming the columns of a DataFrame, with the names in interval_cols, bins and combinations changed in the same way, changes nothing but the labels: bin_data, hist2d, phik_matrix, phik_from_rebinned_df, global_phik_array, significance_matrix, significance_from_rebinned_df, outlier_significance_matrix and outlier_significance_matrices return the same numbers in the same order under the new labels or raise the same exception, issue the same warnings about the renamed columns, and leave the same frames behind. The same holds for the names of two Series in phik_from_array, significance_from_array, outlier_significance_from_array and hist2d_from_array. hist2d_from_array is hist2d of the DataFrame of the two arrays. Violated: num_vars=['x'], as documented, is a KeyError when the array is a Series with another name; and hist2d_from_array of a list of numbers beside a list of strings bins nothing and counts missing values as a category.", "quantifier": "all frames, injective renamings, arguments, schedules of the workers and prior states", "why_tests_cant": "all frames and all renamings, including ones that change the alphabetical order", "anchors": ["phik/binning.py:bin_data", "phik/binning.py:hist2d", "phik/binning.py:hist2d_from_array", "phik/binning.py:create_correlation_overview_table", "phik/utils.py:array_like_to_dataframe", "phik/phik.py:phik_matrix", "phik/significance.py:significance_matrix", "phik/outliers.py:outlier_significance_matrices"]}
{"id": "C82", "title": "Infinite values in a column (violated for automatic bins)", "statement": "With sorted bin edges, finite or infinite, an infinite value is treated like any other by bin_array: it is 'UF' when it is not above the first edge (minus infinity always is), 'OF' when it is above the last edge, and otherwise in the bin (low, high] that contains it. In bin_data the same holds entry by entry, and in a column that is not an interval variable an infinity is a category like any other: exchanging it for an unused string does not change phik_matrix. Without infinite values in the data, edges and strings, nothing depends on how infinities are handled. Violated for automatic bins: one infinite value in an interval column makes every other value of the column an underflow as well, for every number of bins; phik_matrix then silently gives NaN for the column with every other column (unless missing values and underflows are both kept and the column has missing values).", "quantifier": "all columns of finite, infinite and missing values, all sorted edges, all numbers of bins, all frames and flags; uniform bins", "why_tests_cant": "all columns and all numbers of bins; numpy's search re-uses its bounds from value to value, so the result for one value could depend on the ones before", "anchors": ["phik/binning.py:bin_edges", "phik/binning.py:bin_array", "phik/binning.py:bin_data", "phik/data_quality.py:dq_check_nunique_values", "phik/phik.py:phik_matrix"]}
{"id": "C83", "title": "Coarser categories or bins never raise the test statistic (phik may rise)", "statement": "If categories of either variable are taken together, or inner bin edges are left out, the test statistic of the contingency table (any of the six) does not increase: whenever it is a number for the finer table it is a number for the coarser one, not negative and not larger, including the continuity correction of two by two tables and whatever the treatment of missing, underflow and overflow records; if hist2d returns with the finer edges it returns with the coarser ones. If the categories taken together have the same profile (each cell its expected share) and neither table is two by two, the statistic does not change at all. phik, in contrast, may rise when categories are taken together, even from below 1 to exactly 1 with an unchanged chi2, because it also depends on the numbers of categories.", "quantifier": "all non-negative tables with a positive total, all maps of the rows and of the columns, all six statistics (and unknown names); all columns and maps of their values; all sorted edges and sublists of them with the same ends; all flags", "why_tests_cant": "An inequality between the statistics of every table and every coarser version of it (convexity), with special cases for two by two tables and empty cells.", "anchors": ["phik/statistics.py:get_chi2_using_dependent_frequency_estimates", "phik/binning.py:hist2d_from_rebinned_df", "phik/binning.py:hist2d", "phik/binning.py:bin_data", "phik/binning.py:bin_array", "phik/phik.py:phik_from_hist2d"]}
{"id": "C84", "title": "phik of a growing sample converges to phik of the distribution", "statement": "If the records of a data frame are independent draws from one distribution, then with probability one the phik values converge, as the number of records grows, to a number between 0 and 1 that depends on the joint distribution of the two (binned) variables only, up to the root finder's tolerance of 1e-5: the correlation whose binned bivariate normal has the same share of the maximal chi2 distance from independence as the distribution has of the maximal mean square contingency. The number is 0 exactly if the variables are independent and 1 exactly if one determines the other. Noise correction, continuity correction, labels, other columns and records with missing entries make no difference in the limit. chi2 per record converges to the mean square contingency, the likelihood-ratio statistic per record to twice the mutual information. This also holds for columns binned in a given number of equal bins, whose edges are computed from the data, if the variables have finitely many values: the limit is that of the bins between the smallest and the largest possible value. The same holds for bins between the sample quantiles (quantile=True) when the distribution has unique quantiles of the orders used: the limit is that of the bins between the quantiles of the distribution.", "quantifier": "all joint distributions of two variables with finitely many values, all label names, all proportions of missing records, all frames containing the two columns, all flags and schedules, with given bin edges or categorical columns; convergence to the unique value for grids on which the normal distance grows with the correlation (proved for square grids and grids with two rows or columns), to the solution set of the equation for all grids", "why_tests_cant": "the claim is about the limit of infinitely many records and holds with probability one; a simulation sees one finite sample", "anchors": ["phik/phik.py:phik_from_hist2d", "phik/phik.py:phik_from_rebinned_df", "phik/phik.py:phik_matrix", "phik/bivariate.py:phik_from_chi2", "phik/statistics.py:get_chi2_using_dependent_frequency_estimates", "phik/binning.py:bin_data", "phik/binning.py:bin_edges"]}
{"id": "C85", "title": "A dependence becomes significant with ever more records", "statement": "If the records of a data frame are independent draws from a distribution in which two (binned) variables are not independent, then with probability one the asymptotic significance of the two variables exceeds every bound once there are enough records: it is never NaN, whether the statistic is Pearson's chi2, the likelihood ratio or that of Cressie and Read, and it makes no difference whether the p-value underflows to 0 (the fallback formula then takes over) or not, which labels, other columns or incomplete records there are, or whether the continuity correction applies. This also holds for columns binned in a given number of equal bins, whose edges are computed from the data, if the variables have finitely many values: the limit is that of the bins between the smallest and the largest possible value.", "quantifier": "all joint distributions of two variables with finitely many values that are not independent, all label names, all proportions of missing records, all frames that contain the two columns, all flags, given bin edges or categorical columns, all distribution functions with the stated contract including those that underflow, all bounds", "why_tests_cant": "the claim is about the limit of infinitely many records and holds with probability one; a simulation sees one finite sample and cannot show that no plateau, NaN or exception occurs where the p-value underflows", "anchors": ["phik/significance.py:significance_from_chi2_ndof", "phik/significance.py:significance_from_chi2_asymptotic", "phik/significance.py:significance_from_hist2d", "phik/significance.py:significance_from_rebinned_df", "phik/significance.py:significance_matrix", "phik/statistics.py:get_chi2_using_dependent_frequency_estimates"]}
{"id": "C86", "title": "The asymptotic p-values of independent variables are right", "statement": "If the records are independent draws in which two (binned) variables are independent, the distribution of each of the six test statistics tends to the chi2 distribution with (r-1)(c-1) degrees of freedom, the number theoretical_ndof returns, as the number of records grows; so the asymptotic p-value is at most alpha with a probability that tends to alpha, and the asymptotic significance exceeds z with a probability that tends to the standard normal tail probability of z, in significance_from_hist2d and, for the statistics that are finite for tables with empty cells, in the entries of significance_from_rebinned_df and significance_matrix. The continuity correction of 2x2 tables and incomplete records make no difference in the limit. This also holds for columns binned in a given number of equal bins, whose edges are computed from the data, if the variables have finitely many values: the limit is that of the bins between the smallest and the largest possible value.", "quantifier": "all joint distributions of two independent variables with finitely many (two or more) values, all label names, all proportions of missing records, all frames that contain the two columns, all flags, given bin edges or categorical columns, all six statistics, all alpha in (0,1) and all z", "why_tests_cant": "the claim is about the limit distribution over all samples of infinitely many records; a simulation estimates the rate for one distribution, one alpha and one finite number of records, with noise", "anchors": ["phik/statistics.py:get_chi2_using_dependent_frequency_estimates", "phik/statistics.py:theoretical_ndof", "phik/significance.py:significance_from_chi2_ndof", "phik/significance.py:significance_from_chi2_asymptotic", "phik/significance.py:significance_from_hist2d", "phik/significance.py:significance_from_rebinned_df", "phik/significance.py:significance_matrix"]}
{"id": "C87", "title": "significance_matrix returns", "statement": "significance_from_rebinned_df and significance_matrix return for every frame with distinct column names (for significance_matrix: whose interval columns hold numbers and missing values, with edges or a non-negative number of bins for each of them), with the asymptotic method for Pearson's, the likelihood ratio and the Cressie-Read statistic and with the Monte-Carlo method for the multinomial samplers (and the hypergeometric one for frames of up to 46340 records) and the first two statistics, whatever the random draws: no pair of columns, however few records or categories it shares, makes the call fail. The rows are the columns that pass the quality check; an entry is NaN exactly for two columns whose common records have fewer than two values in one of them.", "quantifier": "all frames, all interval columns, all bins, all flags, all draws and schedules, all distribution functions with the stated contract whose tail probabilities are rounded to 0 only where the Chernoff fallback can be evaluated", "why_tests_cant": "one pair of columns in one frame that raises loses the whole matrix; the pairs, flags and draws cannot be enumerated", "anchors": ["phik/significance.py:significance_matrix", "phik/significance.py:significance_from_rebinned_df", "phik/significance.py:significance_from_hist2d", "phik/significance.py:significance_from_chi2_ndof", "phik/binning.py:bin_data", "phik/data_quality.py:dq_check_nunique_values"]}
{"id": "C88", "title": "Rounding errors of the Pearson statistic and of phik's pedestal", "statement": "In floating point arithmetic, with additions in any order, get_chi2_using_dependent_frequency_estimates still returns a number for every table of counts (scipy's check of the sums, relative tolerance 1e-8, never fires, a table without records is still rejected), and the square root of the computed chi2 differs from the square root of the exact one by at most (D+8) 2^-53 times its value plus 2^-48 times the square root of the number of records, D being the longest chain of additions; so computations of the same table on machines that add in different orders, or of the table with rows and columns permuted or swapped, agree to twice that. estimate_simple_ndof is exact. phik_from_hist2d with the rounded chi2 is a number of [0,1] that solves the equation for the rounded chi2; for an exactly independent table it is exactly 0 with noise correction, and with at most 2^26 records the computed chi2 itself is exactly 0. It is not true that phik of two equal columns is computed as exactly 1: with three categories of five records each the computed chi2 is below its maximum and the root finder decides.", "quantifier": "all tables of counts with at most 2^52 records and at most 2^26 cells, with or without empty rows and columns, all orders of the additions, all monotone roundings with relative error 2^-53 that are exact for half-integers, binary64 included", "why_tests_cant": "tests compare a few tables with a tolerance on one machine with one numpy version; they cannot show that no table, no summation order and no processor makes the check of the sums fire or the error exceed the bound", "anchors": ["phik/statistics.py:get_chi2_using_dependent_frequency_estimates", "phik/statistics.py:estimate_simple_ndof", "phik/phik.py:phik_from_hist2d"]}
{"id": "C89", "title": "Repeated column names", "statement": "phik_matrix, global_phik_array, significance_matrix, outlier_significance_matrix, outlier_significance_matrices and correlation_report raise ValueError for every data frame in which two columns have the same name, before any data frame is changed or created; for other frames they do what the remaining properties say. phik_from_rebinned_df has no such check: if all columns have the same name it returns a matrix of ones whatever the columns contain (the names are compared, not the columns), and if a repeated name occurs together with another name it always raises.", "quantifier": "all data frames, all options, all lists of interval columns, all numerical libraries, all orders in which parallel workers finish", "why_tests_cant": "the check that stops repeated names is a side effect of the truth value of a pandas object in three different loops; a test on one frame cannot show that every frame with a repeated name, interval or not, is stopped by one of them", "anchors": ["phik/data_quality.py:dq_check_nunique_values", "phik/phik.py:phik_from_rebinned_df", "phik/phik.py:_calc_phik", "phik/phik.py:phik_matrix", "phik/report.py:correlation_report"]}
{"id": "C90", "title": "Files of the package", "statement": "resources.fixture(name) and resources.notebook(name) return the path of the file with this name in the data (notebook) directory of the package if the file was there when the module was imported and is there now (and, for notebooks, the name ends in .ipynb), and raise FileNotFoundError in all other cases; files added after the import are not found, removed files are not found, files that are put back are found again; no name leads out of the directory.", "quantifier": "all contents of the disk at import, all sequences of later creations and removals, all names", "why_tests_cant": "tests see one history of the disk and a few names", "anchors": ["phik/resources.py:fixture", "phik/resources.py:notebook", "phik/resources.py:_resource"]}
{"id": "C91", "title": "Number of simulated records in floating point arithmetic", "statement": "For every table of counts with at least one and at most 2^39 records and at most 2^26 cells, in every arithmetic whose operations round with relative error 2^-53, with every order of the additions and for all results of the random generators: a data set simulated with 'multinominal' (as the Monte Carlo significance does) never fails, has the shape of the table, no negative entry, and either as many records as the table or exactly one less; exactly as many with alt_hypothesis=True; a cell of expectation 0 gets no record unless it is the last cell. The product methods keep the totals of the columns (rows) up to one missing record in each, exactly with alt_hypothesis=True, and raise ValueError if one of these totals is 0. 'hypergeometric' gives the result of exact arithmetic. The missing record and records in an empty last cell do happen in binary64 arithmetic.", "quantifier": "all tables within the sizes, all rounding functions, all orders of addition, all random draws, both hypotheses", "why_tests_cant": "the number of records is the truncation of a rounded sum: whether it is off by one depends on the table and on the order of the additions, and a test on some tables cannot exclude that it is off by more or that numpy refuses the probabilities because their rounded sum is above 1", "anchors": ["phik/simulation.py:sim_2d_data", "phik/simulation.py:sim_2d_product_multinominal", "phik/simulation.py:sim_2d_data_patefield", "phik/simulation.py:sim_data", "phik/simulation.py:sim_chi2_distribution"]}
{"id": "C92", "title": "phik against Cram\u00e9r's V", "statement": "With exact bivariate normal integrals, phik of every square contingency table built from data (k by k, no empty row or column) is at least Cram\u00e9r's V of the table (with the noise pedestal subtracted from chi2 and from its maximum when noise correction is on) and at most 1.001 \u221a(k-1) / (variance of a normal variable binned in k bins on [-5, 5]) times it, up to the tolerance 1e-5 + 4\u00b72^-52 of the root finder; without noise correction in particular V \u2264 phik \u2264 5.01 \u221a(chi2/N) up to the tolerance, for every number of categories. Consequence (violated expectation): two independent binary variables with m records in every cell have phik exactly 0, and one single further record with a new value of both variables makes phik at least 0.69, for every m from 25, with and without noise correction.", "quantifier": "every k \u2265 2, every k by k table of counts without empty rows and columns, noise correction on and off, every root finder that meets the bracketing contract", "why_tests_cant": "the bound must hold for every table of every size; it rests on Gebelein's inequality for all pairs of normal variables, and a test checks a few tables with rounded integrals", "anchors": ["phik/phik.py: phik_from_hist2d", "phik/bivariate.py: phik_from_chi2, bivariate_normal_theory, _mvn_array, chi2_from_phik", "phik/statistics.py: get_chi2_using_dependent_frequency_estimates"]}
{"id": "C93", "title": "phik is stable against small changes of chi2 and against rounding errors", "statement": "With exact bivariate normal integrals and a k by k table, two values of chi2 for the same number of records give values of phik that differ by at most \u221a(26 (k-1) |\u0394chi2| / (chi2_max - pedestal)) and, without pedestal, by at most 5.01 |\u0394\u221achi2| / \u221an, besides twice the tolerance 1e-5 of the root finder. Therefore phik computed in floating point (any rounding with relative error 2^-53, any order of summation of depth D) differs from phik in exact arithmetic by at most twice the tolerance plus 5.01 ((D+8) 2^-53 \u221a(k-1) + 2^-48) without, and \u221a(78 (k-1) N/(N-(k-1)) (D+40) 2^-53) with noise correction; exchanging the two variables moves it by at most twice that.", "quantifier": "every k \u2265 2, every pair of values of chi2, every table of counts without empty rows and columns (at most 2^52 records and 2^26 cells), every rounding, every summation order, noise correction on and off", "why_tests_cant": "the inverse of the theoretical curve could have an arbitrarily steep place for some shape or some chi2; only a bound for all of them excludes it", "anchors": ["phik/bivariate.py: phik_from_chi2", "phik/phik.py: phik_from_hist2d", "phik/statistics.py: get_chi2_using_dependent_frequency_estimates, estimate_simple_ndof"]}
{"id": "C94", "title": "The outlier significance finds every over- and under-represented combination in a large enough sample", "statement": "For independent draws of records, with columns that are not binned, binned with given edges, or (for variables with finitely many values) binned automatically in equal bins or between sample quantiles: if the combination of a category of the first and a category of the second variable is more frequent among the complete records than the product of the frequencies of the two categories, and at least one of the two also occurs in another combination, then almost surely the outlier significance of that combination, in the matrix of the first n records under the names of the two categories, exceeds every bound for all n large enough (and the p-value tends to 0). If the combination is less frequent than the product, and some complete records have neither category, the significance falls below every bound (and the p-value tends to 1).", "quantifier": "every joint distribution of finitely many categories, every combination, every proportion of incomplete records, all flags and edges, both CI methods, almost every sequence of records, every bound; also every sequence of tables whose proportions converge", "why_tests_cant": "it is a limit statement about all sample sizes and all distributions; a wrong uncertainty of the expectation or a p-value of the wrong side would only show in the rate for a single sample", "anchors": ["phik/outliers.py: outlier_significance_matrix, outlier_significance_matrix_from_rebinned_df, outlier_significance_matrix_from_hist2d, get_independent_frequency_estimates, poisson_obs_mid_p, poisson_obs_mid_z"]}
{"id": "C95", "title": "The outlier significance of an ordinary combination is standard normal for large samples", "statement": "For independent draws of records, with columns that are not binned, binned with given edges, or (for variables with finitely many values) binned automatically in equal bins or between sample quantiles: if the combination of a category of the first and a category of the second variable is exactly as frequent among the complete records as the product of the frequencies of the two categories, then almost surely the outlier matrix of the first n records has a number Z_n for that combination, for all n large enough, and for every z0 the probability that Z_n exceeds z0 tends to the probability that a standard normal variable exceeds z0. So for independent variables the significances have the false-alarm rate they claim, cell by cell, and the probability that any of the r*c combinations exceeds z0 is in the limit at most r*c times the normal tail. The significances of all such combinations together are jointly asymptotically normal: the probability that they all stay below given bounds tends to that of explicit linear combinations of independent standard normal variables; for two independent variables with two categories each, the probability that any of the four significances exceeds z0 tends to the probability that a standard normal variable exceeds z0 in absolute value.", "quantifier": "every joint distribution of finitely many (at least two and two) categories, every combination with the frequency of independence (the other combinations are arbitrary), every proportion of incomplete records, all flags and edges, both CI methods, every z0", "why_tests_cant": "a statement about the distribution of the result over all samples in the limit of their size; a simulation sees one distribution, one size and a statistical error, and a wrong variance of the expectation by a constant factor would pass most of them", "anchors": ["phik/outliers.py: outlier_significance_matrix, outlier_significance_matrix_from_rebinned_df, outlier_significance_matrix_from_hist2d, get_independent_frequency_estimates, get_outlier_significances, get_poisson_uncertainty, poisson_obs_mid_p, poisson_obs_mid_z, poisson_obs_p"]}
{"id": "C96", "title": "Neither order nor names of the categories matter for outliers", "statement": "If the rows and columns of a contingency table are put in another order, its outlier p-values and Z-values are the same ones in that order; if the table is transposed, they are transposed. Hence outlier_significance_matrix of a frame with the two columns exchanged is NaN whenever it was NaN before and otherwise the transposed matrix, labels included, and the same holds for the entries 'a:b' and 'b:a' of two results of outlier_significance_matrices; and if the values of a column that is not binned are renamed one-to-one, the rows are labelled with the new names and every cell keeps its value.", "quantifier": "all tables, all permutations, all frames with distinct column names and bins given as ascending edges or numbers, all one-to-one renamings that keep missing values and avoid the markers UF, OF, NaN, both CI methods, all flags, all numerical libraries", "why_tests_cant": "the expectation of a cell is computed from three sums that change their roles under the exchange; only an argument for all tables and all permutations shows that no place depends on the order", "anchors": ["phik/outliers.py: get_independent_frequency_estimates", "phik/outliers.py: outlier_significance_matrix", "phik/outliers.py: outlier_significance_matrices"]}
{"id": "C97", "title": "The functions of two arrays do not depend on the order of the arrays", "statement": "If the two arrays given to phik_from_array or phik_from_binned_array, or to significance_from_array or significance_from_binned_array with the asymptotic method, are exchanged (and with them the names in num_vars and bins), the result is the same, exceptions included; hist2d_from_array returns the transposed table with the bins of every variable unchanged, and outlier_significance_from_array raises in both orders, returns NaN in both orders or returns the transposed matrix. Exception (finding): when the interval variables are guessed and bins is a dictionary with an unsupported entry, one order raises UnboundLocalError and the other bins that variable with the edges of the other one.", "quantifier": "all pairs of arrays of numbers, strings and missing values of any length, with the names 'x' and 'y' or any two distinct Series names, all num_vars, interval_cols and bins, all flags, both CI methods, all numerical libraries whose bivariate normal integral is correct", "why_tests_cant": "the order decides which column is binned first, which labels are rows and which marginal is fixed in every sum on the way; tests exchange a few arrays, the claim needs symmetry of every step for all inputs", "anchors": ["phik/phik.py: phik_from_array", "phik/phik.py: phik_from_binned_array", "phik/significance.py: significance_from_array", "phik/significance.py: significance_from_binned_array", "phik/binning.py: hist2d_from_array", "phik/binning.py: bin_data", "phik/outliers.py: outlier_significance_from_array", "phik/utils.py: array_like_to_dataframe"]}
{"id": "C98", "title": "Incomplete records do not matter for a pair of variables (violated for automatic bins)", "statement": "With dropna=True, an entry of phik_matrix, of significance_matrix (asymptotic method, or the same simulations) and of outlier_significance_matrices, and the table of hist2d, depend on the two variables only through the records in which both are present, in any order: records in which one of the two is missing may be added, removed or changed, in whatever other columns they have values, as long as both variables pass the quality check in both frames and the bins do not change (the variable is not binned, or edges are given, or its present values are the same). With automatic bins it fails: a record that is left out because the other variable is missing still stretches the bins, and the table of the remaining records can lose a row.", "quantifier": "all pairs of frames with any columns and row numbers, all orders of records, all flags besides dropna, all bins, all schedules, both CI methods", "why_tests_cant": "tests compare a frame with and without a few missing values; the claim needs that no step (quality check, binning, replacement of markers, counting) lets an incomplete record influence the count of a complete one, for all frames", "anchors": ["phik/phik.py: phik_matrix", "phik/phik.py: phik_from_rebinned_df", "phik/significance.py: significance_matrix", "phik/outliers.py: outlier_significance_matrices", "phik/binning.py: hist2d", "phik/binning.py: hist2d_from_rebinned_df", "phik/binning.py: bin_edges"]}
{"id": "C99", "title": "Rounding errors of the outlier significances", "statement": "In floating point arithmetic, with additions in any order, the outlier test still predicts exactly the cells it predicts in exact arithmetic (NaN otherwise); the expected frequencies have a relative error of at most 3 units of rounding (2^-53), their errors at most 10 with CI_method='poisson' (k+10 for a method whose uncertainties have a relative error of k units); the p-value of a cell with n records has a relative error of at most 74 n + k + 80 units if betainc has one of k units, however small the p-value is; a cell without neighbours has exactly the p-value 1/2 (empty) or 0. So two machines, or two versions of numpy, agree on the p-values to three times that, and the Z-value of an excess (p at most 1/2) has an absolute error of at most twice that plus the error of the normal quantile.", "quantifier": "all tables of counts of any shape with at most 2^52 records and (for the p-values) at most 900000 records in a cell, all cells, all orders of the additions, all monotone roundings with relative error 2^-53 that are exact for half-integers, all square roots, squares and incomplete beta functions within their error bounds", "why_tests_cant": "tests compare a few p-values with reference values; that no table makes the subtractions, the quotients tau and 1/(1+tau) or the incomplete beta function amplify the rounding errors needs bounds on the derivative of the incomplete beta function in both arguments, for all tables", "anchors": ["phik/outliers.py: get_independent_frequency_estimates", "phik/outliers.py: get_poisson_uncertainty", "phik/outliers.py: poisson_obs_p", "phik/outliers.py: poisson_obs_mid_p", "phik/outliers.py: poisson_obs_mid_z", "phik/outliers.py: get_outlier_significances", "phik/outliers.py: outlier_significance_matrix_from_hist2d"]}
{"id": "C100", "title": "More records around a combination (violated in two ways)", "statement": "Adding records to a table changes the outlier significance of a combination of values in the expected direction: more records in its own cell raise its Z-value and lower its p-value; more records elsewhere in its row or its column (which raise the expectation) lower its Z-value; more records outside its row and column (which lower the expectation) raise it. This holds for the cell itself always; for the row (column) if the row (column) already has records besides the cell; for the records elsewhere if the row or the column, but not both, has no records besides the cell. In the remaining cases the expected behaviour is violated: the first other record of the row can raise the Z-value (a cell with one record where none is expected can have a p-value above 0.999, so it is shown as a deficit), and a record elsewhere that halves the expectation can lower the Z-value.", "quantifier": "all tables of counts of any shape, all cells with records elsewhere and at least one other record in row or column, all numbers of added records; CI_method='poisson' (for the records of the cell itself, either CI_method), exact special functions", "why_tests_cant": "a test compares two tables; that no pair of tables reverses the order needs monotonicity of the incomplete beta function in its shape parameter and in its argument, and the violations lie at the border between the two branches of the code", "anchors": ["phik/outliers.py: outlier_significance_matrix_from_hist2d, get_independent_frequency_estimates, get_exact_poisson_uncertainty, get_poisson_uncertainty, poisson_obs_p, poisson_obs_mid_p, poisson_obs_mid_z"]}
{"id": "C101", "title": "The largest significance a number of records can have", "statement": "The log-likelihood statistic of n records (the default of significance_matrix) is at most 2 n log(1 + chi2/n) with Pearson's chi2, hence at most 2 n log k if one of the variables has k values that occur; two perfectly associated variables with k >= 3 equally frequent values attain this. Consequently the asymptotic p-value is at least 2 Phi(-sqrt(2 n log k)) and the asymptotic Z-value is below sqrt(2 n log k) (sqrt(n (k-1)) with lambda_='pearson'), whatever the data: for instance no pair with a binary column and at most 18 records shows a significance of 5. This holds for significance_from_hist2d and for every entry, also on the diagonal, of the matrix of significance_from_rebinned_df (k then counts the different entries of either column), for significance_from_binned_array, and for significance_matrix (k counts the different entries of a non-interval column; in any case Z stays below sqrt(2 n log n)).", "quantifier": "all non-negative tables with positive total; all frames, columns, options; exact chi2 and normal distribution functions", "why_tests_cant": "a test sees single tables; the bound is a statement about all tables of n records, including the two by two tables with continuity correction and tables with empty rows or columns", "anchors": ["phik/statistics.py: get_chi2_using_dependent_frequency_estimates, theoretical_ndof", "phik/significance.py: significance_from_chi2_asymptotic, significance_from_chi2_ndof, significance_from_hist2d, significance_from_rebinned_df"]}
{"id": "C102", "title": "How many records make a deviation from independence significant", "statement": "Let the deviation D of a table of n records be the sum of |observed - expected| over its cells (for two by two tables each difference reduced by scipy's continuity correction of 1/2, not below 0). Pearson's chi2 and the log-likelihood statistic are both at least D^2/n (some tables attain it). Hence the asymptotic p-value is at most 2^(dof/2) exp(-D^2/(4n)): a deviation of at least the fraction delta of the records is significant at level alpha (p <= alpha, Z >= the Z-value of alpha) as soon as n >= (4 log(1/alpha) + 2 dof log 2)/delta^2, and if every record occurs k times the p-value falls at least exponentially with k. D is zero only for independent tables (two by two: all differences at most 1/2). This holds for significance_from_hist2d and for each entry of significance_from_rebinned_df's matrix and for significance_from_binned_array, for lambda_ log-likelihood and pearson. For square tables of k categories phik is at least (D/n)/sqrt(k-1) without noise correction, and at least the root of (D^2/n - (k-1)^2)/(n(k-1) - (k-1)^2) with it (so at least half of (D/n)/sqrt(k-1) once n >= 4(k-1)^2/(3 (D/n)^2)), up to the root finder's tolerance.", "quantifier": "all non-negative tables with positive total and at least two rows and columns; all alpha, delta, numbers of copies; all frames, pairs of columns, options; exact chi2 and normal distribution functions", "why_tests_cant": "a test sees single tables; this guarantees the detection of every deviation of a given size in every table, with explicit numbers", "anchors": ["phik/statistics.py: get_dependent_frequency_estimates, get_chi2_using_dependent_frequency_estimates, theoretical_ndof", "phik/significance.py: significance_from_chi2_asymptotic, significance_from_chi2_ndof, significance_from_hist2d, significance_from_rebinned_df", "phik/phik.py: phik_from_hist2d"]}
{"id": "C103", "title": "The influence of a few records on the default test statistic", "statement": "Adding m records, in any cells and also with new values of the variables, changes the log-likelihood statistic of n complete records by at most 2 m (1 + log(n + m)), if neither contingency table is two by two (there scipy applies a continuity correction). Except for two by two the statistic equals twice the sum of x log x over cells and total less the same sum over row and column totals.", "quantifier": "all tables and all lists of records and further records (incomplete ones included) with at least one complete record", "why_tests_cant": "the bound is about all pairs of data sets that differ in m records; Pearson's statistic has no such bound (C92: one record takes it from 0 to n + 1)", "anchors": ["phik/statistics.py: get_chi2_using_dependent_frequency_estimates", "phik/binning.py: hist2d_from_rebinned_df"]}
