{"id": "C01", "title": "Pseudo-observations lie strictly inside the unit interval", "statement": "Every value returned by pseudo_obs is strictly greater than 0 and strictly less than 1, whichever of the five tie methods is used, so that log-densities and quantile transforms evaluated at pseudo-observations are never taken at a boundary.", "quantifier": "for every number of rows n >= 1, every data vector (with any pattern of ties), every tie method and every row index", "why_tests_cant": "The bound has to hold for all sample sizes and all tie patterns; a test only evaluates a few samples.", "anchors": ["copulae/core/misc.py:pseudo_obs", "copulae/core/misc.py:rank_data"]}
{"id": "C02", "title": "Pseudo-observations preserve order and ties", "statement": "If one observation is smaller than another in a column its pseudo-observation is strictly smaller; equal observations get equal pseudo-observations (for 'ordinal', the earlier row gets the smaller value).", "quantifier": "for every data vector, every pair of rows and every tie method", "why_tests_cant": "Quantifies over all pairs of all vectors and all tie layouts.", "anchors": ["copulae/core/misc.py:pseudo_obs", "copulae/core/misc.py:rank_data"]}
{"id": "C03", "title": "Pseudo-observations depend on the data only through its ranks", "statement": "Applying any strictly increasing function to a column leaves the pseudo-observations unchanged; the fitted copula therefore cannot depend on the marginal scale.", "quantifier": "for every data vector, every strictly increasing transformation and every tie method", "why_tests_cant": "The set of monotone transformations is infinite-dimensional.", "anchors": ["copulae/core/misc.py:pseudo_obs"]}
{"id": "C04", "title": "Pseudo-observations commute with reordering rows", "statement": "Permuting the rows of the data permutes the pseudo-observations in the same way for the tie methods average, min, max and dense; for 'ordinal' this holds when there are no ties.", "quantifier": "for every data vector, every permutation of the rows and the tie methods named", "why_tests_cant": "n! permutations for every n.", "anchors": ["copulae/core/misc.py:pseudo_obs", "copulae/core/misc.py:rank_data"]}
{"id": "C05", "title": "Rank mass is conserved and the tie methods agree without ties", "statement": "With tie method average or ordinal the pseudo-observations of a column of n values average exactly 1/2; when a column has no ties every tie method gives the same result and the result is a permutation of 1/(n+1), ..., n/(n+1).", "quantifier": "for every data vector; for the second part every tie-free data vector and every pair of tie methods", "why_tests_cant": "Aggregated identity over all vectors and all tie patterns.", "anchors": ["copulae/core/misc.py:pseudo_obs"]}
{"id": "C06", "title": "Computing pseudo-observations twice is the same as once", "statement": "pseudo_obs(pseudo_obs(x)) = pseudo_obs(x) for every tie method (the library re-ranks already ranked data in several places, e.g. log_lik with its default to_pobs=True). Re-ranking with a tie method different from the first one is not harmless: a witness where it changes the values exists.", "quantifier": "for every data vector and every tie method (same method both times)", "why_tests_cant": "All vectors and tie patterns; idempotence is a fixpoint property, not a value.", "anchors": ["copulae/core/misc.py:pseudo_obs", "copulae/copula/base.py:BaseCopula.log_lik", "copulae/copula/estimator/corr_inversion.py"]}
{"id": "C07", "title": "Parameter vector and correlation matrix are two views of the same thing", "statement": "Building a matrix from a vector of d(d-1)/2 correlations gives a d x d symmetric matrix with unit diagonal, and reading its strict lower triangle (in the order the library uses) gives the vector back; conversely every symmetric unit-diagonal matrix is rebuilt from its lower triangle. Vectors whose length is not of the form d(d-1)/2 are rejected.", "quantifier": "for every dimension d, every vector / every matrix, every length", "why_tests_cant": "All dimensions; unit tests check d = 2, 3.", "anchors": ["copulae/core/misc.py:create_cov_matrix", "copulae/core/misc.py:tri_indices"]}
{"id": "C08", "title": "Triangle indices enumerate each cell exactly once", "statement": "tri_indices(n, m, side) lists exactly the cells on or beyond the m-th diagonal of the requested side, each exactly once ('both' is upper followed by lower, so that for m = 0 it lists the diagonal twice); lower is the transpose of upper in the same order; an unknown side is an error.", "quantifier": "for every n, every offset m >= 0 and every side", "why_tests_cant": "All sizes and offsets.", "anchors": ["copulae/core/misc.py:tri_indices"]}
{"id": "C09", "title": "Indexed access to elliptical correlations is consistent", "statement": "For a Gaussian/Student copula, assigning through cop[i, j] writes the correlation that is read back through both cop[i, j] and cop[j, i] and leaves every other pair unchanged (when the result is positive semi-definite, so that no repair takes place); diagonal, negative and out-of-range index pairs are rejected and leave the copula unchanged; values outside [-1, 1] are rejected.", "quantifier": "for every dimension, every state of the copula, every index pair and every value", "why_tests_cant": "All dimensions and all index pairs; the mapping from pairs to vector positions is arithmetic that can be right for d<=3 and wrong for d>=4.", "anchors": ["copulae/elliptical/abstract.py:AbstractEllipticalCopula.__setitem__", "copulae/elliptical/abstract.py:_get_rho_index"]}
{"id": "C10", "title": "No sequence of indexed assignments breaks an elliptical copula", "statement": "After any sequence of cop[...] = value operations, successful or failed, the copula's correlation matrix is d x d, symmetric, with unit diagonal, and is accepted by the library's own positive semi-definiteness test whenever the last operation succeeded (assuming that the external matrix-repair routine keeps the diagonal and returns a matrix that passes that test, and that assigned matrices have their diagonal in (0, 1]).", "quantifier": "for every dimension, every initial state and every finite sequence of assignments with arbitrary index forms and values", "why_tests_cant": "Histories of arbitrary length.", "anchors": ["copulae/elliptical/abstract.py:AbstractEllipticalCopula.__setitem__", "copulae/core/linalg.py:near_psd"]}
{"id": "C11", "title": "Archimedean generator and inverse generator are inverse to each other", "statement": "psi(ipsi(u)) = u for Clayton, Gumbel and Frank on the whole domain 0 <= u <= 1, for every admissible parameter.", "quantifier": "for every admissible theta of each family and every u in [0, 1]", "why_tests_cant": "Continuum of parameters and arguments, with branch boundaries (u <= 0.01, theta(1-u) < 0.5, theta <= -36) a test grid can miss.", "anchors": ["copulae/archimedean/clayton.py:psi,ipsi", "copulae/archimedean/gumbel.py:psi,ipsi", "copulae/archimedean/frank.py:psi,ipsi"]}
{"id": "C12", "title": "Archimedean CDFs have uniform margins", "statement": "cdf at a point whose coordinates are all 1 except one equal to u returns u.", "quantifier": "for every family, admissible theta, dimension, coordinate position and u in [0,1]", "why_tests_cant": "Continuum of parameters, all dimensions.", "anchors": ["copulae/archimedean/abstract.py:AbstractArchimedeanCopula.cdf"]}
{"id": "C13", "title": "Archimedean CDFs are grounded", "statement": "cdf is 0 as soon as one coordinate is 0 (the remaining coordinates being in [0,1]).", "quantifier": "for every family, admissible theta, dimension and point with a zero coordinate", "why_tests_cant": "Boundary behaviour goes through infinities (log 0, 0**-theta) for all parameters.", "anchors": ["copulae/archimedean/abstract.py:AbstractArchimedeanCopula.cdf"]}
{"id": "C14", "title": "Archimedean CDFs are exchangeable", "statement": "Permuting the coordinates of a point does not change cdf or pdf.", "quantifier": "for every family, theta, dimension, point and permutation", "why_tests_cant": "d! permutations in all dimensions.", "anchors": ["copulae/archimedean/abstract.py:AbstractArchimedeanCopula.cdf", "copulae/archimedean/clayton.py:pdf", "copulae/archimedean/gumbel.py:pdf", "copulae/archimedean/frank.py:pdf"]}
{"id": "C15", "title": "CDFs are monotone and satisfy the Frechet bound", "statement": "cdf is non-decreasing in each coordinate, lies in [0,1] and never exceeds the smallest coordinate.", "quantifier": "for every family (Clayton, Gumbel, Frank, independence), admissible theta, dimension and pair of comparable points of the unit cube", "why_tests_cant": "Pairs of points over a continuum.", "anchors": ["copulae/archimedean/abstract.py:AbstractArchimedeanCopula.cdf", "copulae/indep/indep.py:IndepCopula.cdf"]}
{"id": "C16", "title": "Bivariate CDFs assign non-negative probability to every rectangle", "statement": "For a <= a', b <= b' in [0,1]: C(a',b') - C(a,b') - C(a',b) + C(a,b) >= 0.", "quantifier": "for every bivariate Clayton (theta >= -1, theta != 0), Gumbel (theta >= 1), Frank, independence copula and every rectangle", "why_tests_cant": "All rectangles and all parameters.", "anchors": ["copulae/archimedean/abstract.py:AbstractArchimedeanCopula.cdf"]}
{"id": "C17", "title": "CDFs equal the documented closed forms", "statement": "The CDF computed through the generators equals the closed form in the class documentation / literature: Clayton (sum u^-theta - d + 1)^(-1/theta), Gumbel exp(-(sum (-log u)^theta)^(1/theta)), Frank -1/theta log(1 + prod(e^(-theta u)-1)/(e^-theta-1)^(d-1)).", "quantifier": "for every admissible theta, dimension and interior point", "why_tests_cant": "Continuum of inputs across numerically motivated branches.", "anchors": ["copulae/archimedean/clayton.py", "copulae/archimedean/gumbel.py", "copulae/archimedean/frank.py"]}
{"id": "C18", "title": "pdf is the mixed derivative of cdf", "statement": "At interior points the density returned by pdf is the d-fold mixed partial derivative of the function returned by cdf.", "quantifier": "for Clayton (theta > 0, any d; theta < 0, d = 2), Gumbel (theta >= 1), Frank and independence copulas and every interior point", "why_tests_cant": "Derivative identities over a continuum; numerical differentiation in a test only checks single points to finite precision.", "anchors": ["copulae/archimedean/clayton.py:pdf", "copulae/archimedean/gumbel.py:pdf", "copulae/archimedean/frank.py:pdf", "copulae/indep/indep.py:pdf"]}
{"id": "C19", "title": "pdf reports invalid rows and rows do not influence each other", "statement": "The value of pdf for one row depends on that row only, and rows with a NaN or a coordinate outside [0,1] yield NaN.", "quantifier": "for every batch of rows, every row position, every family and admissible theta", "why_tests_cant": "Quantifies over batches: a test of single rows cannot see cross-row effects.", "anchors": ["copulae/archimedean/clayton.py:pdf", "copulae/archimedean/_shared.py:valid_rows_in_u"]}
{"id": "C20", "title": "log=True returns the logarithm of the plain result", "statement": "pdf(u, log=True) = log(pdf(u)) and cdf(u, log=True) = log(cdf(u)).", "quantifier": "for every copula class of the model, every admissible parameter and point", "why_tests_cant": "All parameters including special-cased ones (theta = 0, theta = 1).", "anchors": ["copulae/archimedean/clayton.py:pdf", "copulae/archimedean/gumbel.py:pdf", "copulae/mixtures/gmc/gmc.py:pdf,cdf"]}
{"id": "C21", "title": "tau and itau are inverse calibrations", "statement": "itau(tau(theta)) = theta and tau(itau(t)) = t on the valid range for Clayton, Gumbel, Gaussian and Student copulas; irho inverts rho for the Gaussian copula; all these maps are strictly increasing.", "quantifier": "for every admissible parameter / every attainable tau or rho", "why_tests_cant": "Continuum of parameters.", "anchors": ["copulae/archimedean/clayton.py:itau,_tau", "copulae/archimedean/gumbel.py:itau,_tau", "copulae/elliptical/abstract.py:itau,tau,rho", "copulae/elliptical/gaussian.py:irho"]}
{"id": "C22", "title": "dtau and drho are the derivatives of tau and rho", "statement": "dtau (drho) equals the derivative of tau (rho) with respect to the parameter.", "quantifier": "for every admissible parameter of Clayton, Gumbel, Frank and elliptical copulas", "why_tests_cant": "Derivative identity on a continuum.", "anchors": ["copulae/archimedean/clayton.py:dtau", "copulae/archimedean/gumbel.py:dtau", "copulae/archimedean/frank.py:dtau,drho", "copulae/elliptical/abstract.py:dtau,drho"]}
{"id": "C23", "title": "Tail dependence coefficients are the limits they are documented to be", "statement": "lambda_.lower is the limit of C(u,u)/u as u -> 0+ and lambda_.upper the limit of (1-2u+C(u,u))/(1-u) as u -> 1-; both lie in [0,1].", "quantifier": "for every admissible parameter of Clayton, Gumbel and Frank", "why_tests_cant": "A limit statement.", "anchors": ["copulae/archimedean/clayton.py:lambda_", "copulae/archimedean/gumbel.py:lambda_", "copulae/archimedean/frank.py:lambda_"]}
{"id": "C24", "title": "Copula parameters always stay inside the documented bounds", "statement": "Whatever sequence of construction and params assignments is performed (failed assignments included), the parameter of an Archimedean copula is NaN or inside the copula's own bounds; a rejected assignment leaves the parameter unchanged.", "quantifier": "for every family, dimension and sequence of operations", "why_tests_cant": "Histories of arbitrary length and all real parameters.", "anchors": ["copulae/archimedean/clayton.py:__init__,params", "copulae/archimedean/frank.py:__init__,params", "copulae/archimedean/gumbel.py:__init__,params"]}
{"id": "C25", "title": "Bivariate samplers invert the conditional distribution exactly", "statement": "For the bivariate Clayton and Frank samplers the returned pair (u, v) built from independent uniforms (u, w) has v in (0,1), satisfies dC/du(u, v) = w (or 1 - w), and has the copula as its joint distribution function.", "quantifier": "for every theta above the lower bound with |theta| >= 1e-7 (below that the code returns independent uniforms), every pair of uniforms in (0,1) and every point of the unit square", "why_tests_cant": "Distributional correctness can only be sampled by a test.", "anchors": ["copulae/archimedean/clayton.py:random", "copulae/archimedean/frank.py:random"]}
{"id": "C26", "title": "dipsi is the derivative of ipsi", "statement": "dipsi(u, degree=1) and degree=2 are the first and second derivative of ipsi at u; with log=True the logarithm of the absolute value.", "quantifier": "for every admissible theta and u in (0,1)", "why_tests_cant": "Derivative identity on a continuum.", "anchors": ["copulae/archimedean/clayton.py:dipsi", "copulae/archimedean/gumbel.py:dipsi", "copulae/archimedean/frank.py:dipsi"]}
{"id": "C27", "title": "The Pickands function of the Gumbel copula is a valid dependence function", "statement": "A maps [0,1] into [1/2,1], A(0)=A(1)=1, max(w,1-w) <= A(w) <= 1, A is convex and symmetric, and cdf(u,v) = (uv)^A(log v/log uv).", "quantifier": "for every theta >= 1, w in [0,1], (u,v) in (0,1)^2", "why_tests_cant": "Functional properties (convexity) on a continuum.", "anchors": ["copulae/archimedean/gumbel.py:A"]}
{"id": "C28", "title": "Stirling numbers are correct for all arguments", "statement": "stirling_first(n,k) / stirling_second(n,k) (and the *_all lists) return the signed Stirling numbers of the first kind / the Stirling numbers of the second kind: the coefficients that convert between powers and falling factorials; arguments outside 0 <= k <= n are rejected.", "quantifier": "for all n and k", "why_tests_cant": "Unbounded integers; in-place dynamic programming with update-order hazards.", "anchors": ["copulae/special/special_func.py:stirling_first,stirling_second,stirling_first_all,stirling_second_all"]}
{"id": "C29", "title": "Eulerian numbers are correct for all arguments", "statement": "eulerian(n,k) returns the Eulerian number A(n,k) (recurrence definition) for n >= 1; the row is symmetric and sums to n!.", "quantifier": "for all n >= 1 and 0 <= k <= n", "why_tests_cant": "Unbounded integers, alternating sum folded by symmetry.", "anchors": ["copulae/special/special_func.py:eulerian,eulerian_all"]}
{"id": "C30", "title": "Polylogarithm of non-positive order is correct and method independent", "statement": "For order -n <= 0 and |z| < 1 both methods of poly_log return the sum over k >= 1 of k^n z^k; hence they agree; for order 1 it is -log(1-z).", "quantifier": "for every n, every |z| < 1", "why_tests_cant": "Infinite series identity for every order.", "anchors": ["copulae/special/special_func.py:poly_log"]}
{"id": "C31", "title": "Horner evaluation is polynomial evaluation", "statement": "polyn_eval(coef, x) = sum of coef[i] x^i, for any non-empty coefficient list.", "quantifier": "for every coefficient list and every x", "why_tests_cant": "All degrees.", "anchors": ["copulae/special/special_func.py:polyn_eval"]}
{"id": "C32", "title": "log_sum is a shift-invariant log-sum-exp", "statement": "log_sum(x) = log(sum exp(x_i)) for finite inputs; the internal maximum shift never changes the value.", "quantifier": "for every non-empty vector of reals", "why_tests_cant": "All vectors.", "anchors": ["copulae/special/special_func.py:log_sum"]}
{"id": "C33", "title": "All Gumbel coefficient algorithms compute the same numbers", "statement": "gumbel_coef(d, alpha, method) returns the same coefficients for 'sort', 'horner', 'direct', 'ds.direct', 'diff' and 'log', namely (-1)^(d-k) sum_j alpha^j s(d,j) S(j,k); they are non-negative.", "quantifier": "for every d >= 1, 0 < alpha < 1 and every pair of methods", "why_tests_cant": "Unbounded d; combinatorial identities between unrelated algorithms.", "anchors": ["copulae/archimedean/gumbel.py:gumbel_coef", "copulae/archimedean/auxiliary.py:dsum_sibuya"]}
{"id": "C34", "title": "sign_ff gives the sign of the generalised binomial coefficient", "statement": "sign_ff(alpha, j, d) is the sign of C(alpha*j, d) * (-1)^(d-j) for 0 < alpha <= 1 and 0 <= j <= d, j,d >= 1.", "quantifier": "for every alpha in (0,1], all 1 <= j <= d", "why_tests_cant": "Unbounded d and continuum of alpha.", "anchors": ["copulae/special/special_func.py:sign_ff"]}
{"id": "C35", "title": "find_root only returns points bracketed by a sign change", "statement": "If find_root returns, the external bracketing solver was called on an interval that contains the user's interval and on which the function changes sign; if the user's interval already brackets a root it is used unchanged; otherwise AssertionError after at most max_iter expansions.", "quantifier": "for every function, interval, tolerance and iteration limit", "why_tests_cant": "Arbitrary functions.", "anchors": ["copulae/special/optimize.py:find_root"]}
{"id": "C36", "title": "Parallel and serial element-wise evaluation agree under every schedule", "statement": "The threaded special functions return the same array as the serial loop whatever order the threads process the indices in.", "quantifier": "for every array length, every element function and every execution order", "why_tests_cant": "All interleavings.", "anchors": ["copulae/special/_specfunc.pyx:map_dbl_p,map_dbl_s"]}
{"id": "C37", "title": "Element-wise special functions leave their argument unchanged", "statement": "Calling debye_1, debye_2, clausen, dilog, ... on an array does not change the caller's array.", "quantifier": "for every input array (any length, dtype, memory layout)", "why_tests_cant": "Aliasing depends on dtype, contiguity and size.", "anchors": ["copulae/special/_specfunc.pyx:map_dbl_p", "copulae/special/debye.py", "copulae/special/clausen.py"]}
{"id": "C38", "title": "Clausen function is odd and 2*pi periodic", "statement": "clausen(-x) = -clausen(x) and clausen(x + 2 pi) = clausen(x).", "quantifier": "for every real x", "why_tests_cant": "All real x; periodicity at arbitrary multiples.", "anchors": ["copulae/special/_specfunc.pyx:_clausen,angle_restrict_pos_err"]}
{"id": "C39", "title": "Debye wrappers handle negative arguments by the reflection formulas", "statement": "debye1(-x) = debye1(x) + x/2, debye2(-x) = debye2(x) + 2x/3; consequently Frank's tau and rho are odd in theta; the reflection formulas are those of the Debye integrals.", "quantifier": "for every real x != 0", "why_tests_cant": "Continuum; sign conventions at all arguments.", "anchors": ["copulae/archimedean/frank.py:debye1,debye2,_tau,_rho"]}
{"id": "C40", "title": "The empirical copula is a distribution function on the cube", "statement": "cdf of the empirical copula (all three smoothings) lies in [0,1], is non-decreasing in each coordinate, is 0 when a coordinate is 0 and 1 at (1,...,1) with zero offset; arguments outside [0,1] are rejected.", "quantifier": "for every data set, smoothing, dimension and comparable points", "why_tests_cant": "All data sets and points.", "anchors": ["copulae/empirical/distribution.py:emp_dist_func", "copulae/empirical/_distribution.pyx", "copulae/empirical/empirical.py:cdf"]}
{"id": "C41", "title": "Checkerboard and beta smoothing give exactly uniform margins", "statement": "Without ties, the checkerboard- and beta-smoothed empirical copulas satisfy C(1,..,v,..,1) = v for all v in [0,1]; the unsmoothed one deviates by at most 1/n.", "quantifier": "for every n, every tie-free data set, every coordinate, every v in [0,1]", "why_tests_cant": "Continuum of v and all n.", "anchors": ["copulae/empirical/_distribution.pyx:emp_multi_linear_copula,emp_beta_copula"]}
{"id": "C42", "title": "to_marginals inverts pseudo_obs", "statement": "to_marginals(pseudo_obs(x), x) = x for tie methods average, min, max and ordinal; every returned value is an observed value and the map is non-decreasing; u in [0,1] is accepted.", "quantifier": "for every data matrix, tie method and every u in [0,1]", "why_tests_cant": "All data and tie patterns; floor of a rational at the edge.", "anchors": ["copulae/empirical/empirical.py:EmpiricalCopula.to_marginals"]}
{"id": "C43", "title": "Test p-values are valid probabilities", "statement": "The p-values of exch_test, rad_sym_test and gof_copula are strictly between 0 and 1, at least 0.5/(N+1), and non-increasing in the observed statistic.", "quantifier": "for every number of replications N >= 1, every list of replicated statistics and observed statistic", "why_tests_cant": "All replication outcomes.", "anchors": ["copulae/gof/exchangeability.py", "copulae/gof/radial_symmetry.py", "copulae/gof/goodness_of_fit/goodness_of_fit.py"]}
{"id": "C44", "title": "The exchangeability statistic is blind to swapping the two samples", "statement": "exch_test_stat(x, y) = exch_test_stat(y, x) >= 0, it is 0 when the two columns coincide, and it is invariant under strictly increasing transformations of the columns.", "quantifier": "for every pair of samples and every grid size m", "why_tests_cant": "All samples.", "anchors": ["copulae/gof/_exchangeability.pyx:exch_test_stat"]}
{"id": "C45", "title": "The radial symmetry statistic vanishes for radially symmetric samples", "statement": "rad_sym_test_stat is non-negative, invariant under reordering rows and columns, and 0 whenever the set of pseudo-observations is closed under u -> 1-u.", "quantifier": "for every sample size, dimension and sample", "why_tests_cant": "All samples.", "anchors": ["copulae/gof/_radial_symmetry.pyx"]}
{"id": "C46", "title": "Bootstrap samples keep the dependence of the fitted copula", "statement": "When the data have ties, the parametric bootstrap of gof_copula re-creates the tie structure of each column without changing which rows are paired across columns.", "quantifier": "for every simulated sample and tie pattern", "why_tests_cant": "All samples; a wrong p-value still looks like a number in (0,1).", "anchors": ["copulae/gof/goodness_of_fit/utils.py", "copulae/gof/goodness_of_fit/goodness_of_fit.py"]}
{"id": "C47", "title": "Mixture parameters survive the round trip through an optimisation vector", "statement": "GMCParam.from_vector(p.to_vector(), m, d) represents the same parameters as p when all cluster probabilities are strictly between 0 and 1.", "quantifier": "for every number of clusters, dimension and valid parameter", "why_tests_cant": "All cluster counts and dimensions; offset arithmetic.", "anchors": ["copulae/mixtures/gmc/parameter.py:GMCParam.to_vector,from_vector"]}
{"id": "C48", "title": "One EM step keeps mixture parameters valid", "statement": "The responsibilities computed by the E-step are in [0,1] and sum to 1 per row (or are 0 for rows with zero density); the M-step yields probabilities summing to 1 and positive semi-definite symmetric covariances.", "quantifier": "for every data set, number of clusters and density values", "why_tests_cant": "All inputs.", "anchors": ["copulae/mixtures/gmc/estimators/em.py:e_step,m_step"]}
{"id": "C49", "title": "EM returns the best parameter it visited", "statement": "With the GMCM or Li criterion, the parameters returned by the EM fit have the highest recorded copula log-likelihood of all iterates, and the reported log-likelihood is the one of the returned parameters.", "quantifier": "for every history of iterates", "why_tests_cant": "All optimisation histories.", "anchors": ["copulae/mixtures/gmc/estimators/em.py:LogLik"]}
{"id": "C50", "title": "merge_dict is a right-biased deep merge", "statement": "For every path of keys the merged dictionary has the value of the second dictionary if that defines the path, otherwise that of the first; user supplied optimiser options therefore always win over defaults and missing ones are defaulted.", "quantifier": "for all nested dictionaries and all key paths", "why_tests_cant": "Unbounded nesting.", "anchors": ["copulae/utility/dict.py:merge_dict,merge_dicts", "copulae/copula/estimator/estimator.py:form_options"]}
{"id": "C51", "title": "Seeded sampling is reproducible regardless of history", "statement": "random(n, seed=s) returns the same sample whatever random numbers were drawn before, for every copula.", "quantifier": "for every generator state (history), n and seed", "why_tests_cant": "All histories.", "anchors": ["copulae/stats/uniform.py:random_uniform", "copulae/archimedean/clayton.py:random", "copulae/elliptical/student.py:random"]}
{"id": "C52", "title": "Column order of a DataFrame does not matter after fitting", "statement": "After fitting on a DataFrame, evaluating cdf/pdf on a DataFrame with the same columns in another order gives the same results; wrong shapes are rejected.", "quantifier": "for every set of columns, every permutation and every frame", "why_tests_cant": "d! column orders.", "anchors": ["copulae/utility/annotations/reshape.py:shape_first_input_to_cop_dim"]}
{"id": "C53", "title": "Correlation matrices are symmetric with unit diagonal for every missing-data policy", "statement": "corr(x, y) returns a symmetric matrix with ones on the diagonal whose (i,j) entry only uses columns i and j (and, under 'complete', rows complete in all columns); without missing values all policies agree.", "quantifier": "for every matrix with any pattern of missing values and every policy", "why_tests_cant": "All missingness patterns.", "anchors": ["copulae/stats/correlation.py"]}
{"id": "C54", "title": "Fit summaries describe the fitted copula", "statement": "After a successful fit the parameters in the summary are those of the copula and the reported log-likelihood is the copula's log-likelihood on the data used; after a failed optimisation the copula keeps its former parameters.", "quantifier": "for every optimiser trajectory", "why_tests_cant": "All optimiser histories.", "anchors": ["copulae/copula/estimator/max_likelihood.py", "copulae/copula/estimator/corr_inversion.py"]}
{"id": "C55", "title": "Covariance and correlation conversions are inverse to each other", "statement": "corr2cov(cov2corr(S), std(S)) = S and cov2corr(corr2cov(R, s)) = R for unit-diagonal R and s > 0; cov2corr of a positive semi-definite matrix with positive diagonal has unit diagonal and entries in [-1,1].", "quantifier": "for every dimension and matrix", "why_tests_cant": "All dimensions.", "anchors": ["copulae/core/linalg.py:corr2cov,cov2corr"]}
{"id": "C56", "title": "A rejected assignment to an elliptical copula changes nothing", "statement": "If cop[index] = value raises, the correlations of the copula are what they were before. The only exception is a NaN scalar, which passes the range check, is stored and then makes the assignment fail.", "quantifier": "for every dimension, every copula with finite correlations, every index form and every value", "why_tests_cant": "All states, index forms and values; partial writes in a loop that fails half-way only show for particular shapes.", "anchors": ["copulae/elliptical/abstract.py:AbstractEllipticalCopula.__setitem__", "copulae/elliptical/abstract.py:AbstractEllipticalCopula._force_psd"]}
{"id": "C57", "title": "gumbel_poly does not depend on the algorithm", "statement": "gumbel_poly returns P_d(x) with x = exp(log_x), where psi^(d)(s) = (-1)^d exp(-x) P_d(x) / s^d, x = s^alpha, for the generator psi(s) = exp(-s^alpha); every method and the automatic choice give the same result, and log=True gives its logarithm.", "quantifier": "for every dimension, every alpha in (0,1], every finite log_x, every method", "why_tests_cant": "The default switches between four algorithms depending on d, alpha and x; a test compares a few grid points.", "anchors": ["copulae/archimedean/gumbel.py:gumbel_poly", "copulae/archimedean/gumbel.py:_calculate_gumbel_poly", "copulae/archimedean/gumbel.py:_get_poly_method"]}
{"id": "C58", "title": "Frailty samplers have the copula's distribution", "statement": "In dimensions other than two, random() of Clayton and Frank copulas returns rows in (0,1)^d whose joint distribution function is the copula.", "quantifier": "for every positive parameter from 1e-7 on, every dimension other than two, all uniforms and frailties, every point of the unit cube", "why_tests_cant": "Distributional correctness in all dimensions can only be sampled by a test; a frailty generator that is wrong on a parameter range goes unnoticed.", "anchors": ["copulae/archimedean/clayton.py:random", "copulae/archimedean/frank.py:random", "copulae/stats/log.py:random_log_series_ln1p"]}
{"id": "C59", "title": "Calibrating a Frank copula by Kendall's tau", "statement": "Frank's tau is strictly increasing in the parameter and lies in (-1,1); itau(t) is the parameter with the sign of t whose tau is t, and itau(tau(theta)) = theta.", "quantifier": "for every t with 1e-16 <= |t| <= 1 - 4e-20 and every theta with 1e-8 < |theta| <= 1e19", "why_tests_cant": "A numeric root search over [2.2e-16, 1e20]: that the bracket always contains exactly one root is a statement about all t.", "anchors": ["copulae/archimedean/frank.py:itau", "copulae/archimedean/frank.py:tau", "copulae/archimedean/frank.py:_tau", "copulae/utility/optimize.py:find_root"]}
{"id": "C60", "title": "cheb_eval evaluates the Chebyshev series", "statement": "cheb_eval(c, x, a, b) = c0/2 + sum over k >= 1 of c_k T_k(y), where y is the image of x under the affine map taking [a,b] to [-1,1].", "quantifier": "for every non-empty list of coefficients, every interval and every x", "why_tests_cant": "Every number of coefficients and every x; the special functions only use a handful of fixed tables.", "anchors": ["copulae/special/_specfunc.pyx:cheb_eval"]}
{"id": "C61", "title": "The empirical beta copula's density", "statement": "With beta smoothing, pdf(u) is the mixed derivative of the function cdf computes, is positive, and log=True gives its logarithm; with any other smoothing pdf raises.", "quantifier": "for every data set, every tie method, every non-negative offset and every point of the open unit cube", "why_tests_cant": "A statement about a d-fold derivative for all data sets and all points; a test can only compare finite differences.", "anchors": ["copulae/empirical/empirical.py:EmpiricalCopula.pdf", "copulae/empirical/empirical.py:EmpiricalCopula.cdf", "copulae/empirical/_distribution.pyx"]}
{"id": "C62", "title": "Re-tied bootstrap samples keep whole rows", "statement": "When the data have ties, the replicated samples of exch_test and rad_sym_test are re-tied by moving whole rows and merging values inside columns: no pair of rows is ordered against its order in the simulated sample, and every column gets exactly the ties of the data.", "quantifier": "for every simulated sample, every data set, every dimension and every argsort", "why_tests_cant": "All samples and tie patterns; an independent sort of the columns would still give a p-value in (0,1).", "anchors": ["copulae/gof/_exchangeability.pyx:exch_replication", "copulae/gof/_radial_symmetry.pyx:rad_sym_replicate"]}
{"id": "C63", "title": "is_psd and near_psd agree on what a positive semi-definite matrix is", "statement": "is_psd(X) accepts exactly the symmetric matrices whose eigenvalues are at least -tol, a matrix that is not symmetric is never accepted, near_psd returns accepted matrices unchanged, and strict=True accepts only positive definite matrices.", "quantifier": "for every square matrix of every size and every tolerance", "why_tests_cant": "All matrices; the difference between semi-definite and definite shows only on singular matrices, a set of measure zero.", "anchors": ["copulae/core/linalg.py:is_psd", "copulae/core/linalg.py:near_psd"]}
{"id": "C64", "title": "Fitting does not modify the caller's options", "statement": "A call of fit leaves the dictionary passed as optim_options as it was, so that the dictionary may be used for another copula with the same effect as a fresh one.", "quantifier": "for every options dictionary, every copula kind and every sequence of fits", "why_tests_cant": "Aliasing shows only when a dictionary is reused, and then as a different optimiser rather than as an error.", "anchors": ["copulae/copula/estimator/max_likelihood.py:form_options", "copulae/copula/estimator/estimator.py:fit_copula"]}
{"id": "C65", "title": "Optimiser options reach the optimiser under names it accepts", "statement": "Whatever method the user chooses, the keyword arguments fit passes to scipy.optimize.minimize are keywords of that function, and the per-method defaults are inside its options argument.", "quantifier": "for every method name and every user options dictionary made of valid keywords", "why_tests_cant": "All methods and all user dictionaries; tests use the default method.", "anchors": ["copulae/copula/estimator/max_likelihood.py:form_options"]}
{"id": "C66", "title": "A seed is the same as seeding numpy first", "statement": "random(n, seed=s) returns what np.random.seed(s) followed by random(n) returns.", "quantifier": "for every generator, every copula, every parameter, every n and every seed", "why_tests_cant": "Holds or fails for all generators at once; a test fixes one generator and one seed and rarely compares the two call styles.", "anchors": ["copulae/stats/uniform.py:random_uniform", "copulae/archimedean/gumbel.py:GumbelCopula.random", "copulae/stats/_multivariate_t.py:multivariate_t.rvs"]}
{"id": "C67", "title": "Hypothesis tests do not reset the global generator", "statement": "After a call of exch_test the global generator's state still depends on the state before: calling it between simulations does not make them repeat each other.", "quantifier": "for every generator state and every data set", "why_tests_cant": "An effect on hidden global state, invisible in the returned value.", "anchors": ["copulae/gof/_exchangeability.pyx:exch_test_cn"]}
{"id": "C68", "title": "Vectors of the wrong length are not mixture parameters", "statement": "GMCParam.from_vector(v, m, d) succeeds only for vectors of length m + m d + m d (d + 1) / 2; anything else raises an error.", "quantifier": "for every vector, every number of clusters and every dimension", "why_tests_cant": "All lengths; broadcasting hides a short last block.", "anchors": ["copulae/mixtures/gmc/parameter.py:GMCParam.from_vector"]}
{"id": "C69", "title": "Tie methods resolve ties as their names say", "statement": "Within a group of tied values of one column, ties='ordinal' gives distinct consecutive ranks in order of appearance; 'min', 'max' and 'average' give every member the least, the greatest and the mean of those ordinal values; 'dense' gives the number of distinct smaller values plus one; all divided by n + 1. Upper and lower case of the names do not matter, and any other name raises a ValueError.", "quantifier": "for every data set, every column, every tie group and every tie method", "why_tests_cant": "All tie patterns; a method that behaves like another one on untied data passes every test without ties.", "anchors": ["copulae/core/misc.py:pseudo_obs", "copulae/core/misc.py:rank_data"]}
{"id": "C70", "title": "Fitting keeps the class and the admissibility of a copula", "statement": "Whatever data, method, starting value and optimiser are used and whether the fit succeeds, fails or raises, the copula afterwards has the same family, dimension and bounds, and an Archimedean copula that had an admissible parameter still has one.", "quantifier": "for every copula, data set, option and every behaviour of the optimiser", "why_tests_cant": "The optimiser may try any point; tests see one run.", "anchors": ["copulae/copula/base.py:fit", "copulae/copula/estimator/max_likelihood.py:estimate_max_likelihood_params"]}
{"id": "C71", "title": "A fit that raises keeps the former summary; refused input changes nothing", "statement": "If fit raises, the summary of the previous fit stays. Data with the wrong number of columns, values outside the unit interval when not ranked, fewer rows than dimensions, an unknown tie method or an unknown estimation method raise and leave the copula unchanged.", "quantifier": "for every copula, data set, option and optimiser", "why_tests_cant": "All failing inputs.", "anchors": ["copulae/copula/base.py:fit", "copulae/copula/estimator/estimator.py:fit_copula"]}
{"id": "C72", "title": "Inversion of Kendall's tau reproduces the sample's tau", "statement": "After fit(method='itau'), copula.tau equals the sample Kendall tau: for bivariate Archimedean copulas, and pair by pair for Gaussian and Student copulas when the matrix of implied correlations is positive semi-definite.", "quantifier": "for every data set whose tau the family can attain", "why_tests_cant": "All data sets and all taus.", "anchors": ["copulae/copula/estimator/corr_inversion.py:estimate_corr_inverse_params", "copulae/copula/estimator/corr_inversion.py:fit_cor"]}
{"id": "C73", "title": "The documented inversion methods work for every family", "statement": "fit(method='itau') and fit(method='irho') estimate the parameters of every copula family in every dimension.", "quantifier": "for every family, dimension and data set", "why_tests_cant": "The failures depend on family and dimension together.", "anchors": ["copulae/copula/estimator/corr_inversion.py:fit_cor", "copulae/core/misc.py:create_cov_matrix"]}
{"id": "C74", "title": "Maximum likelihood finds a starting value on any data", "statement": "Without a starting value, fit(method='ml') begins with one that the copula accepts, whatever the sign of the dependence in the data.", "quantifier": "for every copula and data set", "why_tests_cant": "Depends on the sign of the sample's correlations and on the dimension.", "anchors": ["copulae/copula/estimator/estimator.py:initial_params"]}
{"id": "C75", "title": "Maximum likelihood gives elliptical copulas a correlation matrix", "statement": "After a successful maximum likelihood fit of a Gaussian or Student copula with a reported log-likelihood other than minus infinity, the correlation matrix passes the positive semi-definiteness test and the degrees of freedom are positive.", "quantifier": "for every data set, starting value and every behaviour of the optimiser that reports a point it evaluated", "why_tests_cant": "All optimiser runs.", "anchors": ["copulae/copula/estimator/max_likelihood.py:estimate_max_likelihood_params", "copulae/elliptical/abstract.py:log_lik"]}
{"id": "C76", "title": "Every form of index names the correlations it should", "statement": "cop[k] reads and writes the k-th pair listed row by row; reading accepts negative numbers counted from the end in every form; cop[x, :] and cop[:, x] read the row or column with a one at x; assigning a vector to them sets the correlations of x with all others, ignores the entry at x and leaves other pairs alone (when no repair is needed); assigning to a row or column with a negative number raises IndexError and changes nothing.", "quantifier": "for every dimension, state, index and value", "why_tests_cant": "All dimensions and indices.", "anchors": ["copulae/elliptical/abstract.py:AbstractEllipticalCopula.__getitem__", "copulae/elliptical/abstract.py:AbstractEllipticalCopula.__setitem__"]}
{"id": "C77", "title": "Every box has non-negative probability in any dimension", "statement": "For points a <= b of the unit cube, the alternating sum of cdf over the 2^d corners of the box is never negative: cdf is a distribution function, not only a monotone one. For the independence copula it is the product of the sides.", "quantifier": "for every admissible parameter, every dimension and every box", "why_tests_cant": "The sum ranges over exponentially many corners and all boxes; monotonicity does not imply it.", "anchors": ["copulae/archimedean/abstract.py:AbstractArchimedeanCopula.cdf", "copulae/indep/indep.py:IndepCopula.cdf"]}
{"id": "C78", "title": "The distribution function is 1-Lipschitz", "statement": "Two points of the unit cube have values of cdf no further apart than the sum of the distances of their coordinates; cdf has no jumps.", "quantifier": "for every admissible parameter, dimension and pair of points", "why_tests_cant": "All pairs of points.", "anchors": ["copulae/archimedean/abstract.py:AbstractArchimedeanCopula.cdf"]}
{"id": "C79", "title": "A marginal copula's cdf is a joint distribution with the given margins", "statement": "MarginalCopula.cdf(x) is the inner copula at the marginal probabilities of x: with all other coordinates at infinity it is the marginal distribution function, it is zero when a coordinate is minus infinity, every box has non-negative probability, and log=True gives the logarithm. The result does not depend on whether x holds integers or floats.", "quantifier": "for every admissible Archimedean or independence inner copula, dimension, margins and points", "why_tests_cant": "All margins, points and boxes; the integer truncation shows only between integers.", "anchors": ["copulae/marginal/marginal.py:MarginalCopula.cdf"]}
{"id": "C80", "title": "A marginal copula's pdf is the density of its cdf", "statement": "MarginalCopula.pdf is the mixed derivative of MarginalCopula.cdf in all coordinates, and pdf(log=True) is its logarithm.", "quantifier": "for every inner copula, dimension, differentiable margins and points of their supports", "why_tests_cant": "A derivative in all coordinates at all points.", "anchors": ["copulae/marginal/marginal.py:MarginalCopula.pdf"]}
{"id": "C81", "title": "The joint density vanishes outside the support of a margin", "statement": "MarginalCopula.pdf is zero at points with a coordinate outside the support of its margin.", "quantifier": "for every inner copula, parameter, margins and point outside the support", "why_tests_cant": "The value is a product of a marginal zero with the inner density at the border of the cube.", "anchors": ["copulae/marginal/marginal.py:MarginalCopula.pdf", "copulae/archimedean/clayton.py:ClaytonCopula.pdf"]}
{"id": "C82", "title": "A marginal copula's sample has the inner copula's dependence and the margins' quantiles", "statement": "MarginalCopula.random(n): row i lies below a threshold exactly when row i of the inner sample lies below the marginal probabilities of the threshold; the ranks in every column are those of the inner sample. It works for every n >= 1.", "quantifier": "for every margin with its quantile function, sample and threshold", "why_tests_cant": "All samples and thresholds.", "anchors": ["copulae/marginal/marginal.py:MarginalCopula.random"]}
{"id": "C83", "title": "Margins are created as described", "statement": "A margin given by a type (a SciPy distribution or its name, whatever the case, blanks around it, or the short names normal, gaussian, student, exp) and parameters has that distribution, the given parameters, 0.5 for shape parameters not given and SciPy's defaults otherwise; unknown parameters and types raise TypeError; there is one margin per dimension. The caller's dictionaries are not changed, and margins given by equal descriptions are equal.", "quantifier": "for every distribution signature, dictionary and dimension", "why_tests_cant": "All signatures and dictionaries; aliasing of dictionaries between margins.", "anchors": ["copulae/marginal/univariate.py:create_univariate", "copulae/marginal/univariate.py:get_marginal_class", "copulae/marginal/marginal.py:_process_margins_input"]}
{"id": "C84", "title": "Reported marginal parameters recreate the margin", "statement": "params['marginals'] lists every parameter of every margin with its value, in the order of the signature, whether it was given by position, by name or by default; a margin created from the reported type and parameters has the same value for every parameter.", "quantifier": "for every distribution signature and every way its parameters were given", "why_tests_cant": "All signatures and splits between positional and keyword arguments.", "anchors": ["copulae/marginal/univariate.py:get_marginal_detail", "copulae/marginal/marginal.py:MarginalCopula.params"]}
{"id": "C85", "title": "Fitting uses the ranks only, and margins are fitted to their own columns", "statement": "With to_pobs=True a fit gives the same copula, summary or exception for data that order the observations of every column alike, and so does log_lik. MarginalCopula.fit fits margin j to column j, keeps the distributions, fits the inner copula to all the data and reports its summary.", "quantifier": "for every copula, data set, increasing transformation, optimiser and marginal fitting routine", "why_tests_cant": "All data sets and transformations.", "anchors": ["copulae/copula/base.py:BaseCopula.fit", "copulae/copula/base.py:BaseCopula.log_lik", "copulae/marginal/marginal.py:MarginalCopula.fit"]}
{"id": "C86", "title": "log_lik is the sum of the log densities", "statement": "log_lik(data) is the sum over the observations of the logarithm of the density at the pseudo-observations; transforming to pseudo-observations beforehand changes nothing. It is defined for any number of observations.", "quantifier": "for every copula, data set and tie method", "why_tests_cant": "All data sets.", "anchors": ["copulae/copula/base.py:BaseCopula.log_lik", "copulae/utility/annotations/reshape.py:squeeze_output"]}
{"id": "C87", "title": "A marginal copula's log_lik is the likelihood of the data", "statement": "MarginalCopula.log_lik(data) is the sum of the logarithms of the joint density at the observations.", "quantifier": "for every marginal copula and data set", "why_tests_cant": "Tests compare values on one data set; the default argument decides which numbers the margins see.", "anchors": ["copulae/copula/base.py:BaseCopula.log_lik", "copulae/marginal/marginal.py:MarginalCopula.pdf"]}
{"id": "C88", "title": "A marginal copula's fit that raises changes nothing", "statement": "When MarginalCopula.fit raises, the margins, the inner copula and the summary are as before.", "quantifier": "for every marginal copula, data set and failure", "why_tests_cant": "Failures can occur at every stage of the fit.", "anchors": ["copulae/marginal/marginal.py:MarginalCopula.fit"]}
{"id": "C89", "title": "to_marginals accepts points of the unit cube only", "statement": "EmpiricalCopula.to_marginals raises for points with a coordinate outside [0,1] instead of returning data.", "quantifier": "for every sample and every point outside the unit cube", "why_tests_cant": "All points; NumPy reads negative positions from the end without complaint.", "anchors": ["copulae/empirical/empirical.py:EmpiricalCopula.to_marginals"]}
{"id": "C90", "title": "gof_copula fits and tests with the requested tie methods", "statement": "gof_copula fits the copula to the pseudo-observations whose ties are broken by fit_ties and computes its statistic, the sum of squared differences between the share of observations nowhere larger and the fitted cdf, on the pseudo-observations whose ties are broken by ties. The samples drawn in the replications are treated in the same way.", "quantifier": "for every data set, copula class and pair of tie methods", "why_tests_cant": "The two samples differ only for data with ties; all data sets.", "anchors": ["copulae/gof/goodness_of_fit/goodness_of_fit.py:gof_copula", "copulae/gof/goodness_of_fit/utils.py"]}
{"id": "C91", "title": "Replications are drawn under the null hypothesis", "statement": "Exchanging the two samples of exch_test, or reflecting the sample of rad_sym_test, has the same effect on a replication as reversing all coin flips; without flips the replication is the statistic of the re-tied sample itself.", "quantifier": "for every sample, grid and outcome of the coin flips", "why_tests_cant": "All samples and flips.", "anchors": ["copulae/gof/_exchangeability.pyx:exch_replication", "copulae/gof/_radial_symmetry.pyx:rad_sym_replicate"]}
{"id": "C92", "title": "The derivative estimates of the exchangeability test respect the margins", "statement": "The estimates of the partial derivatives of the copula used by exch_test are non-negative, zero on the lower border, and on the upper border, where the derivative of the copula is one, they lie within 1/(2 sqrt(n)) of 1 + 1/n, also next to the corners.", "quantifier": "for every sample of at least four observations without ties and every point", "why_tests_cant": "All samples and points; the corners need the clipping of the differences.", "anchors": ["copulae/gof/_exchangeability.pyx:der_cn_1", "copulae/gof/_exchangeability.pyx:der_cn_2"]}
{"id": "C93", "title": "The cdf of a Gaussian mixture copula is a copula", "statement": "GaussianMixtureCopula.cdf is zero where a coordinate is zero and one at (1,...,1); pdf and cdf are weighted means of those of the components.", "quantifier": "for every parameter and point", "why_tests_cant": "All parameters and points.", "anchors": ["copulae/mixtures/gmc/gmc.py:GaussianMixtureCopula.cdf", "copulae/mixtures/gmc/gmc.py:GaussianMixtureCopula.pdf"]}
{"id": "C94", "title": "debye_1 and debye_2 compute the Debye functions", "statement": "With exact arithmetic debye_1(x) and debye_2(x) differ from the Debye integrals by at most 2e-18 for every positive x; at zero they are 1, at infinity 0, below zero NaN.", "quantifier": "for every real argument and infinity", "why_tests_cant": "A continuum of arguments and five branches with a Chebyshev table each; tests compare a few values.", "anchors": ["copulae/special/_specfunc.pyx:_debye_1", "copulae/special/_specfunc.pyx:_debye_2", "copulae/special/_specfunc.pyx:cheb_eval"]}
{"id": "C95", "title": "Starting values of a fit", "statement": "Starting values with an infinite or NaN entry are ignored by fit, finite ones are used as they are, and without any the elliptical copulas start from the correlation of the data.", "quantifier": "for every copula, data set, method and vector of starting values", "why_tests_cant": "All vectors of starting values and all data.", "anchors": ["copulae/copula/estimator/estimator.py:initial_params"]}
{"id": "C96", "title": "Rows of mixture and empirical samples", "statement": "random() of a Gaussian mixture copula returns, for each component, exactly the rows drawn from that component, each once; random() of an empirical copula returns rows of its data.", "quantifier": "for every generator, seed, parameter and sample size", "why_tests_cant": "All outcomes of the generator.", "anchors": ["copulae/mixtures/gmc/gmc.py:GaussianMixtureCopula.random", "copulae/mixtures/gmc/random.py", "copulae/empirical/empirical.py:EmpiricalCopula.random"]}
{"id": "C97", "title": "Frank's tau and rho are accurate for every parameter", "statement": "Frank's tau and rho, computed with the compiled Debye functions in exact arithmetic, differ from 1 + 4 (D1 - 1)/theta and 1 + 12 (D2 - D1)/theta by at most 1e-9 and 1e-8 for every parameter other than zero, also where the code switches to theta/9 and theta/6.", "quantifier": "for every parameter other than zero", "why_tests_cant": "All parameters; the switch happens at 1e-8, where direct evaluation is useless.", "anchors": ["copulae/archimedean/frank.py:FrankCopula.tau", "copulae/archimedean/frank.py:FrankCopula.rho"]}
{"id": "C98", "title": "The cdf of the Gaussian copula is a copula", "statement": "For every positive definite correlation matrix GaussianCopula.cdf returns, on the closed unit cube, the probability that the normal vector transformed by the normal distribution function lies below the row; it is grounded, has uniform margins, non-negative box volumes and Lipschitz constant one; setting columns to one gives the Gaussian copula of the remaining correlations; without correlation it is the product.", "quantifier": "for every dimension, positive definite correlation matrix, number of rows and rows of the closed cube", "why_tests_cant": "All correlation matrices and points; the quantiles at 0 and 1 are infinite.", "anchors": ["copulae/elliptical/gaussian.py:GaussianCopula.cdf"]}
{"id": "C99", "title": "The pdf of the Gaussian copula is the density of its cdf and the law of its samples", "statement": "GaussianCopula.pdf is positive inside the cube, with log=True its logarithm; integrated over any set it gives the probability under the law whose distribution function is cdf, and random has that law; pdf takes the same value at u and 1-u.", "quantifier": "for every dimension, positive definite correlation matrix, rows inside the cube and measurable set", "why_tests_cant": "Integrals over all sets, all correlation matrices.", "anchors": ["copulae/elliptical/gaussian.py:GaussianCopula.pdf", "copulae/elliptical/gaussian.py:GaussianCopula.random"]}
{"id": "C100", "title": "tau and rho of elliptical copulas are those of the copula", "statement": "The property tau of a Gaussian or Student copula lists Kendall's tau, concordance minus discordance of two independent draws, of every pair; the property rho lists Spearman's rho, 12 E[UV] - 3, of every pair.", "quantifier": "for every dimension, positive semi-definite correlation matrix, degrees of freedom and pair", "why_tests_cant": "Expectations under the law of the copula, for all correlations and degrees of freedom.", "anchors": ["copulae/elliptical/abstract.py:AbstractEllipticalCopula.tau", "copulae/elliptical/abstract.py:AbstractEllipticalCopula.rho"]}
{"id": "C101", "title": "The pdf of the Student copula is the density of its samples", "statement": "StudentCopula.pdf is positive inside the cube, with log=True its logarithm; integrated over any set it gives the probability that a row of random falls into the set; the law is a copula; pdf takes the same value at u and 1-u; invalid shapes and parameters raise.", "quantifier": "for every dimension, positive definite correlation matrix, positive degrees of freedom, rows inside the cube and measurable set", "why_tests_cant": "Integrals over all sets; all correlation matrices and degrees of freedom, with a switch at 10000.", "anchors": ["copulae/elliptical/student.py:StudentCopula.pdf", "copulae/elliptical/student.py:StudentCopula.random", "copulae/stats/_multivariate_t.py:multivariate_t"]}
{"id": "C102", "title": "The cdf of the Student copula returns the probability below a row", "statement": "StudentCopula.cdf returns the probability that a row drawn from the copula lies below the given row.", "quantifier": "for every Student copula and rows of the cube", "why_tests_cant": "All copulas and points.", "anchors": ["copulae/elliptical/student.py:StudentCopula.cdf", "copulae/stats/_multivariate_t.py:multivariate_t.cdf"]}
{"id": "C103", "title": "lambda_ of elliptical copulas is the tail dependence of the copula", "statement": "lambda_ of a Gaussian or Student copula lists, for every pair, the limits of the conditional probabilities P(V <= u | U <= u) as u tends to 0 and P(V > u | U > u) as u tends to 1.", "quantifier": "for every dimension, positive semi-definite correlation matrix, degrees of freedom and pair", "why_tests_cant": "Limits of probabilities, for all correlations and degrees of freedom.", "anchors": ["copulae/elliptical/gaussian.py:GaussianCopula.lambda_", "copulae/elliptical/student.py:StudentCopula.lambda_"]}
{"id": "C104", "title": "GumbelCopula.random draws from the Gumbel copula", "statement": "In every dimension the rows returned by GumbelCopula.random lie inside the cube and their joint distribution function is the Gumbel copula with the object's parameter.", "quantifier": "for every parameter from 1 on, every dimension, number of rows, uniform and exponential variates", "why_tests_cant": "The law of the rows, for all parameters; statistical tests see a sample.", "anchors": ["copulae/archimedean/gumbel.py:GumbelCopula.random", "copulae/stats/stable/stable.py:skew_stable.rvs"]}
{"id": "C105", "title": "skew_stable.rvs draws from the positive stable law", "statement": "With index below one and skewness one skew_stable.rvs returns finite values whose Laplace transform is that of the stable law with the given index, scale and location in the parametrisations 0 and 1; an index outside (0, 2], a skewness outside [-1, 1], a negative or NaN scale or an unknown parametrisation raise AssertionError.", "quantifier": "for every index in (0, 1), scale, location, number of values and variates drawn", "why_tests_cant": "The law of the values, for all indices; a sample cannot settle it.", "anchors": ["copulae/stats/stable/stable.py:skew_stable.rvs", "copulae/special/trig.py:tanpi2", "copulae/special/trig.py:cospi2"]}
{"id": "C106", "title": "tau of an Archimedean copula is Kendall's tau of its law", "statement": "For a random vector whose distribution function is the Clayton, Gumbel or Frank copula, the value of tau is the probability that two independent observations are concordant minus the probability that they are discordant, for every pair of coordinates (Frank: up to 1e-9).", "quantifier": "for every admissible parameter, dimension, law with this distribution function and pair of coordinates", "why_tests_cant": "An integral over the law, for all parameters and dimensions; a simulation only estimates it.", "anchors": ["copulae/archimedean/clayton.py:ClaytonCopula.tau", "copulae/archimedean/gumbel.py:GumbelCopula.tau", "copulae/archimedean/frank.py:FrankCopula.tau", "copulae/special/debye.py:debye_1"]}
{"id": "C107", "title": "rho of a Frank copula is Spearman's rho of its law", "statement": "For a random vector whose distribution function is the Frank copula, rho is the correlation of every pair of coordinates, up to 1e-8.", "quantifier": "for every parameter other than zero, dimension, law with this distribution function and pair of coordinates", "why_tests_cant": "An integral over the law, for all parameters; it includes the compiled Debye series.", "anchors": ["copulae/archimedean/frank.py:FrankCopula.rho", "copulae/special/debye.py:debye_1", "copulae/special/debye.py:debye_2"]}
{"id": "C108", "title": "pdf of an Archimedean copula is the density of its law", "statement": "For a random vector whose distribution function is the Clayton, Gumbel or Frank copula, the probability of any measurable set is the integral of pdf over the part of the set inside the unit cube.", "quantifier": "for every admissible parameter that has a density, dimension and measurable set", "why_tests_cant": "Integrals over all sets, all dimensions and parameters.", "anchors": ["copulae/archimedean/clayton.py:ClaytonCopula.pdf", "copulae/archimedean/gumbel.py:GumbelCopula.pdf", "copulae/archimedean/frank.py:FrankCopula.pdf"]}
{"id": "C109", "title": "Samples of an Archimedean copula agree with its tau and pdf", "statement": "The rows returned by random have, as random vectors, the Kendall's tau reported by tau and the density computed by pdf of the same object.", "quantifier": "for every parameter, dimension, number of rows and uniform, gamma or exponential variates", "why_tests_cant": "Compares the law of the rows with closed formulas; a sample cannot settle it.", "anchors": ["copulae/archimedean/clayton.py:ClaytonCopula.random", "copulae/archimedean/gumbel.py:GumbelCopula.random", "copulae/archimedean/frank.py:FrankCopula.random", "copulae/archimedean/clayton.py:ClaytonCopula.pdf"]}
{"id": "C110", "title": "Samples of a Gaussian mixture copula come from the copula up to 1.25e-5", "statement": "gmm_marginal_cdf is a strictly increasing continuous function onto (0, 1) within 1.25e-5 of the distribution function of the margin of the normal mixture; so a row of the mixture turned by it lies inside the unit cube, and its distribution function is within 1.25e-5 per coordinate of that of the Gaussian mixture copula.", "quantifier": "for every number of clusters and dimensions, valid parameters with positive variances, and point", "why_tests_cant": "A bound for a special function over the whole line and all mixtures; a sample cannot tell so small an error.", "anchors": ["copulae/mixtures/gmc/marginals.py:gmm_marginal_cdf", "copulae/mixtures/gmc/random.py:random_gmcm", "copulae/mixtures/gmc/gmc.py:GaussianMixtureCopula.random"]}
{"id": "C111", "title": "Quantiles of the Gaussian mixture margins", "statement": "gmm_marginal_ppf accepts every matrix of probabilities in [0, 1], is increasing in each column, and the probability of the margin of the mixture below the value returned differs from the probability given by at most half a percent for each component; it never fails on the pseudo-observations of up to 3,000,000 rows.", "quantifier": "for every number of clusters, dimensions and rows, valid parameters and probabilities", "why_tests_cant": "The grid depends on all parameters; the bound is over all mixtures and probabilities.", "anchors": ["copulae/mixtures/gmc/marginals.py:gmm_marginal_ppf"]}
{"id": "C112", "title": "The log-likelihood of a Gaussian mixture copula is that of its density", "statement": "gmcm_log_likelihood returns the sum of the logarithms of the density of the copula of the normal mixture, as documented, with every coordinate of the observations moved by at most the error of the quantiles; gmm_log_likelihood and its marginal version are the log-likelihoods of the mixture and its margins; with one cluster the copula is the Gaussian copula of the correlation matrix.", "quantifier": "for every number of clusters, dimensions and rows, positive definite covariances and observations from 3e-7 to 1 - 3e-7", "why_tests_cant": "The density of a push-forward law; an integral over all sets.", "anchors": ["copulae/mixtures/gmc/loglik.py:gmcm_log_likelihood", "copulae/mixtures/gmc/loglik.py:gmm_log_likelihood", "copulae/mixtures/gmc/loglik.py:gmm_log_likelihood_marginals"]}
{"id": "C113", "title": "Expectation maximisation does not decrease the likelihood of the normal mixture", "statement": "Every successful iteration of the expectation maximisation fit of a Gaussian mixture copula replaces the parameters by valid ones whose normal mixture likelihood at the quantiles of that iteration, the value recorded, is at least that of the old parameters; it raises FitException exactly when a cluster has probability zero or there are no data.", "quantifier": "for every number of clusters, dimensions and rows, valid mixture with positive definite covariances, and quantiles that do not lie in one hyperplane", "why_tests_cant": "An inequality over all parameters and data; tests compare with recorded estimates.", "anchors": ["copulae/mixtures/gmc/estimators/em.py:expectation_maximization", "copulae/mixtures/gmc/estimators/em.py:e_step", "copulae/mixtures/gmc/estimators/em.py:m_step"]}
{"id": "C114", "title": "K-means start values are a mixture with the moments of the data", "statement": "k_means succeeds whenever the clustering does: the probabilities are the shares of the clusters, positive with sum one; the means and covariances are those of the rows of the clusters, the covariances positive semi-definite; the mean of the mixture is the mean of the data, and the within and between cluster covariances add up to that of the data.", "quantifier": "for every data set of two or more columns, number of clusters and labelling of the rows", "why_tests_cant": "Over all labellings; scikit-learn's clustering is random.", "anchors": ["copulae/mixtures/gmc/estimators/kmeans.py:k_means"]}
{"id": "C115", "title": "Fitting a Gaussian mixture copula changes only the copula, and only on success", "statement": "After a successful fit the copula has the parameters of the summary and records the method; a fit that raises leaves the copula as it was; the object passed as x0 is not changed; ties is used by every estimator.", "quantifier": "for every data set, start, method, external optimiser and clustering", "why_tests_cant": "Error paths and object state over all inputs and external routines.", "anchors": ["copulae/mixtures/gmc/gmc.py:GaussianMixtureCopula.fit", "copulae/mixtures/gmc/estimators/sgd.py:gradient_descent"]}
{"id": "C116", "title": "Gradient descent does not return a worse mixture copula", "statement": "When the optimiser does not return a point worse than its start, gradient_descent returns valid parameters whose copula log-likelihood is not below that of the start.", "quantifier": "for every number of clusters, start, data and optimiser that descends", "why_tests_cant": "Over all optimisers and starts; the round trip through the vector representation must be exact.", "anchors": ["copulae/mixtures/gmc/estimators/sgd.py:gradient_descent", "copulae/mixtures/gmc/estimators/sgd.py:create_objective_function"]}
{"id": "C117", "title": "The parameters of a Gaussian mixture copula have its size", "statement": "Whatever is assigned to params, at construction or later, the copula has parameters of its own numbers of clusters and dimensions or none; other parameters raise.", "quantifier": "for every number of clusters and dimensions and every value assigned", "why_tests_cant": "Over all sizes and forms of input; tests only assign matching ones.", "anchors": ["copulae/mixtures/gmc/gmc.py:GaussianMixtureCopula.params", "copulae/mixtures/gmc/gmc.py:GaussianMixtureCopula.__init__"]}
{"id": "C118", "title": "dilog computes the dilogarithm", "statement": "dilog(x) is within 2e-13 of Li_2(x) = -Re of the integral of log(1 - s) / s from 0 to x, within 2e-16 unless |x| is within 2.3e-15 of 1, and correct to a third of the machine epsilon relatively for 0 < x <= 1/4.", "quantifier": "for every real number", "why_tests_cant": "Seven branches with different series and functional equations; tests compare a few recorded values.", "anchors": ["copulae/special/_specfunc.pyx:_dilog", "copulae/special/_specfunc.pyx:dilog_xge0", "copulae/special/dilog.py:dilog"]}
{"id": "C119", "title": "dilog outside the finite numbers, and its logarithm", "statement": "dilog returns NaN for NaN and the limits minus infinity at both infinities; poly_log(z, 2, log=True) is the logarithm of poly_log(z, 2).", "quantifier": "for every floating point value", "why_tests_cant": "Special values and an option that tests do not combine.", "anchors": ["copulae/special/_specfunc.pyx:_dilog", "copulae/special/special_func.py:poly_log"]}
{"id": "C120", "title": "The rows of a sample are independent and have the law of the copula", "statement": "With an ideal random generator random(n) returns n independent rows, each with the law of the copula (for a Gaussian mixture copula up to 1.25e-5 per coordinate), independent of all later samples; the fraction of rows in a set misses its probability by eps with probability at most 1/(4 n eps^2).", "quantifier": "for every family, parameter, dimension, sample size and ideal generator", "why_tests_cant": "A statement about joint laws; a test sees one sample and cannot tell dependence or a slightly wrong law.", "anchors": ["copulae/archimedean/clayton.py:ClaytonCopula.random", "copulae/archimedean/gumbel.py:GumbelCopula.random", "copulae/elliptical/gaussian.py:GaussianCopula.random", "copulae/elliptical/student.py:StudentCopula.random", "copulae/empirical/empirical.py:EmpiricalCopula.random", "copulae/mixtures/gmc/random.py:random_gmcm", "copulae/copula/base.py:BaseCopula.random"]}
{"id": "C121", "title": "Seeded Student samples have the law of the copula", "statement": "With a good generator the rows of random(n, seed) of a Student copula have the law of the copula, as those of random(n).", "quantifier": "for every seed and generator", "why_tests_cant": "A statement about the joint use of two streams over all generators; samples of the wrong law look plausible.", "anchors": ["copulae/elliptical/student.py:StudentCopula.random", "copulae/stats/multivariate/_multivariate_t.py:multivariate_t_gen.rvs"]}
{"id": "C122", "title": "skew_stable.rvs draws from the stable law", "statement": "The variates of skew_stable.rvs(alpha, beta, gamma, delta, pm) with pm 0 or 1 have the density of the stable law with these parameters (Nolan's integral), and for alpha = 2 they are normal with mean delta and variance 2 gamma^2.", "quantifier": "for every index other than one, skewness, positive scale and location, unless the index is within 1e-5 of one and the skewness within 1e-8 of zero, where Cauchy variates stand in", "why_tests_cant": "A statement about laws over a continuum of parameters; a test sees samples for a few.", "anchors": ["copulae/stats/stable/stable.py:skew_stable.rvs", "copulae/stats/stable/stable.py:skew_stable._parameterize"]}
{"id": "C123", "title": "skew_stable.pdf is the density of what skew_stable.rvs draws", "statement": "skew_stable.pdf(x, alpha, beta, gamma, delta, pm) returns the density of the law of skew_stable.rvs(alpha, beta, gamma, delta, pm) at every entry of x.", "quantifier": "for every index, skewness, positive scale, location, pm in {0, 1} and real x", "why_tests_cant": "A statement about an integral over a continuum of parameters and points; the tests compare nine numbers.", "anchors": ["copulae/stats/stable/stable.py:skew_stable.pdf", "copulae/stats/stable/pdf.py:aux_f1", "copulae/special/optimize.py:find_root"]}
{"id": "C124", "title": "changing the sign of the skewness mirrors the stable density", "statement": "f(x, alpha, -beta, gamma, delta, 0) = f(2 delta - x, alpha, beta, gamma, delta, 0), as the docstring says, and the same for the log-density.", "quantifier": "for all parameters and all arrays x without NaN", "why_tests_cant": "An identity between two computations for all arguments; a test can compare a few.", "anchors": ["copulae/stats/stable/stable.py:skew_stable.pdf", "copulae/stats/stable/pdf.py:aux_f1", "copulae/stats/stable/pdf.py:pareto"]}
{"id": "C125", "title": "the stable density of an array is computed entry by entry", "statement": "Entry i of skew_stable.pdf(x, ...) is skew_stable.pdf(x[i], ...), whatever the other entries are.", "quantifier": "for all parameters and all arrays", "why_tests_cant": "Only some combinations of entries show a difference.", "anchors": ["copulae/stats/stable/stable.py:skew_stable.pdf"]}
{"id": "C126", "title": "skew_stable.logpdf is the logarithm of skew_stable.pdf", "statement": "skew_stable.logpdf(x, ...) is the entrywise logarithm of skew_stable.pdf(x, ...).", "quantifier": "for all parameters and all arrays", "why_tests_cant": "The two differ only at points where a computed value is exactly zero or one.", "anchors": ["copulae/stats/stable/stable.py:skew_stable.logpdf", "copulae/stats/stable/stable.py:skew_stable.pdf"]}
{"id": "C127", "title": "with pm=2 the mode of the stable density is at delta", "statement": "With pm=2 the greatest density is at delta, whatever the skewness; so the densities for opposite skewnesses are mirrored at delta.", "quantifier": "for all indices, skewnesses, scales and locations", "why_tests_cant": "The location of a maximum over the real line, for a continuum of parameters.", "anchors": ["copulae/stats/stable/stable.py:skew_stable._mode", "copulae/stats/stable/stable.py:skew_stable._parameterize"]}
{"id": "C128", "title": "at the point where the two halves of the stable density meet, pdf returns the limit of the density", "statement": "At x = delta + gamma * zeta (x = delta with pm=1), where neither integral for the density applies, skew_stable.pdf returns the common limit of the density from both sides, which is positive, and logpdf its logarithm.", "quantifier": "for every index other than one below two, skewness with angle at most PI2 (all with absolute value less than one that are not within about 1e-16 of one, and all for an index above one), positive scale, location and pm in {0, 1}", "why_tests_cant": "The value is a limit of integrals, for a continuum of parameters.", "anchors": ["copulae/stats/stable/stable.py:skew_stable.pdf", "copulae/stats/stable/pdf.py:aux_f1"]}
{"id": "C129", "title": "the tail approximation that replaces zeros of the stable density is asymptotically the density", "statement": "In an array with an entry whose own density is not zero, the entries whose own density is zero get the value of a power law, scaled, and the ratio of this power law to the density tends to one in both tails (up to the rounding of PI2).", "quantifier": "for every index other than one below two, skewness less than one in absolute value, positive scale, location, pm in {0, 1} and array of real numbers", "why_tests_cant": "An asymptotic statement about integrals for a continuum of parameters.", "anchors": ["copulae/stats/stable/stable.py:skew_stable.pdf", "copulae/stats/stable/pdf.py:pareto", "copulae/stats/stable/common.py:stable_tail"]}
{"id": "C130", "title": "skew_stable.pdf with index one and a skewness is the density of the stable law", "statement": "skew_stable.pdf(x, 1, beta, gamma, delta, pm) with beta other than zero returns the density of the stable law of index one with this skewness (Nolan's integral, which is the density of the variate of Chambers, Mallows and Stuck) at every real x, zero at infinity and NaN at NaN.", "quantifier": "for every skewness other than zero, positive scale, location, pm in {0, 1} and x", "why_tests_cant": "A statement about an integral over a continuum of parameters and points; the tests compare a few numbers for positive skewness.", "anchors": ["copulae/stats/stable/stable.py:skew_stable.pdf", "copulae/stats/stable/pdf.py:aux_f2", "copulae/special/optimize.py:find_root"]}
{"id": "C131", "title": "skew_stable.rvs with index one draws from the stable law with the given skewness", "statement": "The variates of skew_stable.rvs(1, beta, gamma, delta, pm) with beta other than zero have the density of the stable law of index one with this skewness.", "quantifier": "for every skewness other than zero, positive scale, location and pm in {0, 1}", "why_tests_cant": "A statement about laws; samples of the wrong law look plausible.", "anchors": ["copulae/stats/stable/stable.py:skew_stable.rvs", "copulae/special/trig.py:tanpi2"]}
{"id": "C132", "title": "clausen computes the Clausen function", "statement": "clausen(x) returns the integral of the documentation, -int_0^x log(2 sin(t/2)) dt, up to an error below the precision of a double.", "quantifier": "for every real x", "why_tests_cant": "A continuum of arguments, compared with an integral; fifteen Chebyshev coefficients, a cut near zero and a reflection with two constants that add up to 2 pi must all be right.", "anchors": ["copulae/special/clausen.py:clausen", "copulae/special/_specfunc.pyx:_clausen,cheb_eval,angle_restrict_pos_err"]}
{"id": "C133", "title": "dilog_complex computes the dilogarithm of a complex number", "statement": "dilog_complex(z), and dilog_complex(r, theta) with z = r exp(i theta), is within 2e-12 (and 1e-20 times the logarithm of the modulus) of Li_2(z), minus the integral of log(1 - t z) / t over t from 0 to 1, with the value of the lower side on the cut.", "quantifier": "for every complex number z, every modulus and every angle", "why_tests_cant": "A plane of arguments, compared with an integral; five regions with their own series, which must meet, and a cut.", "anchors": ["copulae/special/dilog.py:dilog_complex", "copulae/special/_specfunc.pyx:_dilog_complex,dilogc_unit_disk,dilogc_fundamental,dilogc_series_1,dilogc_series_2,dilogc_series_3"]}
{"id": "C134", "title": "dilog_complex of arrays works element by element and leaves its arguments alone", "statement": "dilog_complex(r, theta) of two arrays of the same shape returns an array of this shape with the value for each pair of elements, whatever the threads do, refuses arrays of different shapes with AssertionError, and leaves the arrays of the caller as they are.", "quantifier": "for all arrays, shapes, schedules of the threads, and also if both arguments are the same array", "why_tests_cant": "Interleavings of threads and aliasing of memory are not covered by examples with fresh arrays.", "anchors": ["copulae/special/dilog.py:dilog_complex", "copulae/special/_specfunc.pyx:dilog_complex,mapc_dbl_p,mapc_dbl_s"]}
{"id": "C135", "title": "fix_df keeps the degrees of freedom", "statement": "StudentCopula.fit(data, fix_df=True) leaves the degrees of freedom of the copula as the user set them, with any options for the optimiser, and leaves these options as they are.", "quantifier": "for all data, degrees of freedom, starting values, estimation methods, options and optimisers", "why_tests_cant": "Whether a constraint constrains depends on the state of the copula whenever the optimiser asks for it; one optimiser on one sample says nothing about the others.", "anchors": ["copulae/elliptical/student.py:fit", "copulae/copula/estimator/max_likelihood.py:_calc_log_lik"]}
{"id": "C136", "title": "An argument may be passed by position or by name", "statement": "cdf(x) and cdf(x=x), pdf(u) and pdf(u=u), itau(tau) and itau(tau=tau), summary(category) and summary(category=category) mean the same: the decorators hand the same value to the method or raise the same error.", "quantifier": "for all methods, parameters, values and ways of splitting the arguments", "why_tests_cant": "Tests pass the points by position; every way of passing every argument of every method cannot be listed.", "anchors": ["copulae/utility/annotations/reshape.py:cast_input,shape_first_input_to_cop_dim", "copulae/utility/annotations/validations.py:validate_data_dim", "copulae/utility/annotations/summary.py:select_summary", "copulae/archimedean/clayton.py:itau"]}
{"id": "C137", "title": "dAdu returns the derivatives of the Pickands function", "statement": "GumbelCopula(theta).dAdu(w) returns for each element of w the first and the second derivative of A at this element.", "quantifier": "for every theta >= 1 and every array of numbers between 0 and 1", "why_tests_cant": "A continuum of parameters and arguments, and a derivative is a limit.", "anchors": ["copulae/archimedean/gumbel.py:dAdu"]}
{"id": "C138", "title": "multivariate_t.pdf is the density of the multivariate t law with its mean and matrix", "statement": "multivariate_t.pdf(x, mean, cov, df) is the density of the t law with this matrix and df degrees of freedom (4.6692 by default), moved by the mean (zero by default), at every row of x, and logpdf is its logarithm; x may be an array of rows, a vector or a number.", "quantifier": "for all means, positive definite matrices, degrees of freedom, numbers of rows and points", "why_tests_cant": "A density is a statement about integrals over all sets, and the arguments are a continuum in every dimension.", "anchors": ["copulae/stats/_multivariate_t.py:multivariate_t.pdf,logpdf,_process_input,_process_parameters"]}
{"id": "C139", "title": "multivariate_t.rvs draws from the documented t laws", "statement": "multivariate_t.rvs(mean, cov, df, size, type_) returns independent rows with the location shifted t law or Kshirsagar's non-central t law, in an array whose shape is the size followed by the dimension; in the central case both types coincide; with a seed the result does not depend on the global generator.", "quantifier": "for all means, positive semidefinite matrices, degrees of freedom, sizes and spellings of the types, and every ideal generator", "why_tests_cant": "The law of a sample is not visible in any finite number of samples, and the shape depends on the dimension, the size and the mean.", "anchors": ["copulae/stats/_multivariate_t.py:multivariate_t.rvs"]}
{"id": "C140", "title": "The documented defaults of multivariate_t can be used", "statement": "Every argument of multivariate_t.rvs may be left out or given as documented: mean zero, cov 1.0, df 4.6692, size an integer or a tuple, type 'shifted' or 'kshirsagar' in any case; other types and sizes raise ValueError.", "quantifier": "for all combinations of the arguments", "why_tests_cant": "The combinations of optional arguments, dimensions and sizes cannot be listed.", "anchors": ["copulae/stats/_multivariate_t.py:multivariate_t.rvs"]}
{"id": "C141", "title": "A marginal copula is one law", "statement": "MarginalCopula(copula, margins): there is one law of random vectors whose margins are the given ones and whose copula is the given one (Sklar's theorem), such that cdf is its distribution function, pdf its density with logpdf its logarithm when the margins have densities, and random draws independent rows from it. The margins may be discrete.", "quantifier": "for all inner copulas of every family, all margins given by distribution and quantile functions, all points, sample sizes and ideal generators", "why_tests_cant": "The three methods are computed from different functions (cdf, pdf and ppf of the margins and of the copula); that they describe the same law is a statement about integrals over all sets.", "anchors": ["copulae/marginal/marginal.py:MarginalCopula.cdf,pdf,random"]}
{"id": "C142", "title": "Kendall's tau of simulated data converges to the copula's tau", "statement": "corr(copula.random(n), method='kendall') returns a matrix whose entries off the diagonal are within eps of copula.tau, except with probability at most 2 d (d - 1) / ((n - 1) eps^2), which tends to zero; likewise for MarginalCopula(copula, margins).random(n) with any continuous margins.", "quantifier": "for all copulas of the Clayton, Gumbel, Frank, Gaussian and Student families, continuous margins, sample sizes from 2 on, tolerances, accepted spellings of the method and rules for missing values, and every ideal generator", "why_tests_cant": "A simulation of any finite size can be off; the claim bounds the probability of a deviation for all sizes at once and links three parts of the library: random, corr and tau.", "anchors": ["copulae/copula/abstract.py:random", "copulae/stats/correlation.py:corr", "copulae/archimedean/clayton.py:tau", "copulae/elliptical/abstract.py:tau", "copulae/marginal/marginal.py:random"]}
{"id": "C143", "title": "Fitting by inversion of Kendall's tau recovers the parameters of simulated data", "statement": "copula.fit(other.random(n), method='itau') with other a copula of the same family: for every eps, the probability that the fit raises or that a fitted parameter differs from that of other by eps or more tends to zero as n grows; likewise when the data come from MarginalCopula(other, margins).random(n) with any continuous margins.", "quantifier": "for all parameters and dimensions of the Clayton, Gumbel, Frank, Gaussian and Student families, continuous margins, tolerances, tie methods, starting values, previous parameters and every ideal generator", "why_tests_cant": "Consistency is a statement about the limit of probabilities over samples of every size; a test sees one sample and one tolerance.", "anchors": ["copulae/copula/base.py:fit", "copulae/copula/estimator/corr_inversion.py:estimate_corr_inverse_params", "copulae/core/misc.py:pseudo_obs", "copulae/archimedean/clayton.py:itau", "copulae/archimedean/gumbel.py:itau", "copulae/archimedean/frank.py:itau", "copulae/elliptical/abstract.py:itau"]}
{"id": "C144", "title": "The empirical copula of simulated data converges to the copula", "statement": "EmpiricalCopula(copula.random(n), smoothing, ties, offset).cdf(u): the probability that for some points u of the unit cube it differs from copula.cdf(u) by eps or more tends to zero as n grows, for every smoothing, tie method and non-negative offset; likewise when the data come from MarginalCopula(copula, margins).random(n) with any continuous margins.", "quantifier": "for all copulas of the library with a sampler, dimensions, continuous margins, smoothings, tie methods, offsets, tolerances and every ideal generator, uniformly over the points of the unit cube", "why_tests_cant": "Uniform convergence in probability is about samples of every size and all points of the cube at once; a test sees one sample, a few points and one tolerance.", "anchors": ["copulae/empirical/empirical.py:cdf", "copulae/empirical/_distribution.pyx:multivariate_emp_cop_dist_func", "copulae/core/misc.py:pseudo_obs", "copulae/copula/base.py:random"]}
{"id": "C145", "title": "Spearman's rho of simulated data converges to rho of the copula", "statement": "corr(c.random(n), method='spearman') (or 'rho', any case, any use) converges in probability, entry by entry, to the property rho of the copula c, also when the sample is drawn from a MarginalCopula around c with continuous margins.", "quantifier": "for every copula that reports a rho, every n, every tolerance and every probability of failure", "why_tests_cant": "a test draws one sample of one size; convergence is a statement about all large samples and all margins", "anchors": ["copulae/stats/correlation.py:93-142", "copulae/elliptical/abstract.py:48-50", "copulae/archimedean/frank.py:194-212"]}
{"id": "C146", "title": "Fitting a Gaussian copula by inversion of Spearman's rho recovers the correlations", "statement": "fit(data, method='irho') of a GaussianCopula succeeds and gives the correlations whose rho is the Spearman's rho of every pair of columns of the data; on data simulated from a Gaussian copula, alone or with continuous margins, every fitted correlation converges in probability to that of the simulation.", "quantifier": "for every dimension, every correlation matrix, every starting state, every way of ranking ties, every tolerance and probability of failure", "why_tests_cant": "a test fits one sample; that the estimator is consistent concerns all matrices and all large samples", "anchors": ["copulae/copula/estimator/corr_inversion.py:13-84", "copulae/elliptical/gaussian.py:55-58", "copulae/copula/base.py:75-140"]}
{"id": "C147", "title": "rad_sym_test tells asymmetric copulas from symmetric ones", "statement": "Of samples drawn by random from a copula that is not radially symmetric (Clayton, Gumbel), rad_sym_test reports with probability tending to one the least p-value it can, 0.5/(N+1), and a statistic that grows in proportion to the sample; of samples from a radially symmetric copula (Gaussian, Student, independence, Frank in two dimensions) the statistic divided by the size of the sample tends to zero in probability. Continuous margins make no difference.", "quantifier": "for all parameters, dimensions, numbers of replications, ways of ranking ties and continuous margins, every ideal generator and fair coins", "why_tests_cant": "Consistency of a test is a statement about the limit of probabilities over all samples.", "anchors": ["copulae/gof/radial_symmetry.py:rad_sym_test", "copulae/gof/_radial_symmetry.pyx", "copulae/archimedean/clayton.py:ClaytonCopula.random", "copulae/archimedean/gumbel.py:GumbelCopula.random"]}
{"id": "C148", "title": "exch_test tells exchangeable pairs from others", "statement": "Of samples of pairs with continuous margins whose copula changes when the coordinates change places, exch_test reports with probability tending to one the least p-value it can, 0.5/(N+1), and a statistic that grows in proportion to the sample, whether evaluated at the observations (m=0) or on a grid on which the copulas differ; of two columns of samples drawn by random from an Archimedean, Gaussian, Student or independence copula, alone or with continuous margins, the statistic divided by the size of the sample tends to zero in probability.", "quantifier": "for all laws of pairs, parameters, dimensions, columns, numbers of replications, grids, ways of ranking ties and continuous margins", "why_tests_cant": "Consistency of a test is a statement about the limit of probabilities over all samples.", "anchors": ["copulae/gof/exchangeability.py:exch_test", "copulae/gof/_exchangeability.pyx"]}
{"id": "C149", "title": "Samples carry the names of the variables", "statement": "A copula made with fields, made from a DataFrame (EmpiricalCopula) or fitted to a DataFrame returns from random a DataFrame whose columns have these names, in order, and hold the draws; a copula without names returns an array. After any sequence of fits the names are those of the last DataFrame fitted.", "quantifier": "for all names, dimensions, draws, sizes of the sample and sequences of fits to frames and arrays", "why_tests_cant": "Names survive or get lost depending on the order of fits and on the class; a test tries one order for one class.", "anchors": ["copulae/copula/base.py:fit", "copulae/utility/annotations/reshape.py:cast_output", "copulae/indep/indep.py:__init__", "copulae/empirical/empirical.py:__init__", "copulae/marginal/marginal.py:random"]}
{"id": "C150", "title": "The settings of an empirical copula are those set last and are checked when set", "statement": "The smoothing and ties of an EmpiricalCopula can be changed at any time; cdf and pdf are those of a copula made from the same data with the last accepted settings; settings that the copula cannot work with are refused when they are passed or assigned, and a refused one changes nothing.", "quantifier": "for all data, sequences of assignments and fits, arguments, points", "why_tests_cant": "The state after an arbitrary sequence of assignments, some of which raise, cannot be enumerated by tests.", "anchors": ["copulae/empirical/empirical.py:smoothing", "copulae/empirical/empirical.py:ties", "copulae/empirical/distribution.py:emp_dist_func"]}
{"id": "C151", "title": "EmpiricalCopula.pdf of a DataFrame is the density at its rows", "statement": "EmpiricalCopula.pdf(frame) has one entry for each row of the frame, the density at this row.", "quantifier": "for all data, frames, names of columns", "why_tests_cant": "The behaviour depends on the names of the columns, which tests with arrays never see.", "anchors": ["copulae/empirical/empirical.py:pdf"]}
{"id": "C152", "title": "Correlation matrices of frames and series can be looked up by name", "statement": "corr(frame) returns a DataFrame in which the entry under the names of two columns is the correlation of these columns, whatever the order of the columns; corr(series, series) labels rows and columns by two different names, those of the series if they have different ones.", "quantifier": "for all frames with distinct names, orders of columns, methods with a symmetric coefficient, policies for missing values, names of series", "why_tests_cant": "Permutations of columns and pairs of names are unbounded.", "anchors": ["copulae/stats/correlation.py:format_output", "copulae/stats/correlation.py:corr"]}
{"id": "C153", "title": "Copulas own their parameters", "statement": "Assigning an array to the params of a Gaussian or Student copula copies it: changing the array afterwards does not change the copula, and item assignment on a copula or a fit does not change arrays of the caller, other copulas or the summary of an earlier fit; numbers are kept as given.", "quantifier": "for every sequence of assignments, item assignments, changes of arrays and fits, over any number of copulas and arrays", "why_tests_cant": "Sharing shows only in particular sequences of operations on several objects; the sequences are unbounded.", "anchors": ["copulae/elliptical/gaussian.py:params", "copulae/elliptical/student.py:params", "copulae/elliptical/abstract.py:__setitem__", "copulae/copula/estimator/corr_inversion.py", "copulae/copula/estimator/max_likelihood.py"]}
{"id": "C154", "title": "Options of gradient descent reach the optimiser", "statement": "fit(data, method='sgd', max_iter=k, optim_options=opts) of a Gaussian mixture copula calls the optimiser named in opts with the options given there; if none are given the optimiser is told to stop after k iterations. All other keywords are passed on unchanged, args is ignored, and keywords that minimize does not have raise TypeError.", "quantifier": "for all dictionaries of options and numbers of iterations", "why_tests_cant": "The dictionaries are unbounded and SciPy has over a dozen optimisers.", "anchors": ["copulae/mixtures/gmc/estimators/sgd.py:gradient_descent", "copulae/mixtures/gmc/estimators/sgd.py:get_default_option", "copulae/mixtures/gmc/gmc.py:fit"]}
{"id": "C155", "title": "Summaries show what they summarise", "statement": "The summary of a copula displays every parameter with its value, and the summary of a fit displays method, log-likelihood, number of data and, if there are any, all options and results in order; both can be printed and displayed as HTML.", "quantifier": "for all copulas, parameters, dictionaries of options and results", "why_tests_cant": "Dictionaries and types of values are unbounded.", "anchors": ["copulae/copula/estimator/summary.py", "copulae/copula/summary.py", "copulae/mixtures/gmc/summary.py", "copulae/mixtures/gmc/estimators/summary.py", "copulae/elliptical/student.py:summary", "copulae/empirical/empirical.py:summary"]}
{"id": "C156", "title": "The log-likelihood finds the copula the data come from", "statement": "Among copulas with different laws, log_lik(x, to_pobs=False) of data x = c.random(n) is greatest for c itself: by a multiple of n, except with a probability that vanishes exponentially fast in n. Different families, and different parameters of one family, have different laws, except that independence can be written in several ways; so the greatest log-likelihood among finitely many candidates identifies family and parameters.", "quantifier": "for all pairs and finite lists of Clayton, Frank, Gumbel, Gaussian, Student and independence copulas, all dimensions, parameters and sizes of samples", "why_tests_cant": "It is a statement about the distribution of samples of every size and about all pairs of copulas with all real parameters.", "anchors": ["copulae/copula/base.py:log_lik", "copulae/archimedean", "copulae/elliptical", "copulae/indep"]}
{"id": "C157", "title": "Maximum likelihood recovers the correlations of a Gaussian copula", "statement": "Simulate n rows from a Gaussian copula with a positive definite correlation matrix, alone or with continuous margins. With a probability that tends to one as n grows, every Gaussian copula object whose log_lik of the data (with the default to_pobs=True) is at least that of the true copula has all correlations within any given distance of the true ones. In particular every successful fit(method='ml') that reports at least the log-likelihood of the truth ends at correlations that close, whatever the optimiser, the start and the scale.", "quantifier": "for all dimensions, positive definite correlation matrices, continuous margins, tie methods, optimisers that report values they have seen, starting values, positive scales, distances and probabilities", "why_tests_cant": "It is a limit statement about the distribution of samples of every size and about all correlation matrices at once.", "anchors": ["copulae/copula/base.py:log_lik", "copulae/copula/base.py:fit", "copulae/copula/estimator/max_likelihood.py", "copulae/elliptical/abstract.py:log_lik", "copulae/elliptical/gaussian.py:pdf", "copulae/core/rank.py:pseudo_obs"]}
{"id": "C158", "title": "The goodness-of-fit test tells copula families apart", "statement": "Give gof_copula(copula, data, reps, method='itau') for the Clayton or Gumbel class n independent rows with continuous margins whose copula has one value of Kendall's tau for all pairs, the one that the class has at the parameter theta. With a probability that tends to one as n grows, the fit finds theta, the statistic divided by n is close to the mean squared difference between the distribution function of the copula of the data and that of the class at theta, and so close to zero if the data come from the class; if the data come from any other copula of the library, the statistic grows at least in proportion to n, all replicates stay below it and the p-value is the least there is, 0.5 / (reps + 1).", "quantifier": "for all dimensions, parameters that random can draw from, copulas of the data, continuous margins, tie methods, numbers of replicates, starting values and scales, distances and probabilities", "why_tests_cant": "It is a limit statement about the joint distribution of data and replicates of every size, and about all copulas the data may come from.", "anchors": ["copulae/gof/goodness_of_fit/goodness_of_fit.py", "copulae/gof/goodness_of_fit/utils.py", "copulae/copula/estimator/corr_inversion.py", "copulae/copula/base.py:fit", "copulae/archimedean/clayton.py", "copulae/archimedean/gumbel.py"]}
{"id": "C159", "title": "Maximum likelihood recovers the parameter of a Clayton copula", "statement": "Simulate n rows from a Clayton copula with a parameter of at least 1e-7, alone or with continuous margins. With a probability that tends to one as n grows, every Clayton copula object, with whatever parameter its setter accepts (negative, zero, infinite and missing parameters included), whose log_lik of the data (with the default to_pobs=True) is at least that of the true copula has a parameter within any given distance of the true one. In particular every successful fit(method='ml') that reports at least the log-likelihood of the truth ends at a parameter that close, whatever the optimiser, the start and the scale.", "quantifier": "for all dimensions, parameters of at least 1e-7, continuous margins, tie methods, optimisers that report values they have seen, starting values, positive scales, distances and probabilities", "why_tests_cant": "It is a limit statement about the distribution of samples of every size and about all real parameters at once.", "anchors": ["copulae/copula/base.py:log_lik", "copulae/copula/base.py:fit", "copulae/copula/estimator/max_likelihood.py", "copulae/archimedean/clayton.py:pdf", "copulae/archimedean/clayton.py:params", "copulae/archimedean/clayton.py:random", "copulae/core/rank.py:pseudo_obs"]}
{"id": "C160", "title": "Maximum likelihood recovers the parameter of a Frank copula", "statement": "Simulate n rows from a Frank copula, alone or with continuous margins. With a probability that tends to one as n grows, the log_lik of the true copula is a finite number, and every Frank copula object, with whatever parameter its setter accepts (negative, zero, infinite and missing parameters included), whose log_lik of the data (with the default to_pobs=True) is at least that of the true copula has a parameter within any given distance of the true one. In particular every successful fit(method='ml') that reports at least the log-likelihood of the truth ends at a parameter that close, whatever the optimiser, the start and the scale.", "quantifier": "for all dimensions, parameters of at least 1e-7 in absolute value that the setter accepts, continuous margins, tie methods, optimisers that report values they have seen, starting values, positive scales, distances and probabilities", "why_tests_cant": "It is a limit statement about the distribution of samples of every size and about all real parameters at once.", "anchors": ["copulae/copula/base.py:log_lik", "copulae/copula/base.py:fit", "copulae/copula/estimator/max_likelihood.py", "copulae/archimedean/frank.py:pdf", "copulae/archimedean/frank.py:params", "copulae/archimedean/frank.py:random", "copulae/core/rank.py:pseudo_obs"]}
{"id": "C161", "title": "Maximum likelihood recovers the parameter of a Gumbel copula", "statement": "Simulate n rows from a Gumbel copula, alone or with continuous margins. With a probability that tends to one as n grows, the log_lik of the copula from which random draws is a finite number, and every Gumbel copula object (infinite and missing parameters included) whose log_lik of the data (with the default to_pobs=True) is at least as great has a parameter within any given distance of that copula's. random draws from the copula itself for the parameter one and for parameters above 1 + 1e-5 + 1e-8, and from the copula with the parameter one in between. In particular every successful fit(method='ml') that reports at least the log-likelihood of that copula ends at a parameter that close, and within 1.001e-5 more of the parameter of the simulation, whatever the optimiser, the start and the scale.", "quantifier": "for all dimensions, parameters of at least one, continuous margins, tie methods, optimisers that report values they have seen, starting values, positive scales, distances and probabilities", "why_tests_cant": "It is a limit statement about the distribution of samples of every size and about all real parameters at once.", "anchors": ["copulae/copula/base.py:log_lik", "copulae/copula/base.py:fit", "copulae/copula/estimator/max_likelihood.py", "copulae/archimedean/gumbel.py:pdf", "copulae/archimedean/gumbel.py:gumbel_poly", "copulae/archimedean/gumbel.py:random", "copulae/core/rank.py:pseudo_obs"]}
{"id": "C162", "title": "The greatest likelihood tells the family, also after fitting", "statement": "Let the data be n independent rows with continuous margins whose copula is a Clayton or Frank copula with a positive parameter or a Gumbel copula with a parameter above one; for instance the rows that random of such an object draws. With a probability that tends to one as n grows, log_lik of that copula (with the default to_pobs=True) is a finite number, and no copula object of another of the three classes, with whatever parameter its setter accepts, has a log_lik of the data that reaches it. In particular no successful fit(method='ml') of another class reports as much as scale times the log-likelihood of the true copula, whatever the optimiser, the start and the scale; so comparing the log-likelihoods of the fits finds the family as soon as the fit of the right class does at least as well as the truth.", "quantifier": "for all pairs of different families, dimensions, parameters of the data and of the other class, continuous margins, tie methods, optimisers that report values they have seen, starting values, positive scales and probabilities", "why_tests_cant": "It is a limit statement about the distribution of samples of every size and about all real parameters of the other class at once.", "anchors": ["copulae/copula/base.py:log_lik", "copulae/copula/base.py:fit", "copulae/copula/estimator/max_likelihood.py", "copulae/archimedean/clayton.py:pdf", "copulae/archimedean/frank.py:pdf", "copulae/archimedean/gumbel.py:pdf", "copulae/core/rank.py:pseudo_obs"]}
{"id": "C163", "title": "Maximum likelihood over the Archimedean classes finds family and parameter", "statement": "Let the data be n independent rows with continuous margins whose copula is a Clayton or Frank copula with a positive parameter or a Gumbel copula with a parameter above one; for instance the rows that random of such an object draws. With a probability that tends to one as n grows, log_lik of that copula (with the default to_pobs=True) is a finite number, and every object of the three classes, with whatever parameter its setter accepts, whose log_lik of the data is at least as great is of the same class and has a parameter within any given distance of the true one. So if objects of the three classes are fitted by fit(method='ml') with one scale, and one of the fits does at least as well as the truth, the successful fit that reports the greatest log-likelihood has the right class and a parameter that close, whatever the optimisers and the starts.", "quantifier": "for all families, dimensions, parameters of the data, continuous margins, tie methods, lists of fits, optimisers that report values they have seen, starting values, positive scales, distances and probabilities", "why_tests_cant": "It is a limit statement about the distribution of samples of every size and about all real parameters of all classes at once.", "anchors": ["copulae/copula/base.py:log_lik", "copulae/copula/base.py:fit", "copulae/copula/estimator/max_likelihood.py", "copulae/archimedean/clayton.py:pdf", "copulae/archimedean/frank.py:pdf", "copulae/archimedean/gumbel.py:pdf", "copulae/core/rank.py:pseudo_obs"]}
{"id": "C164", "title": "Maximum likelihood tells independence from dependence", "statement": "Let the data be n independent rows of independent components with continuous margins, for instance the rows that IndepCopula.random draws. Then log_lik of IndepCopula is zero, the Clayton copula with parameter zero and the Gumbel copula with parameter one have the same log_lik, and with a probability that tends to one as n grows every Clayton, Frank or Gumbel copula object, with whatever parameter its setter accepts, whose log_lik is at least zero has a parameter within any given distance of the one of independence (0, 0 and 1); the same holds for the object left by every successful fit(method='ml') that reports at least zero. If instead the copula of the data is a Clayton or Frank copula with a positive parameter or a Gumbel copula with a parameter above one, then with a probability that tends to one log_lik of that copula is greater than that of IndepCopula.", "quantifier": "for all dimensions, continuous margins, tie methods, objects of the three classes, optimisers that report values they have seen, starting values, positive scales, distances and probabilities", "why_tests_cant": "It is a limit statement about the distribution of samples of every size and about all real parameters of all classes at once.", "anchors": ["copulae/copula/base.py:log_lik", "copulae/copula/base.py:fit", "copulae/indep/indep.py:pdf", "copulae/indep/indep.py:random", "copulae/copula/estimator/max_likelihood.py", "copulae/archimedean/clayton.py:pdf", "copulae/archimedean/frank.py:pdf", "copulae/archimedean/gumbel.py:pdf", "copulae/core/rank.py:pseudo_obs"]}
{"id": "C165", "title": "The goodness-of-fit test does not depend on multiprocessing", "statement": "gof_copula(multiprocess=True), run from any state of NumPy's global generator, returns the same copula, statistic and p-value as gof_copula(multiprocess=False) from that state, whichever worker process takes which replication; in particular the replications are draws of their own, not copies of each other.", "quantifier": "for all copula classes, data, numbers of replications, tie methods, states of the generator and assignments of replications to forked worker processes", "why_tests_cant": "Which process takes a replication is up to the operating system, and a test that only checks that a p-value is returned passes whatever the replicates are.", "anchors": ["copulae/gof/goodness_of_fit/goodness_of_fit.py:GofParametricBootstrap.fit", "copulae/gof/goodness_of_fit/goodness_of_fit.py:GofParametricBootstrap._process_result"]}
{"id": "C166", "title": "Worker processes do not change clear results of the goodness-of-fit test", "statement": "If gof_copula(multiprocess=False) returns from some state of NumPy's global generator, gof_copula(multiprocess=True) returns from it, too, with the same copula and statistic, and its replicates are among those of the serial run; so if no replicate of the serial run reaches the statistic, or if all do, the p-value is the same. In particular, for the Clayton or Gumbel class with method='itau' and n independent rows with continuous margins from any other copula of the library that has the Kendall's tau of the class at some parameter, the p-value with worker processes is the least there is, 0.5 / (reps + 1), with a probability that tends to one as n grows.", "quantifier": "for all copula classes, data, numbers of replications, tie methods, states of the generator and assignments of replications to forked worker processes; the limit for all dimensions, parameters that random can draw from, copulas of the data, continuous margins, starting values and scales, and probabilities", "why_tests_cant": "Which process takes a replication is up to the operating system, and the limit is about the joint distribution of data and replicates of every size.", "anchors": ["copulae/gof/goodness_of_fit/goodness_of_fit.py", "copulae/gof/goodness_of_fit/utils.py", "copulae/copula/estimator/corr_inversion.py", "copulae/archimedean/clayton.py", "copulae/archimedean/gumbel.py"]}
{"id": "C167", "title": "A marginal copula fits the copula inside as that copula's own fit does", "statement": "MarginalCopula(inner, margins).fit(data, x0, method, ties=...), if every margin can be fitted, leaves the inner copula as inner.fit with the same data, start, method and ties leaves it, also for a GaussianMixtureCopula inside; in particular fit(data) with nothing else works for every class of copula inside. If a margin cannot be fitted, the exception of the first such margin is raised and the inner copula stays as it was.", "quantifier": "for all numbers of clusters and dimensions, data, margins and their fitting routines, starts, methods, tie methods, to_pobs and scales", "why_tests_cant": "The arguments are passed by position to methods whose signatures differ between classes, and the tests only put elliptical copulas inside.", "anchors": ["copulae/marginal/marginal.py:MarginalCopula.fit", "copulae/mixtures/gmc/gmc.py:GaussianMixtureCopula.fit", "copulae/mixtures/gmc/estimators/em.py:LogLik"]}
{"id": "C168", "title": "The goodness-of-fit test with IndepCopula is a consistent test of independence", "statement": "Let the data be n independent rows with continuous margins. gof_copula(IndepCopula, data, reps) returns; its statistic divided by n tends in probability to the mean squared difference between the distribution function of the copula of the data and the product, so to zero for independent columns. If the copula of the data is any copula of the library with dependent components (also one with uncorrelated components, such as a Student copula with the identity matrix, or a Clayton copula with a negative parameter), the p-value is the least there is, 0.5 / (reps + 1), with a probability that tends to one as n grows, with and without worker processes.", "quantifier": "for all dimensions, copulas of the data, continuous margins, tie methods, numbers of replications, assignments of replications to forked worker processes and probabilities", "why_tests_cant": "It is a limit statement about the joint distribution of data and replicates of every size.", "anchors": ["copulae/gof/goodness_of_fit/goodness_of_fit.py", "copulae/gof/goodness_of_fit/utils.py", "copulae/indep/indep.py:cdf", "copulae/indep/indep.py:fit", "copulae/indep/indep.py:random"]}
{"id": "C169", "title": "The test of independence by goodness of fit keeps its level for every sample size", "statement": "Let the data be n independent rows of independent components with continuous margins. Then gof_copula(IndepCopula, data, reps) returns with probability one, and its p-value is at most alpha with a probability of at most floor(alpha * (reps + 1) + 1/2) / (reps + 1), whatever n is; so with a probability of at most alpha if alpha * (reps + 1) is a whole number, such as for alpha = 0.05 and reps = 999. The statistics of the data and of the replicates are those of reps + 1 independent samples of one law, and the p-value counts how many of them reach that of the data.", "quantifier": "for all sample sizes, dimensions, continuous margins, tie methods, numbers of replications and levels", "why_tests_cant": "It is an exact statement about the distribution of the p-value over all data and all states of the generator; a simulation can only estimate it for single cases.", "anchors": ["copulae/gof/goodness_of_fit/goodness_of_fit.py", "copulae/gof/goodness_of_fit/utils.py", "copulae/indep/indep.py:cdf", "copulae/indep/indep.py:fit", "copulae/indep/indep.py:random"]}
{"id": "C170", "title": "The test of independence keeps its level with worker processes", "statement": "Let the data be n independent rows of independent components with continuous margins. Then the p-value of gof_copula(IndepCopula, data, reps, multiprocess=True) is at most alpha with a probability of at most alpha whenever alpha * (reps + 1) is a whole number, whichever worker process takes which replication.", "quantifier": "for all sample sizes, dimensions, continuous margins, tie methods, numbers of replications, levels and assignments of replications to forked worker processes", "why_tests_cant": "It is a statement about the distribution of the p-value over all data and all states of the generator, and which process takes a replication is up to the operating system.", "anchors": ["copulae/gof/goodness_of_fit/goodness_of_fit.py:GofParametricBootstrap.fit", "copulae/gof/goodness_of_fit/goodness_of_fit.py:GofParametricBootstrap._process_result", "copulae/indep/indep.py"]}
{"id": "C171", "title": "Correlations depend on what they should: rank correlations on the order only", "statement": "corr(x, method=m, use=u) with m one of 'kendall', 'tau', 'spearman', 'rho' (any case) is unchanged, both in its result and in the exception it raises, when every column is replaced by a strictly increasing function of it with missing and infinite values kept; likewise corr(x, y, ...) of two vectors. With 'pearson' the same holds for a change of unit and origin of every column. The order of the rows of x never matters, and columns in another order give the same matrix with its rows and columns in that order. Turning columns over changes the sign of their correlations with the columns that are not, and nothing else.", "quantifier": "for all matrices and pairs of vectors of any size with or without ties, missing and infinite values, all increasing functions, methods and treatments of missing values", "why_tests_cant": "It is a statement about all real data and all increasing functions; the rows that are left out depend on the pattern of missing values of all columns.", "anchors": ["copulae/stats/correlation.py:corr", "copulae/stats/correlation.py:_yield_vectors", "copulae/stats/correlation.py:_form_xy_vector", "copulae/stats/correlation.py:_get_corr_func"]}
{"id": "C172", "title": "The functions of multiples of pi keep shapes and arguments", "statement": "cospi, sinpi and tanpi (cospi2, sinpi2 and tanpi2) return the cosine, sine and tangent of pi times (half of pi times) every element, in the shape of the argument, and a scalar exactly if the argument is a scalar; missing and infinite elements give NaN. The array passed is never changed.", "quantifier": "for all scalars and arrays of every shape, with or without missing and infinite values; for the tangents all elements that have one", "why_tests_cant": "It is about all shapes and values; the case of arrays with a single element is easily overlooked.", "anchors": ["copulae/special/trig.py:_array_io", "copulae/special/trig.py:cospi", "copulae/special/trig.py:cospi2", "copulae/special/trig.py:sinpi", "copulae/special/trig.py:sinpi2", "copulae/special/trig.py:tanpi", "copulae/special/trig.py:tanpi2"]}
