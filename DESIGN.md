# Design

A Lean 4 model of the Python/Cython package `copulae` (source read as text in
`/repo`, version 0.7.9) and proofs of the properties in `properties.jsonl`.

## How the model is laid out

* `lean/Verif/Model/*.lean`   – the code, function by function. Every definition
  cites the file and lines it models and states its simplifications.
* `lean/Verif/Spec/*.lean`    – small specifications that do not use the model
  (what a rank is, what a copula is, what the Stirling numbers are, ...). Short
  specifications stand in the namespace `Spec` of the file that uses them.
* `lean/Verif/Lemmas/*.lean`  – helper lemmas.
* `lean/Verif/Props/*.lean`   – the property theorems named in `MANIFEST.json`,
  with concrete non-trivial instances (`example`) beside them.
* `seeded/LOG.jsonl`          – the log of deliberate bugs put into a scratch
  copy of the model, and the theorems that failed because of them.

Exceptions are values (`Except PyErr α`). NumPy/SciPy/statsmodels/pandas calls
are either modelled from their documented behaviour (rank data, sorting, fancy
indexing, element-wise arithmetic, dictionary operations) or appear as explicit
parameters whose contract is a hypothesis of the theorem (matrix repair,
Brent's method, optimiser, densities, random generator). Every contract is shown
to be satisfiable by an example or an existence theorem.

## Numbers

IEEE doubles are modelled as exact real numbers extended by `nan`, `+inf` and
`-inf` (`Verif.Model.Num`, type `Fl`) wherever the code's behaviour depends on
those values (Archimedean copulas, validity masks, samplers); otherwise plain
`ℝ`, `ℚ`, `ℤ`, `ℕ`. Rounding, overflow to infinity of finite operations and
signed zeros are not modelled.

## Trusted base

* The Lean 4 kernel, and Mathlib's definitions. Axioms: only `propext`,
  `Classical.choice`, `Quot.sound` (checked with `#print axioms`, last section).
  No axioms of our own, no `sorry`, no `native_decide`, no `bv_decide`.
* That the model definitions say what the cited code says, up to the stated
  simplifications.
* The contracts of external routines that occur as hypotheses (next section).


## Properties: what is modelled and how each is proved

Status and exact theorem names are in `MANIFEST.json`; "partial" means that the code violates the full statement (the negation is proved by a witness) or that a stated part is missing.

| id | property | status | files in `Props/` | how |
|----|----|----|----|----|
| C01 | Pseudo-observations lie strictly inside the unit interval | proved | Ranks | `rank_data`, `pseudo_obs` by counting smaller and equal elements; bounds on the counts; all n, all data, all tie methods, matrix and vector input; rejected inputs covered |
| C02 | Pseudo-observations preserve order and ties | proved | Ranks | counts are monotone |
| C03 | Pseudo-observations depend on the data only through its ranks | proved | Ranks | counts only depend on comparisons |
| C04 | Pseudo-observations commute with reordering rows | proved | Ranks | reindexing of the counts |
| C05 | Rank mass is conserved and the tie methods agree without ties | proved | Ranks | sum of ranks by induction over the tie groups |
| C06 | Computing pseudo-observations twice is the same as once | proved | Ranks | ranks of ranks, counting; the second theorem is the witness that mixing tie methods is not harmless |
| C07 | Parameter vector and correlation matrix are two views of the same thing | proved | CovMatrix | fancy assignment on triangle indices; bijection of positions and cells |
| C08 | Triangle indices enumerate each cell exactly once | proved | CovMatrix | nested loops as list folds; enumeration without duplicates; the second theorem shows that for side 'both' and m = 0 the diagonal is listed twice |
| C09 | Indexed access to elliptical correlations is consistent | proved | AliasInt, Elliptical | explicit position of each pair |
| C10 | No sequence of indexed assignments breaks an elliptical copula | proved | Elliptical | invariant over assignment histories; cov_nearest is a parameter; its contract is the hypothesis RepairOk, shown satisfiable by an example |
| C11 | Archimedean generator and inverse generator are inverse to each other | partial | ArchCdf | generators over extended reals; real analysis of powers and logarithms; Frank only for u > 0.01: below that the code returns the wrong branch (frank_psi_ipsi_zero) and a scalar argument raises (frankIpsi_scalar_fails) |
| C12 | Archimedean CDFs have uniform margins | partial | ArchCdf | generator and inverse cancel; Frank only for coordinates above 0.01, where the code is correct; see frankCdf_not_grounded for the failure below |
| C13 | Archimedean CDFs are grounded | partial | ArchCdf | limits of the generator at infinity; Clayton and Gumbel and independence in full; the Frank code violates it (witness) |
| C14 | Archimedean CDFs are exchangeable | proved | ArchCdf, ArchPdfRows | sums commute |
| C15 | CDFs are monotone and satisfy the Frechet bound | partial | ArchCdf | monotonicity of generator and inverse; Frank only for coordinates above 0.01; the code violates it below (witness) |
| C16 | Bivariate CDFs assign non-negative probability to every rectangle | partial | ArchCdf | convexity of the generator; Frank only for coordinates above 0.01 |
| C17 | CDFs equal the documented closed forms | partial | ArchCdf | algebra; Clayton and Gumbel in full; Frank for coordinates above 0.01 |
| C18 | pdf is the mixed derivative of cdf | partial | ArchPdf | all partial derivatives by induction on the number of coordinates; Stirling and Eulerian polynomials; Clayton, Gumbel and independence in full; Frank for theta > 0 (for theta < 0 the code returns NaN, proved), against the exact Frank copula on the open cube and against the code's cdf where all coordinates exceed 0.01 |
| C19 | pdf reports invalid rows and rows do not influence each other | partial | ArchPdfRows | validity masks row by row; Frank, Gumbel and Clayton with theta <= 0 in full; Clayton with theta > 0 violates the claim (third theorem) |
| C20 | log=True returns the logarithm of the plain result | partial | ArchCdf, ArchPdfRows, GmcDensity | case analysis on `log`; violated by Clayton at theta = 0 (third theorem) and by Gaussian mixture copulas, whose log=True returns the weighted mean of the logarithms (last two) |
| C21 | tau and itau are inverse calibrations | proved | ArchMeasures | inverse functions on the stated ranges |
| C22 | dtau and drho are the derivatives of tau and rho | partial | ArchMeasures, Debye | `HasDerivAt`; derivatives proved for Clayton, Gumbel and elliptical copulas; violated by Frank's dtau and drho at every nonzero parameter (last two theorems) |
| C23 | Tail dependence coefficients are the limits they are documented to be | partial | ArchTail | limits along the diagonal; Clayton in full. Gumbel: the lower coefficient is the limit; the upper one is not (proved negation: the limit is 2-2^(1/theta), the code returns a value above 1). Frank: the limits of the copula are the returned zeros, but the code's cdf does not have the lower limit because of its small-u branch |
| C24 | Copula parameters always stay inside the documented bounds | partial | ArchParams | invariant over assignment histories; Clayton in dimension two accepts parameters below its bound (witnesses) |
| C25 | Bivariate samplers invert the conditional distribution exactly | proved | ArchRandom | the sample solves the equation of the conditional distribution, which is a derivative of the cdf; the random numbers are arguments of the model; values exactly 0 (possible with probability 2^-53) are outside the theorem |
| C26 | dipsi is the derivative of ipsi | partial | ArchMeasures | `HasDerivAt`; Clayton with a negative parameter returns NaN (witness); Frank only where ipsi itself is right (u > 0.01) |
| C27 | The Pickands function of the Gumbel copula is a valid dependence function | partial | ArchTail | convexity and bounds of an lp norm; full for array arguments; a scalar w raises TypeError (proved) |
| C28 | Stirling numbers are correct for all arguments | proved | Special | loops refine the recurrences; counted as partitions and cycles through Mathlib |
| C29 | Eulerian numbers are correct for all arguments | proved | Special | recurrence; eulerian_zero_zero records that eulerian(0, 0) is 0 instead of 1 |
| C30 | Polylogarithm of non-positive order is correct and method independent | proved | Special | generating function identities |
| C31 | Horner evaluation is polynomial evaluation | proved | Special | induction |
| C32 | log_sum is a shift-invariant log-sum-exp | proved | Special | exponential of sums; logSum_all_ninf is the exceptional input where NaN is returned |
| C33 | All Gumbel coefficient algorithms compute the same numbers | partial | GumbelCoef | Stirling number identities; the code violates the full statement: method 'log' fails for d = 1, and alpha = 1 with log=True is wrong for the Sibuya based methods; the last two theorems are the witnesses |
| C34 | sign_ff gives the sign of the generalised binomial coefficient | partial | GumbelCoef | sign of falling factorials; array arguments; with two scalars the code always raises (third theorem) |
| C35 | find_root only returns points bracketed by a sign change | proved | FindRoot | loop invariant; scipy's brentq is a parameter; the contract assumed in findRoot_root is satisfiable by exists_brentq |
| C36 | Parallel and serial element-wise evaluation agree under every schedule | proved | Threads | simulation of every schedule of atomic actions; every interleaving of the atomic reads and writes, every distribution of the iterations over threads |
| C37 | Element-wise special functions leave their argument unchanged | partial | SpecFunc, Threads | effect on the caller array; violated: contiguous float64 arrays with a number of elements other than one are overwritten (last theorem) |
| C38 | Clausen function is odd and 2*pi periodic | partial | SpecFunc | case analysis of the reflections; odd for every argument; periodicity is violated: NaN from 2 pi on |
| C39 | Debye wrappers handle negative arguments by the reflection formulas | proved | Debye | case analysis; the numeric kernels for positive arguments are parameters |
| C40 | The empirical copula is a distribution function on the cube | proved | Empirical | finite sums, kernels monotone; scipy.special.btdtr is a parameter with the contract IsBtdtr (regularised incomplete beta function), shown satisfiable by exists_btdtr |
| C41 | Checkerboard and beta smoothing give exactly uniform margins | proved | Empirical | sums of kernels over ranks, Bernstein identities |
| C42 | to_marginals inverts pseudo_obs | partial | Marginals | floors and sorted lists; the inverse property is proved in full for average, min, max and ordinal; u = 1 is rejected by the code (third theorem), and with dense ranks the data do not come back (fourth theorem) |
| C43 | Test p-values are valid probabilities | proved | Gof | counting; the copula class of gof_copula is a parameter. gofPValue_nan records that a NaN statistic receives the smallest p-value |
| C44 | The exchangeability statistic is blind to swapping the two samples | proved | Gof | symmetry of the statistic; coinciding columns are the case of the identity permutation in exchTest_exchangeable |
| C45 | The radial symmetry statistic vanishes for radially symmetric samples | proved | Gof | reflection of ranks; row order and the vanishing of the statistic are stated for the tie methods for which they are true (not ordinal; average) |
| C46 | Bootstrap samples keep the dependence of the fitted copula | partial | Gof | sortedness of columns; witness; only the first half holds: ties are re-created, but every column is sorted on its own, so the pairing is lost (witness gofResort_breaks_pairing) and all replications give the same statistic |
| C47 | Mixture parameters survive the round trip through an optimisation vector | partial | GmcParam | algebra of logits, triangle enumeration; two clusters or more: every probability vector, mean and positive semi-definite covariance survives, zeros and ones after the adjustment to_vector makes. Violated for one cluster (a NaN probability is produced or rejected) and to_vector changes the object it is called on |
| C48 | One EM step keeps mixture parameters valid | proved | GmcEm, GmcEmLoop | weighted sums, Gram matrices; exact arithmetic; the densities are arbitrary non-negative, infinite or NaN values |
| C49 | EM returns the best parameter it visited | partial | GmcEmLoop | invariant of the loop; the parameters returned are the best visited when no recorded log-likelihood is NaN. Violated: the log-likelihood reported is that of the last iterate (em_reports_wrong), a NaN counts as best (em_nan_wins), max_iter=0 fails with IndexError |
| C50 | merge_dict is a right-biased deep merge | proved | CubeLaw, Dict | induction on nested dictionaries; aliasing of nested dictionaries between argument and result is not modelled |
| C51 | Seeded sampling is reproducible regardless of history | proved | Seeding | equational over an arbitrary generator; every generator: the draws are arbitrary functions of the generator state. The C rand() used by the tests is not covered |
| C52 | Column order of a DataFrame does not matter after fitting | proved | Reshape | selection by label undoes permutations; the last three theorems record surprising cases: a Series is read by position, names from an earlier fit stay, a keyword call raises IndexError |
| C53 | Correlation matrices are symmetric with unit diagonal for every missing-data policy | proved | Correlation | invariant of the loop over pairs; the scipy coefficients are parameters |
| C54 | Fit summaries describe the fitted copula | partial | Fit, FitInv | invariant over optimiser trees; maximum likelihood: parameters and log-likelihood are those of the copula for an optimiser that reports a point it evaluated and scale 1. Violated: the log-likelihood is multiplied by scale (fit_scaled_logLik), a failed fit leaves the last parameters tried (fit_failure_changes_copula), inversion reports the log-likelihood of the re-ranked data (fit_corr_raw_logLik) and, for Student copulas, no degrees of freedom |
| C55 | Covariance and correlation conversions are inverse to each other | proved | Linalg | algebra, Cauchy–Schwarz |
| C56 | A rejected assignment to an elliptical copula changes nothing | proved | Elliptical | case analysis; the NaN scalar is a genuine exception: the second theorem exhibits the corrupted state |
| C57 | gumbel_poly does not depend on the algorithm | partial | GumbelPoly | series identities; all methods for alpha < 1 and d >= 2; alpha = 1 and d = 1 for the methods that support them; 'pois' in dimension one raises (proved) |
| C58 | Frailty samplers have the copula's distribution | partial | Frailty | Laplace transforms as integrals and series; Clayton in full. Frank: right given log-series frailties, but the code's generator of that law is wrong for every parameter: uniform variates above 3, NaN with positive probability up to 3 (both proved) |
| C59 | Calibrating a Frank copula by Kendall's tau | proved | FrankTau | integral identities of the Debye function; relative to exact Debye values and an exact root finder, both contracts satisfiable |
| C60 | cheb_eval evaluates the Chebyshev series | proved | SpecFunc | Clenshaw recurrence |
| C61 | The empirical beta copula's density | proved | EmpiricalPdf | finite sums; scipy.stats.beta.pdf and logpdf are parameters with the contract IsBetaPdf, shown satisfiable |
| C62 | Re-tied bootstrap samples keep whole rows | proved | Gof | permutations of rows; np.argsort is a parameter that returns a sorting permutation |
| C63 | is_psd and near_psd agree on what a positive semi-definite matrix is | partial | Linalg | quadratic forms; violated for strict=True: singular matrices are accepted (last theorem) |
| C64 | Fitting does not modify the caller's options | partial | Dict | case analysis; violated: the method is written into the caller's dictionary (fitOptions_mutates), and from there reaches the next fit (fitOptions_leaks). Unchanged when the method is given |
| C65 | Optimiser options reach the optimiser under names it accepts | partial | Dict | membership; violated for trust-constr: its defaults are passed as keywords |
| C66 | A seed is the same as seeding numpy first | partial | Seeding | equational; violated for the Student copula (chi-square and normal variates come from the same seed) and for the Gumbel copula with theta - 1 < 1e-7; holds for all others |
| C67 | Hypothesis tests do not reset the global generator | partial | Seeding | equational; violated: the global generator is reset by exch_test on data without ties; what holds is that the p-value is a function of the data |
| C68 | Vectors of the wrong length are not mixture parameters | partial | GmcParam | length arithmetic; violated: in dimension 2 the last block may be two numbers short, the one number given fills the matrix (fromVector_short) |
| C69 | Tie methods resolve ties as their names say | proved | RankTies | counting |
| C70 | Fitting keeps the class and the admissibility of a copula | proved | FitInv | invariant over optimiser trees |
| C71 | A fit that raises keeps the former summary; refused input changes nothing | proved | FitInv | case analysis of every exit |
| C72 | Inversion of Kendall's tau reproduces the sample's tau | partial | FitInv | calibrations compose; means of equal entries; bivariate Archimedean copulas and elliptical copulas of dimension three or more; bivariate elliptical copulas cannot be fitted (see C73). For Frank copulas taus within 1e-16 of zero or 4e-20 of one are left out |
| C73 | The documented inversion methods work for every family | partial | FitInv | case analysis; violated: bivariate Gaussian and Student copulas never, and irho for no family but the Gaussian; the cases that work are those of C72 |
| C74 | Maximum likelihood finds a starting value on any data | partial | FitInv | negative means; violated: Clayton and Frank copulas of dimension three or more raise ValueError when the sample taus are negative. In two dimensions the starting value (the itau estimate) is accepted by fit_itau_two |
| C75 | Maximum likelihood gives elliptical copulas a correlation matrix | proved | FitInv | objective is infinite off the cone; positive finite scale |
| C76 | Every form of index names the correlations it should | proved | EllIndex | explicit positions |
| C77 | Every box has non-negative probability in any dimension | partial | ArchVolume | derivatives of alternating sign give alternating differences, induction over the coordinates; all families and dimensions; for Frank copulas the coordinates must exceed 0.01 and theta exceed -36, where the code is right (frankCdf_not_grounded) |
| C78 | The distribution function is 1-Lipschitz | partial | ArchVolume | convexity of the generator, one coordinate at a time; same restriction for Frank copulas |
| C79 | A marginal copula's cdf is a joint distribution with the given margins | partial | MarginLaw, MarginalCopula | Sklar's construction over the copula of C77; truncation computed for the violation; Archimedean inner copulas (Frank within the region of C77) and the independence copula. Violated: integer input truncates the marginal probabilities (margCdf_int, margCdf_int_differs) |
| C80 | A marginal copula's pdf is the density of its cdf | partial | MarginLaw, MarginalCopula | chain rule for mixed derivatives over C18; as a mixed derivative for Clayton and Frank inner copulas with positive parameter and Gumbel inner copulas; as a density of the law (C141) also for Gaussian, independence and Student inner copulas up to 10000 degrees of freedom and two-dimensional Clayton copulas with negative parameter |
| C81 | The joint density vanishes outside the support of a margin | partial | MarginalCopula | evaluation at the border of the cube; holds for the independence copula; violated: NaN for Clayton inner copulas with positive parameter |
| C82 | A marginal copula's sample has the inner copula's dependence and the margins' quantiles | partial | MarginalCopula | the Galois connection between quantile and distribution function; violated for n = 1 over Gaussian and Student copulas: IndexError |
| C83 | Margins are created as described | partial | Univariate | induction over the signature; heap of dictionaries; violated: shape parameters that are not given are written into the caller's dictionary, which makes a later margin with the same dictionary fail |
| C84 | Reported marginal parameters recreate the margin | proved | Univariate | induction over the signature |
| C85 | Fitting uses the ranks only, and margins are fitted to their own columns | proved | MarginalFit | ranks depend on the order only; induction over the margins |
| C86 | log_lik is the sum of the log densities | partial | MarginLaw, MarginalFit | the density theorem and the sum of logarithms; Clayton and Frank copulas with positive parameter, Gumbel and Gaussian copulas, Student copulas up to 10000 degrees of freedom. Violated: one observation raises AttributeError |
| C87 | A marginal copula's log_lik is the likelihood of the data | partial | MarginLaw, MarginalFit | C80 and C85; witness with margins on [0, 2]; holds with to_pobs=False. Violated by default: the margins are evaluated at the ranks of the data |
| C88 | A marginal copula's fit that raises changes nothing | partial | MarginalFit | symbolic run of fit; data of the wrong dimension change nothing; violated when the inner copula refuses the data after the margins were fitted |
| C89 | to_marginals accepts points of the unit cube only | partial | Marginals, MarginalsRange | toMarginals, npIndex; positions of negative coordinates computed; violated: for coordinates in [-1, 0) observed values are returned, read from the upper end of the sorted column. Proved: an IndexError is raised exactly if a coordinate is less than -1 or at least 1 |
| C90 | gof_copula fits and tests with the requested tie methods | proved | GofReplicateTies, GofReplicates | gofData, gofFit, gofTStat unfolded; tie methods agree on columns without ties |
| C91 | Replications are drawn under the null hypothesis | proved | GofReplicates | unfolding exchReplication and radSymReplicate; reversing a flip exchanges or reflects the row |
| C92 | The derivative estimates of the exchangeability test respect the margins | proved | GofReplicates | counting pseudo-observations below a threshold (floor bounds) around the clipped point |
| C93 | The cdf of a Gaussian mixture copula is a copula | partial | GmcDensity | gmcPdfRow, gmcCdfRow as convex combinations; normal distribution functions lie strictly between 0 and 1; violated: cdf and pdf evaluate the mixture of normal distributions at the points of the cube themselves; cdf is positive everywhere and below one at (1,...,1) |
| C94 | debye_1 and debye_2 compute the Debye functions | proved | DebyeAccuracy | All branches of the compiled functions; the Chebyshev tables are compared, coefficient by coefficient and with rational arithmetic in the kernel, with the expansion of a polynomial that approximates t/(e^t-1) on [0,4] to 1.1e-19; the exponential series comes from integrating the geometric series term by term, with enclosures of pi and zeta(3).; exact real arithmetic; rounding is not modelled |
| C95 | Starting values of a fit | proved | FitStart | The choice of starting values and the whole fit method. |
| C96 | Rows of mixture and empirical samples | proved | SampleRows | Generator as a state monad; the rows of a component are compared with its draw as multisets. |
| C97 | Frank's tau and rho are accurate for every parameter | proved | FrankAccuracy | The compiled functions of C94 plugged into the model of tau and rho; second order Taylor expansion of t/(e^t-1) for the branch near zero.; exact real arithmetic; rounding is not modelled |
| C98 | The cdf of the Gaussian copula is a copula | proved | GaussianCopula | `gaussianCdf` is the code with SciPy's functions as arguments (`EllFns`). `Spec.gaussLaw` is the law of the transformed normal vector (Mathlib's multivariate Gaussian), `Spec.IsCopula` the three axioms. Copula measures with uniform margins are studied once for all laws in `Lemmas/CopulaMeasure`.; with the exact normal probabilities and quantiles of SciPy; its numerical integration is not modelled |
| C99 | The pdf of the Gaussian copula is the density of its cdf and the law of its samples | proved | GaussianCopula | `gaussianPdf` is the code; `Spec.HasCubeDensity` says that integrals over all measurable sets give the probabilities. The normal density is derived from Mathlib's Gaussian by a linear change of variables, the copula density by a coordinate-wise one.; with the exact normal densities and quantiles of SciPy |
| C100 | tau and rho of elliptical copulas are those of the copula | partial | EllConcordance | tau and rho as maps over the correlations; laws of scale mixtures of normal vectors; orthant probabilities by rotation; Spearman's rho of the t copula as an integral of arcsin over a mixing law and strict concavity; tau holds for both families, rho for the Gaussian copula; for the Student copula rho is proved wrong at every correlation other than -1, 0, 1 and all degrees of freedom |
| C101 | The pdf of the Student copula is the density of its samples | partial | StudentCopula | mvtPdf/studentPdf branch by branch; density of the t vector by integrating the gamma mixture; transformation to the cube; holds up to 10000 degrees of freedom; above, pdf and random belong to a law whose margins are not uniform. With the exact t and normal distributions of SciPy; random without a seed |
| C102 | The cdf of the Student copula returns the probability below a row | partial | StudentCopula | studentCdf as the code stands; every path ends in an exception; violated: cdf raises NotImplementedError for every copula and point |
| C103 | lambda_ of elliptical copulas is the tail dependence of the copula | partial | EllTail | gaussianLambda/studentLambda as coded; light tails of the mean of two normal coordinates; for t vectors dominated convergence of the scaled corner probability and an exact evaluation of the moment of the minimum; holds for the Gaussian copula; violated by the Student copula for every correlation other than 0 and 1: the formula lacks the division by 1 + rho. With the exact t distribution of SciPy |
| C104 | GumbelCopula.random draws from the Gumbel copula | partial | GumbelRandom | Kanter's representation of the positive stable variate is recovered from the code's trigonometric form; its moments of negative order are computed by a recursion over sine integrals, which gives the law of a ratio with an exponential variate and hence the Laplace transform; the frailty theorem then gives the copula. Near 1 the negation is proved.; holds for parameter 1 and for every parameter above 1 + 1e-5 + 1e-8; in between independent uniforms are returned, whose law is proved different from the copula. Exact real arithmetic |
| C105 | skew_stable.rvs draws from the positive stable law | proved | GumbelRandom | Same Laplace transform, scaled and shifted; each check of the parameters is a branch of the model.; parametrisation 2 and other skewness are the subject of C122 and C127 |
| C106 | tau of an Archimedean copula is Kendall's tau of its law | proved | ArchLaw | A law is fixed by its distribution function, so Kendall's tau is four times the mean of the copula minus one. The mean is computed from the conditional sampler (Clayton, Frank) or from the frailty representation and the Laplace transform (Gumbel), and pairs of coordinates in any dimension are reduced to the bivariate copula.; Frank with the compiled Debye function in exact real arithmetic |
| C107 | rho of a Frank copula is Spearman's rho of its law | proved | ArchLaw | The mean product of a Frank pair is computed by integrating the conditional distribution, which gives Debye functions; the accuracy of the compiled ones is C97.; with the compiled Debye functions in exact real arithmetic |
| C108 | pdf of an Archimedean copula is the density of its law | partial | ArchLaw, ArchPdf | The mixed derivative computed by pdf is a mixture over the frailty of products of densities, so its integral over every box is the copula; laws with equal distribution functions are equal. Clayton with a negative parameter: sections of the density integrate to the conditional distribution.; violated by Frank with a negative parameter, where pdf is NaN; holds otherwise. Clayton with parameter -1 has no density |
| C109 | Samples of an Archimedean copula agree with its tau and pdf | partial | ArchLaw, Frailty, GumbelRandom | The laws of the samplers (C25, C58, C104) have the copula as distribution function, so C106 and C108 apply to them.; violated by Gumbel just above 1 and by Frank in other dimensions than two, where random draws from another law, and by Frank's pdf for negative parameters |
| C110 | Samples of a Gaussian mixture copula come from the copula up to 1.25e-5 | proved | GmmMargin | The margin of a normal mixture is a weighted sum of normal distribution functions (`gmmMargin_eq`). `asNdtr_normCdf` bounds the error of the rational approximation everywhere: against a fitted polynomial of degree 22 the difference is certified by positivity of rational polynomials (`LP.posOn`), and the polynomial against the normal integral by comparing derivatives. The law of the rows is compared with that of the copula by the Lipschitz property of copulas.; exact real arithmetic; the normal rows come from NumPy |
| C111 | Quantiles of the Gaussian mixture margins | partial | GmmPpf | `interp1d` is modelled as sorting and piecewise linear interpolation. Between neighbouring grid points every component changes by at most half a percent (its own grid) or lies in its tail (`gmmMargin_gap`); interpolated values stay between the neighbours (`interpR_bracket`). At 0 and 1 the range check of SciPy raises, since the grid values are strictly inside (0, 1).; violated at the ends of the documented domain: an entry 0 or 1 always raises ValueError; the rest holds for probabilities from 3e-7 to 1 - 3e-7 |
| C112 | The log-likelihood of a Gaussian mixture copula is that of its density | proved | GmcLogLik | The density of a law under different margins is computed by change of variables (`df_eq_integral'`); the mixture and its margins have explicit densities (`gmmLaw_density`, `gmmMargin_density`). The value returned is that density at the exact probabilities of the quantiles used, which C111 bounds.; with the exact normal densities of SciPy; on the border of the cube ValueError |
| C113 | Expectation maximisation does not decrease the likelihood of the normal mixture | proved | EmAscent | the E and M steps composed are `emBody`; the covariance update is positive definite when the points affinely span; ascent from Jensen, Gibbs and the inequality tr(A⁻¹B) + log det A ≥ d + log det B, proved by simultaneous reduction to eigenvalues; with the exact normal densities of SciPy; that the quantiles exist is C111 |
| C114 | K-means start values are a mixture with the moments of the data | partial | GmcKmeans | `kMeans` for an arbitrary labelling; sums over the fibres of the labelling, law of total covariance; violated by clusters with one row, whose covariance is NaN: NonSymmetricMatrix; so always with fewer than two rows for each cluster |
| C115 | Fitting a Gaussian mixture copula changes only the copula, and only on success | partial | GmcFit | `gmcFit` returns the copula, x0 and the outcome; all branches followed; the negations hold for all data and optimisers; violated: gradient descent changes zero probabilities of x0, a call with an unknown method replaces the parameters before it raises, and k-means ignores ties |
| C116 | Gradient descent does not return a worse mixture copula | partial | GmcFit | the optimiser is a decision tree with the contract `OptTree.Descends`; induction over the tree; the objective equals minus the log-likelihood because the probabilities from a vector sum to one exactly; violated for one cluster, where gradient descent always raises GMCParamError |
| C117 | The parameters of a Gaussian mixture copula have its size | partial | GmcFit | case analysis of the setter; the dictionary of any valid mixture is accepted by any copula; violated by dictionaries, which are accepted with any numbers of clusters and dimensions |
| C118 | dilog computes the dilogarithm | proved | Dilog | all branches of `dilog_xge0` with their loops; the integral of the documentation is shown to satisfy the functional equations by differentiation, the power series by termwise integration, the truncation of every loop is bounded; exact real arithmetic |
| C119 | dilog outside the finite numbers, and its logarithm | partial | Dilog | the same functions at the special values of `Fl`; violated: dilog(nan) is 0, dilog(-inf) is NaN, and poly_log ignores log for order two; only the value at plus infinity is right |
| C120 | The rows of a sample are independent and have the law of the copula | partial | IdealGen, SampleLaw | An ideal generator is a law on states from which every draw has its documented law and leaves an independent state with the same law (Spec/Sampling, shown to exist by an infinite product). A small calculus (image, succession, dependence on a discrete draw) turns the row laws of C25, C58, C104, C99, C101, C96 and C110 into laws of whole samples; the loop over the clusters of a mixture by induction; Chebyshev's inequality for the frequencies.; violated by Frank in other dimensions than two (C104, frank_random_large_fails), Gumbel up to 1 + 1e-5 + 1e-8, Clayton and Frank within 1e-7 of zero, and Student above 10000 degrees of freedom |
| C121 | Seeded Student samples have the law of the copula | partial | SampleLaw, SeededStudent, Seeding | Negation: an ideal generator whose chi-square variates with one degree of freedom are squares of its normal variates; every seeded sample has the first coordinate at one of three values.; violated: with a seed the chi-square and the normal variates come from the same state; with an ideal generator that makes chi-square variates from normal ones every seeded sample takes at most three values in the first coordinate |
| C122 | skew_stable.rvs draws from the stable law | proved | StableLaw | For a fixed angle the variate is a power of the exponential one; substitution in one variable and Tonelli give the density; at index two the integral is Gaussian after the substitution of the cotangent.; exact real arithmetic, ideal uniform and exponential variates |
| C123 | skew_stable.pdf is the density of what skew_stable.rvs draws | partial | StablePdf, StablePdfLaw, StablePdfZero | `Model/StablePdf.lean` follows `pdf`, `aux_f1`, `pareto` and `find_root` branch by branch; root search and quadrature by contract (`IsBracketing`, `IsQuad`). At a `StablePoint` the searches succeed and the sum of the integrals is Nolan's integral up to the cut near the right angle (`Props/StablePdf.lean`); it is the density of the variates of rvs by C122.; violated: for index one half and skewness one pdf is zero on an interval in which rvs draws with probability at least 1/50; proved with an explicit error bound where the function in the exponent crosses one (StablePoint); exact for index two and for the Cauchy law; exact real arithmetic, root search and quadrature by contract; for the index one with a skewness see C130 and C131 |
| C124 | changing the sign of the skewness mirrors the stable density | partial | StableOneFail, StablePdfMirror | equality of the two computations branch by branch; violated with index one: pdf raises AssertionError for skewness -1/2 at a point where the mirrored density is returned; proved for an index other than one; missing x = delta with skewness one in absolute value, where the tail gives NaN |
| C125 | the stable density of an array is computed entry by entry | partial | StablePdfLaw, StablePdfZero | structural, for all parameters; violated: a zero is replaced by the tail approximation if and only if some other entry is not zero |
| C126 | skew_stable.logpdf is the logarithm of skew_stable.pdf | partial | StablePdfLaw, StablePdfZero | from the value of aux_f1 with log at a `StablePoint`; violated: the tail approximation replaces densities of zero but not log-densities of minus infinity (and replaces log-densities of zero) |
| C127 | with pm=2 the mode of the stable density is at delta | partial | StablePdfMirror | the location with pm=2 does not depend on the skewness; with C124; violated: the mode is computed for skewness one whatever the skewness (max for min), so it has the wrong sign for negative ones; right without skewness |
| C128 | at the point where the two halves of the stable density meet, pdf returns the limit of the density | proved | StableLimits | the value of fZeta is the limit of both integrals after the angle is scaled with the distance from zeta, by dominated convergence; exact real arithmetic |
| C129 | the tail approximation that replaces zeros of the stable density is asymptotically the density | proved | StableLimits | own values determine the array; the integral for large values, with the angle from the upper end scaled, by dominated convergence; exact real arithmetic; the limit of the ratio differs from one by at most 2e-16 / sin(alpha pi / 2), because PI2 is not exactly half of pi |
| C130 | skew_stable.pdf with index one and a skewness is the density of the stable law | partial | StableOneFail, StableOneLaw, StablePdfOne | auxF2 models aux_f2 with NumPy's values of tan and cos at pi/2; the density is validated as that of the CMS variate for index one (substitution, Fubini); for a positive skewness the ends of [-1, 1] have a sign change, the two quadratures add up, and the integrand differs from the exact one only on an interval of length 1e-10 and below 1e-100; for a negative one the ends of all 1001 intervals are below one; violated: for negative skewness the root search starts from an interval without a sign change (np.size for np.sign) and pdf raises AssertionError far out in the heavy tail, and NaN raises; proved up to 1e-10/(2 beta gamma) for positive skewness and standardised arguments up to 1e16; exact real arithmetic, root search and quadrature by contract |
| C131 | skew_stable.rvs with index one draws from the stable law with the given skewness | partial | StableOneLaw, StableOneRvs | stableZ at index one is the tangent of the angle by the addition theorem; its law is Cauchy by substitution; for skewness one the probabilities of being below -4 differ; violated: the formula for other indices is used with the finite value of tan(pi/2) in floating point and gives Cauchy variates whatever the skewness; exact real arithmetic otherwise |
| C132 | clausen computes the Clausen function | partial | Clausen | The integrand is split into a logarithm, integrated exactly, and the logarithm of the cardinal sine, whose derivative is compared with a rational polynomial from the Bernoulli numbers (remainders bounded, coefficients added by the kernel); the polynomial is expanded in Chebyshev polynomials and compared with the constants of the code; the reflection by the symmetry of the integral and its modulus of continuity.; violated from 2 pi on, where the value is NaN; within the first period on both sides of zero the error is at most 4e-18 in exact arithmetic |
| C133 | dilog_complex computes the dilogarithm of a complex number | partial | DilogComplex, DilogComplexCall | the integral is differentiated along the plane without its cut and satisfies the reflection and the inversion formula (derivatives agree, one value known); the power series and the accelerated one have geometric remainders, the third series is the Taylor series in the logarithm of the modulus around the unit circle, whose coefficients come from the derivatives of the dilogarithm along a ray; the circle by Bernoulli polynomials and C132; near the line by mean values and continuity at one; above the cut the argument under the integral has one sign; violated less than 10 DBL_EPSILON above the cut, where the imaginary part has the sign of the other side, and for angles of a full turn or more, where the value depends on the angle and not only on z or is NaN; within 2e-12 everywhere else in exact arithmetic |
| C134 | dilog_complex of arrays works element by element and leaves its arguments alone | partial | DilogComplexCall | the body of the loop overwrites its cells with a function of their values, so that every schedule gives the serial result (C38); with one piece of memory the second assignment wins; violated: contiguous arrays of 64-bit floats hold the parts of the result afterwards, and an array passed as both arguments gives numbers whose real part is their imaginary part |
| C135 | fix_df keeps the degrees of freedom | partial | FitDf | Model/FitDf.lean: the optimiser is any tree of questions for the objective and the constraint, the copula is the state. The constraint is zero after every evaluation (dfConstraint_vacuous); a run that starts at a point forgets the degrees of freedom (induction over the questions before it); with KeepsFirst the result is the start. fitCon_toCon: without questions for the constraint it is the fit of C70.; violated: the objective writes the degrees of freedom into the copula the constraint compares with, so the constraint is zero wherever the optimiser is and the degrees of freedom of the user are forgotten; options without constraints raise KeyError and a list of constraints grows; correlation inversion keeps them |
| C136 | An argument may be passed by position or by name | partial | Keyword | Model/Keyword.lean: decorators as functions from calls (positional list, keyword list) to calls over any type of values. The value bound to each parameter is compared; bound_iff by induction over the argument lists. Violations for every value that is not an array, and for every shape of points.; violated: cast_input compares a name with the set of names by identity and never casts keywords, and shape_first_input_to_cop_dim raises IndexError for every cdf and pdf called by name; validate_data_dim and select_summary are right |
| C137 | dAdu returns the derivatives of the Pickands function | partial | PickandsDeriv | Model/PickandsDeriv.lean: typed numbers (int, float, array), the exclusive or is defined for integers only. The remaining lines give the derivatives (chain rule, HasDerivAt) if line 106 is right.; violated: the exclusive or of floats in line 106 raises TypeError for every parameter and argument; the other lines are right |
| C138 | multivariate_t.pdf is the density of the multivariate t law with its mean and matrix | partial | MultivariateT | Model of pdf with numbers, vectors and rows for x, None, numbers and vectors for the mean, and None, numbers and matrices for cov (Model/MultivariateT). Refinement: the value is that of the Student copula's density (C101) at the rows less the mean; translation invariance of Lebesgue measure. Negation: np.diag of a number.; proved for rows and vectors with at most 10000 degrees of freedom, and up to SciPy's normal density above; violated: a number always raises, and a single column in several dimensions is taken for points on the diagonal |
| C139 | multivariate_t.rvs draws from the documented t laws | partial | MultivariateT | Spec: the image of the t law under a shift, and the ratio of a normal vector with the mean and the root of a chi-square variable. The chi-square and normal draws of an ideal generator in succession (C120), with the NumPy rules for squeezing, reshaping and in-place division of shapes. Negation: the margins of the normal law are not t laws.; proved with at most 10000 degrees of freedom for sizes from one in two or more dimensions, tuples in every dimension, and one number in one dimension; violated above 10000, where the rows are normal and dimensions of length one are dropped |
| C140 | The documented defaults of multivariate_t can be used | partial | MultivariateT | Case analysis over the arguments; the random state is threaded through, so errors after a draw are errors too.; violated: df cannot be left out, a number for cov (the default) raises TypeError with the default type, two or more values in one dimension raise ValueError, and above 10000 degrees of freedom every type is accepted; the rejections at or below 10000 are right |
| C141 | A marginal copula is one law | partial | MarginLaw | The margins are laws of real random variables with distribution and quantile functions. The law of the quantiles of a vector drawn from the inner copula is constructed as a push-forward; its margins, its distribution function and, by the change of variables in each coordinate, its density are proved, and compared with the modelled cdf, pdf and random.; proved for Gaussian and independence inner copulas, for Clayton and Gumbel inner copulas (pdf of Clayton copulas in two dimensions or with positive parameter), for Frank inner copulas with the restrictions of C12, C108 and C109, and for Student inner copulas up to 10000 degrees of freedom without cdf, which raises (C102); one row from an elliptical inner copula raises (C82) |
| C142 | Kendall's tau of simulated data converges to the copula's tau | partial | Consistency | Spec/Consistency.lean says that a computation from the generator gives a good value except with a small probability and what Kendall's tau of a sample without ties is. Lemmas/UStat.lean bounds the variance of means over pairs of independent observations; continuous margins keep the order of observations, so almost every sample has no ties, corr returns its concordance count, and the law's tau is that of the copula (C106, C99).; proved for Clayton and Gumbel copulas in every dimension, Frank copulas in two dimensions (up to 1e-9), Gaussian copulas, and Student copulas with at most 10000 degrees of freedom, above which random draws from another law; Clayton and Frank parameters from 1e-7 in absolute value, Gumbel parameters above 1 + 1e-5 + 1e-8, below which random draws uniform samples; scipy.stats.kendalltau by contract; the generator is ideal |
| C143 | Fitting by inversion of Kendall's tau recovers the parameters of simulated data | partial | FitInv, ItauConsistency, ItauFit | Ranking keeps the order, so the fit inverts the taus of the sample (Lemmas/ItauFit.lean); these are close to the taus of the copula except with small probability (C142), the inverse of tau is continuous, and a symmetric matrix close to a positive semi-definite one passes the test of near_psd, so it is not altered. FitObj.fitPobs is fit on real numbers; fitPobs_eq says that it is the fit of C70 to C75 on rational data.; proved for Clayton (above -1 and from 1e-7 in absolute value) and Gumbel copulas in every dimension, Frank copulas in two dimensions between 1e-7 and 1e19 in absolute value, Gaussian and Student (at most 10000 degrees of freedom) copulas in three or more dimensions, also with singular matrices; violated in two dimensions for Gaussian and Student copulas, where the fit always raises (C73); the log-likelihood is assumed not to raise; scipy.stats.kendalltau, brentq and the Debye function by contract; the generator is ideal |
| C144 | The empirical copula of simulated data converges to the copula | partial | EmpConsistency, EmpKernel | The kernels of the ranks 1 to n are compared with the indicator of the ranks up to n v, for beta smoothing through the binomial tail and its variance (Lemmas/EmpKernel.lean); without ties the observations in a lower set are those with the smallest ranks, so the empirical copula differs from a frequency by at most the errors of the frequencies of the columns (empReal_near); Chebyshev's inequality on a grid and monotonicity give all points (empReal_close).; proved for Clayton, Gumbel and independence copulas in every dimension, Frank copulas in two dimensions, Gaussian copulas, and Student copulas with at most 10000 degrees of freedom (where the limit is the distribution function of the law, since cdf raises, C102); the samplers from the parameters on from which they draw from the copula (C120); the cdf of Frank copulas at coordinates above 1/100; scipy.special.btdtr by contract; the generator is ideal |
| C145 | Spearman's rho of simulated data converges to rho of the copula | partial | Consistency, Spearman, SpearmanConsistency | The ranks divided by n are close to the values of the distribution functions when the frequencies are close on a grid (rank_near); the sum of the products of the ranks then differs little from an average of bounded independent variables, whose variance is bounded (pairMean_close); Spearman's rho is defined as the correlation of the ranks and reduced to that sum (sampleRho_eq).; proved for Gaussian copulas in every dimension and, up to 1e-8, for Frank copulas in two dimensions (the parameters of C120); violated by Student copulas with at most 10000 degrees of freedom, where the limit is strictly smaller in absolute value than rho (student_rho_wrong); Clayton and Gumbel copulas do not report a rho; scipy.stats.spearmanr by contract on samples without ties; the generator is ideal |
| C146 | Fitting a Gaussian copula by inversion of Spearman's rho recovers the correlations | partial | FitInv, IrhoFit, SpearmanConsistency | The fit is followed through corr, irho, create_cov_matrix, near_psd and the stored parameters (fit_irho_core); for simulated data the rhos are those of the pseudo-observations (spearman_pobsOf) and converge (C145), and a matrix close to a positive semi-definite one passes the test (isPsd_near).; proved in three or more dimensions, for the first part provided the matrix of the inverted rhos passes the test for positive semi-definiteness (for simulated data it does with high probability, also when the matrix of the simulation is singular); violated in two dimensions, where the fit always raises (C73); the log-likelihood is assumed not to raise; scipy.stats.spearmanr by contract; the generator is ideal |
| C147 | rad_sym_test tells asymmetric copulas from symmetric ones | partial | RadSymLaw, RadSymPower, RadSymTest | Lemmas/RadSym and RadSymTest: the empirical distribution function of a sample is uniformly close to the distribution function of the copula (grid argument), and stays so for ranks and for reflected and randomly reflected rows; hence the statistic is about n times the integral of the squared difference between the copula and its reflection, while every replicate is a sample from the symmetrised law with a statistic near zero. A union bound over the replicates gives the p-value. Lemmas/RadSymLaw: Clayton and Gumbel laws differ from their reflections on a set of positive probability (tail dependence coefficients, positive densities, strict concavity for negative parameters); Gaussian, Student, independence and bivariate Frank laws equal theirs (characteristic functions, closed form). rejects_not_finds shows that the two conclusions exclude each other.; proved for the copulas whose sampler draws from the copula: Student copulas with at most 10000 degrees of freedom, Clayton parameters other than -1 and at least 1e-7 in absolute value, Gumbel parameters above 1.00001001; the coins of one replicate are fair, independent of each other and of the data (CoinFlips; replicates may depend on each other); the generator is ideal |
| C148 | exch_test tells exchangeable pairs from others | partial | ExchPower, ExchTest, ExchVerdict | Model/Gof.lean (exchTest, exchTestStat, exchMultiplier, exchGrid). Spec/Exch.lean states exchangeability of a law of pairs, the gap between the distribution functions and what the normal multipliers are drawn from. Lemmas/ExchTest.lean bounds the statistic from both sides by the gap of the law and the influence terms by 100/n, hence the expectation of a replicate; Lemmas/ExchPower.lean combines the two (Markov's inequality against a statistic of order n); Lemmas/ExchLaw.lean proves the pairs of every family exchangeable and gives a law that is not.; proved for the samplers that draw from the copula: Student copulas with at most 10000 degrees of freedom, Clayton parameters other than -1 and at least 1e-7 in absolute value, Gumbel parameters above 1.00001001; the multipliers of one replicate are standard normal, independent of each other and of the data (NormalDraws; replicates may depend on each other), although the code draws them from a generator reseeded on every call; the generator is ideal |
| C149 | Samples carry the names of the variables | partial | Labels | Model/Labels.lean: the names of a copula object through constructors, fit and cast_output; theorems for all sequences of fits; counterexamples for the violations.; violated: Gaussian and Student copulas with names raise ValueError for a single draw; marginal copulas around a copula with names raise on every draw; Gaussian mixture and independence copulas do not take the names of the frame they are fitted to; proved otherwise |
| C150 | The settings of an empirical copula are those set last and are checked when set | partial | EmpObject | Model/Labels.lean: the empirical copula as an object with settings; invariant over sequences of operations.; violated: the setter of ties takes anything, after which cdf raises; the constructor takes offsets of NumPy types, for which pdf works and cdf raises; proved for the smoothing and for usable ties and offsets |
| C151 | EmpiricalCopula.pdf of a DataFrame is the density at its rows | partial | EmpObject | Model/Labels.lean EmpObj.pdfFrame: iteration over a DataFrame yields the names of its columns; both kinds of names lead to a theorem that refutes the claim.; violated by every frame: the loop runs over the names of the columns, which raises TypeError for strings, and evaluates the density at the numbers of the columns for numbers; for arrays see C61 |
| C152 | Correlation matrices of frames and series can be looked up by name | proved | EmpObject | Model/Labels.lean corrNames and corrFrame over the model of corr; invariance under permutations of the columns.; the coefficient is symmetric in its two samples (hypothesis of the theorem about the order) |
| C153 | Copulas own their parameters | partial | Alias, AliasInt | Heap model of arrays with element types and views (Model/Alias.lean); refinement of a value semantics (Spec/Owned.lean) by induction over programs, for programs that assign copies of floats; concrete programs for the violations.; violated: the setters keep a reference to the array, so copulas share arrays with the caller, with each other and with the summary of the fit, and an array of integers truncates later assignments; proved for programs that assign copies and floats only (owned_partial) |
| C154 | Options of gradient descent reach the optimiser | partial | SgdOptions | sgdCall models the call of minimize; case analysis over the dictionary; acceptance characterised by an equivalence.; violated for the optimisers without defaults: max_iter and disp are ignored; proved for nelder-mead, bfgs, slsqp, cobyla and trust-constr |
| C155 | Summaries show what they summarise | partial | Display | Displays modelled as lists of cells or lines (Model/Display.lean); induction over the two dictionaries for zip_longest; membership lemmas; the violations by computation.; violated: the summary of a fit by inversion and the summary of a Gaussian mixture copula without parameters raise AttributeError when displayed as HTML; numbers of NumPy types are not shown, such as the degrees of freedom of a Student copula assigned among integers; proved otherwise |
| C156 | The log-likelihood finds the copula the data come from | partial | Likelihood, LikelihoodChoice | log_lik without conversion is the sum of the logarithms of pdf (Model/LogLik.lean). The product of the roots of density ratios has mean equal to a power of the Hellinger affinity, which is below 1 for different laws (Lemmas/Affinity.lean), and Markov's inequality gives the exponential bound. That the laws differ follows from Kendall's tau, the tail dependence coefficients, reflection asymmetry, and the growth of the diagonal near the origin for Frank against Gaussian copulas; for Student copulas the tail dependence is strictly decreasing in the degrees of freedom (Lemmas/LawsDiffer.lean, Lemmas/LawsDifferEll.lean).; proved for two densities of different laws in general, and that the laws of the families differ; left out: Student copulas with more than 10000 degrees of freedom, Frank copulas with a negative parameter, data from Frank copulas in more than two dimensions and data from Clayton and Gumbel copulas close to independence, where sampler or density are violated or not proved; the generator is ideal and the data are not converted to pseudo-observations |
| C157 | Maximum likelihood recovers the correlations of a Gaussian copula | proved | GaussMl | log_lik and fit with the default conversion to pseudo-observations of Model/LogLik.lean and Model/Fit.lean, the density of Model/EllDensity.lean. The second moments of the normal scores of the ranks converge in probability to the correlations (Lemmas/ScoreMoments: clipped scores, law of large numbers, closeness of ranks), and a matrix with at least the likelihood of the truth is near the truth when the moments are (Lemmas/GaussMl: eigenvalues of the likelihood ratio).; the generator is ideal, the normal distribution functions and quantiles are exact, and the normal log-density raises unless the matrix is positive definite (contract NeedsPosDef); the optimiser reports values it has seen |
| C158 | The goodness-of-fit test tells copula families apart | proved | GofPower, GofRun | gofRun is gof_copula in the monad of random draws. The statistic is compared row by row with the squared gap between the two distribution functions, using the uniform closeness of empirical distribution functions, the continuity of the law in its parameter and of the inverse of tau; weak laws of large numbers give the limit. For replicates the closeness must hold uniformly in the law they are drawn from, which the counting of grid points gives. Other copulas of the library differ from the class (C156) somewhere inside the cube, on an open set, which has mass as their densities are positive.; the generator is ideal, and Kendall's tau and the normal and Student functions are exact; replicates are drawn one after another (without multiprocessing). The Frank class is excluded because its cdf is wrong for coordinates up to 0.01 (see C12); Student copulas of the data have at most 10000 degrees of freedom, and a Frank copula of the data has a positive parameter |
| C159 | Maximum likelihood recovers the parameter of a Clayton copula | proved | ClaytonMl | Lemmas/LogScores: the logarithms of the pseudo-observations are close in the mean to those of the observations. Lemmas/Contrast: an estimator that maximises the mean of a criterion over pseudo-observations is consistent if the criterion is Lipschitz in the logarithms of the coordinates and in the parameter, has its largest mean at the truth and falls off for large parameters (law of large numbers, a finite cover of the compact part). Lemmas/ClaytonLik: the Clayton log-density is such a criterion, the mean is largest at the truth because different laws have an affinity below one. Lemmas/ClaytonRanks: negative parameters are excluded by pseudo-observations near the origin, where their density vanishes. Props/ClaytonMl transfers this to log_lik and fit.; the generator is ideal; the log-density of a copula without a finite parameter raises or is NaN (contract ClaytonLogPdf, which for finite parameters is the modelled pdf); the optimiser reports values it has seen |
| C160 | Maximum likelihood recovers the parameter of a Frank copula | partial | FrankMl, ModelRows | Props/FrankMl.lean, Lemmas/FrankLik.lean. The log-density for two dimensions is written with two integrals of exponentials, which gives Lipschitz bounds in the parameter and in the coordinates and the behaviour for large parameters; Contrast.near and the Kullback-Leibler inequality then give consistency as for C159. For parameters up to zero the modelled pdf is NaN (violation for negative ones).; violated for negative parameters, which the setter accepts in two dimensions: log_lik of the true copula is NaN on all data; proved for positive parameters in two dimensions. In more dimensions random does not draw from the Frank copula (violation, see C58); there model_choice_rows gives the parameter for independent rows from any source. The generator is ideal; the log-density of a copula without a finite parameter raises or is NaN (contract FrankLogPdf); the optimiser reports values it has seen |
| C161 | Maximum likelihood recovers the parameter of a Gumbel copula | proved | GumbelMl | Props/GumbelMl.lean, Lemmas/GumbelWald.lean, GumbelLik.lean, WaldContrast.lean. The density of the modelled pdf is the exponential of an explicit function of log-norms of the logarithms of -log u. Around every parameter a majorant of the log-density is built from the ends of a small interval of parameters, by monotony; dominated convergence makes its mean less than that of the truth (Wald), and a bound with theta times the distance of two coordinates excludes large parameters. Means over pseudo-observations converge for functions that are Lipschitz in log u and log (1 - u), by reflection of the sample. Draws for parameters up to 1 + 1e-5 + 1e-8 are independent uniforms, so the estimate tends to one there.; the generator is ideal; the log-density of a copula without a finite parameter raises (contract GumbelLogPdf, which for finite parameters is the modelled pdf, with exact coefficients); the optimiser reports values it has seen |
| C162 | The greatest likelihood tells the family, also after fitting | proved | FamilyLikelihood, ModelRows | Props/FamilyLikelihood.lean, Lemmas/Exclude.lean, FrankMulti.lean. A law with uniform margins and a log-density of logarithmic growth that is not independence has a positive mean log-density, and every other law has a strictly smaller one (Gibbs). The gap is uniform over the parameters of the other class: the log-densities are Lipschitz in the parameter, and fall linearly for large parameters (for Gumbel by the tail bound of C161, for Frank with the Eulerian form of the polylogarithm). Negative Clayton parameters are excluded since some row falls where the density is zero. Rank statistics of the pseudo-observations carry this over to log_lik, and fit_ml_summary_partial to fit.; the generator is ideal; log-densities without a finite parameter raise or are NaN (contract ArchLogPdf, which for finite parameters is the modelled pdf); the optimiser reports values it has seen. family_simulated is about random, which draws from the copula itself for Clayton parameters of at least 1e-7, Gumbel parameters above 1 + 1e-5 + 1e-8 and bivariate Frank copulas with parameters of at least 1e-7; in more dimensions the random of Frank copulas draws from another law (see C58), so there family_likelihood_rows is the statement: independent rows from anywhere with continuous margins and the copula |
| C163 | Maximum likelihood over the Archimedean classes finds family and parameter | proved | ModelChoice, ModelRows | Props/ModelChoice.lean, on top of C162: within the true class the parameter is found by the contrasts of C159, C161 and, for Frank copulas of every dimension, a new one with the Eulerian form of the polylogarithm; the other classes are excluded by C162.; the generator is ideal; log-densities without a finite parameter raise or are NaN (contract ArchLogPdf, which for finite parameters is the modelled pdf); the optimiser reports values it has seen. model_choice_simulated is about random, which draws from the copula itself for Clayton parameters of at least 1e-7, Gumbel parameters above 1 + 1e-5 + 1e-8 and bivariate Frank copulas with parameters of at least 1e-7; in more dimensions the random of Frank copulas draws from another law (see C58), so there model_choice_rows is the statement: independent rows from anywhere with continuous margins and the copula |
| C164 | Maximum likelihood tells independence from dependence | proved | IndepMl | iid d unif has the log-density zero; the Kullback-Leibler argument of C159 and C160 with the truth at the end of the parameter range (clayton_indep_contrast, frank_indep_contrast, and the Gumbel contrast of C161 at one), negative Clayton parameters by points near the origin (clayton_neg_indep); the converse from C163, because the Gumbel copula with parameter one has log-likelihood zero; log-densities without a finite parameter raise or are NaN (contract ArchLogPdf, which for finite parameters is the modelled pdf); the optimiser reports values it has seen; indep_ml_simulated assumes an ideal generator, the others are about independent rows from anywhere. Frank copulas with parameter zero cannot be evaluated, so that class only comes close to independence |
| C165 | The goodness-of-fit test does not depend on multiprocessing | partial | GofPar | gof_copula with a pool of forked processes is a program (Model/GofPar.lean) in which every worker holds a copy of the state of the generator, and an arbitrary function says which worker takes which task. Induction over the tasks gives the state of every worker and hence the outcome of every task in terms of the serial program; the p-values follow by counting. The negation is proved with a concrete test.; violated: forked workers start from copies of one generator state, so task i has the outcome of serial replication k, where k counts the earlier tasks of the same worker (pool_outcomes). Workers that take turns repeat every replicate as many times as there are workers; if no worker takes two tasks, all replicates are equal and the p-value has two possible values; the generator of the caller does not advance. Proved where one worker takes all tasks. Processes that are not forked, and pickling, are not modelled |
| C166 | Worker processes do not change clear results of the goodness-of-fit test | proved | GofParPower | Outcome k of the serial program is outcome of every task with k earlier tasks of its worker (C165), and k is at most the number of the task; so the replicates of the pool are among the serial ones, and counts of zero and of all carry over. The limit is that of C158.; processes that are not forked, and pickling, are not modelled; the limit statement has the assumptions of C158: the generator is ideal, Kendall's tau and the normal and Student functions are exact, the Frank class is excluded, Student copulas of the data have at most 10000 degrees of freedom, and a Frank copula of the data has a positive parameter |
| C167 | A marginal copula fits the copula inside as that copula's own fit does | partial | MarginalFit, MarginalGmc | MarginalCopula.fit around a mixture copula is modelled (Model/MarginalGmc.lean) with the arguments in the positions in which the code passes them; case analysis on the method compares it with the model of the fit of the mixture copula. The negations are for all data and starts, with concrete cases.; violated for Gaussian mixture copulas inside: to_pobs and scale arrive as max_iter and criteria, so method='pem' always raises AttributeError and method='sgd' runs with at most one iteration; the default method='ml' always raises GMCFitMethodError, after margins and parameters have been replaced. Proved for k-means, for 'sgd' with that number of iterations, and for Archimedean and elliptical copulas inside (margFit_ok) |
| C168 | The goodness-of-fit test with IndepCopula is a consistent test of independence | proved | GofIndep | Model/GofIndep.lean: fit and cdf of IndepCopula as gof_copula calls them, and the test with its draws. The theorems of C158 about fits that depend on Kendall's tau apply, since the fit depends on nothing. That the laws differ where there are data: by the positive densities of the copulas, and for Clayton copulas with a negative parameter because they are below the product everywhere.; the generator is ideal, and the normal and Student functions are exact; Student copulas of the data have at most 10000 degrees of freedom, and a Frank copula of the data has a positive parameter. Processes that are not forked, and pickling, are not modelled |
| C169 | The test of independence by goodness of fit keeps its level for every sample size | proved | GofIndepLevel | Model/GofIndep.lean. Without ties the statistic is a measurable function of the ranks, so that the data may be replaced by uniform ones of the same order; repeated draws of an ideal generator are independent; and of reps + 1 exchangeable numbers at most J can be reached by at most J of them.; the generator is ideal and independent of the data; replicates are drawn one after another (without multiprocessing) |
| C170 | The test of independence keeps its level with worker processes | partial | GofIndepPar, GofIndepWorkers | Model/GofPar.lean and Model/GofIndep.lean. By C165 the replicates are copies of one replicate where no worker takes two tasks; by C169 with one replication it is an independent sample of the law of the data; for two rows the statistic is computed for rows ordered alike and in opposite ways, which have the same probability. In general every worker repeats the first replications of the serial program, as many as it takes (induction on the number of tasks), so that the p-value is bounded below by that of a serial test with as many replications as the least busy worker takes, whose level is that of C169.; violated: where no worker takes two tasks all replicates are one and the same, so that the p-value is the least, 0.5 / (reps + 1), as soon as this one falls below the statistic, with a probability that does not depend on reps; for two rows and two columns it is at least 1/4. Proved where one worker takes all tasks; where each of w workers takes at least m tasks the level is at most (floor((alpha (reps + 1) - 1/2) / w) + 1) / (m + 1), for instance 0.0518 in place of 0.05 for four workers that share 1000 replications. The generator is ideal and independent of the data; processes that are not forked, and pickling, are not modelled |
| C171 | Correlations depend on what they should: rank correlations on the order only | proved | CorrInvariance | Model/Correlation.lean. Which rows are left out depends on the pattern of missing values only, which a change of scale keeps; so each pair of columns passes rescaled samples to the coefficient, and the loop that fills the matrix does the same steps. Every result and every exception is compared.; SciPy's coefficients of two samples of numbers are assumed to have these invariances themselves (Spec.ScaleFree, Spec.OrderFree, Spec.SignChanging, and symmetry), in exact arithmetic; proved is that the treatment of missing and infinite values, the choice of the coefficient and the assembly of the matrix keep them |
| C172 | The functions of multiples of pi keep shapes and arguments | partial | Trig | _array_io and the six functions are modelled on arguments with shape and elements (Model/Trig.lean), with the caller's array after the call as second result. The specification maps a real function over the elements and keeps shape and argument. Exact arithmetic; where a tangent does not exist no value is claimed.; violated: arrays with exactly one element come back as a number, although the documentation says so of scalars only. Proved for scalars and all other arrays; exact arithmetic, elements are floats |

## External routines and their contracts

| routine | where it appears | contract assumed | satisfiable by |
|----|----|----|----|
| `statsmodels.stats.correlation_tools.cov_nearest` | `CovNearest` | `RepairOk`: the result is a positive semi-definite correlation-type matrix of the same size (only where stated) | example in `Props/Elliptical` |
| `scipy.optimize.brentq` | argument of `findRoot`, `frankItau` | `IsBrentq`: returns a root in a bracket with a sign change | `exists_brentq` |
| `scipy.optimize.minimize` | `OptTree`: any strategy that asks for values and stops with any result | none; "honest" (reports a point it evaluated) where stated | examples in `Props/FitInv` |
| the same with `fix_df=True` | `ConTree`: also asks for the constraint | `Spec.StartsAt`: evaluates the objective at the start first; `Spec.KeepsFirst` (C135) | examples in `Props/FitDf` |
| the same in gradient descent of mixture copulas | `OptTree` | `OptTree.Descends`: evaluates the start and returns an evaluated point that is not worse (C116) | example in `Props/GmcFit` |
| `sklearn.cluster.KMeans` | `KMeansFn`: any labels | labels below the number of clusters, where stated | example in `Props/GmcKmeans` |
| compiled Debye functions | arguments `d1`, `d2` | `IsDebye1` (the integral) for C59 only; the compiled functions meet it up to 2e-18 (C94), and C97 uses them themselves | the integral itself |
| `scipy.special.btdtr`, `scipy.stats.beta.pdf/logpdf` | arguments of the empirical copula | `IsBtdtr`, `IsBetaPdf` (regularised incomplete beta function) | `exists_btdtr` |
| `scipy.stats.pearsonr`, `kendalltau`, `spearmanr` | `CorrFns` | none, the population meaning, or invariance (`ScaleFree`, `OrderFree`, `SignChanging`) where stated | examples in `Props/CorrInvariance` |
| `scipy.stats.multivariate_normal`, `norm`, `t` | arguments | none, or the exact density where stated | – |
| the same in the likelihoods of Gaussian mixtures | `MvnPdf` | `MvnPdf.Exact`: exact normal densities | `exactMvn` |
| the same in `cdf`, `pdf` of elliptical copulas | `EllFns` | `EllFns.Normal`: exact quantiles (infinite at 0 and 1), probabilities and densities for positive definite matrices | `exactNormal` |
| the t distribution in Student copulas | `EllFns` | `EllFns.Student`: exact quantiles, log-densities, probabilities | `exactEll` |
| frozen SciPy distributions | `Margin`, `Inner` | `Spec.IsDistFn`, `IsQuantile`, `IsSmooth` where stated | `uniTwo` (uniform on [0, 2]) |
| `rv_continuous.fit` | argument `distFit` | none | – |
| `scipy.stats` by name, signatures of distributions | argument `stats`, `Dist.sig` | parameter names differ | `distT`, `distNorm` |
| random generators | `Gen`: any state, any draws | none; `Spec.IsIdeal` (every draw has its documented law and is independent of the state it leaves) for C120, C121 | `idealGen`, `squareGen` |
| `scipy.interpolate.interp1d`, `np.interp` | `interp1d`, `npInterp` (defined) | sorts the points, raises outside their range, linear in between | – |
| `scipy.optimize.brentq`, `scipy.integrate.quad` in the stable density | arguments | `IsBracketing`: a point of the bracket where the function is zero or changes sign; `IsQuad`: the exact integral | `exists_bracketing`, `exists_quad` |
| `scipy.optimize.minimize_scalar` | argument `minScalar` of `stableMode` | none | – |
| `np.argsort` | argument of `retie` | returns a sorting permutation | `Tuple.sort` |

## Which parts of the code are modelled

Modelled: `core/linalg.py` (all), `core/misc.py` (rank data, pseudo-observations, triangle indices, covariance matrix),
`archimedean/` (generators, cdf, pdf, calibrations, derivatives, tail dependence, parameter setters, samplers,
`gumbel_coef`, `gumbel_poly`, Sibuya sums), `elliptical/` (correlation indexing, assignment, calibrations,
derivatives, `tau`, `rho`, `log_lik`, `cdf`, `pdf`, `lambda_`, `random`), `indep/`, `empirical/` (cdf, pdf, `to_marginals`, sampling), `gof/` (all three tests),
`copula/base.py` (`fit`, `log_lik`, `pobs`), `copula/estimator/` (all), `mixtures/gmc/` (parameters, marginals, likelihoods, the three estimators, `fit`, pdf, cdf rows,
sampling), `special/` (combinatorics, special functions, functions of multiples of pi, optimisation, Chebyshev, Clausen, Debye, real and complex dilogarithm, element-wise loops),
`marginal/` (all but the text of summaries), `stats/` (correlation, log, log-series sampler, stable sampler and density, multivariate t sampler, use of the generators), `utility/` (dictionaries,
decorators that shape the input, with positional and keyword arguments).

Not modelled: rounding of floating point numbers; the numerical accuracy of SciPy and of the compiled approximations;
the text of summaries, of `__repr__` and of warnings; `datasets/`; plotting; `gof_copula` with
worker processes that are not forked; arrays that overlap in part;
pandas beyond labels and column order.

## Findings: where the code violates a property

Each item is proved as a theorem about the model (named in `MANIFEST.json`).

* `FrankCopula.ipsi` takes the wrong branch for `u <= 0.01`; its cdf is not grounded, not monotone and not a copula
  there (C11–C13, C15–C18). A scalar argument raises `TypeError`.
* `FrankCopula.pdf` is NaN for every negative parameter (C18), and so is `log_lik` on all data (C160), so that maximum
  likelihood cannot find such a parameter. `dtau`, `drho` are wrong at every nonzero
  parameter (C22). The log-series variates used for sampling in dimension three or more do not have the
  log-series law (C58).
* `ClaytonCopula` of dimension two accepts parameters below -1 (C24); `dipsi` is NaN for negative parameters
  (C26); `pdf(log=False)` returns 0 instead of 1 at parameter 0 (C20); invalid rows get a density for positive
  parameters (C19).
* `GumbelCopula.lambda_` exceeds one (C23); `random` returns independent uniforms for parameters in (1, 1.00001] (C104); `A` raises for scalars (C27); `gumbel_coef` and `gumbel_poly`
  fail in dimension one or at `alpha = 1` for some methods (C33, C57); `sign_ff` of two scalars always raises (C34).
* Contiguous float arrays are overwritten by the compiled special functions (C37); the Clausen function is NaN
  from 2π on (C38).
* `dilog(nan)` is 0, `dilog(-inf)` is NaN, and `poly_log(z, 2, log=True)` returns no logarithm (C119).
* `dilog_complex` treats points less than `10 DBL_EPSILON` above the cut as if they were on it, where the imaginary part
  is that of the lower side; outside of the unit circle its value depends on the angle and not only on `r exp(i theta)`,
  and on the circle it is NaN from a full turn on (C133). The arrays passed in are overwritten, and the same array passed
  twice gives the imaginary part as the real part (C134).
* `to_marginals` rejects `u = 1`, does not invert dense ranks (C42) and reads negative `u` from the end of the column (C89).
* `GaussianMixtureCopula.cdf` and `pdf` evaluate the normal mixture at the points of the cube themselves: not a copula (C93);
  with `log=True` they return the weighted mean of logarithms (C20).
* `gof_copula` sorts every column of a bootstrap sample on its own when the data have ties: the dependence is lost and all
  replications give the same statistic (C46). A NaN statistic receives the smallest p-value (C43).
* `GMCParam.to_vector` changes the object and produces NaN for one cluster (C47); EM reports the log-likelihood
  of the last and not of the returned parameters, prefers NaN, and fails for `max_iter=0` (C49); short vectors are accepted in
  dimension two (C68).
* Fitting a Gaussian mixture copula: `k_means` raises when a cluster has one row (C114); `fit` with an unknown method replaces the
  parameters before it raises, k-means ignores `ties`, gradient descent changes `x0` (C115) and always raises for one
  cluster (C116). Dictionaries of other sizes are accepted as parameters (C117).
* `gmm_marginal_ppf` raises `ValueError` for probabilities 0 and 1 instead of returning infinite quantiles (C111).
* Assigning a NaN scalar to an elliptical copula corrupts it (C56). `is_psd(strict=True)` accepts singular matrices (C63).
* `fit` writes into the caller's options (C64), passes unknown keywords to `minimize` for trust-constr (C65).
* With a seed the chi-square and normal variates of a Student sample come from the same state, so its law can be wrong whatever the seed (C121).
* Seeding: Student and near-independent Gumbel samples are not those of a seeded generator (C66);
  `exch_test` resets the global generator (C67).
* Fitting: `itau`/`irho` of a bivariate Gaussian or Student copula always raises, `irho` works for no other family
  (C73); maximum likelihood of Clayton and Frank copulas of dimension three or more raises on data with
  negative taus (C74); summaries are scaled by `scale`, computed on re-ranked data, or describe another
  parameter after a failure (C54).
* Marginal copulas: integer input truncates the marginal probabilities (C79); NaN density outside the support (C81); one
  observation cannot be drawn over Gaussian and Student copulas (C82); the caller's dictionaries are changed (C83);
  `log_lik` evaluates the margins at the ranks (C87); a failing fit leaves new margins (C88).
* `StudentCopula.rho` returns the formula of the Gaussian copula: too large in absolute value for every correlation other than -1, 0, 1
  (C100). With more than 10000 degrees of freedom `pdf` and `random` use normal variates with t margins: not a copula
  (C101). `cdf` is not implemented (C102). `lambda_` lacks the division by `1 + rho` and is wrong for every correlation other than 0
  and 1 (C103).
* `skew_stable.pdf` with index one and a negative skewness searches an interval without a sign change, because `np.size(beta)` stands for `np.sign(beta)`, and raises far out in the heavy tail (C130, C124); a NaN makes it raise. `skew_stable.rvs` with index one draws Cauchy variates whatever the skewness, because the tangent of π/2 is finite in floating point (C131).
* `skew_stable.pdf` is zero for index 1/2 and skewness one at almost every point, because the sum instead of the difference of two bounds is compared with zero (C123). Zeros are replaced by the tail
  approximation only if another entry is not zero (C125); `logpdf` never does so (C126). With `pm=2` the mode is computed for skewness one whatever the skewness (C127).
* `StudentCopula.fit(fix_df=True)` does not fix the degrees of freedom: the objective changes the number the constraint compares with;
  options without the key `'constraints'` raise `KeyError`, and the caller's list grows with every fit (C135).
* Every `cdf` and `pdf` raises `IndexError` when the points are passed by name, and `cast_input` casts no argument passed by name (C136).
* `GumbelCopula.dAdu` always raises `TypeError` (C137).
* `multivariate_t.pdf` of a number always raises `ValueError`, and one column in several dimensions is repeated (C138). `multivariate_t.rvs`
  cannot be called with its defaults: `df=None` raises `ValueError`, `cov=1` raises `TypeError`, and in one dimension two or more values
  raise `ValueError`; above 10000 degrees of freedom any type is accepted and shapes are squeezed (C139, C140).
* `log_lik` of one observation raises `AttributeError` (C86).
* Names: a single draw of a Gaussian or Student copula with names raises `ValueError`, every draw of a marginal copula around a copula
  with names raises, and Gaussian mixture and independence copulas do not take the names of the frame they are fitted to (C149).
* `EmpiricalCopula`: `ties` and `offset` are not checked when set (C150); `pdf` of a frame runs over the names of the columns (C151).
* Gaussian and Student copulas keep a reference to the array assigned to `params`: they share it with the caller, with other copulas and
  with the summary of a fit, and an array of integers truncates what is assigned later, so that a fit by inversion yields zeros (C153).
* `fit(method='sgd')` of a Gaussian mixture copula ignores `max_iter` and `disp` for optimisers without defaults (C154).
* `gof_copula(multiprocess=True)`: forked workers draw the same random numbers, so replicates are repeated and the p-value differs from that
  of one process (C165), and the test of independence rejects independent data with a probability that does not depend on `reps` (C170).
* `MarginalCopula.fit` around a Gaussian mixture copula always raises for `method='pem'` and for the default method, and allows `'sgd'` one
  iteration, because `to_pobs` and `scale` arrive as `max_iter` and `criteria` (C167).
* `cospi`, `sinpi`, `tanpi` and their variants return a number for arrays with exactly one element, which are not scalars (C172).
* Summaries: those of fits by inversion and of Gaussian mixture copulas without parameters raise when displayed as HTML; numbers of NumPy
  types, such as degrees of freedom assigned among integers, are left out (C155).

## Checking the theorems against wrong programs

`seeded/LOG.jsonl` has one line per deliberate edit of the model in a scratch copy: the definition, the edit, the claim it breaks,
the theorems that no longer prove, and the theorems tightened when none did. Edits that break no claim are
marked as controls.


## Axioms per theorem

Output of `#print axioms` for every theorem named in `MANIFEST.json`, grouped.

* none (4): `empirical_summary`, `student_summary_integers`, `student_summary_partial`, `summary_all`

* `propext` (8): `corrNames_series_keep`, `eulerian_zero_zero`, `gmc_fit_shown`, `gmc_html_unfitted`, `mergeDict_self`, `mergeDicts_spec`, `selectSummary_keyword`, `selectSummary_spec`

* `Quot.sound`, `propext` (14): `DWF_mergeDict`, `castInput_keyword_violation`, `eulerian_reject`, `evalCall_keyword_violation`, `evalCall_positional`, `exists_done`, `fit_html_inversion`, `fit_text`, `indepNew_named`, `mergeDict_spec`, `mergeDicts_last`, `stirling_reject`, `summary_shows`, `validateDims_keyword_partial`

* `Classical.choice`, `Quot.sound`, `propext` (715): `IsDeepMerge.unique`, `angleRestrict_ge`, `archCdf_exchangeable`, `archCdf_log`, `archCdf_wrong_dim`, `archLogLik_value_partial`, `archPdf_exchangeable`, `archPdf_log_partial`, `arch_empirical_learns`, `arch_finds_exchange`, `arch_itau_recovers`, `arch_law_exists`, `arch_marginal_law_partial`, `arch_tau_converges`, `archimedean_law_exists`, `auxF1_levy_zero`, `auxF1_mirror`, `auxF1_ok`, `auxF2_inf`, `auxF2_nan`, `baseLogLik_one_row`, `betaCdf_tail`, `castPos_spec`, `cdf_grounded_partial`, `cdf_lipschitz_partial`, `cdf_margin_partial`, `cdf_mono_frechet_partial`, `cdf_rectangle_partial`, `cdf_volume_partial`, `chebEval_spec`, `choice_laws_differ`, `clausen_accurate_partial`, `clausen_finite`, `clausen_nan`, `clausen_odd`, `clausen_period_fails`, `clausen_reflect_partial`, `clausen_spec_period`, `clausen_value_violation`, `claytonCdf_closed`, `claytonCdf_theta_zero`, `claytonItau_keyword_violation`, `clayton_asymmetric`, `clayton_ctor_out_of_bounds`, `clayton_dipsi_negative`, `clayton_dipsi_partial`, `clayton_dtau`, `clayton_frailty_iid`, `clayton_likelihood_near`, `clayton_ml_example`, `clayton_ml_recovers`, `clayton_neg_asymmetric`, `clayton_pair_agrees`, `clayton_pair_iid`, `clayton_pdf_density`, `clayton_pdf_density_neg`, `clayton_pdf_invalid_row`, `clayton_pdf_mixed`, `clayton_pdf_mixed_neg`, `clayton_pdf_rows_partial`, `clayton_pdf_zero_log`, `clayton_random_frailty`, `clayton_random_lower`, `clayton_random_pair`, `clayton_rejects_symmetry`, `clayton_sample_agrees`, `clayton_set_out_of_bounds`, `clayton_tail`, `clayton_tau_itau`, `clayton_tau_kendall`, `clayton_two_history`, `cmsOne_law`, `corr2cov_cov2corr`, `corrFrame_lookup`, `corrFrame_reorder`, `corrFunc_names`, `corrNames_series_distinct`, `corr_columns`, `corr_error`, `corr_increasing`, `corr_kendall_converges`, `corr_kendall_value`, `corr_local`, `corr_pair_increasing`, `corr_policies_agree`, `corr_row_order`, `corr_spearman_value`, `corr_spec`, `corr_turned`, `corr_units`, `corr_value`, `corr_vectors`, `cov2corr_corr2cov`, `cov2corr_std`, `cov2corr_valid`, `cov2corr_zero_var`, `createCovMatrix_badLength`, `createCovMatrix_rebuild`, `createCovMatrix_roundTrip`, `createUnivariate_heap_partial`, `createUnivariate_mutates`, `createUnivariate_spec`, `dAduRest_partial`, `debye1K_accurate`, `debye1_overwrites`, `debye2K_accurate`, `debyeK_ends`, `debye_nonfinite`, `debye_reflection`, `debye_wrappers`, `dependence_wins`, `derCn1_margin`, `derCn1_nonneg`, `derCn1_zero`, `derCn2_margin`, `detail_roundtrip`, `dfConstraint_lags`, `dfConstraint_vacuous`, `dilogComplexCall_overwrites_violation`, `dilogComplexCall_partial`, `dilogComplexCall_spec`, `dilogComplexOf_above_cut_violation`, `dilogComplexOf_partial`, `dilogComplexSame_example`, `dilogComplexSame_violation`, `dilogComplex_above_cut_violation`, `dilogComplex_circle_violation`, `dilogComplex_partial`, `dilogComplex_turn_violation`, `dilog_accuracy`, `dilog_accuracy_small`, `dilog_nonfinite`, `dipsi_reject`, `eStep_rows`, `ell_dtau_drho`, `ell_rho_irho`, `ell_tau_itau`, `ell_tau_kendall`, `elliptical_named_single`, `emBody_exact`, `emBody_zero`, `em_bad_criteria`, `em_best_partial`, `em_iteration_ascent`, `em_nan_wins`, `em_no_iter`, `em_reports_wrong`, `em_step_valid`, `empCdf_distribution`, `empCdf_margins`, `empCdf_rejects`, `empCdf_smoothing`, `empPdf_density`, `empPdf_rejects`, `empReal_close`, `empReal_near`, `empiricalNew_named`, `empiricalRandom_rows`, `empirical_exec`, `empirical_learns_of_draws`, `empirical_offset_other`, `empirical_offset_unchecked`, `empirical_pdf_named_frame`, `empirical_pdf_numbered_frame`, `empirical_random_iid`, `empirical_settings`, `empirical_ties_unchecked`, `empirical_usable_partial`, `eulerian_rowSum`, `eulerian_spec`, `eulerian_symm`, `evalInput_array`, `evalInput_castOutput`, `evalInput_column_order`, `evalInput_frame`, `evalInput_keyword`, `evalInput_missing_column`, `evalInput_rows`, `evalInput_series`, `evalInput_series_positional`, `evalInput_wrong_shape`, `exchInflu_bound`, `exchReplication_keep`, `exchReplication_swap`, `exchTest_deterministic`, `exchTest_exchangeable`, `exchTest_rejects`, `exchTest_repeats`, `exchTest_resets`, `exchTest_rows`, `exchTest_strictMono`, `exchTest_swap`, `exchTest_valid`, `exch_of_draws`, `exch_rejects_law`, `exch_small_law`, `exch_test_accepts`, `exch_test_rejects`, `exch_test_rejects_grid`, `exists_betaPdf`, `exists_brentq`, `exists_btdtr`, `family_choice`, `family_example`, `family_likelihood`, `family_likelihood_rows`, `family_simulated`, `findRoot_bracket`, `findRoot_fail`, `findRoot_first`, `findRoot_nonfinite`, `findRoot_root`, `findRoot_unchanged`, `finds_of_draws`, `fitColumns_stale`, `fitCon_toCon`, `fitOptions_default_method`, `fitOptions_defaults`, `fitOptions_keywords_partial`, `fitOptions_leaks`, `fitOptions_mutates`, `fitOptions_trust_constr`, `fitOptions_unchanged_partial`, `fitOptions_user_wins`, `fitPobs_arch_near`, `fitPobs_ell_near`, `fitPobs_eq`, `fitPobs_irho_near`, `fit_admissible`, `fit_corr_raw_logLik`, `fit_corr_summary_partial`, `fit_error_keeps_summary`, `fit_failure_changes_copula`, `fit_html_ml`, `fit_inversion_two_fails`, `fit_irho_core`, `fit_irho_fails`, `fit_irho_gaussian`, `fit_itau_ell`, `fit_itau_ell_succeeds`, `fit_itau_two`, `fit_keeps_kind`, `fit_ml_psd`, `fit_ml_summary_partial`, `fit_negative_fails`, `fit_ranks`, `fit_refused`, `fit_scaled_logLik`, `fit_single_estimate`, `fit_start_invalid`, `fit_without_names`, `fits_names`, `fixed_df_default_violation`, `fixed_df_forgotten_violation`, `fixed_df_kept_partial`, `fixed_df_not_kept_violation`, `fixed_df_options_violation`, `fixed_df_own_start_partial`, `frankCdf_closed_partial`, `frankCdf_not_grounded`, `frankCdf_not_monotone`, `frankCdf_theta_zero`, `frankIpsi_scalar_fails`, `frank_approx_cdf`, `frank_approx_psi`, `frank_dipsi_partial`, `frank_drho_fails`, `frank_dtau_fails`, `frank_finds_symmetry`, `frank_itau`, `frank_itau_tau`, `frank_likelihood_near_partial`, `frank_lower_tail_fails`, `frank_measures_odd`, `frank_measures_value`, `frank_ml_example`, `frank_ml_recovers_partial`, `frank_near_zero`, `frank_negative_likelihood`, `frank_pair_agrees_partial`, `frank_pair_iid_partial`, `frank_pdf_density_partial`, `frank_pdf_mixed_partial`, `frank_pdf_negative`, `frank_psi_ipsi_zero`, `frank_random_frailty_partial`, `frank_random_large_fails`, `frank_random_nan_row`, `frank_random_pair`, `frank_random_small_fails`, `frank_rho_accurate`, `frank_rho_converges`, `frank_rho_spearman`, `frank_tail_partial`, `frank_tau_accurate`, `frank_tau_increasing`, `frank_tau_kendall`, `frank_tau_zero`, `fromVector_length_partial`, `fromVector_prob`, `fromVector_short`, `gaussianCdf_isCopula`, `gaussianCdf_law`, `gaussianCdf_margin`, `gaussianLogLik_value`, `gaussianPdf_density`, `gaussianPdf_radial`, `gaussianRandom_law`, `gaussian_badColumns`, `gaussian_empirical_learns`, `gaussian_finds_exchange`, `gaussian_finds_symmetry`, `gaussian_independent`, `gaussian_irho_recovers_partial`, `gaussian_itau_recovers_partial`, `gaussian_lambda_tail`, `gaussian_likelihood_near`, `gaussian_marginal_law`, `gaussian_ml_example`, `gaussian_ml_recovers`, `gaussian_random_iid`, `gaussian_rho_converges`, `gaussian_rho_spearman`, `gaussian_tau_converges`, `getItem_int`, `getItem_negative`, `getItem_rows`, `getMarginalClass_names`, `getMarginalDetail_spec`, `gmcCdf_mixture_partial`, `gmcCdf_not_copula`, `gmcFit_default_start`, `gmcFit_kmeans`, `gmcFit_kmeans_ties`, `gmcFit_sgd_changes_x0`, `gmcFit_sgd_x0_partial`, `gmcFit_success`, `gmcFit_unknown_method`, `gmcFit_x0_partial`, `gmcInit_dict_mismatch`, `gmcPdf_log_jensen`, `gmcPdf_log_wrong`, `gmcPdf_mixture_partial`, `gmcRandom_rows`, `gmcSetParams_mismatch`, `gmcSetParams_other`, `gmcSetParams_shape_partial`, `gmc_html`, `gmc_isCopula`, `gmc_one_cluster`, `gmc_one_cluster_fails`, `gmc_random_iid`, `gmc_random_law`, `gmc_roundtrip`, `gmc_roundtrip_self`, `gmcm_log_likelihood_border`, `gmcm_log_likelihood_density`, `gmm_log_likelihood_density`, `gmm_marginal_cdf_distribution`, `gmm_marginal_cdf_ends`, `gmm_ppf_accurate`, `gmm_ppf_ends`, `gmm_ppf_nan`, `gmm_ppf_pseudo_obs`, `gmm_random_iid`, `gofCopula_pvalue`, `gofCopula_ties_degenerate`, `gofData_ok`, `gofFit_spec`, `gofPValue_antitone`, `gofPValue_nan`, `gofPar_among`, `gofPar_differs_violation`, `gofPar_greatest`, `gofPar_least`, `gofPar_rejects_others`, `gofPar_repeats_violation`, `gofPar_serial_partial`, `gofPar_spread_violation`, `gofPar_turns_violation`, `gofPar_workers`, `gofReplicate_spec`, `gofResort_breaks_pairing`, `gofResort_comonotone`, `gofResort_ties`, `gofRunPar_ok`, `gofRunPar_state`, `gofRun_exec`, `gofStat_emp`, `gof_indep_level`, `gof_indep_level_exact`, `gof_indep_null`, `gof_indep_par_level_partial`, `gof_indep_par_level_violation`, `gof_indep_par_reject_violation`, `gof_indep_par_workers_partial`, `gof_indep_rank`, `gof_indep_rejects`, `gof_indep_rejects_par`, `gof_indep_statistic`, `gof_rejects`, `gof_rejects_others`, `gof_statistic_converges`, `gof_statistic_null`, `goodSample_rejects`, `gumbelA_scalar_fails`, `gumbelCdf_closed`, `gumbelCoef_agree`, `gumbelCoef_log_alpha_one`, `gumbelCoef_log_dim_one`, `gumbelCoef_methods_partial`, `gumbelCoef_positive`, `gumbelDAdu_violation`, `gumbelPoly_boundary`, `gumbelPoly_methods_partial`, `gumbelPoly_pois_one`, `gumbelPoly_reject`, `gumbel_asymmetric`, `gumbel_dipsi`, `gumbel_dtau`, `gumbel_itau_array`, `gumbel_likelihood_drawn`, `gumbel_likelihood_near`, `gumbel_ml_close`, `gumbel_ml_drawn`, `gumbel_ml_example`, `gumbel_ml_recovers`, `gumbel_near_one`, `gumbel_pdf_density`, `gumbel_pdf_mixed`, `gumbel_pickands`, `gumbel_random_iid`, `gumbel_random_law_partial`, `gumbel_random_near_one_fails`, `gumbel_random_one`, `gumbel_rejects_symmetry`, `gumbel_sample_agrees_partial`, `gumbel_seed_differs`, `gumbel_tail_partial`, `gumbel_tau_itau`, `gumbel_tau_kendall`, `history_shape`, `history_success_psd`, `idealGen_isIdeal`, `indepCdf_exchangeable`, `indepCdf_grounded`, `indepCdf_log`, `indepCdf_margin`, `indepCdf_mono_frechet`, `indepCdf_rectangle`, `indepCdf_volume`, `indepPdf_exchangeable`, `indepPdf_log`, `indep_empirical_learns`, `indep_finds_exchange`, `indep_finds_symmetry`, `indep_marginal_law`, `indep_ml_rows`, `indep_ml_simulated`, `indep_pdf_mixed`, `indep_random_iid`, `initialParams_arch`, `initialParams_ell`, `initialParams_finite`, `integer_assignment_lost`, `integer_fit_zero`, `integer_matrix_int`, `integers_stay`, `integers_stay_run`, `invTau_near`, `isOpen_claytonSupport`, `isOpen_cube`, `isPsdStrict_singular`, `isPsdTol_iff`, `isPsd_eq`, `isPsd_of_posSemidef`, `jointLaw_kendall`, `kMeans_few_rows`, `kMeans_small_cluster`, `kMeans_valid`, `kernel_near`, `labelSample_frame`, `likelihood_identifies_partial`, `likelihood_prefers`, `likelihood_selects_partial`, `logLik_ranks`, `logSeriesLarge_uniform`, `logSum_all_ninf`, `logSum_offset`, `logSum_real`, `logSum_spec`, `mStep_valid`, `map_dbl_p_eq_s`, `mapc_dbl_p_eq_s`, `margCdf_indep`, `margCdf_int`, `margCdf_int_differs`, `margCdf_joint`, `margCdf_log`, `margCdf_sklar_partial`, `margFit_failure_changes_margins`, `margFit_ok`, `margFit_refuse_partial`, `margGmc_default_violation`, `margGmc_inner_partial`, `margGmc_kmeans`, `margGmc_margin_fails`, `margGmc_pem_violation`, `margLogLik_default_wrong`, `margLogLik_of_density`, `margLogLik_ranks`, `margLogLik_value_partial`, `margPdf_density_partial`, `margPdf_joint`, `margPdf_outside_indep`, `margPdf_outside_nan`, `margRandom_counts`, `margRandom_many`, `margRandom_one_fails`, `margRandom_ranks`, `margSample_named_inner`, `margSample_named_partial`, `marginal_draws`, `marginal_random_iid`, `model_choice`, `model_choice_best`, `model_choice_rows`, `model_choice_simulated`, `mtLaw_central`, `mtPdf_columns`, `mtPdf_density_partial`, `mtPdf_location`, `mtPdf_number_violation`, `mtPdf_vector`, `mtRvs_default_cov_violation`, `mtRvs_default_df_violation`, `mtRvs_draws_partial`, `mtRvs_large_violation`, `mtRvs_number_cov`, `mtRvs_number_draws_partial`, `mtRvs_one_dim_violation`, `mtRvs_reject`, `mtRvs_seeded`, `mtRvs_tuple_draws_partial`, `multiplier_tail`, `nearPsd_asymmetric`, `nearPsd_indefinite`, `owned_partial`, `owned_step`, `pValue_antitone`, `params_inBounds_partial`, `parseSmoothing_ok_iff`, `pdf_row_local_partial`, `polyLogTwo_log_ignored`, `polyLog_methods`, `polyLog_negEulerian`, `polyLog_negStirling`, `polyLog_reject`, `polyLog_spec`, `polynEval_empty`, `polynEval_spec`, `pool_outcomes`, `prange_eq_serial`, `processMargins_length`, `processMargins_rejects`, `processMargins_shared_fails`, `pseudoObs_badTies`, `pseudoObs_column_mean`, `pseudoObs_equivariant`, `pseudoObs_idempotent`, `pseudoObs_mem_Ioo`, `pseudoObs_mixed_methods_differ`, `pseudoObs_names`, `pseudoObs_noTies_perm`, `pseudoObs_order`, `pseudoObs_ordinal`, `pseudoObs_other`, `pseudoObs_strictMono_invariant`, `pseudoObs_ties`, `pseudoObs_vec`, `psi_ipsi_partial`, `radSymReplicate_keep`, `radSymReplicate_reflect`, `radSymTest_perm`, `radSymTest_strictMono`, `radSymTest_symmetric`, `radSymTest_valid`, `radSym_rejects_law`, `radSym_small_law`, `randomGmm_rows`, `random_bad_seed`, `random_calls_independent`, `random_near_zero`, `random_reproducible`, `random_seed_eq_partial`, `rank_near`, `rejects_not_accepts`, `rejects_not_finds`, `rejects_of_draws`, `retieAll_spec`, `rho_converges_of_draws`, `sampleRho_close`, `sampleRho_eq`, `sampleRho_likely`, `sampleRho_near`, `sampleTau_likely`, `sample_frequency`, `sample_named`, `sample_unnamed`, `setItem_badArray`, `setItem_badIndex`, `setItem_badValue`, `setItem_error_unchanged`, `setItem_getItem`, `setItem_int`, `setItem_nan_corrupts`, `setItem_row`, `setItem_row_negative`, `setParams_effect`, `sgdObjective_eq`, `sgd_accepts_iff`, `sgd_improves`, `sgd_maxiter_partial`, `sgd_maxiter_violation`, `sgd_one_cluster_fails`, `sgd_passes`, `sgd_refuses`, `shared_copulas`, `shared_fit_overwrites`, `shared_follows`, `shared_summary`, `signFF_arrays_partial`, `signFF_scalar_d`, `signFF_scalar_fails`, `smoothing_names_agree`, `spearman_pobsOf`, `specCall_keeps_partial`, `specCall_spec`, `spec_dilog_series`, `spec_gumbelPoly_two`, `squareGen_isIdeal`, `stableDensity_tail`, `stableDensity_two`, `stableDensity_zeta`, `stableMode_skew`, `stablePoint_half`, `stablePoint_threeHalves`, `stable_logpdf_partial`, `stable_logpdf_violation`, `stable_mode_partial`, `stable_mode_violation`, `stable_pdf_array_tail`, `stable_pdf_array_violation`, `stable_pdf_cauchy`, `stable_pdf_density_partial`, `stable_pdf_entrywise_partial`, `stable_pdf_mirror_partial`, `stable_pdf_normal`, `stable_pdf_one_partial`, `stable_pdf_one_raises`, `stable_pdf_one_single`, `stable_pdf_one_violation`, `stable_pdf_rvs`, `stable_pdf_violation`, `stable_pdf_zeta`, `stable_rvs_density`, `stable_rvs_law`, `stable_rvs_normal`, `stable_rvs_one_partial`, `stable_rvs_one_violation`, `stable_rvs_pm_two`, `stable_rvs_rejects`, `stable_tail_ratio`, `stirlingAll_spec`, `stirlingFirst_spec`, `stirlingSecond_spec`, `stirling_mathlib`, `studentCdf_not_implemented`, `studentLaw_isCopula`, `studentLogLik_value_partial`, `studentPdf_density_partial`, `studentPdf_errors`, `studentPdf_large_margins`, `studentPdf_radial`, `studentRandom_large`, `studentRandom_law_partial`, `student_empirical_learns_partial`, `student_finds_exchange_partial`, `student_finds_symmetry_partial`, `student_itau_recovers_partial`, `student_lambda_inf`, `student_lambda_wrong`, `student_marginal_law_partial`, `student_random_iid_partial`, `student_rho_wrong`, `student_same_stream`, `student_sample_rho_smaller`, `student_seed_differs`, `student_seeded_law_fails`, `student_tau_converges_partial`, `tan_values_partial`, `toMarginals_dense_fails`, `toMarginals_negative`, `toMarginals_one_fails`, `toMarginals_pseudoObs`, `toMarginals_rejects_partial`, `toMarginals_spec_partial`, `toVector_changes`, `triIndices_both_zero_dup`, `triIndices_spec`, `trig_shape_violation`, `trig_single_violation`, `trig_values_partial`, `validateDims_spec`, `volume_two`
