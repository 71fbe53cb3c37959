{
 "claims": [
  {
   "property": "C01",
   "status": "proved",
   "theorems": [
    "Copulae.pseudoObs_mem_Ioo",
    "Copulae.pseudoObs_vec",
    "Copulae.pseudoObs_other",
    "Copulae.pseudoObs_badTies"
   ],
   "note": "all n, all data, all tie methods, matrix and vector input; rejected inputs covered"
  },
  {
   "property": "C02",
   "status": "proved",
   "theorems": [
    "Copulae.pseudoObs_order"
   ],
   "note": ""
  },
  {
   "property": "C03",
   "status": "proved",
   "theorems": [
    "Copulae.pseudoObs_strictMono_invariant"
   ],
   "note": ""
  },
  {
   "property": "C04",
   "status": "proved",
   "theorems": [
    "Copulae.pseudoObs_equivariant"
   ],
   "note": ""
  },
  {
   "property": "C05",
   "status": "proved",
   "theorems": [
    "Copulae.pseudoObs_column_mean",
    "Copulae.pseudoObs_noTies_perm"
   ],
   "note": ""
  },
  {
   "property": "C06",
   "status": "proved",
   "theorems": [
    "Copulae.pseudoObs_idempotent",
    "Copulae.pseudoObs_mixed_methods_differ"
   ],
   "note": "the second theorem is the witness that mixing tie methods is not harmless"
  },
  {
   "property": "C07",
   "status": "proved",
   "theorems": [
    "Copulae.createCovMatrix_roundTrip",
    "Copulae.createCovMatrix_rebuild",
    "Copulae.createCovMatrix_badLength"
   ],
   "note": ""
  },
  {
   "property": "C08",
   "status": "proved",
   "theorems": [
    "Copulae.triIndices_spec",
    "Copulae.triIndices_both_zero_dup"
   ],
   "note": "the second theorem shows that for side 'both' and m = 0 the diagonal is listed twice"
  },
  {
   "property": "C09",
   "status": "proved",
   "theorems": [
    "Copulae.setItem_getItem",
    "Copulae.setItem_badIndex",
    "Copulae.setItem_badValue",
    "Copulae.setItem_badArray"
   ],
   "note": ""
  },
  {
   "property": "C10",
   "status": "proved",
   "theorems": [
    "Copulae.history_shape",
    "Copulae.history_success_psd"
   ],
   "note": "cov_nearest is a parameter; its contract is the hypothesis RepairOk, shown satisfiable by an example"
  },
  {
   "property": "C100",
   "status": "partial",
   "theorems": [
    "Copulae.ell_tau_kendall",
    "Copulae.gaussian_rho_spearman",
    "Copulae.student_rho_wrong"
   ],
   "note": "tau holds for both families, rho for the Gaussian copula; for the Student copula rho is proved wrong at every correlation other than -1, 0, 1 and all degrees of freedom"
  },
  {
   "property": "C101",
   "status": "partial",
   "theorems": [
    "Copulae.studentPdf_density_partial",
    "Copulae.studentLaw_isCopula",
    "Copulae.studentRandom_law_partial",
    "Copulae.studentPdf_large_margins",
    "Copulae.studentRandom_large",
    "Copulae.studentPdf_radial",
    "Copulae.studentPdf_errors"
   ],
   "note": "holds up to 10000 degrees of freedom; above, pdf and random belong to a law whose margins are not uniform. With the exact t and normal distributions of SciPy; random without a seed"
  },
  {
   "property": "C102",
   "status": "partial",
   "theorems": [
    "Copulae.studentCdf_not_implemented"
   ],
   "note": "violated: cdf raises NotImplementedError for every copula and point"
  },
  {
   "property": "C103",
   "status": "partial",
   "theorems": [
    "Copulae.gaussian_lambda_tail",
    "Copulae.student_lambda_wrong",
    "Copulae.student_lambda_inf"
   ],
   "note": "holds for the Gaussian copula; violated by the Student copula for every correlation other than 0 and 1: the formula lacks the division by 1 + rho. With the exact t distribution of SciPy"
  },
  {
   "property": "C104",
   "status": "partial",
   "theorems": [
    "Copulae.gumbel_random_law_partial",
    "Copulae.gumbel_random_one",
    "Copulae.gumbel_random_near_one_fails"
   ],
   "note": "holds for parameter 1 and for every parameter above 1 + 1e-5 + 1e-8; in between independent uniforms are returned, whose law is proved different from the copula. Exact real arithmetic"
  },
  {
   "property": "C105",
   "status": "proved",
   "theorems": [
    "Copulae.stable_rvs_law",
    "Copulae.stable_rvs_rejects"
   ],
   "note": "parametrisation 2 and other skewness are the subject of C122 and C127"
  },
  {
   "property": "C106",
   "status": "proved",
   "theorems": [
    "Copulae.clayton_tau_kendall",
    "Copulae.gumbel_tau_kendall",
    "Copulae.frank_tau_kendall",
    "Copulae.archimedean_law_exists"
   ],
   "note": "Frank with the compiled Debye function in exact real arithmetic"
  },
  {
   "property": "C107",
   "status": "proved",
   "theorems": [
    "Copulae.frank_rho_spearman"
   ],
   "note": "with the compiled Debye functions in exact real arithmetic"
  },
  {
   "property": "C108",
   "status": "partial",
   "theorems": [
    "Copulae.clayton_pdf_density",
    "Copulae.clayton_pdf_density_neg",
    "Copulae.gumbel_pdf_density",
    "Copulae.frank_pdf_density_partial",
    "Copulae.frank_pdf_negative"
   ],
   "note": "violated by Frank with a negative parameter, where pdf is NaN; holds otherwise. Clayton with parameter -1 has no density"
  },
  {
   "property": "C109",
   "status": "partial",
   "theorems": [
    "Copulae.clayton_sample_agrees",
    "Copulae.clayton_pair_agrees",
    "Copulae.gumbel_sample_agrees_partial",
    "Copulae.gumbel_random_near_one_fails",
    "Copulae.frank_pair_agrees_partial",
    "Copulae.frank_random_large_fails",
    "Copulae.frank_random_small_fails"
   ],
   "note": "violated by Gumbel just above 1 and by Frank in other dimensions than two, where random draws from another law, and by Frank's pdf for negative parameters"
  },
  {
   "property": "C11",
   "status": "partial",
   "theorems": [
    "Copulae.psi_ipsi_partial",
    "Copulae.frank_approx_psi",
    "Copulae.frank_psi_ipsi_zero",
    "Copulae.frankIpsi_scalar_fails"
   ],
   "note": "Frank only for u > 0.01: below that the code returns the wrong branch (frank_psi_ipsi_zero) and a scalar argument raises (frankIpsi_scalar_fails)"
  },
  {
   "property": "C110",
   "status": "proved",
   "theorems": [
    "Copulae.gmm_marginal_cdf_distribution",
    "Copulae.gmc_random_law",
    "Copulae.gmc_isCopula",
    "Copulae.gmm_marginal_cdf_ends"
   ],
   "note": "exact real arithmetic; the normal rows come from NumPy"
  },
  {
   "property": "C111",
   "status": "partial",
   "theorems": [
    "Copulae.gmm_ppf_accurate",
    "Copulae.gmm_ppf_pseudo_obs",
    "Copulae.gmm_ppf_ends",
    "Copulae.gmm_ppf_nan"
   ],
   "note": "violated at the ends of the documented domain: an entry 0 or 1 always raises ValueError; the rest holds for probabilities from 3e-7 to 1 - 3e-7"
  },
  {
   "property": "C112",
   "status": "proved",
   "theorems": [
    "Copulae.gmcm_log_likelihood_density",
    "Copulae.gmm_log_likelihood_density",
    "Copulae.gmcm_log_likelihood_border",
    "Copulae.gmc_one_cluster"
   ],
   "note": "with the exact normal densities of SciPy; on the border of the cube ValueError"
  },
  {
   "property": "C113",
   "status": "proved",
   "theorems": [
    "Copulae.em_iteration_ascent",
    "Copulae.emBody_exact",
    "Copulae.emBody_zero"
   ],
   "note": "with the exact normal densities of SciPy; that the quantiles exist is C111"
  },
  {
   "property": "C114",
   "status": "partial",
   "theorems": [
    "Copulae.kMeans_valid",
    "Copulae.kMeans_small_cluster",
    "Copulae.kMeans_few_rows"
   ],
   "note": "violated by clusters with one row, whose covariance is NaN: NonSymmetricMatrix; so always with fewer than two rows for each cluster"
  },
  {
   "property": "C115",
   "status": "partial",
   "theorems": [
    "Copulae.gmcFit_success",
    "Copulae.gmcFit_x0_partial",
    "Copulae.gmcFit_sgd_x0_partial",
    "Copulae.gmcFit_sgd_changes_x0",
    "Copulae.gmcFit_unknown_method",
    "Copulae.gmcFit_kmeans_ties",
    "Copulae.gmcFit_default_start",
    "Copulae.gmcFit_kmeans"
   ],
   "note": "violated: gradient descent changes zero probabilities of x0, a call with an unknown method replaces the parameters before it raises, and k-means ignores ties"
  },
  {
   "property": "C116",
   "status": "partial",
   "theorems": [
    "Copulae.sgd_improves",
    "Copulae.sgdObjective_eq",
    "Copulae.fromVector_prob",
    "Copulae.sgd_one_cluster_fails"
   ],
   "note": "violated for one cluster, where gradient descent always raises GMCParamError"
  },
  {
   "property": "C117",
   "status": "partial",
   "theorems": [
    "Copulae.gmcSetParams_shape_partial",
    "Copulae.gmcSetParams_mismatch",
    "Copulae.gmcSetParams_other",
    "Copulae.gmcInit_dict_mismatch"
   ],
   "note": "violated by dictionaries, which are accepted with any numbers of clusters and dimensions"
  },
  {
   "property": "C118",
   "status": "proved",
   "theorems": [
    "Copulae.dilog_accuracy",
    "Copulae.dilog_accuracy_small",
    "Copulae.spec_dilog_series"
   ],
   "note": "exact real arithmetic"
  },
  {
   "property": "C119",
   "status": "partial",
   "theorems": [
    "Copulae.dilog_nonfinite",
    "Copulae.polyLogTwo_log_ignored"
   ],
   "note": "violated: dilog(nan) is 0, dilog(-inf) is NaN, and poly_log ignores log for order two; only the value at plus infinity is right"
  },
  {
   "property": "C12",
   "status": "partial",
   "theorems": [
    "Copulae.cdf_margin_partial",
    "Copulae.indepCdf_margin"
   ],
   "note": "Frank only for coordinates above 0.01, where the code is correct; see frankCdf_not_grounded for the failure below"
  },
  {
   "property": "C120",
   "status": "partial",
   "theorems": [
    "Copulae.indep_random_iid",
    "Copulae.clayton_pair_iid",
    "Copulae.clayton_frailty_iid",
    "Copulae.gumbel_random_iid",
    "Copulae.frank_pair_iid_partial",
    "Copulae.gaussian_random_iid",
    "Copulae.student_random_iid_partial",
    "Copulae.empirical_random_iid",
    "Copulae.gmm_random_iid",
    "Copulae.gmc_random_iid",
    "Copulae.marginal_random_iid",
    "Copulae.random_calls_independent",
    "Copulae.sample_frequency",
    "Copulae.idealGen_isIdeal"
   ],
   "note": "violated by Frank in other dimensions than two (C104, frank_random_large_fails), Gumbel up to 1 + 1e-5 + 1e-8, Clayton and Frank within 1e-7 of zero, and Student above 10000 degrees of freedom"
  },
  {
   "property": "C121",
   "status": "partial",
   "theorems": [
    "Copulae.student_seeded_law_fails",
    "Copulae.student_same_stream",
    "Copulae.student_random_iid_partial",
    "Copulae.squareGen_isIdeal"
   ],
   "note": "violated: with a seed the chi-square and the normal variates come from the same state; with an ideal generator that makes chi-square variates from normal ones every seeded sample takes at most three values in the first coordinate"
  },
  {
   "property": "C122",
   "status": "proved",
   "theorems": [
    "Copulae.stable_rvs_density",
    "Copulae.stable_rvs_pm_two",
    "Copulae.stableDensity_two",
    "Copulae.stable_rvs_normal"
   ],
   "note": "exact real arithmetic, ideal uniform and exponential variates"
  },
  {
   "property": "C123",
   "status": "partial",
   "theorems": [
    "Copulae.stable_pdf_density_partial",
    "Copulae.stable_pdf_rvs",
    "Copulae.stable_pdf_normal",
    "Copulae.stable_pdf_cauchy",
    "Copulae.stable_pdf_violation",
    "Copulae.auxF1_ok",
    "Copulae.auxF1_levy_zero",
    "Copulae.stablePoint_half",
    "Copulae.stablePoint_threeHalves"
   ],
   "note": "violated: for index one half and skewness one pdf is zero on an interval in which rvs draws with probability at least 1/50; proved with an explicit error bound where the function in the exponent crosses one (StablePoint); exact for index two and for the Cauchy law; exact real arithmetic, root search and quadrature by contract; for the index one with a skewness see C130 and C131"
  },
  {
   "property": "C124",
   "status": "partial",
   "theorems": [
    "Copulae.stable_pdf_mirror_partial",
    "Copulae.auxF1_mirror",
    "Copulae.stable_pdf_one_violation"
   ],
   "note": "violated with index one: pdf raises AssertionError for skewness -1/2 at a point where the mirrored density is returned; proved for an index other than one; missing x = delta with skewness one in absolute value, where the tail gives NaN"
  },
  {
   "property": "C125",
   "status": "partial",
   "theorems": [
    "Copulae.stable_pdf_entrywise_partial",
    "Copulae.stable_pdf_array_violation"
   ],
   "note": "violated: a zero is replaced by the tail approximation if and only if some other entry is not zero"
  },
  {
   "property": "C126",
   "status": "partial",
   "theorems": [
    "Copulae.stable_logpdf_partial",
    "Copulae.stable_logpdf_violation"
   ],
   "note": "violated: the tail approximation replaces densities of zero but not log-densities of minus infinity (and replaces log-densities of zero)"
  },
  {
   "property": "C127",
   "status": "partial",
   "theorems": [
    "Copulae.stable_mode_partial",
    "Copulae.stableMode_skew",
    "Copulae.stable_mode_violation"
   ],
   "note": "violated: the mode is computed for skewness one whatever the skewness (max for min), so it has the wrong sign for negative ones; right without skewness"
  },
  {
   "property": "C128",
   "status": "proved",
   "theorems": [
    "Copulae.stable_pdf_zeta",
    "Copulae.stableDensity_zeta"
   ],
   "note": "exact real arithmetic"
  },
  {
   "property": "C129",
   "status": "proved",
   "theorems": [
    "Copulae.stable_pdf_array_tail",
    "Copulae.stable_tail_ratio",
    "Copulae.stableDensity_tail"
   ],
   "note": "exact real arithmetic; the limit of the ratio differs from one by at most 2e-16 / sin(alpha pi / 2), because PI2 is not exactly half of pi"
  },
  {
   "property": "C13",
   "status": "partial",
   "theorems": [
    "Copulae.cdf_grounded_partial",
    "Copulae.indepCdf_grounded",
    "Copulae.frankCdf_not_grounded"
   ],
   "note": "Clayton and Gumbel and independence in full; the Frank code violates it (witness)"
  },
  {
   "property": "C130",
   "status": "partial",
   "theorems": [
    "Copulae.stable_pdf_one_partial",
    "Copulae.stable_pdf_one_single",
    "Copulae.cmsOne_law",
    "Copulae.auxF2_inf",
    "Copulae.auxF2_nan",
    "Copulae.stable_pdf_one_raises",
    "Copulae.stable_pdf_one_violation"
   ],
   "note": "violated: for negative skewness the root search starts from an interval without a sign change (np.size for np.sign) and pdf raises AssertionError far out in the heavy tail, and NaN raises; proved up to 1e-10/(2 beta gamma) for positive skewness and standardised arguments up to 1e16; exact real arithmetic, root search and quadrature by contract"
  },
  {
   "property": "C131",
   "status": "partial",
   "theorems": [
    "Copulae.stable_rvs_one_partial",
    "Copulae.stable_rvs_one_violation",
    "Copulae.cmsOne_law"
   ],
   "note": "violated: the formula for other indices is used with the finite value of tan(pi/2) in floating point and gives Cauchy variates whatever the skewness; exact real arithmetic otherwise"
  },
  {
   "property": "C132",
   "status": "partial",
   "theorems": [
    "Copulae.clausen_accurate_partial",
    "Copulae.clausen_spec_period",
    "Copulae.clausen_value_violation"
   ],
   "note": "violated from 2 pi on, where the value is NaN; within the first period on both sides of zero the error is at most 4e-18 in exact arithmetic"
  },
  {
   "property": "C133",
   "status": "partial",
   "theorems": [
    "Copulae.dilogComplex_partial",
    "Copulae.dilogComplexOf_partial",
    "Copulae.dilogComplex_above_cut_violation",
    "Copulae.dilogComplexOf_above_cut_violation",
    "Copulae.dilogComplex_turn_violation",
    "Copulae.dilogComplex_circle_violation"
   ],
   "note": "violated less than 10 DBL_EPSILON above the cut, where the imaginary part has the sign of the other side, and for angles of a full turn or more, where the value depends on the angle and not only on z or is NaN; within 2e-12 everywhere else in exact arithmetic"
  },
  {
   "property": "C134",
   "status": "partial",
   "theorems": [
    "Copulae.dilogComplexCall_partial",
    "Copulae.dilogComplexCall_spec",
    "Copulae.dilogComplexCall_overwrites_violation",
    "Copulae.dilogComplexSame_violation",
    "Copulae.dilogComplexSame_example"
   ],
   "note": "violated: contiguous arrays of 64-bit floats hold the parts of the result afterwards, and an array passed as both arguments gives numbers whose real part is their imaginary part"
  },
  {
   "property": "C135",
   "status": "partial",
   "theorems": [
    "Copulae.dfConstraint_lags",
    "Copulae.fixed_df_kept_partial",
    "Copulae.fixed_df_own_start_partial",
    "Copulae.dfConstraint_vacuous",
    "Copulae.fixed_df_forgotten_violation",
    "Copulae.fixed_df_not_kept_violation",
    "Copulae.fixed_df_default_violation",
    "Copulae.fixed_df_options_violation",
    "Copulae.fitCon_toCon"
   ],
   "note": "violated: the objective writes the degrees of freedom into the copula the constraint compares with, so the constraint is zero wherever the optimiser is and the degrees of freedom of the user are forgotten; options without constraints raise KeyError and a list of constraints grows; correlation inversion keeps them"
  },
  {
   "property": "C136",
   "status": "partial",
   "theorems": [
    "Copulae.validateDims_keyword_partial",
    "Copulae.validateDims_spec",
    "Copulae.selectSummary_keyword",
    "Copulae.selectSummary_spec",
    "Copulae.castPos_spec",
    "Copulae.evalCall_positional",
    "Copulae.castInput_keyword_violation",
    "Copulae.claytonItau_keyword_violation",
    "Copulae.evalCall_keyword_violation"
   ],
   "note": "violated: cast_input compares a name with the set of names by identity and never casts keywords, and shape_first_input_to_cop_dim raises IndexError for every cdf and pdf called by name; validate_data_dim and select_summary are right"
  },
  {
   "property": "C137",
   "status": "partial",
   "theorems": [
    "Copulae.dAduRest_partial",
    "Copulae.gumbelDAdu_violation"
   ],
   "note": "violated: the exclusive or of floats in line 106 raises TypeError for every parameter and argument; the other lines are right"
  },
  {
   "property": "C138",
   "status": "partial",
   "theorems": [
    "Copulae.mtPdf_density_partial",
    "Copulae.mtPdf_location",
    "Copulae.mtPdf_vector",
    "Copulae.mtPdf_columns",
    "Copulae.mtPdf_number_violation"
   ],
   "note": "proved for rows and vectors with at most 10000 degrees of freedom, and up to SciPy's normal density above; violated: a number always raises, and a single column in several dimensions is taken for points on the diagonal"
  },
  {
   "property": "C139",
   "status": "partial",
   "theorems": [
    "Copulae.mtRvs_number_cov",
    "Copulae.mtRvs_draws_partial",
    "Copulae.mtRvs_tuple_draws_partial",
    "Copulae.mtRvs_number_draws_partial",
    "Copulae.mtLaw_central",
    "Copulae.mtRvs_seeded",
    "Copulae.mtRvs_large_violation"
   ],
   "note": "proved with at most 10000 degrees of freedom for sizes from one in two or more dimensions, tuples in every dimension, and one number in one dimension; violated above 10000, where the rows are normal and dimensions of length one are dropped"
  },
  {
   "property": "C14",
   "status": "proved",
   "theorems": [
    "Copulae.archCdf_exchangeable",
    "Copulae.archPdf_exchangeable",
    "Copulae.indepCdf_exchangeable",
    "Copulae.indepPdf_exchangeable"
   ],
   "note": ""
  },
  {
   "property": "C140",
   "status": "partial",
   "theorems": [
    "Copulae.mtRvs_default_df_violation",
    "Copulae.mtRvs_default_cov_violation",
    "Copulae.mtRvs_one_dim_violation",
    "Copulae.mtRvs_reject",
    "Copulae.mtRvs_large_violation"
   ],
   "note": "violated: df cannot be left out, a number for cov (the default) raises TypeError with the default type, two or more values in one dimension raise ValueError, and above 10000 degrees of freedom every type is accepted; the rejections at or below 10000 are right"
  },
  {
   "property": "C141",
   "status": "partial",
   "theorems": [
    "Copulae.gaussian_marginal_law",
    "Copulae.student_marginal_law_partial",
    "Copulae.arch_marginal_law_partial",
    "Copulae.indep_marginal_law",
    "Copulae.margCdf_joint",
    "Copulae.margPdf_joint",
    "Copulae.marginal_draws",
    "Copulae.arch_law_exists"
   ],
   "note": "proved for Gaussian and independence inner copulas, for Clayton and Gumbel inner copulas (pdf of Clayton copulas in two dimensions or with positive parameter), for Frank inner copulas with the restrictions of C12, C108 and C109, and for Student inner copulas up to 10000 degrees of freedom without cdf, which raises (C102); one row from an elliptical inner copula raises (C82)"
  },
  {
   "property": "C142",
   "status": "partial",
   "theorems": [
    "Copulae.arch_tau_converges",
    "Copulae.gaussian_tau_converges",
    "Copulae.student_tau_converges_partial",
    "Copulae.corr_kendall_converges",
    "Copulae.corr_kendall_value",
    "Copulae.jointLaw_kendall"
   ],
   "note": "proved for Clayton and Gumbel copulas in every dimension, Frank copulas in two dimensions (up to 1e-9), Gaussian copulas, and Student copulas with at most 10000 degrees of freedom, above which random draws from another law; Clayton and Frank parameters from 1e-7 in absolute value, Gumbel parameters above 1 + 1e-5 + 1e-8, below which random draws uniform samples; scipy.stats.kendalltau by contract; the generator is ideal"
  },
  {
   "property": "C143",
   "status": "partial",
   "theorems": [
    "Copulae.arch_itau_recovers",
    "Copulae.gaussian_itau_recovers_partial",
    "Copulae.student_itau_recovers_partial",
    "Copulae.sampleTau_likely",
    "Copulae.fitPobs_eq",
    "Copulae.fitPobs_arch_near",
    "Copulae.fitPobs_ell_near",
    "Copulae.invTau_near",
    "Copulae.fit_inversion_two_fails"
   ],
   "note": "proved for Clayton (above -1 and from 1e-7 in absolute value) and Gumbel copulas in every dimension, Frank copulas in two dimensions between 1e-7 and 1e19 in absolute value, Gaussian and Student (at most 10000 degrees of freedom) copulas in three or more dimensions, also with singular matrices; violated in two dimensions for Gaussian and Student copulas, where the fit always raises (C73); the log-likelihood is assumed not to raise; scipy.stats.kendalltau, brentq and the Debye function by contract; the generator is ideal"
  },
  {
   "property": "C144",
   "status": "partial",
   "theorems": [
    "Copulae.arch_empirical_learns",
    "Copulae.gaussian_empirical_learns",
    "Copulae.indep_empirical_learns",
    "Copulae.student_empirical_learns_partial",
    "Copulae.empirical_learns_of_draws",
    "Copulae.empReal_near",
    "Copulae.empReal_close",
    "Copulae.kernel_near",
    "Copulae.betaCdf_tail"
   ],
   "note": "proved for Clayton, Gumbel and independence copulas in every dimension, Frank copulas in two dimensions, Gaussian copulas, and Student copulas with at most 10000 degrees of freedom (where the limit is the distribution function of the law, since cdf raises, C102); the samplers from the parameters on from which they draw from the copula (C120); the cdf of Frank copulas at coordinates above 1/100; scipy.special.btdtr by contract; the generator is ideal"
  },
  {
   "property": "C145",
   "status": "partial",
   "theorems": [
    "Copulae.gaussian_rho_converges",
    "Copulae.frank_rho_converges",
    "Copulae.student_sample_rho_smaller",
    "Copulae.corr_spearman_value",
    "Copulae.corr_value",
    "Copulae.rho_converges_of_draws",
    "Copulae.sampleRho_likely",
    "Copulae.sampleRho_close",
    "Copulae.sampleRho_near",
    "Copulae.sampleRho_eq",
    "Copulae.rank_near"
   ],
   "note": "proved for Gaussian copulas in every dimension and, up to 1e-8, for Frank copulas in two dimensions (the parameters of C120); violated by Student copulas with at most 10000 degrees of freedom, where the limit is strictly smaller in absolute value than rho (student_rho_wrong); Clayton and Gumbel copulas do not report a rho; scipy.stats.spearmanr by contract on samples without ties; the generator is ideal"
  },
  {
   "property": "C146",
   "status": "partial",
   "theorems": [
    "Copulae.fit_irho_gaussian",
    "Copulae.gaussian_irho_recovers_partial",
    "Copulae.fitPobs_irho_near",
    "Copulae.spearman_pobsOf",
    "Copulae.fit_irho_core",
    "Copulae.fit_inversion_two_fails"
   ],
   "note": "proved in three or more dimensions, for the first part provided the matrix of the inverted rhos passes the test for positive semi-definiteness (for simulated data it does with high probability, also when the matrix of the simulation is singular); violated in two dimensions, where the fit always raises (C73); the log-likelihood is assumed not to raise; scipy.stats.spearmanr by contract; the generator is ideal"
  },
  {
   "property": "C147",
   "status": "partial",
   "theorems": [
    "Copulae.clayton_rejects_symmetry",
    "Copulae.gumbel_rejects_symmetry",
    "Copulae.frank_finds_symmetry",
    "Copulae.gaussian_finds_symmetry",
    "Copulae.student_finds_symmetry_partial",
    "Copulae.indep_finds_symmetry",
    "Copulae.rejects_not_finds",
    "Copulae.rejects_of_draws",
    "Copulae.finds_of_draws",
    "Copulae.radSym_rejects_law",
    "Copulae.radSym_small_law",
    "Copulae.goodSample_rejects",
    "Copulae.clayton_neg_asymmetric",
    "Copulae.clayton_asymmetric",
    "Copulae.gumbel_asymmetric"
   ],
   "note": "proved for the copulas whose sampler draws from the copula: Student copulas with at most 10000 degrees of freedom, Clayton parameters other than -1 and at least 1e-7 in absolute value, Gumbel parameters above 1.00001001; the coins of one replicate are fair, independent of each other and of the data (CoinFlips; replicates may depend on each other); the generator is ideal"
  },
  {
   "property": "C148",
   "status": "partial",
   "theorems": [
    "Copulae.exch_test_rejects",
    "Copulae.exch_test_rejects_grid",
    "Copulae.exch_test_accepts",
    "Copulae.arch_finds_exchange",
    "Copulae.gaussian_finds_exchange",
    "Copulae.student_finds_exchange_partial",
    "Copulae.indep_finds_exchange",
    "Copulae.rejects_not_accepts",
    "Copulae.exch_rejects_law",
    "Copulae.exch_small_law",
    "Copulae.exchInflu_bound",
    "Copulae.multiplier_tail",
    "Copulae.exch_of_draws"
   ],
   "note": "proved for the samplers that draw from the copula: Student copulas with at most 10000 degrees of freedom, Clayton parameters other than -1 and at least 1e-7 in absolute value, Gumbel parameters above 1.00001001; the multipliers of one replicate are standard normal, independent of each other and of the data (NormalDraws; replicates may depend on each other), although the code draws them from a generator reseeded on every call; the generator is ideal"
  },
  {
   "property": "C149",
   "status": "partial",
   "theorems": [
    "Copulae.labelSample_frame",
    "Copulae.sample_named",
    "Copulae.sample_unnamed",
    "Copulae.fits_names",
    "Copulae.indepNew_named",
    "Copulae.empiricalNew_named",
    "Copulae.margSample_named_partial",
    "Copulae.margSample_named_inner",
    "Copulae.elliptical_named_single",
    "Copulae.fit_without_names"
   ],
   "note": "violated: Gaussian and Student copulas with names raise ValueError for a single draw; marginal copulas around a copula with names raise on every draw; Gaussian mixture and independence copulas do not take the names of the frame they are fitted to; proved otherwise"
  },
  {
   "property": "C15",
   "status": "partial",
   "theorems": [
    "Copulae.cdf_mono_frechet_partial",
    "Copulae.indepCdf_mono_frechet",
    "Copulae.frankCdf_not_monotone"
   ],
   "note": "Frank only for coordinates above 0.01; the code violates it below (witness)"
  },
  {
   "property": "C150",
   "status": "partial",
   "theorems": [
    "Copulae.empirical_settings",
    "Copulae.empirical_exec",
    "Copulae.empirical_usable_partial",
    "Copulae.empirical_ties_unchecked",
    "Copulae.empirical_offset_unchecked",
    "Copulae.empirical_offset_other",
    "Copulae.parseSmoothing_ok_iff",
    "Copulae.smoothing_names_agree"
   ],
   "note": "violated: the setter of ties takes anything, after which cdf raises; the constructor takes offsets of NumPy types, for which pdf works and cdf raises; proved for the smoothing and for usable ties and offsets"
  },
  {
   "property": "C151",
   "status": "partial",
   "theorems": [
    "Copulae.empirical_pdf_named_frame",
    "Copulae.empirical_pdf_numbered_frame"
   ],
   "note": "violated by every frame: the loop runs over the names of the columns, which raises TypeError for strings, and evaluates the density at the numbers of the columns for numbers; for arrays see C61"
  },
  {
   "property": "C152",
   "status": "proved",
   "theorems": [
    "Copulae.corrNames_series_distinct",
    "Copulae.corrNames_series_keep",
    "Copulae.corrFrame_lookup",
    "Copulae.corrFrame_reorder"
   ],
   "note": "the coefficient is symmetric in its two samples (hypothesis of the theorem about the order)"
  },
  {
   "property": "C153",
   "status": "partial",
   "theorems": [
    "Copulae.owned_partial",
    "Copulae.owned_step",
    "Copulae.shared_follows",
    "Copulae.shared_copulas",
    "Copulae.shared_fit_overwrites",
    "Copulae.shared_summary",
    "Copulae.integer_fit_zero",
    "Copulae.integer_assignment_lost",
    "Copulae.integers_stay",
    "Copulae.integers_stay_run",
    "Copulae.integer_matrix_int",
    "Copulae.fit_single_estimate"
   ],
   "note": "violated: the setters keep a reference to the array, so copulas share arrays with the caller, with each other and with the summary of the fit, and an array of integers truncates later assignments; proved for programs that assign copies and floats only (owned_partial)"
  },
  {
   "property": "C154",
   "status": "partial",
   "theorems": [
    "Copulae.sgd_passes",
    "Copulae.sgd_maxiter_partial",
    "Copulae.sgd_maxiter_violation",
    "Copulae.sgd_accepts_iff",
    "Copulae.sgd_refuses"
   ],
   "note": "violated for the optimisers without defaults: max_iter and disp are ignored; proved for nelder-mead, bfgs, slsqp, cobyla and trust-constr"
  },
  {
   "property": "C155",
   "status": "partial",
   "theorems": [
    "Copulae.fit_html_ml",
    "Copulae.fit_html_inversion",
    "Copulae.fit_text",
    "Copulae.summary_shows",
    "Copulae.summary_all",
    "Copulae.student_summary_partial",
    "Copulae.student_summary_integers",
    "Copulae.empirical_summary",
    "Copulae.gmc_html",
    "Copulae.gmc_html_unfitted",
    "Copulae.gmc_fit_shown"
   ],
   "note": "violated: the summary of a fit by inversion and the summary of a Gaussian mixture copula without parameters raise AttributeError when displayed as HTML; numbers of NumPy types are not shown, such as the degrees of freedom of a Student copula assigned among integers; proved otherwise"
  },
  {
   "property": "C156",
   "status": "partial",
   "theorems": [
    "Copulae.likelihood_prefers",
    "Copulae.likelihood_identifies_partial",
    "Copulae.likelihood_selects_partial",
    "Copulae.choice_laws_differ"
   ],
   "note": "proved for two densities of different laws in general, and that the laws of the families differ; left out: Student copulas with more than 10000 degrees of freedom, Frank copulas with a negative parameter, data from Frank copulas in more than two dimensions and data from Clayton and Gumbel copulas close to independence, where sampler or density are violated or not proved; the generator is ideal and the data are not converted to pseudo-observations"
  },
  {
   "property": "C157",
   "status": "proved",
   "theorems": [
    "Copulae.gaussian_likelihood_near",
    "Copulae.gaussian_ml_recovers",
    "Copulae.gaussian_ml_example"
   ],
   "note": "the generator is ideal, the normal distribution functions and quantiles are exact, and the normal log-density raises unless the matrix is positive definite (contract NeedsPosDef); the optimiser reports values it has seen"
  },
  {
   "property": "C158",
   "status": "proved",
   "theorems": [
    "Copulae.gofRun_exec",
    "Copulae.gof_statistic_converges",
    "Copulae.gof_statistic_null",
    "Copulae.gof_rejects",
    "Copulae.gof_rejects_others"
   ],
   "note": "the generator is ideal, and Kendall's tau and the normal and Student functions are exact; replicates are drawn one after another (without multiprocessing). The Frank class is excluded because its cdf is wrong for coordinates up to 0.01 (see C12); Student copulas of the data have at most 10000 degrees of freedom, and a Frank copula of the data has a positive parameter"
  },
  {
   "property": "C159",
   "status": "proved",
   "theorems": [
    "Copulae.clayton_likelihood_near",
    "Copulae.clayton_ml_recovers",
    "Copulae.clayton_ml_example"
   ],
   "note": "the generator is ideal; the log-density of a copula without a finite parameter raises or is NaN (contract ClaytonLogPdf, which for finite parameters is the modelled pdf); the optimiser reports values it has seen"
  },
  {
   "property": "C16",
   "status": "partial",
   "theorems": [
    "Copulae.cdf_rectangle_partial",
    "Copulae.indepCdf_rectangle"
   ],
   "note": "Frank only for coordinates above 0.01"
  },
  {
   "property": "C160",
   "status": "partial",
   "theorems": [
    "Copulae.frank_likelihood_near_partial",
    "Copulae.frank_ml_recovers_partial",
    "Copulae.frank_negative_likelihood",
    "Copulae.frank_ml_example",
    "Copulae.model_choice_rows"
   ],
   "note": "violated for negative parameters, which the setter accepts in two dimensions: log_lik of the true copula is NaN on all data; proved for positive parameters in two dimensions. In more dimensions random does not draw from the Frank copula (violation, see C58); there model_choice_rows gives the parameter for independent rows from any source. The generator is ideal; the log-density of a copula without a finite parameter raises or is NaN (contract FrankLogPdf); the optimiser reports values it has seen"
  },
  {
   "property": "C161",
   "status": "proved",
   "theorems": [
    "Copulae.gumbel_likelihood_near",
    "Copulae.gumbel_likelihood_drawn",
    "Copulae.gumbel_ml_recovers",
    "Copulae.gumbel_ml_drawn",
    "Copulae.gumbel_ml_close",
    "Copulae.gumbel_ml_example"
   ],
   "note": "the generator is ideal; the log-density of a copula without a finite parameter raises (contract GumbelLogPdf, which for finite parameters is the modelled pdf, with exact coefficients); the optimiser reports values it has seen"
  },
  {
   "property": "C162",
   "status": "proved",
   "theorems": [
    "Copulae.family_likelihood",
    "Copulae.family_likelihood_rows",
    "Copulae.family_simulated",
    "Copulae.family_choice",
    "Copulae.family_example"
   ],
   "note": "the generator is ideal; log-densities without a finite parameter raise or are NaN (contract ArchLogPdf, which for finite parameters is the modelled pdf); the optimiser reports values it has seen. family_simulated is about random, which draws from the copula itself for Clayton parameters of at least 1e-7, Gumbel parameters above 1 + 1e-5 + 1e-8 and bivariate Frank copulas with parameters of at least 1e-7; in more dimensions the random of Frank copulas draws from another law (see C58), so there family_likelihood_rows is the statement: independent rows from anywhere with continuous margins and the copula"
  },
  {
   "property": "C163",
   "status": "proved",
   "theorems": [
    "Copulae.model_choice",
    "Copulae.model_choice_rows",
    "Copulae.model_choice_simulated",
    "Copulae.model_choice_best"
   ],
   "note": "the generator is ideal; log-densities without a finite parameter raise or are NaN (contract ArchLogPdf, which for finite parameters is the modelled pdf); the optimiser reports values it has seen. model_choice_simulated is about random, which draws from the copula itself for Clayton parameters of at least 1e-7, Gumbel parameters above 1 + 1e-5 + 1e-8 and bivariate Frank copulas with parameters of at least 1e-7; in more dimensions the random of Frank copulas draws from another law (see C58), so there model_choice_rows is the statement: independent rows from anywhere with continuous margins and the copula"
  },
  {
   "property": "C164",
   "status": "proved",
   "theorems": [
    "Copulae.indep_ml_rows",
    "Copulae.indep_ml_simulated",
    "Copulae.dependence_wins"
   ],
   "note": "log-densities without a finite parameter raise or are NaN (contract ArchLogPdf, which for finite parameters is the modelled pdf); the optimiser reports values it has seen; indep_ml_simulated assumes an ideal generator, the others are about independent rows from anywhere. Frank copulas with parameter zero cannot be evaluated, so that class only comes close to independence"
  },
  {
   "property": "C165",
   "status": "partial",
   "theorems": [
    "Copulae.gofPar_serial_partial",
    "Copulae.pool_outcomes",
    "Copulae.gofRunPar_ok",
    "Copulae.gofRunPar_state",
    "Copulae.gofPar_differs_violation",
    "Copulae.gofPar_turns_violation",
    "Copulae.gofPar_spread_violation",
    "Copulae.gofPar_repeats_violation"
   ],
   "note": "violated: forked workers start from copies of one generator state, so task i has the outcome of serial replication k, where k counts the earlier tasks of the same worker (pool_outcomes). Workers that take turns repeat every replicate as many times as there are workers; if no worker takes two tasks, all replicates are equal and the p-value has two possible values; the generator of the caller does not advance. Proved where one worker takes all tasks. Processes that are not forked, and pickling, are not modelled"
  },
  {
   "property": "C166",
   "status": "proved",
   "theorems": [
    "Copulae.gofPar_among",
    "Copulae.gofPar_least",
    "Copulae.gofPar_greatest",
    "Copulae.gofPar_rejects_others"
   ],
   "note": "processes that are not forked, and pickling, are not modelled; the limit statement has the assumptions of C158: the generator is ideal, Kendall's tau and the normal and Student functions are exact, the Frank class is excluded, Student copulas of the data have at most 10000 degrees of freedom, and a Frank copula of the data has a positive parameter"
  },
  {
   "property": "C167",
   "status": "partial",
   "theorems": [
    "Copulae.margGmc_inner_partial",
    "Copulae.margGmc_kmeans",
    "Copulae.margFit_ok",
    "Copulae.margGmc_margin_fails",
    "Copulae.margGmc_pem_violation",
    "Copulae.margGmc_default_violation"
   ],
   "note": "violated for Gaussian mixture copulas inside: to_pobs and scale arrive as max_iter and criteria, so method='pem' always raises AttributeError and method='sgd' runs with at most one iteration; the default method='ml' always raises GMCFitMethodError, after margins and parameters have been replaced. Proved for k-means, for 'sgd' with that number of iterations, and for Archimedean and elliptical copulas inside (margFit_ok)"
  },
  {
   "property": "C168",
   "status": "proved",
   "theorems": [
    "Copulae.gof_indep_statistic",
    "Copulae.gof_indep_null",
    "Copulae.gof_indep_rejects",
    "Copulae.gof_indep_rejects_par"
   ],
   "note": "the generator is ideal, and the normal and Student functions are exact; Student copulas of the data have at most 10000 degrees of freedom, and a Frank copula of the data has a positive parameter. Processes that are not forked, and pickling, are not modelled"
  },
  {
   "property": "C169",
   "status": "proved",
   "theorems": [
    "Copulae.gof_indep_rank",
    "Copulae.gof_indep_level",
    "Copulae.gof_indep_level_exact"
   ],
   "note": "the generator is ideal and independent of the data; replicates are drawn one after another (without multiprocessing)"
  },
  {
   "property": "C17",
   "status": "partial",
   "theorems": [
    "Copulae.claytonCdf_closed",
    "Copulae.gumbelCdf_closed",
    "Copulae.frankCdf_closed_partial",
    "Copulae.frank_approx_cdf",
    "Copulae.frankCdf_theta_zero",
    "Copulae.claytonCdf_theta_zero",
    "Copulae.archCdf_wrong_dim"
   ],
   "note": "Clayton and Gumbel in full; Frank for coordinates above 0.01"
  },
  {
   "property": "C170",
   "status": "partial",
   "theorems": [
    "Copulae.gof_indep_par_level_partial",
    "Copulae.gof_indep_par_workers_partial",
    "Copulae.gofPar_workers",
    "Copulae.gof_indep_par_reject_violation",
    "Copulae.gof_indep_par_level_violation"
   ],
   "note": "violated: where no worker takes two tasks all replicates are one and the same, so that the p-value is the least, 0.5 / (reps + 1), as soon as this one falls below the statistic, with a probability that does not depend on reps; for two rows and two columns it is at least 1/4. Proved where one worker takes all tasks; where each of w workers takes at least m tasks the level is at most (floor((alpha (reps + 1) - 1/2) / w) + 1) / (m + 1), for instance 0.0518 in place of 0.05 for four workers that share 1000 replications. The generator is ideal and independent of the data; processes that are not forked, and pickling, are not modelled"
  },
  {
   "property": "C171",
   "status": "proved",
   "theorems": [
    "Copulae.corr_increasing",
    "Copulae.corr_pair_increasing",
    "Copulae.corr_units",
    "Copulae.corr_row_order",
    "Copulae.corr_columns",
    "Copulae.corr_turned"
   ],
   "note": "SciPy's coefficients of two samples of numbers are assumed to have these invariances themselves (Spec.ScaleFree, Spec.OrderFree, Spec.SignChanging, and symmetry), in exact arithmetic; proved is that the treatment of missing and infinite values, the choice of the coefficient and the assembly of the matrix keep them"
  },
  {
   "property": "C172",
   "status": "partial",
   "theorems": [
    "Copulae.trig_values_partial",
    "Copulae.tan_values_partial",
    "Copulae.trig_single_violation",
    "Copulae.trig_shape_violation"
   ],
   "note": "violated: arrays with exactly one element come back as a number, although the documentation says so of scalars only. Proved for scalars and all other arrays; exact arithmetic, elements are floats"
  },
  {
   "property": "C18",
   "status": "partial",
   "theorems": [
    "Copulae.clayton_pdf_mixed",
    "Copulae.clayton_pdf_mixed_neg",
    "Copulae.gumbel_pdf_mixed",
    "Copulae.frank_pdf_mixed_partial",
    "Copulae.frank_pdf_negative",
    "Copulae.indep_pdf_mixed",
    "Copulae.isOpen_cube",
    "Copulae.isOpen_claytonSupport"
   ],
   "note": "Clayton, Gumbel and independence in full; Frank for theta > 0 (for theta < 0 the code returns NaN, proved), against the exact Frank copula on the open cube and against the code's cdf where all coordinates exceed 0.01"
  },
  {
   "property": "C19",
   "status": "partial",
   "theorems": [
    "Copulae.pdf_row_local_partial",
    "Copulae.clayton_pdf_rows_partial",
    "Copulae.clayton_pdf_invalid_row"
   ],
   "note": "Frank, Gumbel and Clayton with theta <= 0 in full; Clayton with theta > 0 violates the claim (third theorem)"
  },
  {
   "property": "C20",
   "status": "partial",
   "theorems": [
    "Copulae.archCdf_log",
    "Copulae.archPdf_log_partial",
    "Copulae.clayton_pdf_zero_log",
    "Copulae.indepCdf_log",
    "Copulae.indepPdf_log",
    "Copulae.gmcPdf_log_jensen",
    "Copulae.gmcPdf_log_wrong"
   ],
   "note": "violated by Clayton at theta = 0 (third theorem) and by Gaussian mixture copulas, whose log=True returns the weighted mean of the logarithms (last two)"
  },
  {
   "property": "C21",
   "status": "proved",
   "theorems": [
    "Copulae.clayton_tau_itau",
    "Copulae.gumbel_tau_itau",
    "Copulae.gumbel_itau_array",
    "Copulae.ell_tau_itau",
    "Copulae.ell_rho_irho"
   ],
   "note": ""
  },
  {
   "property": "C22",
   "status": "partial",
   "theorems": [
    "Copulae.clayton_dtau",
    "Copulae.gumbel_dtau",
    "Copulae.ell_dtau_drho",
    "Copulae.frank_measures_value",
    "Copulae.frank_dtau_fails",
    "Copulae.frank_drho_fails"
   ],
   "note": "derivatives proved for Clayton, Gumbel and elliptical copulas; violated by Frank's dtau and drho at every nonzero parameter (last two theorems)"
  },
  {
   "property": "C23",
   "status": "partial",
   "theorems": [
    "Copulae.clayton_tail",
    "Copulae.gumbel_tail_partial",
    "Copulae.frank_tail_partial",
    "Copulae.frank_lower_tail_fails"
   ],
   "note": "Clayton in full. Gumbel: the lower coefficient is the limit; the upper one is not (proved negation: the limit is 2-2^(1/theta), the code returns a value above 1). Frank: the limits of the copula are the returned zeros, but the code's cdf does not have the lower limit because of its small-u branch"
  },
  {
   "property": "C24",
   "status": "partial",
   "theorems": [
    "Copulae.setParams_effect",
    "Copulae.params_inBounds_partial",
    "Copulae.clayton_two_history",
    "Copulae.clayton_ctor_out_of_bounds",
    "Copulae.clayton_set_out_of_bounds"
   ],
   "note": "Clayton in dimension two accepts parameters below its bound (witnesses)"
  },
  {
   "property": "C25",
   "status": "proved",
   "theorems": [
    "Copulae.clayton_random_pair",
    "Copulae.frank_random_pair",
    "Copulae.random_near_zero",
    "Copulae.clayton_random_lower"
   ],
   "note": "the random numbers are arguments of the model; values exactly 0 (possible with probability 2^-53) are outside the theorem"
  },
  {
   "property": "C26",
   "status": "partial",
   "theorems": [
    "Copulae.clayton_dipsi_partial",
    "Copulae.clayton_dipsi_negative",
    "Copulae.gumbel_dipsi",
    "Copulae.frank_dipsi_partial",
    "Copulae.dipsi_reject"
   ],
   "note": "Clayton with a negative parameter returns NaN (witness); Frank only where ipsi itself is right (u > 0.01)"
  },
  {
   "property": "C27",
   "status": "partial",
   "theorems": [
    "Copulae.gumbel_pickands",
    "Copulae.gumbelA_scalar_fails"
   ],
   "note": "full for array arguments; a scalar w raises TypeError (proved)"
  },
  {
   "property": "C28",
   "status": "proved",
   "theorems": [
    "Copulae.stirlingFirst_spec",
    "Copulae.stirlingSecond_spec",
    "Copulae.stirling_mathlib",
    "Copulae.stirlingAll_spec",
    "Copulae.stirling_reject"
   ],
   "note": ""
  },
  {
   "property": "C29",
   "status": "proved",
   "theorems": [
    "Copulae.eulerian_spec",
    "Copulae.eulerian_symm",
    "Copulae.eulerian_rowSum",
    "Copulae.eulerian_reject",
    "Copulae.eulerian_zero_zero"
   ],
   "note": "eulerian_zero_zero records that eulerian(0, 0) is 0 instead of 1"
  },
  {
   "property": "C30",
   "status": "proved",
   "theorems": [
    "Copulae.polyLog_negStirling",
    "Copulae.polyLog_negEulerian",
    "Copulae.polyLog_spec",
    "Copulae.polyLog_methods",
    "Copulae.polyLog_reject"
   ],
   "note": ""
  },
  {
   "property": "C31",
   "status": "proved",
   "theorems": [
    "Copulae.polynEval_spec",
    "Copulae.polynEval_empty"
   ],
   "note": ""
  },
  {
   "property": "C32",
   "status": "proved",
   "theorems": [
    "Copulae.logSum_spec",
    "Copulae.logSum_real",
    "Copulae.logSum_offset",
    "Copulae.logSum_all_ninf"
   ],
   "note": "logSum_all_ninf is the exceptional input where NaN is returned"
  },
  {
   "property": "C33",
   "status": "partial",
   "theorems": [
    "Copulae.gumbelCoef_methods_partial",
    "Copulae.gumbelCoef_agree",
    "Copulae.gumbelCoef_positive",
    "Copulae.gumbelCoef_log_dim_one",
    "Copulae.gumbelCoef_log_alpha_one"
   ],
   "note": "the code violates the full statement: method 'log' fails for d = 1, and alpha = 1 with log=True is wrong for the Sibuya based methods; the last two theorems are the witnesses"
  },
  {
   "property": "C34",
   "status": "partial",
   "theorems": [
    "Copulae.signFF_arrays_partial",
    "Copulae.signFF_scalar_d",
    "Copulae.signFF_scalar_fails"
   ],
   "note": "array arguments; with two scalars the code always raises (third theorem)"
  },
  {
   "property": "C35",
   "status": "proved",
   "theorems": [
    "Copulae.findRoot_bracket",
    "Copulae.findRoot_first",
    "Copulae.findRoot_unchanged",
    "Copulae.findRoot_nonfinite",
    "Copulae.findRoot_fail",
    "Copulae.findRoot_root",
    "Copulae.exists_brentq"
   ],
   "note": "scipy's brentq is a parameter; the contract assumed in findRoot_root is satisfiable by exists_brentq"
  },
  {
   "property": "C36",
   "status": "proved",
   "theorems": [
    "Copulae.prange_eq_serial",
    "Copulae.map_dbl_p_eq_s",
    "Copulae.mapc_dbl_p_eq_s",
    "Copulae.exists_done",
    "Copulae.specCall_spec"
   ],
   "note": "every interleaving of the atomic reads and writes, every distribution of the iterations over threads"
  },
  {
   "property": "C37",
   "status": "partial",
   "theorems": [
    "Copulae.specCall_spec",
    "Copulae.specCall_keeps_partial",
    "Copulae.debye1_overwrites"
   ],
   "note": "violated: contiguous float64 arrays with a number of elements other than one are overwritten (last theorem)"
  },
  {
   "property": "C38",
   "status": "partial",
   "theorems": [
    "Copulae.clausen_odd",
    "Copulae.clausen_finite",
    "Copulae.clausen_reflect_partial",
    "Copulae.clausen_nan",
    "Copulae.clausen_period_fails",
    "Copulae.angleRestrict_ge"
   ],
   "note": "odd for every argument; periodicity is violated: NaN from 2 pi on"
  },
  {
   "property": "C39",
   "status": "proved",
   "theorems": [
    "Copulae.debye_reflection",
    "Copulae.debye_wrappers",
    "Copulae.debye_nonfinite",
    "Copulae.frank_measures_odd"
   ],
   "note": "the numeric kernels for positive arguments are parameters"
  },
  {
   "property": "C40",
   "status": "proved",
   "theorems": [
    "Copulae.empCdf_distribution",
    "Copulae.empCdf_smoothing",
    "Copulae.empCdf_rejects",
    "Copulae.exists_btdtr"
   ],
   "note": "scipy.special.btdtr is a parameter with the contract IsBtdtr (regularised incomplete beta function), shown satisfiable by exists_btdtr"
  },
  {
   "property": "C41",
   "status": "proved",
   "theorems": [
    "Copulae.empCdf_margins"
   ],
   "note": ""
  },
  {
   "property": "C42",
   "status": "partial",
   "theorems": [
    "Copulae.toMarginals_pseudoObs",
    "Copulae.toMarginals_spec_partial",
    "Copulae.toMarginals_one_fails",
    "Copulae.toMarginals_dense_fails"
   ],
   "note": "the inverse property is proved in full for average, min, max and ordinal; u = 1 is rejected by the code (third theorem), and with dense ranks the data do not come back (fourth theorem)"
  },
  {
   "property": "C43",
   "status": "proved",
   "theorems": [
    "Copulae.exchTest_valid",
    "Copulae.exchTest_rejects",
    "Copulae.radSymTest_valid",
    "Copulae.gofCopula_pvalue",
    "Copulae.pValue_antitone",
    "Copulae.gofPValue_antitone",
    "Copulae.gofPValue_nan"
   ],
   "note": "the copula class of gof_copula is a parameter. gofPValue_nan records that a NaN statistic receives the smallest p-value"
  },
  {
   "property": "C44",
   "status": "proved",
   "theorems": [
    "Copulae.exchTest_valid",
    "Copulae.exchTest_swap",
    "Copulae.exchTest_strictMono",
    "Copulae.exchTest_exchangeable",
    "Copulae.exchTest_rows"
   ],
   "note": "coinciding columns are the case of the identity permutation in exchTest_exchangeable"
  },
  {
   "property": "C45",
   "status": "proved",
   "theorems": [
    "Copulae.radSymTest_valid",
    "Copulae.radSymTest_perm",
    "Copulae.radSymTest_symmetric",
    "Copulae.radSymTest_strictMono"
   ],
   "note": "row order and the vanishing of the statistic are stated for the tie methods for which they are true (not ordinal; average)"
  },
  {
   "property": "C46",
   "status": "partial",
   "theorems": [
    "Copulae.gofResort_ties",
    "Copulae.gofResort_comonotone",
    "Copulae.gofResort_breaks_pairing",
    "Copulae.gofCopula_ties_degenerate"
   ],
   "note": "only the first half holds: ties are re-created, but every column is sorted on its own, so the pairing is lost (witness gofResort_breaks_pairing) and all replications give the same statistic"
  },
  {
   "property": "C47",
   "status": "partial",
   "theorems": [
    "Copulae.gmc_roundtrip",
    "Copulae.gmc_roundtrip_self",
    "Copulae.gmc_one_cluster_fails",
    "Copulae.toVector_changes"
   ],
   "note": "two clusters or more: every probability vector, mean and positive semi-definite covariance survives, zeros and ones after the adjustment to_vector makes. Violated for one cluster (a NaN probability is produced or rejected) and to_vector changes the object it is called on"
  },
  {
   "property": "C48",
   "status": "proved",
   "theorems": [
    "Copulae.eStep_rows",
    "Copulae.mStep_valid",
    "Copulae.em_step_valid"
   ],
   "note": "exact arithmetic; the densities are arbitrary non-negative, infinite or NaN values"
  },
  {
   "property": "C49",
   "status": "partial",
   "theorems": [
    "Copulae.em_best_partial",
    "Copulae.em_reports_wrong",
    "Copulae.em_nan_wins",
    "Copulae.em_no_iter",
    "Copulae.em_bad_criteria"
   ],
   "note": "the parameters returned are the best visited when no recorded log-likelihood is NaN. Violated: the log-likelihood reported is that of the last iterate (em_reports_wrong), a NaN counts as best (em_nan_wins), max_iter=0 fails with IndexError"
  },
  {
   "property": "C50",
   "status": "proved",
   "theorems": [
    "Copulae.mergeDict_spec",
    "Copulae.IsDeepMerge.unique",
    "Copulae.DWF_mergeDict",
    "Copulae.mergeDict_self",
    "Copulae.mergeDicts_spec",
    "Copulae.mergeDicts_last",
    "Copulae.fitOptions_user_wins",
    "Copulae.fitOptions_default_method",
    "Copulae.fitOptions_defaults"
   ],
   "note": "aliasing of nested dictionaries between argument and result is not modelled"
  },
  {
   "property": "C51",
   "status": "proved",
   "theorems": [
    "Copulae.random_reproducible",
    "Copulae.random_bad_seed"
   ],
   "note": "every generator: the draws are arbitrary functions of the generator state. The C rand() used by the tests is not covered"
  },
  {
   "property": "C52",
   "status": "proved",
   "theorems": [
    "Copulae.evalInput_frame",
    "Copulae.evalInput_column_order",
    "Copulae.evalInput_missing_column",
    "Copulae.evalInput_series",
    "Copulae.evalInput_array",
    "Copulae.evalInput_wrong_shape",
    "Copulae.evalInput_rows",
    "Copulae.evalInput_castOutput",
    "Copulae.evalInput_series_positional",
    "Copulae.fitColumns_stale",
    "Copulae.evalInput_keyword"
   ],
   "note": "the last three theorems record surprising cases: a Series is read by position, names from an earlier fit stay, a keyword call raises IndexError"
  },
  {
   "property": "C53",
   "status": "proved",
   "theorems": [
    "Copulae.corr_spec",
    "Copulae.corr_error",
    "Copulae.corr_local",
    "Copulae.corr_policies_agree",
    "Copulae.corr_vectors",
    "Copulae.corrFunc_names"
   ],
   "note": "the scipy coefficients are parameters"
  },
  {
   "property": "C54",
   "status": "partial",
   "theorems": [
    "Copulae.fit_ml_summary_partial",
    "Copulae.fit_scaled_logLik",
    "Copulae.fit_failure_changes_copula",
    "Copulae.fit_corr_summary_partial",
    "Copulae.fit_corr_raw_logLik"
   ],
   "note": "maximum likelihood: parameters and log-likelihood are those of the copula for an optimiser that reports a point it evaluated and scale 1. Violated: the log-likelihood is multiplied by scale (fit_scaled_logLik), a failed fit leaves the last parameters tried (fit_failure_changes_copula), inversion reports the log-likelihood of the re-ranked data (fit_corr_raw_logLik) and, for Student copulas, no degrees of freedom"
  },
  {
   "property": "C55",
   "status": "proved",
   "theorems": [
    "Copulae.corr2cov_cov2corr",
    "Copulae.cov2corr_std",
    "Copulae.cov2corr_corr2cov",
    "Copulae.cov2corr_valid",
    "Copulae.cov2corr_zero_var"
   ],
   "note": ""
  },
  {
   "property": "C56",
   "status": "proved",
   "theorems": [
    "Copulae.setItem_error_unchanged",
    "Copulae.setItem_nan_corrupts"
   ],
   "note": "the NaN scalar is a genuine exception: the second theorem exhibits the corrupted state"
  },
  {
   "property": "C57",
   "status": "partial",
   "theorems": [
    "Copulae.gumbelPoly_methods_partial",
    "Copulae.gumbelPoly_boundary",
    "Copulae.gumbelPoly_pois_one",
    "Copulae.gumbelPoly_reject",
    "Copulae.spec_gumbelPoly_two"
   ],
   "note": "all methods for alpha < 1 and d >= 2; alpha = 1 and d = 1 for the methods that support them; 'pois' in dimension one raises (proved)"
  },
  {
   "property": "C58",
   "status": "partial",
   "theorems": [
    "Copulae.clayton_random_frailty",
    "Copulae.frank_random_frailty_partial",
    "Copulae.logSeriesLarge_uniform",
    "Copulae.frank_random_large_fails",
    "Copulae.frank_random_small_fails",
    "Copulae.frank_random_nan_row"
   ],
   "note": "Clayton in full. Frank: right given log-series frailties, but the code's generator of that law is wrong for every parameter: uniform variates above 3, NaN with positive probability up to 3 (both proved)"
  },
  {
   "property": "C59",
   "status": "proved",
   "theorems": [
    "Copulae.frank_tau_increasing",
    "Copulae.frank_itau",
    "Copulae.frank_itau_tau",
    "Copulae.frank_tau_zero"
   ],
   "note": "relative to exact Debye values and an exact root finder, both contracts satisfiable"
  },
  {
   "property": "C60",
   "status": "proved",
   "theorems": [
    "Copulae.chebEval_spec"
   ],
   "note": ""
  },
  {
   "property": "C61",
   "status": "proved",
   "theorems": [
    "Copulae.empPdf_density",
    "Copulae.empPdf_rejects",
    "Copulae.exists_betaPdf"
   ],
   "note": "scipy.stats.beta.pdf and logpdf are parameters with the contract IsBetaPdf, shown satisfiable"
  },
  {
   "property": "C62",
   "status": "proved",
   "theorems": [
    "Copulae.retieAll_spec"
   ],
   "note": "np.argsort is a parameter that returns a sorting permutation"
  },
  {
   "property": "C63",
   "status": "partial",
   "theorems": [
    "Copulae.isPsdTol_iff",
    "Copulae.isPsd_eq",
    "Copulae.isPsd_of_posSemidef",
    "Copulae.nearPsd_asymmetric",
    "Copulae.nearPsd_indefinite",
    "Copulae.isPsdStrict_singular"
   ],
   "note": "violated for strict=True: singular matrices are accepted (last theorem)"
  },
  {
   "property": "C64",
   "status": "partial",
   "theorems": [
    "Copulae.fitOptions_unchanged_partial",
    "Copulae.fitOptions_mutates",
    "Copulae.fitOptions_leaks"
   ],
   "note": "violated: the method is written into the caller's dictionary (fitOptions_mutates), and from there reaches the next fit (fitOptions_leaks). Unchanged when the method is given"
  },
  {
   "property": "C65",
   "status": "partial",
   "theorems": [
    "Copulae.fitOptions_keywords_partial",
    "Copulae.fitOptions_trust_constr"
   ],
   "note": "violated for trust-constr: its defaults are passed as keywords"
  },
  {
   "property": "C66",
   "status": "partial",
   "theorems": [
    "Copulae.random_seed_eq_partial",
    "Copulae.student_same_stream",
    "Copulae.student_seed_differs",
    "Copulae.gumbel_near_one",
    "Copulae.gumbel_seed_differs"
   ],
   "note": "violated for the Student copula (chi-square and normal variates come from the same seed) and for the Gumbel copula with theta - 1 < 1e-7; holds for all others"
  },
  {
   "property": "C67",
   "status": "partial",
   "theorems": [
    "Copulae.exchTest_resets",
    "Copulae.exchTest_repeats",
    "Copulae.exchTest_deterministic"
   ],
   "note": "violated: the global generator is reset by exch_test on data without ties; what holds is that the p-value is a function of the data"
  },
  {
   "property": "C68",
   "status": "partial",
   "theorems": [
    "Copulae.fromVector_length_partial",
    "Copulae.fromVector_short"
   ],
   "note": "violated: in dimension 2 the last block may be two numbers short, the one number given fills the matrix (fromVector_short)"
  },
  {
   "property": "C69",
   "status": "proved",
   "theorems": [
    "Copulae.pseudoObs_ties",
    "Copulae.pseudoObs_ordinal",
    "Copulae.pseudoObs_names"
   ],
   "note": ""
  },
  {
   "property": "C70",
   "status": "proved",
   "theorems": [
    "Copulae.fit_keeps_kind",
    "Copulae.fit_admissible"
   ],
   "note": ""
  },
  {
   "property": "C71",
   "status": "proved",
   "theorems": [
    "Copulae.fit_error_keeps_summary",
    "Copulae.fit_refused"
   ],
   "note": ""
  },
  {
   "property": "C72",
   "status": "partial",
   "theorems": [
    "Copulae.fit_itau_two",
    "Copulae.fit_itau_ell",
    "Copulae.fit_itau_ell_succeeds"
   ],
   "note": "bivariate Archimedean copulas and elliptical copulas of dimension three or more; bivariate elliptical copulas cannot be fitted (see C73). For Frank copulas taus within 1e-16 of zero or 4e-20 of one are left out"
  },
  {
   "property": "C73",
   "status": "partial",
   "theorems": [
    "Copulae.fit_inversion_two_fails",
    "Copulae.fit_irho_fails",
    "Copulae.fit_itau_two",
    "Copulae.fit_itau_ell"
   ],
   "note": "violated: bivariate Gaussian and Student copulas never, and irho for no family but the Gaussian; the cases that work are those of C72"
  },
  {
   "property": "C74",
   "status": "partial",
   "theorems": [
    "Copulae.fit_negative_fails",
    "Copulae.fit_itau_two"
   ],
   "note": "violated: Clayton and Frank copulas of dimension three or more raise ValueError when the sample taus are negative. In two dimensions the starting value (the itau estimate) is accepted by fit_itau_two"
  },
  {
   "property": "C75",
   "status": "proved",
   "theorems": [
    "Copulae.fit_ml_psd"
   ],
   "note": "positive finite scale"
  },
  {
   "property": "C76",
   "status": "proved",
   "theorems": [
    "Copulae.getItem_int",
    "Copulae.getItem_negative",
    "Copulae.getItem_rows",
    "Copulae.setItem_int",
    "Copulae.setItem_row",
    "Copulae.setItem_row_negative"
   ],
   "note": ""
  },
  {
   "property": "C77",
   "status": "partial",
   "theorems": [
    "Copulae.cdf_volume_partial",
    "Copulae.indepCdf_volume",
    "Copulae.volume_two"
   ],
   "note": "all families and dimensions; for Frank copulas the coordinates must exceed 0.01 and theta exceed -36, where the code is right (frankCdf_not_grounded)"
  },
  {
   "property": "C78",
   "status": "partial",
   "theorems": [
    "Copulae.cdf_lipschitz_partial"
   ],
   "note": "same restriction for Frank copulas"
  },
  {
   "property": "C79",
   "status": "partial",
   "theorems": [
    "Copulae.margCdf_sklar_partial",
    "Copulae.margCdf_joint",
    "Copulae.margCdf_indep",
    "Copulae.margCdf_log",
    "Copulae.margCdf_int",
    "Copulae.margCdf_int_differs"
   ],
   "note": "Archimedean inner copulas (Frank within the region of C77) and the independence copula. Violated: integer input truncates the marginal probabilities (margCdf_int, margCdf_int_differs)"
  },
  {
   "property": "C80",
   "status": "partial",
   "theorems": [
    "Copulae.margPdf_density_partial",
    "Copulae.margPdf_joint",
    "Copulae.gaussian_marginal_law",
    "Copulae.student_marginal_law_partial",
    "Copulae.arch_marginal_law_partial",
    "Copulae.indep_marginal_law"
   ],
   "note": "as a mixed derivative for Clayton and Frank inner copulas with positive parameter and Gumbel inner copulas; as a density of the law (C141) also for Gaussian, independence and Student inner copulas up to 10000 degrees of freedom and two-dimensional Clayton copulas with negative parameter"
  },
  {
   "property": "C81",
   "status": "partial",
   "theorems": [
    "Copulae.margPdf_outside_indep",
    "Copulae.margPdf_outside_nan"
   ],
   "note": "holds for the independence copula; violated: NaN for Clayton inner copulas with positive parameter"
  },
  {
   "property": "C82",
   "status": "partial",
   "theorems": [
    "Copulae.margRandom_counts",
    "Copulae.margRandom_ranks",
    "Copulae.margRandom_many",
    "Copulae.margRandom_one_fails"
   ],
   "note": "violated for n = 1 over Gaussian and Student copulas: IndexError"
  },
  {
   "property": "C83",
   "status": "partial",
   "theorems": [
    "Copulae.createUnivariate_spec",
    "Copulae.getMarginalClass_names",
    "Copulae.processMargins_rejects",
    "Copulae.processMargins_length",
    "Copulae.createUnivariate_heap_partial",
    "Copulae.createUnivariate_mutates",
    "Copulae.processMargins_shared_fails"
   ],
   "note": "violated: shape parameters that are not given are written into the caller's dictionary, which makes a later margin with the same dictionary fail"
  },
  {
   "property": "C84",
   "status": "proved",
   "theorems": [
    "Copulae.getMarginalDetail_spec",
    "Copulae.detail_roundtrip"
   ],
   "note": ""
  },
  {
   "property": "C85",
   "status": "proved",
   "theorems": [
    "Copulae.fit_ranks",
    "Copulae.logLik_ranks",
    "Copulae.margFit_ok"
   ],
   "note": ""
  },
  {
   "property": "C86",
   "status": "partial",
   "theorems": [
    "Copulae.archLogLik_value_partial",
    "Copulae.gaussianLogLik_value",
    "Copulae.studentLogLik_value_partial",
    "Copulae.baseLogLik_one_row"
   ],
   "note": "Clayton and Frank copulas with positive parameter, Gumbel and Gaussian copulas, Student copulas up to 10000 degrees of freedom. Violated: one observation raises AttributeError"
  },
  {
   "property": "C87",
   "status": "partial",
   "theorems": [
    "Copulae.margLogLik_value_partial",
    "Copulae.margLogLik_of_density",
    "Copulae.margLogLik_ranks",
    "Copulae.margLogLik_default_wrong"
   ],
   "note": "holds with to_pobs=False. Violated by default: the margins are evaluated at the ranks of the data"
  },
  {
   "property": "C88",
   "status": "partial",
   "theorems": [
    "Copulae.margFit_refuse_partial",
    "Copulae.margFit_failure_changes_margins"
   ],
   "note": "data of the wrong dimension change nothing; violated when the inner copula refuses the data after the margins were fitted"
  },
  {
   "property": "C89",
   "status": "partial",
   "theorems": [
    "Copulae.toMarginals_rejects_partial",
    "Copulae.toMarginals_negative"
   ],
   "note": "violated: for coordinates in [-1, 0) observed values are returned, read from the upper end of the sorted column. Proved: an IndexError is raised exactly if a coordinate is less than -1 or at least 1"
  },
  {
   "property": "C90",
   "status": "proved",
   "theorems": [
    "Copulae.gofFit_spec",
    "Copulae.gofReplicate_spec",
    "Copulae.gofStat_emp",
    "Copulae.gofData_ok"
   ],
   "note": ""
  },
  {
   "property": "C91",
   "status": "proved",
   "theorems": [
    "Copulae.exchReplication_swap",
    "Copulae.exchReplication_keep",
    "Copulae.radSymReplicate_reflect",
    "Copulae.radSymReplicate_keep"
   ],
   "note": ""
  },
  {
   "property": "C92",
   "status": "proved",
   "theorems": [
    "Copulae.derCn1_margin",
    "Copulae.derCn2_margin",
    "Copulae.derCn1_nonneg",
    "Copulae.derCn1_zero"
   ],
   "note": ""
  },
  {
   "property": "C93",
   "status": "partial",
   "theorems": [
    "Copulae.gmcPdf_mixture_partial",
    "Copulae.gmcCdf_mixture_partial",
    "Copulae.gmcCdf_not_copula"
   ],
   "note": "violated: cdf and pdf evaluate the mixture of normal distributions at the points of the cube themselves; cdf is positive everywhere and below one at (1,...,1)"
  },
  {
   "property": "C94",
   "status": "proved",
   "theorems": [
    "Copulae.debye1K_accurate",
    "Copulae.debye2K_accurate",
    "Copulae.debyeK_ends"
   ],
   "note": "exact real arithmetic; rounding is not modelled"
  },
  {
   "property": "C95",
   "status": "proved",
   "theorems": [
    "Copulae.fit_start_invalid",
    "Copulae.initialParams_finite",
    "Copulae.initialParams_ell",
    "Copulae.initialParams_arch"
   ],
   "note": ""
  },
  {
   "property": "C96",
   "status": "proved",
   "theorems": [
    "Copulae.randomGmm_rows",
    "Copulae.gmcRandom_rows",
    "Copulae.empiricalRandom_rows"
   ],
   "note": ""
  },
  {
   "property": "C97",
   "status": "proved",
   "theorems": [
    "Copulae.frank_tau_accurate",
    "Copulae.frank_rho_accurate",
    "Copulae.frank_near_zero"
   ],
   "note": "exact real arithmetic; rounding is not modelled"
  },
  {
   "property": "C98",
   "status": "proved",
   "theorems": [
    "Copulae.gaussianCdf_law",
    "Copulae.gaussianCdf_isCopula",
    "Copulae.gaussian_badColumns",
    "Copulae.gaussianCdf_margin",
    "Copulae.gaussian_independent"
   ],
   "note": "with the exact normal probabilities and quantiles of SciPy; its numerical integration is not modelled"
  },
  {
   "property": "C99",
   "status": "proved",
   "theorems": [
    "Copulae.gaussianPdf_density",
    "Copulae.gaussianRandom_law",
    "Copulae.gaussianPdf_radial"
   ],
   "note": "with the exact normal densities and quantiles of SciPy"
  }
 ]
}