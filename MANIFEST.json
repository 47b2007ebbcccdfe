{
 "claims": [
  {
   "property": "C01",
   "status": "proved",
   "theorems": [
    "Verif.Hsmm.llk_eq_log_sum_over_segmentations",
    "Verif.Hsmm.llk_zero_probability"
   ],
   "note": "Real arithmetic; all switches, hmp emissions and time-varying tables."
  },
  {
   "property": "C02",
   "status": "proved",
   "theorems": [
    "Verif.Hsmm.viterbi_optimal"
   ],
   "note": "hmp tables: bump durations above the template width have log-probability minus infinity, as built by hsmm.py."
  },
  {
   "property": "C03",
   "status": "partial",
   "theorems": [
    "Verif.Hsmm.sampling_is_posterior_partial",
    "Verif.Hsmm.sampling_exhaustive_partial",
    "Verif.Hsmm.sampling_time_varying_wrong",
    "Verif.Hsmm.sampling_entry_obs_wrong"
   ],
   "note": "Exact posterior law for time-constant durations (all switches; hmp when entry does not change the emission). The code is wrong for time-varying durations (index t-1 instead of t) and for hmp models with entry-dependent emissions; both shown by counterexample theorems. Law of std::discrete_distribution assumed."
  },
  {
   "property": "C04",
   "status": "partial",
   "theorems": [
    "Verif.Hsmm.llkgrad_hasDerivAt_partial",
    "Verif.Hsmm.llkgrad_initial_time_varying_wrong"
   ],
   "note": "Exact derivative for emission, duration and transition coefficients (constant and time-varying tables) and for initial-state coefficients with constant tables; for initial-state coefficients with time-varying durations the code is wrong, shown by a counterexample theorem. hmp_code = 0 (llkgrad)."
  },
  {
   "property": "C05",
   "status": "partial",
   "theorems": [
    "Verif.Hsmm.forwardResid_is_conditional_cdf_partial",
    "Verif.Hsmm.forwardResid_unit_interval_partial",
    "Verif.Hsmm.forwardResid_boundary_wrong"
   ],
   "note": "Without ends_with_last (and before the last time point or without ends_in_last): equals the conditional distribution function over segmentations, lies in [0,1], equals 1 for cdf values 1. With ends_with_last the value is not a conditional probability: counterexample theorem."
  },
  {
   "property": "C06",
   "status": "partial",
   "theorems": [
    "Verif.Hsmm.predictive_mean_partial",
    "Verif.Hsmm.predictive_mean_wrong_signal",
    "Verif.Hsmm.predResid_standardised_partial",
    "Verif.Hsmm.predResid_first_not_standardised"
   ],
   "note": "One signal, hmp_code = 0: exact conditional mean; standardisation exact from the second time point on. Counterexample theorems: with two signals the mean of another signal is read, and the first residual is not standardised."
  },
  {
   "property": "C07",
   "status": "proved",
   "theorems": [
    "Verif.Haz.llk_eq_breslow"
   ],
   "note": "All data sets with any ties and censoring; ut/r as documented (decreasing unique times)."
  },
  {
   "property": "C08",
   "status": "proved",
   "theorems": [
    "Verif.Haz.llk_hasDerivAt",
    "Verif.Haz.gradient_hasDerivAt",
    "Verif.Haz.hessian_symm_negSemidef",
    "Verif.Haz.llk_concave"
   ],
   "note": "Derivatives along every line, so all directional derivatives; symmetry, negative semi-definiteness and concavity."
  },
  {
   "property": "C09",
   "status": "proved",
   "theorems": [
    "Verif.Haz.baseline_is_breslow",
    "Verif.Haz.survival_monotone",
    "Verif.Haz.martingale_sum_zero"
   ],
   "note": "Survival is covered for all times up to the last observed one; after it the code raises."
  },
  {
   "property": "C10",
   "status": "proved",
   "theorems": [
    "Verif.DChol.dChol_solves",
    "Verif.DChol.dChol_unique",
    "Verif.DChol.dChol_is_derivative"
   ],
   "note": "Existence, uniqueness, and derivative along every differentiable path (differentiability of the factor is proved, not assumed)."
  },
  {
   "property": "C11",
   "status": "proved",
   "theorems": [
    "Verif.DChol.computeV2_eq",
    "Verif.DChol.computeV2_symm",
    "Verif.DChol.computeV2_psd"
   ],
   "note": ""
  },
  {
   "property": "C12",
   "status": "proved",
   "theorems": [
    "Verif.Nuts.leapfrog_reversible",
    "Verif.Nuts.leapfrog_consistent",
    "Verif.Nuts.leapfrog_volume"
   ],
   "note": "volume statement assumes only a measurable gradient function"
  },
  {
   "property": "C13",
   "status": "proved",
   "theorems": [
    "Verif.Nuts.iteration_ok",
    "Verif.Nuts.advanceChain_ok",
    "Verif.Nuts.advanceChain_run_ok",
    "Verif.Nuts.buildTree_ok"
   ],
   "note": "all random streams; exact arithmetic, log-density finite"
  },
  {
   "property": "C14",
   "status": "proved",
   "theorems": [
    "Verif.Sched.block_pure",
    "Verif.Sched.schedule_complete"
   ],
   "note": "blocks, storage and early stop of the loop in sample_mssm; the convergence criterion is an arbitrary decision"
  },
  {
   "property": "C15",
   "status": "proved",
   "theorems": [
    "Verif.Fam.link_inverse",
    "Verif.Fam.link_derivs",
    "Verif.Fam.link_inverse_deriv"
   ],
   "note": "Exact real arithmetic with nan/inf values (Fl); overflow of exp is not modelled."
  },
  {
   "property": "C16",
   "status": "proved",
   "theorems": [
    "Verif.Fam.deviance_nonneg",
    "Verif.Fam.deviance_is_gap"
   ],
   "note": "All five exponential families, boundary observations included; log densities are those documented by scipy."
  },
  {
   "property": "C17",
   "status": "proved",
   "theorems": [
    "Verif.Fam.score_correct"
   ],
   "note": "dllkdcoef for every exponential family and link whenever current means are admissible. dllkdlscale is a finite difference and is not modelled; the extended family branch is C59."
  },
  {
   "property": "C18",
   "status": "proved",
   "theorems": [
    "Verif.ScT.deviance_gap",
    "Verif.ScT.deviance_nonneg",
    "Verif.ScT.dDdmu_correct",
    "Verif.ScT.d2Ddmu_correct",
    "Verif.ScT.gradTheta0_correct",
    "Verif.ScT.gradTheta1_correct",
    "Verif.ScT.hessTheta_correct"
   ],
   "note": "Scaled t: deviance gap and sign, first and second derivatives in the mean and in both shape parameters. gammaln/digamma/polygamma modelled as log Gamma and its derivatives."
  },
  {
   "property": "C19",
   "status": "proved",
   "theorems": [
    "Verif.Lss.gau_first",
    "Verif.Lss.gam_first",
    "Verif.Lss.mn_first",
    "Verif.Lss.mn_probs",
    "Verif.Lss.gau_resid"
   ],
   "note": "gauLp/gamLp/mnLp are logs of the densities; first derivatives hold wherever the parameters are admissible; class probabilities positive and sum to one"
  },
  {
   "property": "C20",
   "status": "partial",
   "theorems": [
    "Verif.EtaBeta.gradient_correct",
    "Verif.EtaBeta.hessian_correct",
    "Verif.EtaBeta.mu_to_eta",
    "Verif.EtaBeta.mu_to_eta_grad",
    "Verif.EtaBeta.mn_exact",
    "Verif.EtaBeta.gau_grad",
    "Verif.EtaBeta.gam_grad",
    "Verif.EtaBeta.hessian_shape_wrong",
    "Verif.EtaBeta.hessian_shape_partial"
   ],
   "note": "Gradient total derivative, Hessian entries true and symmetric, for all sizes, links and storage patterns; exactness proved for the multinomial family, first derivatives for Gaussian and Gamma (their second derivatives are expectations, C60). Missing: the shape, which the code infers from the largest stored index (hessian_shape_wrong)"
  },
  {
   "property": "C21",
   "status": "proved",
   "theorems": [
    "Verif.Fam.fisher_weights",
    "Verif.Fam.newton_weights",
    "Verif.Fam.canonical_weights",
    "Verif.Fam.fisher_is_expected_newton",
    "Verif.Fam.pirls_normal_eq",
    "Verif.ScT.ext_newton_weights",
    "Verif.ScT.ext_fisher_score",
    "Verif.Fam.working_data"
   ],
   "note": "Exponential families (Fisher and Newton) and extended families; also the assembled least squares problem of update_PIRLS without AR1."
  },
  {
   "property": "C22",
   "status": "proved",
   "theorems": [
    "Verif.Pen.diff_quad",
    "Verif.Pen.diff_sym_psd",
    "Verif.Pen.diff_root",
    "Verif.Pen.diff_null",
    "Verif.Pen.diff_rank"
   ],
   "note": "Quadratic form as explicit binomial differences, symmetry, root, null space = polynomials of degree < m on the grid, rank; model of DifferencePenalty.constructor without constraint."
  },
  {
   "property": "C23",
   "status": "proved",
   "theorems": [
    "Verif.Pen.constraint_absorbed",
    "Verif.Pen.diff_con_quad",
    "Verif.Pen.diff_con_root"
   ],
   "note": "QR, DROP and DIFF: one linear map serves basis (any covariates) and penalty; reached vectors are exactly those meeting the constraint, uniquely. QR decomposition by its specification."
  },
  {
   "property": "C24",
   "status": "proved",
   "theorems": [
    "Verif.Pen.tensor_basis",
    "Verif.Pen.tensor_penalty",
    "Verif.Pen.digit_along",
    "Verif.Pen.fibres_cover",
    "Verif.Pen.tensor_separable",
    "Verif.Pen.tensor_separable_penalty",
    "Verif.Pen.tensor_root",
    "Verif.Pen.tpPen_correct"
   ],
   "note": "Basis digits and penalty fibres use the same index; separable arrays; roots, scaling and constraints of the tensor penalty (eigen-root exact when eigenvalues are zero or above the tolerance)."
  },
  {
   "property": "C25",
   "status": "proved",
   "theorems": [
    "Verif.Pen.embed_quad",
    "Verif.Pen.embed_outside",
    "Verif.Pen.embed_root",
    "Verif.Pen.levels_quad",
    "Verif.Pen.formula_quad",
    "Verif.Pen.total_quad",
    "Verif.Pen.embed_rank"
   ],
   "note": "Embedding for terms with and without by factors, roots, several formulas, weighted sum; dropped coefficients are treated in C74"
  },
  {
   "property": "C26",
   "status": "partial",
   "theorems": [
    "Verif.Pen.pinv_position",
    "Verif.Pen.pinv_placed_partial",
    "Verif.Pen.pinv_trace_partial",
    "Verif.Pen.collect_blocks",
    "Verif.Pen.use_rank_aligned",
    "Verif.Pen.pinv_misplaced"
   ],
   "note": "Holds when blocks are contiguous; pinv_misplaced shows the unchanged code puts the pseudo-inverse at the wrong coefficients when unpenalised coefficients lie between blocks"
  },
  {
   "property": "C27",
   "status": "partial",
   "theorems": [
    "Verif.Pen.split_combine",
    "Verif.Pen.shared_total_partial",
    "Verif.Pen.shared_total_general",
    "Verif.Pen.merge_sums",
    "Verif.Pen.lone_id_counted_twice"
   ],
   "note": "Holds unless one id is shared and another id occurs once; lone_id_counted_twice shows the unchanged code then counts the penalty of the lone id twice"
  },
  {
   "property": "C28",
   "status": "proved",
   "theorems": [
    "Verif.Sp.translate_lossless",
    "Verif.Sp.eigen_lossless",
    "Verif.Sp.pad_lossless",
    "Verif.Sp.pad_product",
    "Verif.Sp.perm_orthogonal",
    "Verif.Sp.applyPerm_apply",
    "Verif.Sp.perm_mul_vec",
    "Verif.Sp.unpivot_inverse",
    "Verif.Sp.unpivot_keep"
   ],
   "note": "Conversions, padding, products after padding, permutation matrices, unpivoting with dropped coefficients; Eigen's reading of the arrays is a specification"
  },
  {
   "property": "C29",
   "status": "partial",
   "theorems": [
    "Verif.Par.split_correct",
    "Verif.Par.readXTX_eq",
    "Verif.Par.keepXTX_eq",
    "Verif.Par.keepXTX_few_rows",
    "Verif.Par.readEta_eq",
    "Verif.Par.keepEta_eq",
    "Verif.Par.fitMat_eq_partial",
    "Verif.Par.fitMat_irf_fails",
    "Verif.Par.starmap_eq",
    "Verif.Par.computeLinv_eq",
    "Verif.Par.computeB_eq"
   ],
   "note": "Row and column splits, accumulated cross products, linear predictors, triangular inverse and sums of squares equal the serial results for every number of workers and any completion order. Missing: impulse response terms with several workers raise an exception (fitMat_irf_fails), as do fewer kept rows than files (keepXTX_few_rows)."
  },
  {
   "property": "C30",
   "status": "proved",
   "theorems": [
    "Verif.Lam.fs_range",
    "Verif.Lam.fs_direction",
    "Verif.Lam.trace_diff_nonneg",
    "Verif.Lam.fs_direction_exact",
    "Verif.Lam.accel_direction",
    "Verif.Lam.extend_correct",
    "Verif.Lam.fit_range",
    "Verif.Lam.accepted_recoverable",
    "Verif.Lam.propose_direction",
    "Verif.Lam.loopL_range",
    "Verif.Lam.fs_against_gradient"
   ],
   "note": "Real arithmetic. Direction is shown for the exact traces: their order is derived from the penalties (trace_diff_nonneg); fs_against_gradient records what happens if rounding reverses the order."
  },
  {
   "property": "C31",
   "status": "proved",
   "theorems": [
    "Verif.Step.coef_step_correct",
    "Verif.Step.coef_step_descent",
    "Verif.Step.lss_step_correct",
    "Verif.Step.lss_step_ascent",
    "Verif.Step.lss_step_size",
    "Verif.Step.theta_ascent",
    "Verif.Step.coef_step_penalised",
    "Verif.Step.lss_step_size_lower"
   ],
   "note": "Objective values may be nan or infinite. The reference value is the penalised deviance (log-likelihood) of the old coefficients."
  },
  {
   "property": "C32",
   "status": "partial",
   "theorems": [
    "Verif.Edf.total_edf_partial",
    "Verif.Edf.term_edf_correct",
    "Verif.Edf.penalised_le_rank",
    "Verif.Edf.term_edf_range",
    "Verif.Edf.merged_traces",
    "Verif.Edf.cluster_bound",
    "Verif.Edf.no_penalty_drop",
    "Verif.Edf.no_penalty_scale"
   ],
   "note": "Exact arithmetic; penalties with their roots, drops, shared smoothing parameters and clustered random effects covered. Without penalties dropped coefficients are still counted (no_penalty_drop). The quasi-Newton branch is part of C108."
  },
  {
   "property": "C33",
   "status": "proved",
   "theorems": [
    "Verif.Newton.newton_correct",
    "Verif.Newton.ridge_terminates",
    "Verif.Newton.newton_ascent",
    "Verif.Newton.gradient_ascent",
    "Verif.Newton.newton_quadratic"
   ],
   "note": "Diagonal of the negative penalised Hessian free of zeros (otherwise the preconditioner divides by zero); factorisation specified by CholSpec."
  },
  {
   "property": "C34",
   "status": "proved",
   "theorems": [
    "Verif.Drop.drop_eta",
    "Verif.Drop.drop_roundtrip",
    "Verif.Drop.drop_penalty",
    "Verif.Drop.scatter_correct",
    "Verif.Drop.byQR_partition",
    "Verif.Drop.foster_correct"
   ],
   "note": "Bookkeeping of drop_terms_X, np.split, coef[keep] and full_coef[keep]; identify_drop with decompositions and null vectors as parameters. foster_correct assumes each null vector found has a nonzero entry."
  },
  {
   "property": "C35",
   "status": "partial",
   "theorems": [
    "Verif.Step.eta_of_coef_partial",
    "Verif.Step.limit_mismatch",
    "Verif.Step.inner_mismatch",
    "Verif.Step.weights_partial",
    "Verif.Step.weights_mismatch"
   ],
   "note": "Holds for converged fits with outer step control and without excluded observations. Disagreements: iteration limit, inner iterations with a corrected tiny step, weights rooted twice with excluded observations."
  },
  {
   "property": "C36",
   "status": "partial",
   "theorems": [
    "Verif.Ar1.ar1_whitens",
    "Verif.Ar1.ar1_covariance",
    "Verif.Ar1.ar1_logdet",
    "Verif.Ar1.ar1_llk",
    "Verif.Ar1.ar1_complete",
    "Verif.Ar1.ar1_missing_partial",
    "Verif.Ar1.ar1_missing_start",
    "Verif.Ar1.ar1_gap",
    "Verif.Ar1.ar1_first_missing"
   ],
   "note": "Whitening, covariance, log-determinant and joint log-density proved for every series partition when no observations are missing, and with missing values when the first observation of each series is valid (positions then counted among valid observations). Negations proved: missing first observation joins series or changes a variance; gaps are treated as neighbours."
  },
  {
   "property": "C37",
   "status": "proved",
   "theorems": [
    "Verif.Mvn.affine_law",
    "Verif.Mvn.sampleLI_law",
    "Verif.Mvn.sampleUse_law",
    "Verif.Mvn.sampleUse_eq",
    "Verif.Mvn.sampleLI_posterior",
    "Verif.Mvn.sampleLI_unpivoted",
    "Verif.Mvn.sampleL_eq",
    "Verif.Mvn.sampleL_posterior",
    "Verif.Mvn.sample_moments",
    "Verif.Mvn.way_error",
    "Verif.Mvn.way_LI"
   ],
   "note": "Law of the draws is Mathlib's multivariate Gaussian with the requested mean and covariance; standard normal draws assumed independent, back substitution by its specification."
  },
  {
   "property": "C38",
   "status": "partial",
   "theorems": [
    "Verif.Reml.reml_value",
    "Verif.Reml.logDiag_eq",
    "Verif.Reml.log_pdet",
    "Verif.Reml.nullity_eq",
    "Verif.Reml.mp_partial",
    "Verif.Reml.mp_repeated",
    "Verif.Reml.qr_fallback_scale"
   ],
   "note": "reml_value: value of REML for every model layout (several formulas, repeated penalties), scale and kept coefficients, given positive definite group penalties and successful factorisations; generalised determinant defined by the nonzero eigenvalues. Constant: mp_partial; mp_repeated (constant too small for repeated penalties) and qr_fallback_scale (scale forgotten when the factorisation of a group fails) show where the code departs."
  },
  {
   "property": "C39",
   "status": "partial",
   "theorems": [
    "Verif.Compare.aic_partial",
    "Verif.Compare.swap_partial",
    "Verif.Compare.decision",
    "Verif.Compare.p_value",
    "Verif.Compare.theta_not_counted",
    "Verif.Compare.settings_from_first",
    "Verif.Compare.only_expected_raises"
   ],
   "note": "compare_CDL modelled branch by branch. Proved: AIC difference with the same dof rule for both models when theta is treated alike, sign change under swapping when the automatic settings and est_theta agree and no test is requested, decision and p-value. False in general: theta of model 2 ignored when theta of model 1 is fixed (theta_not_counted), automatic settings read from model 1 only (settings_from_first); only_expected_edf with t1 correction or JJJ1 raises. The code rejects at p <= alpha, not p < alpha."
  },
  {
   "property": "C40",
   "status": "partial",
   "theorems": [
    "Verif.Compact.hsr1_secant_last",
    "Verif.Compact.hsr1_secant_all_partial",
    "Verif.Compact.vsr1_secant_last",
    "Verif.Compact.vsr1_secant_all_partial",
    "Verif.Compact.hsr1_eq_updates",
    "Verif.Compact.vsr1_inverse",
    "Verif.Compact.make_psd_psd",
    "Verif.Compact.make_pd_pd_partial",
    "Verif.Compact.make_pd_singular",
    "Verif.Compact.make_pd_singular_case",
    "Verif.Compact.sh_implicit_eq",
    "Verif.Compact.sh_psd",
    "Verif.Compact.sh_secant",
    "Verif.Compact.makepdd_ok",
    "Verif.Compact.svdInv_exact_iff",
    "Verif.Compact.svps_inverse",
    "Verif.Compact.implicitV_inverse",
    "Verif.Compact.updateYs_store",
    "Verif.Compact.accepted_secant_partial",
    "Verif.Compact.not_all_secants",
    "Verif.Compact.kept_pairs_singular"
   ],
   "note": "Most recent pair reproduced always and the compact form equals the successive rank one updates; all pairs only under symmetric inner products (counterexample proved). The implicit inverse is the inverse of approximation plus penalty when no singular value is raised. Candidate test precedes discarding the oldest pair (counterexample proved)."
  },
  {
   "property": "C41",
   "status": "partial",
   "theorems": [
    "Verif.Repara.group_faithful_partial",
    "Verif.Repara.group_loses_penalty",
    "Verif.Repara.group_fails",
    "Verif.Repara.fit_back",
    "Verif.ReparaAsm.model_penalty",
    "Verif.ReparaAsm.model_predictors"
   ],
   "note": "group_faithful_partial: one term's penalties are transformed by an orthogonal matrix, with error-free termination, unless the first chosen penalty of several has full rank; in that case group_loses_penalty (other penalties dropped) or group_fails (shape error). model_penalty, model_predictors: assembly over formulas and repetitions. fit_back: penalty, Hessian and covariance. Eigendecompositions assumed exact."
  },
  {
   "property": "C42",
   "status": "partial",
   "theorems": [
    "Verif.Bspline.basis_nonneg",
    "Verif.Bspline.basis_sum_one_partial",
    "Verif.Bspline.basis_deg_zero_left",
    "Verif.Bspline.basis_local",
    "Verif.Bspline.smooth_const",
    "Verif.Bspline.smooth_bounds",
    "Verif.Bspline.tp_unity",
    "Verif.Bspline.convolve_shift",
    "Verif.Bspline.ir_basis"
   ],
   "note": "Proved for every degree, basis dimension and boundary: non-negative everywhere, sum to one within the boundaries, local support, equal coefficients constant, smooth within the range of its coefficients, row-wise tensor products keep both properties, impulse response bases. Exception: with degree zero the basis is zero at the left boundary itself (basis_deg_zero_left). Real arithmetic, fftconvolve as exact convolution."
  },
  {
   "property": "C43",
   "status": "partial",
   "theorems": [
    "Verif.Mmat.columns_count",
    "Verif.Mmat.names_count_partial",
    "Verif.Mmat.irf_names",
    "Verif.Mmat.matrix_columns",
    "Verif.Mmat.blocks_contiguous",
    "Verif.Mmat.names_columns_partial",
    "Verif.Mmat.irf_columns"
   ],
   "note": "Proved for formulas of intercept, linear, interaction, impulse response, smooth and random terms: columns built = coefficients reported, width of the matrix, contiguous blocks, names aligned with columns. Exception: an impulse response term with a by-variable of L levels reports L times too many names (irf_names). Bases are parameters of the width the code requests."
  },
  {
   "property": "C44",
   "status": "partial",
   "theorems": [
    "Verif.Mmat.factor_columns",
    "Verif.Mmat.factor_identifies",
    "Verif.Mmat.linear_columns_partial",
    "Verif.Mmat.interaction_restart",
    "Verif.Mmat.unknown_as_first",
    "Verif.Mmat.slope_columns",
    "Verif.Mmat.li_subsets"
   ],
   "note": "Proved for all factors and numbers of variables. Exceptions: under dummy coding a single-level factor at the start of an interaction makes the next variable appear alone (interaction_restart); unseen levels have the row of the first level (unknown_as_first)."
  },
  {
   "property": "C45",
   "status": "partial",
   "theorems": [
    "Verif.Encode.levels_spec",
    "Verif.Encode.encode_decode",
    "Verif.Encode.encode_unknown",
    "Verif.Encode.codebook_decode_partial",
    "Verif.Encode.codebook_collision",
    "Verif.Encode.subgroup_code",
    "Verif.Encode.series_concat",
    "Verif.Encode.series_count",
    "Verif.Encode.series_partial",
    "Verif.Encode.series_pure_iff",
    "Verif.Encode.series_mixed"
   ],
   "note": "Codes and decoding proved without codebook; with a codebook if it is injective on the levels (codebook_collision otherwise). Concatenation of series proved for all orderings; series hold one identifier exactly if its rows are contiguous (series_pure_iff, series_mixed)."
  },
  {
   "property": "C46",
   "status": "proved",
   "theorems": [
    "Verif.Mmat.predict_terms",
    "Verif.Mmat.predict_all",
    "Verif.Mmat.predict_se_nonneg",
    "Verif.Mmat.diff_self",
    "Verif.Mmat.diff_swap"
   ],
   "note": "Point-wise intervals (whole_interval=False), exact arithmetic."
  },
  {
   "property": "C47",
   "status": "partial",
   "theorems": [
    "Verif.Split.split_concat",
    "Verif.Split.split_blocks",
    "Verif.Split.split_block",
    "Verif.Split.get_pars_block",
    "Verif.Split.get_pars_extra",
    "Verif.Split.get_pars_term",
    "Verif.Split.get_pars_invalid_partial",
    "Verif.Split.get_pars_negative",
    "Verif.Split.get_pars_negative_term",
    "Verif.Split.coefIdx_flatten",
    "Verif.Split.drop_forgets_extra",
    "Verif.Split.check_drop_single"
   ],
   "note": "Split index, np.split, get_pars, column numbers of terms, and split index after drops modelled. Proved: blocks in order, lengths, concatenation, parameter and term getters, too large indices rejected. Exceptions proved: negative parameter indices are accepted (get_pars_negative, get_pars_negative_term); after a drop in a model with extra coefficients the split forgets them (drop_forgets_extra, check_drop_single)."
  },
  {
   "property": "C48",
   "status": "partial",
   "theorems": [
    "Verif.Jhess.jhessian_symm",
    "Verif.Jhess.jhessian_rest",
    "Verif.Jhess.jhessian_first",
    "Verif.Jhess.jhessian_cols_partial",
    "Verif.Jhess.hessian_full",
    "Verif.Jhess.jhessian_fdOK",
    "Verif.Jhess.jhessian_dup"
   ],
   "note": "Assembly of jhessian for arbitrary columns: symmetric for every selection, unselected block zero, selected pairs hold the derivative computed for the first selected of the two, hence all computed derivatives when these are symmetric and the selection has no repetition; full Hessian; hypothesis FdOK of the quasi-Newton theorems discharged (jhessian_fdOK). A repeated column (possible through structured_qefs_budget as a list) is counted twice (jhessian_dup). The finite differences themselves are not modelled."
  },
  {
   "property": "C49",
   "status": "partial",
   "theorems": [
    "Verif.MGauss.thetIdx_pos",
    "Verif.MGauss.factor_spec",
    "Verif.MGauss.llk_gauss",
    "Verif.MGauss.llk_deriv",
    "Verif.MGauss.gradient_partial",
    "Verif.MGauss.gradient_link",
    "Verif.MGauss.hessian_coef",
    "Verif.MGauss.hessian_theta_mean",
    "Verif.MGauss.hessian_theta_partial",
    "Verif.MGauss.hessian_theta_wrong"
   ],
   "note": "Proved for every dimension, data and parameters: factor, log-likelihood, gradient with identity links, columns of the Hessian. Missing: other links (negation gradient_link) and the second derivative in the parameter of a cell above the diagonal (negation hessian_theta_wrong)."
  },
  {
   "property": "C50",
   "status": "partial",
   "theorems": [
    "Verif.Rho.mv_support",
    "Verif.Rho.mv_density",
    "Verif.Rho.c_support",
    "Verif.Rho.c_density",
    "Verif.Rho.mv_valid_partial",
    "Verif.Rho.mv_valid_wrong",
    "Verif.Rho.c_valid_partial",
    "Verif.Rho.c_valid_wrong",
    "Verif.Rho.total_le",
    "Verif.Rho.total_ge",
    "Verif.Rho.first_ge",
    "Verif.Rho.second_ge",
    "Verif.Rho.third_ge",
    "Verif.Rho.expected_ge",
    "Verif.Rho.edf_sum_partial",
    "Verif.Rho.edf_alias"
   ],
   "note": "Supports and densities of both priors, bounds of the corrected and expected degrees of freedom proved; projection of invalid values only for intervals containing zero (negations mv_valid_wrong, c_valid_wrong), values per coefficient add up to the total unless the bound is enforced with form_t1 (negation edf_alias)."
  },
  {
   "property": "C51",
   "status": "partial",
   "theorems": [
    "Verif.Files.read_columns",
    "Verif.Files.levels_partial",
    "Verif.Files.levels_order_differs",
    "Verif.Files.missing_factor_raises",
    "Verif.Files.range_partial",
    "Verif.Files.range_missing",
    "Verif.Files.range_missing_witness",
    "Verif.Files.keep_iff",
    "Verif.Files.keep_differs",
    "Verif.Files.kwargs_ignored"
   ],
   "note": "Columns read from files agree with the concatenated data. Levels and ranges agree as sets without missing values; their order is that of a set (levels_order_differs). Exceptions proved: missing values in factors raise, missing numeric values make the boundaries missing, covariates are ignored when choosing the rows kept (keep_iff), file_loading_kwargs are not used when fitting (kwargs_ignored)."
  },
  {
   "property": "C52",
   "status": "proved",
   "theorems": [
    "Verif.Lss.interval_length",
    "Verif.Lss.intervals_partition",
    "Verif.Lss.residual_uniform",
    "Verif.Lss.residual_normal"
   ],
   "note": "The normal quantile function is any function with the quantile property"
  },
  {
   "property": "C53",
   "status": "partial",
   "theorems": [
    "Verif.Haz.survival_observed_partial",
    "Verif.Haz.survival_between_looks_ahead"
   ],
   "note": "Holds at observed times. Between observed times the code uses the next later time: survival_between_looks_ahead."
  },
  {
   "property": "C54",
   "status": "partial",
   "theorems": [
    "Verif.Haz.baseline_first_call_partial",
    "Verif.Haz.baseline_stale_after_first_call"
   ],
   "note": "Holds for the first call. Later calls reuse stored results of the first coefficients: baseline_stale_after_first_call."
  },
  {
   "property": "C55",
   "status": "proved",
   "theorems": [
    "Verif.Haz.devianceResid_ok"
   ],
   "note": ""
  },
  {
   "property": "C56",
   "status": "partial",
   "theorems": [
    "Verif.DChol.invdChol_is_neg_derivative_partial",
    "Verif.DChol.invdChol_not_derivative"
   ],
   "note": "The returned matrix is minus the derivative: invdChol_not_derivative."
  },
  {
   "property": "C57",
   "status": "proved",
   "theorems": [
    "Verif.Nuts.iteration_uniform_on_slice",
    "Verif.Nuts.iteration_invariant"
   ],
   "note": "step size fixed (after adaptation); exact arithmetic; coin tosses with the probabilities of ideal uniform draws"
  },
  {
   "property": "C58",
   "status": "partial",
   "theorems": [
    "Verif.Sched.one_step_size_partial",
    "Verif.Sched.no_warmup_step_size"
   ],
   "note": "proved for M_adapt > 0; without warm-up the step size is replaced by the initial averaged value after the first draw"
  },
  {
   "property": "C59",
   "status": "partial",
   "theorems": [
    "Verif.ScT.ext_gradient_partial",
    "Verif.ScT.ext_gradient_wrong"
   ],
   "note": "Holds for the identity link; refuted for the log link (link derivative evaluated at the deviance derivative instead of the mean)."
  },
  {
   "property": "C60",
   "status": "proved",
   "theorems": [
    "Verif.Lss.gau_second",
    "Verif.Lss.gau_second_not_exact",
    "Verif.Lss.gam_second",
    "Verif.Lss.mn_second",
    "Verif.Lss.mn_mixed",
    "Verif.Lss.dpairs_complete"
   ],
   "note": "Gaussian and Gamma: expectations of the true second derivatives; multinomial exact"
  },
  {
   "property": "C61",
   "status": "partial",
   "theorems": [
    "Verif.Pen.diff_con_rank",
    "Verif.Pen.diff_con_rank_zero_wrong",
    "Verif.Pen.identity_absorbed",
    "Verif.Pen.identity_diff_wrong",
    "Verif.Pen.identity_weighted_root_wrong"
   ],
   "note": "Rank right for order >= 1 with any of the constraints; wrong (too large) for order 0. Identity penalty agrees under QR and DROP, disagrees under DIFF; the root of a weighted identity penalty does not square to it."
  },
  {
   "property": "C62",
   "status": "partial",
   "theorems": [
    "Verif.Sp.adjust_drop_partial",
    "Verif.Sp.drop_empty_column_wrong"
   ],
   "note": "Holds if every excluded coefficient has a stored entry in its column; drop_empty_column_wrong shows the unchanged code neither removes nor realigns for an empty column"
  },
  {
   "property": "C63",
   "status": "partial",
   "theorems": [
    "Verif.Par.cache_transparent_partial",
    "Verif.Par.cache_collision",
    "Verif.Par.target_inj"
   ],
   "note": "Holds when the file names without directory are distinct; with equal names in different directories the second file gets the matrix of the first (cache_collision)."
  },
  {
   "property": "C64",
   "status": "partial",
   "theorems": [
    "Verif.Par.null_columns_partial",
    "Verif.Par.null_columns_missed",
    "Verif.Par.null_columns_none"
   ],
   "note": "Holds exactly when the first penalised column lies in the second block of k columns of the model; otherwise levels are missed or a foreign column is used."
  },
  {
   "property": "C65",
   "status": "partial",
   "theorems": [
    "Verif.Lam.loop_terminates_partial",
    "Verif.Lam.loop_halving",
    "Verif.Lam.loop_nan",
    "Verif.Lam.loopL_terminates"
   ],
   "note": "Terminates unless the criterion is not a number; then the additive-model loop runs for ever (loop_nan). The version for location, scale and shape models always ends."
  },
  {
   "property": "C66",
   "status": "proved",
   "theorems": [
    "Verif.Bspline.smooth_linear",
    "Verif.Bspline.smooth_deriv",
    "Verif.Bspline.smooth_mono"
   ],
   "note": "Real arithmetic."
  },
  {
   "property": "C67",
   "status": "partial",
   "theorems": [
    "Verif.Mmat.drop_columns_partial",
    "Verif.Mmat.drop_columns_wrong"
   ],
   "note": "Holds without drop and when the coefficients left are the first ones; fails otherwise: the first columns of the basis are used instead of the kept ones (drop_columns_wrong)."
  },
  {
   "property": "C68",
   "status": "proved",
   "theorems": [
    "Verif.Rho.softmax_spec",
    "Verif.Rho.softmax_none",
    "Verif.Rho.importance_weights",
    "Verif.Rho.uniform_weights",
    "Verif.Rho.updateVp_posSemidef",
    "Verif.Rho.updateVp_variance",
    "Verif.Rho.cov_total",
    "Verif.Rho.root_spec",
    "Verif.Rho.regularised_wrong"
   ],
   "note": "Softmax over exact reals; exact eigendecomposition assumed for the root."
  },
  {
   "property": "C69",
   "status": "partial",
   "theorems": [
    "Verif.Joint.grad_fixed",
    "Verif.Joint.grad_joint"
   ],
   "note": "Proved for fixed and for sampled smoothing parameters, given positive semi-definite penalties, the log determinant of the nonzero eigenvalues (proved as Verif.Reml.lgdetS_eq) and traces equal to those with a generalised inverse (proved as pinv_trace_partial under its conditions; it fails for gaps between penalised blocks, see C26). The family's gradient and the prior's gradient are hypotheses (C17, C19, C59 and the C68 prior). Without penalties the set-up raises, so such models cannot be sampled."
  },
  {
   "property": "C70",
   "status": "proved",
   "theorems": [
    "Verif.Joint.metric_coef",
    "Verif.Joint.metric_scale",
    "Verif.Joint.metric_theta",
    "Verif.Joint.metric_rho",
    "Verif.Joint.metric_stack",
    "Verif.Joint.metric_gamm",
    "Verif.Joint.metric_ext",
    "Verif.Joint.momentum_law"
   ],
   "note": "Metric and momentum law for Gaussian/extended models with sampled smoothing parameters; without them the last block is absent and metric_stack of the first two applies."
  },
  {
   "property": "C71",
   "status": "partial",
   "theorems": [
    "Verif.Joint.proper_prior",
    "Verif.Joint.null_added_twice",
    "Verif.Joint.irf_improper"
   ],
   "note": "Positive definite whenever the penalties of smooth and random terms together with the added null-space penalties determine their coefficients. False for impulse response terms (irf_improper); a term can be given a second null-space penalty (null_added_twice)."
  },
  {
   "property": "C72",
   "status": "partial",
   "theorems": [
    "Verif.Joint.target_mode_partial",
    "Verif.Joint.target_ignores_scale"
   ],
   "note": "True for families without scale parameter and when smoothing parameters are sampled; false for families with scale parameter and fixed smoothing parameters (target_ignores_scale)."
  },
  {
   "property": "C73",
   "status": "partial",
   "theorems": [
    "Verif.StepSize.epsilon_crosses",
    "Verif.StepSize.epsilon_pos",
    "Verif.StepSize.halving_ends",
    "Verif.StepSize.doubling_ends_partial",
    "Verif.StepSize.flat_never_ends"
   ],
   "note": "Form and crossing proved for every returned value; halving ends for continuous targets; doubling ends if the log density tends to minus infinity; it never ends for flat targets (flat_never_ends)."
  },
  {
   "property": "C74",
   "status": "partial",
   "theorems": [
    "Verif.Layout.penalties_placed_partial",
    "Verif.Layout.irf_unpenalised",
    "Verif.Layout.null_last_level",
    "Verif.Layout.tensor_two_each",
    "Verif.Layout.unpenalised_after"
   ],
   "note": "Placement of all penalties of a formula proved, with dropped coefficients, by levels, ids, several penalties per smooth, null-space penalties, impulse response and random terms. Excluded and shown to fail: unpenalised impulse response terms (counted twice, exception), null-space penalty of a univariate smooth with separate penalties per level after dropping coefficients (last level's used for all levels), tensor smooths with several penalties per variable and null-space penalty (exception). Unpenalised smooths must come first."
  },
  {
   "property": "C75",
   "status": "partial",
   "theorems": [
    "Verif.Layout.null_projection",
    "Verif.Layout.null_threshold",
    "Verif.Layout.null_last_level"
   ],
   "note": "Proved for exact eigendecompositions whose eigenvalues are zero or above 1e-7; eigenvalues in between are treated as null space. Placement of the null-space penalties is part of C74, with its exceptions."
  },
  {
   "property": "C76",
   "status": "partial",
   "theorems": [
    "Verif.Hsmm.llkFTPgrad_event_hasDerivAt",
    "Verif.Hsmm.llkFTPgrad_event_duration",
    "Verif.Hsmm.llkFTPgrad_eq_llkgrad",
    "Verif.Hsmm.llkFTPgrad_initial_state_wrong"
   ],
   "note": "Event models and models with fixed transition matrix and initial distribution; holds for every emission and duration coefficient. For event models whose transition matrix and initial distribution are estimated the entries of those coefficients are zero: proved by llkFTPgrad_initial_state_wrong."
  },
  {
   "property": "C77",
   "status": "partial",
   "theorems": [
    "Verif.HFam.durations_distribution",
    "Verif.HFam.transitions_distribution",
    "Verif.HFam.initial_distribution",
    "Verif.HFam.bump_point_mass",
    "Verif.HFam.bump_time_varying_wrong"
   ],
   "note": "Proved for all coefficients, states and time points: durations, transition rows and initial distribution are positive and sum to one; event durations are a point mass at event_width. Violated: with tvdtpi the durations of event states raise a shape error or are NaN (bump_time_varying_wrong)."
  },
  {
   "property": "C78",
   "status": "partial",
   "theorems": [
    "Verif.HFam.seriesGrad_hasDerivAt_partial",
    "Verif.HFam.famGrad_hasDerivAt_partial",
    "Verif.HFam.buildShared_isSome_iff"
   ],
   "note": "Proved: every entry of the assembled gradient (duplicates of shared formulas collected) is the derivative, for one and for several series, estimated or fixed T and pi. Missing: initial-distribution coefficients with time-varying tables (C++ code wrong there), AR(1); MultiGauss emissions are C120, event models C144. Violated: shared_pars other than [0,..,n-1] raise (buildShared_isSome_iff)."
  },
  {
   "property": "C79",
   "status": "partial",
   "theorems": [
    "Verif.Hsmm.event_weight",
    "Verif.Hsmm.eventLlk_mixture",
    "Verif.Hsmm.eventLlkAr_offset",
    "Verif.Hsmm.eventLlkAr_wrong",
    "Verif.Hsmm.recRho_eq",
    "Verif.Hsmm.negative_rho_wrong"
   ],
   "note": "Holds without autocorrelation (eventLlk_mixture, weights in general: event_weight). With Lrhoi it fails: for 0 < rho < 1 the reported value is the log density minus (M+1) times the log-determinant (eventLlkAr_offset, eventLlkAr_wrong), because the correction is subtracted instead of added and once instead of once per signal; for rho < 0 the recovered correlation is |rho| and the means are wrong (recRho_eq, negative_rho_wrong). One series; several series with different starts are not modelled."
  },
  {
   "property": "C80",
   "status": "partial",
   "theorems": [
    "Verif.BiasEdf.total_eq_trace_partial",
    "Verif.BiasEdf.total_eq_terms",
    "Verif.BiasEdf.total_trace_dropped",
    "Verif.BiasEdf.dropped_counted",
    "Verif.BiasEdf.dropped_counted_demo",
    "Verif.BiasEdf.trace_ge_edf",
    "Verif.BiasEdf.trace_le_card"
   ],
   "note": "Trace identity, decomposition into terms and both bounds proved for all models; with dropped unpenalised coefficients the total still counts them (dropped_counted), so the identity is false there."
  },
  {
   "property": "C81",
   "status": "partial",
   "theorems": [
    "Verif.Wps.hp_is_hessian_partial",
    "Verif.Wps.hp_repeated",
    "Verif.Wps.hp_repeated_wrong",
    "Verif.Wps.dBeta_is_derivative",
    "Verif.Wps.fitted_maximises",
    "Verif.Wps.vp_psd",
    "Verif.Wps.vp_inverse",
    "Verif.Wps.vp_ginv",
    "Verif.Wps.vpr_le_vp",
    "Verif.Wps.vp_nonconcave"
   ],
   "note": "Proved when no penalty is repeated. For repeated penalties (rep_sj > 1) that overlap with another one, the log determinant part is multiplied by rep_sj although the matrices already hold all repetitions: hp_repeated gives the exact value, hp_repeated_wrong the negation. Log-likelihood is taken as quadratic, as in the code's own comment."
  },
  {
   "property": "C82",
   "status": "partial",
   "theorems": [
    "Verif.Wps.cdBeta_is_derivative",
    "Verif.Wps.vc_delta",
    "Verif.Wps.vcc_eq",
    "Verif.Wps.corrected_ge",
    "Verif.Wps.corrected_diag_ge",
    "Verif.Wps.dropped_scaled",
    "Verif.Wps.dropped_wrong",
    "Verif.Wps.dropped_wrong_demo"
   ],
   "note": "Both correction terms and the ordering proved. With dropped coefficients in a GAMM the derivative is multiplied by the scale (utils.py 3385): dropped_scaled, dropped_wrong, dropped_wrong_demo."
  },
  {
   "property": "C83",
   "status": "proved",
   "theorems": [
    "Verif.Predict.getPars_block",
    "Verif.Predict.samplePost_draw",
    "Verif.Predict.predict_covers",
    "Verif.Predict.predictDiff_covers",
    "Verif.Predict.predict_error"
   ],
   "note": "Real arithmetic; the model matrix is an input (C43, C44, C46) and the normal quantile is specified by its distribution function."
  },
  {
   "property": "C84",
   "status": "partial",
   "theorems": [
    "Verif.Predict.whole_covers_partial",
    "Verif.Predict.whole_share",
    "Verif.Predict.whole_level_wrong",
    "Verif.Predict.whole_collapses",
    "Verif.Predict.whole_collapses_demo",
    "Verif.Predict.whole_nan"
   ],
   "note": "Coverage of at least floor((n-1)(1-alpha))+1 of the n samples, common factor and tightness proved when zero-sum columns are zero and no half width vanishes. False otherwise: interpolated quantile gives less than 1-alpha (whole_level_wrong), zero-sum columns are not sampled when use_terms is given (whole_collapses), a zero row makes every half width nan (whole_nan)."
  },
  {
   "property": "C85",
   "status": "proved",
   "theorems": [
    "Verif.Summary.parametric_rows",
    "Verif.Summary.parametric_rows_t",
    "Verif.Summary.parametric_dual",
    "Verif.Summary.stars_legend"
   ],
   "note": "Lines, statistics, tail probabilities, agreement with the intervals of predict, stars."
  },
  {
   "property": "C86",
   "status": "partial",
   "theorems": [
    "Verif.Wald.stats_wald",
    "Verif.Wald.law_noninteger",
    "Verif.Wald.p_noninteger_partial",
    "Verif.Wald.p_noninteger_valid",
    "Verif.Wald.stats_int",
    "Verif.Wald.law_int",
    "Verif.Wald.p_int",
    "Verif.Wald.p_int_valid",
    "Verif.Wald.p_estimated_partial",
    "Verif.Wald.zero_entry_wrong",
    "Verif.Wald.sign_matters"
   ],
   "note": "Law of the statistics and exactness for Davies' method and the chi-square; validity for integer degrees of freedom, and otherwise if no sign is changed. Fails: eigenvectors with first entry zero are ignored, the second statistic depends on arbitrary signs of eigenvectors; with estimated scale residual degrees of freedom are truncated in one place. Davies' algorithm is C115, F tests and the fallback approximation are C117."
  },
  {
   "property": "C87",
   "status": "partial",
   "theorems": [
    "Verif.Summary.tests_rows_partial",
    "Verif.Summary.lines_rows_partial",
    "Verif.Summary.lines_p",
    "Verif.Summary.parEdf_eq",
    "Verif.Summary.tests_irf_wrong",
    "Verif.Summary.tests_unpenalized_wrong",
    "Verif.Summary.tests_drop_wrong"
   ],
   "note": "Proved without impulse response terms, with all smooth terms penalised and equal numbers of coefficients per function; fails otherwise, shown by counterexample classes. Position of p-values right for all formulas."
  },
  {
   "property": "C88",
   "status": "partial",
   "theorems": [
    "Verif.Scale.scale_pearson_partial",
    "Verif.Scale.scale_offset_wrong",
    "Verif.Scale.scale_mean",
    "Verif.Scale.scale_unbiased",
    "Verif.Scale.scale_unbiased_ar",
    "Verif.Scale.scale_dropped_wrong"
   ],
   "note": "Pearson form holds without an offset (scale_pearson_partial); with an offset the estimate is inflated (scale_offset_wrong, Gamma with log link, constant offset). Mean of the estimate is the error variance for independent and AR(1) errors if no column was dropped (scale_unbiased, scale_unbiased_ar); after drops in an unpenalised model the degrees of freedom count all columns and the mean is too large (scale_dropped_wrong)."
  },
  {
   "property": "C89",
   "status": "partial",
   "theorems": [
    "Verif.Fit.refit_partial",
    "Verif.Fit.refit_rho_wrong",
    "Verif.Fit.refit_transform_wrong",
    "Verif.Fit.refit_edf_wrong",
    "Verif.Fit.restart_pens",
    "Verif.Fit.restart_new",
    "Verif.Fit.maxInner_one",
    "Verif.Fit.test_edf"
   ],
   "note": "Holds after any sequence of calls without rho, transform_X and bias corrected degrees of freedom (refit_partial); fails otherwise: rho and residuals of an earlier fit are used (refit_rho_wrong), get_mmat transforms although the last fit did not (refit_transform_wrong), tests use degrees of freedom of an earlier fit (refit_edf_wrong), restart of a new model raises TypeError (restart_new)."
  },
  {
   "property": "C90",
   "status": "partial",
   "theorems": [
    "Verif.Fit.llk_unpenalized",
    "Verif.Fit.llk_penalized_partial",
    "Verif.Fit.llk_penalized_wrong"
   ],
   "note": "Unpenalised value proved (llk_unpenalized). The penalised value subtracts half the penalty without dividing by the scale: it is the maximum if the scale is one or the penalty does not act on the estimates (llk_penalized_partial), otherwise never, nor do the estimates maximise the reported criterion (llk_penalized_wrong)."
  },
  {
   "property": "C91",
   "status": "partial",
   "theorems": [
    "Verif.Chk.split_spec",
    "Verif.Chk.halves_cover",
    "Verif.Chk.check_all",
    "Verif.Chk.check_group_partial",
    "Verif.Chk.check_group_wrong"
   ],
   "note": "Proved if all coefficients are requested (split_spec, halves_cover, check_all). Group-level coefficients are selected by column sums above zero: right if these are positive (check_group_partial); coefficients of smooth functions with the default identifiability constraint have column sums zero and are left out (check_group_wrong)."
  },
  {
   "property": "C92",
   "status": "partial",
   "theorems": [
    "Verif.NatPar.natural_partial",
    "Verif.NatPar.natural_unit",
    "Verif.NatPar.natural_threshold_wrong",
    "Verif.NatPar.natural_copies_wrong",
    "Verif.NatPar.natural_multi_wrong",
    "Verif.NatPar.tensor_same",
    "Verif.NatPar.tensor_root",
    "Verif.NatPar.tensor_multi_wrong",
    "Verif.NatPar.marginal_sum",
    "Verif.NatPar.te_sum_iff",
    "Verif.NatPar.te_sum_plain",
    "Verif.NatPar.te_sum_wrong"
   ],
   "note": "rp=1: proved if every relative eigenvalue is zero or above 1e-7 (natural_partial, natural_unit). False in general: the threshold is absolute, so functions with small positive eigenvalues lose their penalty and with enough data all of them do (natural_threshold_wrong, natural_copies_wrong); several penalties on a smooth all become the first (natural_multi_wrong). rp=2: proved for marginals with one penalty each (tensor_same, tensor_root); more than one penalty per variable raises IndexError (tensor_multi_wrong); te terms sum to zero only if the transformation leaves the direction of the column sums unchanged (te_sum_iff), which fails (te_sum_wrong)."
  },
  {
   "property": "C93",
   "status": "partial",
   "theorems": [
    "Verif.Outer.converged_together_partial",
    "Verif.Outer.converged_newton_partial",
    "Verif.Outer.code_cases",
    "Verif.Outer.stopped_lam",
    "Verif.Outer.stopped_wrong",
    "Verif.Outer.converged_reason",
    "Verif.Outer.undone_wrong",
    "Verif.Outer.restart_last_wrong",
    "Verif.Outer.fit_range",
    "Verif.Outer.fit_terminates"
   ],
   "note": "For converged fits without restarts whose steps are not extended or extended by the default method, coefficients, degrees of freedom, Hessian and penalty belong to smoothing parameters within 1e-7 of the reported ones; what convergence means, range of smoothing parameters and termination hold for all fits. Not true in general: fits that exhaust max_outer report smoothing parameters that have moved one step further (stopped_lam, stopped_wrong), undone extensions of other methods (undone_wrong), restarts in the last iteration (restart_last_wrong)."
  },
  {
   "property": "C94",
   "status": "partial",
   "theorems": [
    "Verif.Coef.results_own",
    "Verif.Coef.results_finite",
    "Verif.Coef.ascent_partial",
    "Verif.Coef.ends",
    "Verif.Coef.step_size",
    "Verif.Coef.hess_partial",
    "Verif.Coef.keep_reported",
    "Verif.Coef.index_error",
    "Verif.Coef.hess_wrong",
    "Verif.Coef.restart_wrong",
    "Verif.Coef.index_error_wrong"
   ],
   "note": "Log-likelihoods belong to the returned coefficients; finite values stay finite; without restarts the penalised log-likelihood is not lowered and the loop ends by itself when it is negative and bounded away from zero. Wrong as stated: the Hessian and factors returned are those before the last step (hess_wrong), gradient descent before fitting restarts also when it has legitimately converged and may return something worse than it started with (restart_wrong), and min_inner=0 with a drop raises an IndexError (index_error_wrong)."
  },
  {
   "property": "C95",
   "status": "partial",
   "theorems": [
    "Verif.Dropped.removed_directions",
    "Verif.Dropped.predictor",
    "Verif.Dropped.dropped_partial",
    "Verif.Dropped.reml_partial",
    "Verif.Dropped.dropped_wrong",
    "Verif.Dropped.reml_wrong",
    "Verif.Dropped.keep_drop_wrong"
   ],
   "note": "Coefficients are dropped after the re-parameterisation Q_emb but their indices are stored unchanged: true for coefficients Q_emb leaves alone (dropped_partial, reml_partial) and for directions (removed_directions, predictor). Wrong in general: a listed coefficient may be nonzero with variance (dropped_wrong), REML uses another submatrix (reml_wrong), keep_drop removes other directions once Q_emb changes (keep_drop_wrong)."
  },
  {
   "property": "C96",
   "status": "partial",
   "theorems": [
    "Verif.Drop.check_split_partial",
    "Verif.Drop.handle_split_wrong",
    "Verif.Drop.check_single_wrong",
    "Verif.Drop.drop_none_wrong",
    "Verif.Drop.drop_some"
   ],
   "note": "The check before dropping splits coefficients correctly for two or more formulas. Wrong: the iterations that follow use split positions without the extra coefficients, so that the last formula's product raises (handle_split_wrong, for every such model); with one formula the check is the one that is off (check_single_wrong); model matrices that were not built make dropping raise (drop_none_wrong)."
  },
  {
   "property": "C97",
   "status": "partial",
   "theorems": [
    "Verif.Gauss.converged_exact_partial",
    "Verif.Gauss.smoothing_range",
    "Verif.Gauss.files_memory",
    "Verif.Gauss.files_read",
    "Verif.Gauss.fixed_converges",
    "Verif.Gauss.unidentified_zero",
    "Verif.Gauss.unidentified_wrong",
    "Verif.Gauss.converged_settled"
   ],
   "note": "Exact minimiser for identified coefficients and method Chol or files; refuted for coefficients that are not identified: the factorisation fails, its code is ignored, and the fit reports convergence with all coefficients zero. Method QR is C109."
  },
  {
   "property": "C98",
   "status": "partial",
   "theorems": [
    "Verif.HPred.segments_law",
    "Verif.HPred.predict_law_partial",
    "Verif.HPred.predict_segments_partial",
    "Verif.HPred.predict_law_wrong",
    "Verif.HPred.transition_time_wrong",
    "Verif.HPred.bump_late_partial",
    "Verif.HPred.bump_wrong",
    "Verif.HPred.series_same_wrong",
    "Verif.HPred.emission_state",
    "Verif.HPred.ar_back",
    "Verif.HPred.ar_mean"
   ],
   "note": "False of the code: segments_law shows that drawing segment after segment has the law of the likelihood; predict_law_partial shows that predict has the law of a model with every duration one time point longer and transition tables read one time point later (predict_law_wrong, transition_time_wrong: series of probability zero are always returned). bump_late_partial, bump_wrong: bumps get a shifted template and one time point too many. series_same_wrong: all series use the same random numbers. Emission noise is a parameter; the law covers the first sample of a series (later samples start at a random position of the stream)."
  },
  {
   "property": "C99",
   "status": "partial",
   "theorems": [
    "Verif.HWrap.tpi_workers",
    "Verif.HWrap.tpi_partial",
    "Verif.HWrap.tpi_first",
    "Verif.HWrap.tpi_wrong"
   ],
   "note": "Holds with several cores (tpi_workers) and for matrices that are estimated or common (tpi_partial). On one core with lists every series gets the matrices of the first (tpi_first, tpi_wrong)."
  },
  {
   "property": "C100",
   "status": "partial",
   "theorems": [
    "Verif.HWrap.paths_partial",
    "Verif.HWrap.paths_first_wrong",
    "Verif.HWrap.paths_twice_wrong",
    "Verif.HWrap.dur_res_rows",
    "Verif.HWrap.dur_res_partial",
    "Verif.HWrap.dur_res_time_wrong",
    "Verif.HWrap.dur_res_single_wrong"
   ],
   "note": "Holds for common or estimated matrices, several series, constant duration models (paths_partial, dur_res_partial). With one matrix per series the path is decoded with the first (paths_first_wrong); a single series with autocorrelation is transformed twice (paths_twice_wrong); time-varying duration models are evaluated after the run (dur_res_rows, dur_res_time_wrong); a path with one run uses the model of later segments (dur_res_single_wrong)."
  },
  {
   "property": "C101",
   "status": "partial",
   "theorems": [
    "Verif.Clus.bin_mono",
    "Verif.Clus.bin_close",
    "Verif.Clus.every_series_once_partial",
    "Verif.Clus.every_series_once_sub_partial",
    "Verif.Clus.every_series_once_wrong",
    "Verif.Clus.sub_two_factors_wrong",
    "Verif.Clus.cluster_weights",
    "Verif.Clus.best_least",
    "Verif.Clus.approx_partial",
    "Verif.Clus.approx_equal_partial",
    "Verif.Clus.approx_order_wrong",
    "Verif.Clus.features_partial",
    "Verif.Clus.features_stat_partial",
    "Verif.Clus.features_wrong",
    "Verif.Clus.renumber_spec"
   ],
   "note": "Binning is monotone with bounded width; every series in exactly one cluster if split factors are constant within series; weights; exact sums bracketed if series appear in the order of the factor levels. Refuted for factors changing within series, two split factors with sub-groups, series not in level order, three covariates."
  },
  {
   "property": "C102",
   "status": "partial",
   "theorems": [
    "Verif.Cons.files_same",
    "Verif.Cons.files_refused",
    "Verif.Cons.files_default_wrong",
    "Verif.Cons.interaction_kind_wrong",
    "Verif.Cons.sums_to_zero_partial",
    "Verif.Cons.no_constant",
    "Verif.Cons.no_constant_by",
    "Verif.Cons.no_constant_cont",
    "Verif.Cons.no_lower_order",
    "Verif.Cons.interaction_identifiable",
    "Verif.Cons.sums_drop_wrong",
    "Verif.Cons.sums_interaction_wrong",
    "Verif.Cons.not_identifiable"
   ],
   "note": "Constant and lower-order effects are removed for terms without re-parameterisation, all constraint types; files agree with the data-frame for QR. Column sums are zero only for QR constraints of univariate and te smooths (refuted for DROP and for interactions); default tensor smooths raise for files; interactions with DROP or DIFF raise with the default re-parameterisation."
  },
  {
   "property": "C103",
   "status": "partial",
   "theorems": [
    "Verif.Nest.kept_independent",
    "Verif.Nest.whole_independent",
    "Verif.Nest.span_kept",
    "Verif.Nest.drop_coef",
    "Verif.Nest.single_kept",
    "Verif.Nest.compared_iff",
    "Verif.Nest.compared_plain",
    "Verif.Nest.only_fs_wrong",
    "Verif.Nest.by_undetected_wrong",
    "Verif.Nest.level_names_wrong",
    "Verif.Nest.redundant_wrong",
    "Verif.Nest.small_wrong",
    "Verif.Nest.compared_same",
    "Verif.Nest.compared_binary",
    "Verif.Nest.kept_not_constant"
   ],
   "note": "kept_independent, whole_independent (with exact decompositions), span_kept (if the compared columns are independent and no pivot is below the threshold), drop_coef, single_kept, compared_iff, compared_plain (names are variables without by, binary, by_cont). Refuted for the unchanged code: a formula whose only smooths are fs terms raises ValueError (only_fs_wrong); a term without by is not found in a larger term with by (by_undetected_wrong); by factors that share level names end in IndexError or compare other levels (level_names_wrong); redundant smaller terms make independent columns disappear (redundant_wrong); columns small relative to the first column (intercept) are dropped (small_wrong)."
  },
  {
   "property": "C104",
   "status": "partial",
   "theorems": [
    "Verif.HSim.gaussian_noise",
    "Verif.HSim.gaussian_cdf",
    "Verif.HSim.exponential_kernel",
    "Verif.HSim.exponential_total",
    "Verif.HSim.exponential_total_wrong",
    "Verif.HSim.exponential_second",
    "Verif.HSim.exponential_square",
    "Verif.HSim.exponential_variance_wrong",
    "Verif.HSim.exponential_cdf_wrong",
    "Verif.HSim.seeds_distinct",
    "Verif.HSim.draws_distinct",
    "Verif.HSim.sign_states_wrong"
   ],
   "note": "Gaussian noise: mean plus noise has the likelihood's density and distribution function. Seeds of states and signals, positions of time points and samples differ. The property fails for exponential noise, the default: the density evaluated by the likelihood is a multiple of that of a normal distribution with variance scale/2 and integrates to sqrt(pi/scale); simulated noise has second moment scale, its square has the stored cumulative probability; as function of the observation that is not monotone, hence not a distribution function. The property also fails for independence: the signs of the noise of the first state and signal are drawn from the same numbers as states and durations."
  },
  {
   "property": "C105",
   "status": "partial",
   "theorems": [
    "Verif.Cand.fast_spec",
    "Verif.Cand.fast_iff",
    "Verif.Cand.cores_partial",
    "Verif.Cand.offset_wrong",
    "Verif.Cand.failure_wrong",
    "Verif.Cand.gamm_failure_partial",
    "Verif.Cand.gamm_failure_wrong",
    "Verif.Cand.clustered_wrong",
    "Verif.Cand.gsmm_never_ninf",
    "Verif.Cand.gsmm_serial",
    "Verif.Cand.gsmm_cores_wrong",
    "Verif.Cand.include_partial",
    "Verif.Cand.include_wrong",
    "Verif.Cand.include_twice_wrong",
    "Verif.Cand.fidiff_wrong",
    "Verif.Cand.expected_trace",
    "Verif.Cand.expected_orig",
    "Verif.Cand.expected_serial_wrong",
    "Verif.Cand.candidate_spec",
    "Verif.Cand.gamm_scores",
    "Verif.Cand.gsmm_orig"
   ],
   "note": "Negations proved: with an offset the score depends on the number of cores; on several cores a failing candidate ends the correction; failures before the scale is known raise UnboundLocalError; clustered penalties make every candidate fail; the test whether the estimate was sampled mixes smoothing parameters with standard deviations of their logarithms; with Vp_fidiff another point is added; only_expected_edf uses the candidates' own degrees of freedom."
  },
  {
   "property": "C106",
   "status": "partial",
   "theorems": [
    "Verif.Resp.response_support",
    "Verif.Resp.shift",
    "Verif.Resp.response_start",
    "Verif.Resp.response_partial",
    "Verif.Resp.start_wrong",
    "Verif.Resp.missing_wrong",
    "Verif.Resp.onsets_few",
    "Verif.Resp.extra_wrong",
    "Verif.Resp.subset_wrong",
    "Verif.Resp.by_varies",
    "Verif.Resp.two_variables"
   ],
   "note": "Proved: for one variable with regular times starting at t0 the contribution is the response to the series' own event at t0 plus the elapsed time, zero before the event, with by-levels (response_start; response_partial for t0 = 0); zero outside [min_c, max_c]; rows of tensor terms shift with the event; fewer onsets than series and varying by factors are errors. The code violates the rest: times that start late remove the response (start_wrong), one missing time removes the term from the whole series silently (missing_wrong), extra onsets are ignored and new data with a subset of series get the onsets of the first series (extra_wrong, subset_wrong)."
  },
  {
   "property": "C107",
   "status": "partial",
   "theorems": [
    "Verif.Rows.used_spec",
    "Verif.Rows.used_eq_iff",
    "Verif.Rows.aligned_partial",
    "Verif.Rows.undropped",
    "Verif.Rows.aligned_wrong",
    "Verif.Rows.misaligned_wrong",
    "Verif.Rows.getYs_spec",
    "Verif.Rows.offset_rows",
    "Verif.Rows.empty_level_wrong",
    "Verif.Rows.files_mask_wrong",
    "Verif.Rows.predict_sum",
    "Verif.Rows.predict_used_only",
    "Verif.Rows.predict_linear_partial",
    "Verif.Rows.predict_smooth_wrong",
    "Verif.Rows.predict_factor_wrong"
   ],
   "note": "aligned_partial needs that every row lacks values in all formulas or in none. Otherwise the unchanged code pairs responses with the wrong rows (aligned_wrong, misaligned_wrong), keeps levels without rows (empty_level_wrong), uses rows with missing covariates of file data (files_mask_wrong) and predicts as if missing smooths were zero and missing levels the first (predict_smooth_wrong, predict_factor_wrong)."
  },
  {
   "property": "C108",
   "status": "partial",
   "theorems": [
    "Verif.Qfac.ext_exists",
    "Verif.Qfac.chol_full",
    "Verif.Qfac.chol_part",
    "Verif.Qfac.direct_ok",
    "Verif.Qfac.intervals_full",
    "Verif.Qfac.intervals_part",
    "Verif.Qfac.part_pd",
    "Verif.Qfac.fd_keep",
    "Verif.Qfac.one_pair_eig",
    "Verif.Qfac.one_pair_wrong",
    "Verif.Qfac.failed_wrong",
    "Verif.Qfac.trace_spec",
    "Verif.Qfac.edf_matrix_partial",
    "Verif.Qfac.edf_matrix_wrong",
    "Verif.Qfac.interval_penalty_partial",
    "Verif.Qfac.moved_wrong",
    "Verif.Qfac.edf_moved_wrong",
    "Verif.Qfac.resample_partial",
    "Verif.Qfac.resample_wrong",
    "Verif.Qfac.fd_floor"
   ],
   "note": "Proved for both approximations: the factor accumulated by up- and downdates and the direct factorisation give the same covariance, that of the explicit Hessian plus penalty (assumptions on Eigen's routines can be met, ext_exists). The unchanged code differs: with one stored pair (starting value from that pair) the Hessian is always singular although make_pd was asked for; a failed factorisation is not noticed and every coefficient gets variance one; degrees of freedom use a matrix without make_pd; when the iterations run out the intervals (few pairs) and recomputed degrees of freedom use smoothing parameters of the step after; sampled pairs are ignored for degrees of freedom if there were none before. A downdate that fails (penalised Hessian not positive definite) is not covered."
  },
  {
   "property": "C109",
   "status": "partial",
   "theorems": [
    "Verif.Root.root_square_partial",
    "Verif.Root.root_close",
    "Verif.Root.emb_holds",
    "Verif.Root.fit_keep",
    "Verif.Root.fit_normal",
    "Verif.Root.fit_least",
    "Verif.Root.fit_global_partial",
    "Verif.Root.fit_factor",
    "Verif.Root.fit_penalised_partial",
    "Verif.Root.gap_wrong"
   ],
   "note": "Proved for every ordering and rank: kept coefficients satisfy the penalised normal equations and are the unique minimiser among coefficients that are zero where dropped, the factor squares to the penalised cross-product, kept and dropped coefficients partition with as many kept as the rank; the root squares to the penalty for contiguous blocks (exactly if eigenvalues are zero or above eps**0.7, otherwise up to that tolerance). Missing: global optimality if the rank decision discards something that is not zero. The unchanged code misplaces the root of later blocks if unpenalised coefficients lie between penalised blocks (gap_wrong; several formulas only)."
  },
  {
   "property": "C110",
   "status": "partial",
   "theorems": [
    "Verif.Secant.neg_grad_derivative",
    "Verif.Secant.dual_secant",
    "Verif.Secant.walk_ring_partial",
    "Verif.Secant.ring_wrong",
    "Verif.Secant.block_final",
    "Verif.Secant.structured_secant_partial",
    "Verif.Secant.history",
    "Verif.Secant.block_back_partial",
    "Verif.Secant.block_back_wrong",
    "Verif.Secant.step_scale",
    "Verif.Secant.draw_pairs",
    "Verif.Secant.draw_defined",
    "Verif.Secant.draw_nothing_iff",
    "Verif.Secant.pearl_pairs",
    "Verif.Secant.radius_pos",
    "Verif.Secant.radius_feedback",
    "Verif.Secant.radius_shrinks",
    "Verif.Secant.acc_finite_partial",
    "Verif.Secant.invalid_ninf_partial",
    "Verif.Secant.invalid_nan_wrong",
    "Verif.Secant.no_adaptation_wrong",
    "Verif.Secant.attempts_first",
    "Verif.Secant.sampled_partial",
    "Verif.Secant.no_samples_wrong",
    "Verif.Secant.isotropic_wrong",
    "Verif.Secant.columns_perm_iff",
    "Verif.Secant.step_plain"
   ],
   "note": "Pairs of the optimiser, their history over outer iterations and sampled pairs are proved to belong to the log-likelihood; order of the optimiser's rows (assumed about scipy) after more than maxcor steps, invalid perturbations, Madapt=0, blocks without rows and failed sampling differ (negations proved)"
  },
  {
   "property": "C111",
   "status": "partial",
   "theorems": [
    "Verif.Stop.result_spec",
    "Verif.Stop.criteria_partial",
    "Verif.Stop.run_total",
    "Verif.Stop.callback_spec",
    "Verif.Stop.lps_wrong",
    "Verif.Stop.callback_wrong"
   ],
   "note": "Proved: all draws or the second half are returned (result_spec), early only if the returned draws of all coefficients, scale, theta and smoothing parameters meet the criteria (criteria_partial, for convergence_type=0), the call always returns (run_total), what the callback gets (callback_spec). Violated: the log density is checked on all draws since warm-up instead of the returned half (lps_wrong); the callback is not called for the last block of a run that stops early (callback_wrong). Diagnostics of arviz are parameters with real values."
  },
  {
   "property": "C112",
   "status": "partial",
   "theorems": [
    "Verif.Seeds.seed_spec",
    "Verif.Seeds.position_inj",
    "Verif.Seeds.seeds_wrong",
    "Verif.Seeds.seeds_default_wrong"
   ],
   "note": "Proved: each block takes a number of its own from the generator (seed_spec, position_inj). Violated: seeds are integers below 10000, so with more than 10000 blocks two get the same random numbers (seeds_wrong); with default arguments fewer than one in eight sequences of seeds have no repetition (seeds_default_wrong, a count of sequences)."
  },
  {
   "property": "C113",
   "status": "partial",
   "theorems": [
    "Verif.Ridge.covariance_partial",
    "Verif.Ridge.lgdetD_rank",
    "Verif.Ridge.unperturbed",
    "Verif.Ridge.hessian_wrong",
    "Verif.Ridge.gives_up_wrong",
    "Verif.Ridge.psd_wrong"
   ],
   "note": "Proved when the negative penalised Hessian of the last Newton step is positive definite: covariance and factor belong to the stored Hessian, the perturbation is minimal among those tried, and none is made for a positive semi-definite negative Hessian (Theorem 1 of Wood and Fasiolo). Negations: when newton_coef_smooth itself adds a ridge the stored Hessian differs from the one inverted; the loop can give up after 32 passes; the check can pass for an indefinite Hessian. Not modelled: dropped coefficients, penalties with a shared smoothing parameter."
  },
  {
   "property": "C114",
   "status": "partial",
   "theorems": [
    "Verif.Bcol.trace_spec",
    "Verif.Bcol.null_spec",
    "Verif.Bcol.null_iff",
    "Verif.Bcol.null_zero_wrong",
    "Verif.Bcol.null_wrong",
    "Verif.Bcol.null_raises_wrong"
   ],
   "note": "Proved for all penalties except null space penalties on single coefficients of factor smooths; for those the trace is characterised (null_spec) and the exact condition for it to be right is given (null_iff). Negations: levels are left out when the smooth does not start among the first columns, the trace can be zero, and the call raises for an intercept and a factor smooth with two null space functions."
  },
  {
   "property": "C115",
   "status": "partial",
   "theorems": [
    "Verif.Qf.accuracy_partial",
    "Verif.Qf.accuracy_chi_partial",
    "Verif.Qf.accuracy_factor_partial",
    "Verif.Qf.fault_value",
    "Verif.Qf.tausq_spec",
    "Verif.Qf.order_bounds",
    "Verif.Qf.order_partial",
    "Verif.Qf.order_wrong",
    "Verif.Qf.order_test_wrong",
    "Verif.Qf.cfe_wrong",
    "Verif.Qf.log1_series",
    "Verif.Qf.p_known_accuracy_partial",
    "Verif.Qf.p_estimated_accuracy_partial",
    "Verif.Qf.run",
    "Verif.Qf.auxiliary_complement",
    "Verif.Qf.cfe_units"
   ],
   "note": "Proved for calls without auxiliary integrations and, without qualification, without a convergence factor; with a factor the value is that of the distribution with an added normal variable (accuracy_partial, accuracy_factor_partial). What fails: the indices that should sort the weights are not a permutation (order_wrong, order_test_wrong), so that the coefficient behind convergence factors and auxiliary integrations is not the one of Davies' method (cfe_wrong). Exact arithmetic; round-off is not modelled."
  },
  {
   "property": "C116",
   "status": "partial",
   "theorems": [
    "Verif.Init.first_valid",
    "Verif.Init.first_keeps_all",
    "Verif.Init.binomial_start",
    "Verif.Init.poisson_start",
    "Verif.Init.log_start_wrong",
    "Verif.Init.log_start_raises_wrong",
    "Verif.Init.split_spec",
    "Verif.Init.family_length",
    "Verif.Init.start_splits",
    "Verif.Init.length_unchecked_wrong",
    "Verif.Init.lam_start",
    "Verif.Init.lam_short",
    "Verif.Init.columns_spec",
    "Verif.Init.columns_mem",
    "Verif.Init.unique_perm",
    "Verif.Init.columns_number",
    "Verif.Init.columns_share"
   ],
   "note": "Proved for every response in the domain of family and link, and for coefficients given by the families. Negations proved: with a normal response and the log link the fit starts from the response itself, so observations that are not positive are left out of the first step and a fit without positive response raises; the length of coefficients given by the caller is not checked."
  },
  {
   "property": "C117",
   "status": "partial",
   "theorems": [
    "Verif.Ftest.p_int_estimated",
    "Verif.Ftest.p_int_estimated_valid",
    "Verif.Ftest.chi2_normal",
    "Verif.Ftest.fallback_iff",
    "Verif.Ftest.p_approx_known",
    "Verif.Ftest.p_approx_estimated",
    "Verif.Ftest.approx_moments",
    "Verif.Ftest.approx_not_exact",
    "Verif.Ftest.force_wrong",
    "Verif.Ftest.force_partial"
   ],
   "note": "F tests with whole degrees of freedom are exact and valid for any positive residual degrees of freedom; the fallback p-values are tails of chi-square and F laws with the degrees of freedom of the function, with the right mean and variance. Fails: the approximating law is never the exact one; force_approx is ignored if both fault codes are 2."
  },
  {
   "property": "C118",
   "status": "partial",
   "theorems": [
    "Verif.Dens.family_law",
    "Verif.Dens.family_support",
    "Verif.Dens.fisher_information",
    "Verif.Dens.newton_mean",
    "Verif.Dens.pearson_mean",
    "Verif.Dens.scaledT_law_partial",
    "Verif.Dens.scaledT_variance_wrong",
    "Verif.Dens.scaledT_curvature",
    "Verif.Dens.scaledT_weights",
    "Verif.Dens.gau_rvs",
    "Verif.Dens.gam_rvs",
    "Verif.Dens.mn_rvs",
    "Verif.Dens.mg_rvs",
    "Verif.Dens.mg_seeds"
   ],
   "note": "Holds for all families; ScaledT.V is the variance if min_df is at least two (default three), with a smaller min_df it can be negative (scaledT_variance_wrong)."
  },
  {
   "property": "C119",
   "status": "partial",
   "theorems": [
    "Verif.Cond.condition_number",
    "Verif.Cond.code_zero_iff",
    "Verif.Cond.code_two_iff",
    "Verif.Cond.sensitivity",
    "Verif.Cond.single_coefficient_wrong",
    "Verif.Cond.qr_guard",
    "Verif.Cond.chol_guard_partial",
    "Verif.Cond.chol_guard_wrong",
    "Verif.Cond.final_partial",
    "Verif.Cond.final_raises_wrong",
    "Verif.Cond.single_code_wrong",
    "Verif.Cond.general_check",
    "Verif.Cond.general_two"
   ],
   "note": "est_condition is as documented for at least two coefficients. With method Chol the checks look for code 1 only, so that systems with code 2 pass silently (chol_guard_wrong); with other methods code 2 after convergence ends in a TypeError instead of a warning (final_raises_wrong); models with one coefficient always get an infinite condition number and code 1 (single_coefficient_wrong, single_code_wrong)."
  },
  {
   "property": "C120",
   "status": "partial",
   "theorems": [
    "Verif.HMg.mg_gradient_partial",
    "Verif.HMg.column_link",
    "Verif.HMg.link_wrong",
    "Verif.HMg.emission_law",
    "Verif.HMg.mixed_states_wrong",
    "Verif.HMg.signal_probs",
    "Verif.HMg.llk_shift",
    "Verif.HMg.simSeeds_at",
    "Verif.HMg.simulated_noise_wrong",
    "Verif.HMg.state_seeds"
   ],
   "note": "The gradient is proved for every layout with identity links; other links give wrong entries (link_wrong: the derivative of the inverse link is missing). The densities of vectors lack the factor (2 pi)^(-M/2), which only shifts llk by a constant if all states have vectors but favours these states otherwise (mixed_states_wrong). Simulated emissions of neighbouring states share their noise (simulated_noise_wrong)."
  },
  {
   "property": "C121",
   "status": "proved",
   "theorems": [
    "Verif.Rl.gradient",
    "Verif.Rl.gradient_at",
    "Verif.Rl.fixed_kkt",
    "Verif.Rl.stationary_fixed",
    "Verif.Rl.step_eq",
    "Verif.Rl.uphill",
    "Verif.Rl.scale_identity",
    "Verif.Rl.fixed_stationary",
    "Verif.Rl.reml_is_integral"
   ],
   "note": "Gaussian additive models with identity link in exact arithmetic; REML theorem for one formula without repeated penalties (others: C38). Without shared smoothing parameters and dropped coefficients; the pseudo-inverse is taken to be exact (the code truncates or adds 1e-10)."
  },
  {
   "property": "C122",
   "status": "proved",
   "theorems": [
    "Verif.Lap.subgradient",
    "Verif.Lap.value_convex",
    "Verif.Lap.bsb_antitone",
    "Verif.Lap.envelope",
    "Verif.Lap.best_continuous",
    "Verif.Lap.total_gradient",
    "Verif.Lap.frozen_gradient",
    "Verif.Lap.grad_zero",
    "Verif.Lap.fixed_stationary",
    "Verif.Lap.no_small_step",
    "Verif.Lap.uphill",
    "Verif.Lap.laplace_exact",
    "Verif.Lap.quadratic_gradient",
    "Verif.Lap.quadratic_stationary",
    "Verif.Lap.gamma_antitone",
    "Verif.Lap.laplace_stationary_wrong"
   ],
   "note": "The last sentence of the statement is laplace_stationary_wrong: the code's gradient is approximate, as its comments say."
  },
  {
   "property": "C123",
   "status": "proved",
   "theorems": [
    "Verif.Equi.response_scaled",
    "Verif.Equi.response_affine",
    "Verif.Equi.response_shifted",
    "Verif.Equi.rows_permuted",
    "Verif.Equi.basis_changed",
    "Verif.Equi.columns_permuted",
    "Verif.Equi.columns_scaled",
    "Verif.Equi.known_scale_depends"
   ],
   "note": "Exact real arithmetic, no AR1 model, no dropped coefficients or shared smoothing parameters. Smoothing parameters start in the permitted range. Recombined columns: traces as specified by Good for both parameterisations. known_scale_depends shows that an estimated scale is needed for the response."
  },
  {
   "property": "C124",
   "status": "proved",
   "theorems": [
    "Verif.Pirls.proposal_solves",
    "Verif.Pirls.fixed_iff_stationary",
    "Verif.Pirls.proposal_ascends",
    "Verif.Pirls.fixed_is_max",
    "Verif.Pirls.fixed_is_unique_max",
    "Verif.Pirls.pass_longest",
    "Verif.Pirls.limit_is_stationary",
    "Verif.Pirls.limit_is_max",
    "Verif.Pirls.inner_is_iterate",
    "Verif.Pirls.inner_ascends",
    "Verif.Pirls.gaussian_identity",
    "Verif.Pirls.gaussian_log_not_max",
    "Verif.Pirls.negative_mean_wrong"
   ],
   "note": "Step control does not keep the means admissible for links that do not map into the domain of the family (negative_mean_wrong); without concavity fixed points need not be maxima (gaussian_log_not_max)."
  },
  {
   "property": "C125",
   "status": "partial",
   "theorems": [
    "Verif.Lml.fixed_iff_stationary",
    "Verif.Lml.gradient_fixed_iff_stationary",
    "Verif.Lml.proposal_ascends",
    "Verif.Lml.iteration_longest",
    "Verif.Lml.limit_is_stationary",
    "Verif.Lml.stationary_is_max",
    "Verif.Lml.fixed_is_max",
    "Verif.Lml.limit_is_max",
    "Verif.Lml.returned_is_iterate",
    "Verif.Lml.stationary_stays",
    "Verif.Lml.hazard_limit_is_max",
    "Verif.Lml.hazard_fixed_is_max",
    "Verif.Lml.multinomial_limit_is_max",
    "Verif.Lml.multinomial_fixed_is_max",
    "Verif.Lml.default_start_wrong",
    "Verif.Lml.fixed_not_max_wrong"
   ],
   "note": "Stationarity for all models, maxima for concave log-likelihoods including proportional hazards and multinomial models. Partial because the code's fits need not reach the maximum for other families (default_start_wrong, fixed_not_max_wrong) and because limits are shown to be maxima only if no iteration rejects all 32 step lengths."
  },
  {
   "property": "C126",
   "status": "proved",
   "theorems": [
    "Verif.Invar.rows_lss",
    "Verif.Invar.units_lss",
    "Verif.Invar.recombined_lss",
    "Verif.Invar.rows_hazard",
    "Verif.Invar.times_hazard",
    "Verif.Invar.units_hazard",
    "Verif.Invar.recombined_hazard",
    "Verif.Invar.ridge_wrong",
    "Verif.Invar.gradient_wrong"
   ],
   "note": "Any family: order of rows for all methods; units and bases for Newton's method, for bases with positive definite penalised Hessians at the coefficients visited. Hazard models also for transformed times. ridge_wrong and gradient_wrong show that the exclusions are needed. Fixed smoothing parameters, no dropped coefficients."
  },
  {
   "property": "C127",
   "status": "partial",
   "theorems": [
    "Verif.Shape.proposal_spec",
    "Verif.Shape.proposal_newton",
    "Verif.Shape.proposal_fixed_iff",
    "Verif.Shape.proposal_ascends",
    "Verif.Shape.improve_longest",
    "Verif.Shape.update_spec",
    "Verif.Shape.update_raises",
    "Verif.Shape.converged_spec",
    "Verif.Shape.limit_is_stationary",
    "Verif.Shape.scaledT_limit",
    "Verif.Shape.scaledT_stationary",
    "Verif.Shape.scaledT_units",
    "Verif.Shape.units_wrong",
    "Verif.Shape.silent_wrong"
   ],
   "note": "Ascent, choice of the step, stationarity of limits and behaviour under units proved, for general families and for scaled t. Not true as stated: the test for convergence compares the gradient with the log-likelihood, so that units exist in which any parameters are declared converged (units_wrong); when no step is found, or the Hessian is zero, the current parameters are returned without a warning (silent_wrong)."
  },
  {
   "property": "C128",
   "status": "partial",
   "theorems": [
    "Verif.Relab.llk_relab",
    "Verif.Relab.seriesLlk_relab",
    "Verif.Relab.famLlk_relab",
    "Verif.Relab.forwardResid_relab",
    "Verif.Relab.predictive_partial",
    "Verif.Relab.predictive_wrong",
    "Verif.Relab.sample_relab",
    "Verif.Relab.viterbi_relab_partial",
    "Verif.Relab.ties_wrong"
   ],
   "note": "Log-likelihood (tables and HSMMFamily with coefficients), forward residuals and sampling probabilities for all permutations; predictive residuals with one signal; Viterbi up to ties. Negations: predictive residuals with two signals (resid.cpp 501), ties in Viterbi decoding."
  },
  {
   "property": "C129",
   "status": "proved",
   "theorems": [
    "Verif.PInv.recombined",
    "Verif.PInv.units",
    "Verif.PInv.spread",
    "Verif.PInv.rows",
    "Verif.PInv.offset",
    "Verif.PInv.trials"
   ],
   "note": "Given smoothing parameters and starting values; for trials the sequence of passes, as the stopping rule depends on the deviance."
  },
  {
   "property": "C130",
   "status": "proved",
   "theorems": [
    "Verif.Smo.edf_antitone",
    "Verif.Smo.variance_antitone",
    "Verif.Smo.term_edf",
    "Verif.Smo.smoother",
    "Verif.Smo.common_factor",
    "Verif.Smo.rough_bound",
    "Verif.Smo.null_limit",
    "Verif.Smo.nearly_least_squares"
   ],
   "note": "Gaussian models; scale given where variances are compared."
  },
  {
   "property": "C131",
   "status": "proved",
   "theorems": [
    "Verif.Pool.separate",
    "Verif.Pool.separate_variance",
    "Verif.Pool.random_intercept",
    "Verif.Pool.random_sum",
    "Verif.Pool.intercept",
    "Verif.Pool.between",
    "Verif.Pool.by_columns",
    "Verif.Pool.ri_columns"
   ],
   "note": "Gaussian models; smoothing parameters and scale given."
  },
  {
   "property": "C132",
   "status": "proved",
   "theorems": [
    "Verif.Bspline.basis_affine",
    "Verif.Bspline.irMatrix_affine",
    "Verif.Bspline.tensor_affine",
    "Verif.Bspline.basis_mirror",
    "Verif.Bspline.mirror_zero_wrong",
    "Verif.Bspline.matrix_affine",
    "Verif.Bspline.matrix_mirror",
    "Verif.Pen.diff_mirror",
    "Verif.PInv.columns",
    "Verif.PInv.mirrored"
   ],
   "note": "Units and origin for bases, impulse responses and tensor rows; direction for unconstrained smooths in any generalised additive model with given smoothing parameters."
  },
  {
   "property": "C133",
   "status": "proved",
   "theorems": [
    "Verif.SmoG.least",
    "Verif.SmoG.smoother",
    "Verif.SmoG.rough_bound",
    "Verif.SmoG.null_limit",
    "Verif.SmoG.smoother_newton",
    "Verif.SmoG.smoother_hazard",
    "Verif.SmoG.smoother_multinomial"
   ],
   "note": "Generalised models at fixed points of the iteration with concave log-likelihood; hazard, multinomial and other concave models at fixed points of the Newton step."
  },
  {
   "property": "C134",
   "status": "proved",
   "theorems": [
    "Verif.PInv.exposures",
    "Verif.PInv.exposures_mean",
    "Verif.PInv.copies",
    "Verif.PInv.gram_copies",
    "Verif.PInv.spread_copies"
   ],
   "note": "Poisson rows with exposures added up: same systems, coefficients pass by pass and means; every row q times with smoothing parameters times q: same coefficients after the same passes, squared standard errors divided by q. Smoothing parameters are given."
  },
  {
   "property": "C135",
   "status": "partial",
   "theorems": [
    "Verif.Rsm.candidates_ok",
    "Verif.Rsm.mem_fixedCols",
    "Verif.Rsm.fcols_spec",
    "Verif.Rsm.fcols_none_iff",
    "Verif.Rsm.nVectors_range",
    "Verif.Rsm.attempts_spec",
    "Verif.Rsm.unchanged",
    "Verif.Rsm.sampled_secant",
    "Verif.Rsm.edf_partial",
    "Verif.Rsm.edf_wrong"
   ],
   "note": "edf_partial holds for models with penalties; for models without penalties the unchanged code returns None as degrees of freedom (edf_wrong). Everything else is proved."
  },
  {
   "property": "C136",
   "status": "partial",
   "theorems": [
    "Verif.Ifc.lp_gaussian",
    "Verif.Ifc.lp_gamma",
    "Verif.Ifc.lp_binary",
    "Verif.Ifc.binary",
    "Verif.Ifc.binary_same",
    "Verif.Ifc.binary_prob",
    "Verif.Ifc.gaussian_constant",
    "Verif.Ifc.gamma_constant",
    "Verif.Ifc.multigauss_partial",
    "Verif.Ifc.multigauss_wrong"
   ],
   "note": "Equalities of log densities, equivalence of final coefficients. MultiGauss lacks the constant of the normal density: proved negation and exact difference."
  },
  {
   "property": "C137",
   "status": "partial",
   "theorems": [
    "Verif.Cls.density",
    "Verif.Cls.probs",
    "Verif.Cls.renum_exists",
    "Verif.Cls.llk_same",
    "Verif.Cls.final_partial",
    "Verif.Cls.two_classes",
    "Verif.Cls.penalised_wrong"
   ],
   "note": "Densities, probabilities and log-likelihood for all models; final coefficients without penalties or for two classes; proved negation for penalised models with three classes."
  },
  {
   "property": "C138",
   "status": "proved",
   "theorems": [
    "Verif.Nest.penalised",
    "Verif.Nest.unpenalised",
    "Verif.Nest.intercept",
    "Verif.Nest.newton",
    "Verif.Nest.newton_unpenalised",
    "Verif.Nest.hazard",
    "Verif.Nest.multinomial",
    "Verif.Nest.deviance_can_increase"
   ],
   "note": "Penalised deviance / log-likelihood for all nested pairs; deviance itself if the smaller model has no penalties (null deviance as a case); witness that the deviance alone can increase otherwise."
  },
  {
   "property": "C139",
   "status": "partial",
   "theorems": [
    "Verif.Bound.binomial_one_wrong",
    "Verif.Bound.binomial_zero_wrong",
    "Verif.Bound.poisson_wrong",
    "Verif.Bound.boundary_partial",
    "Verif.Bound.overflow_rejected",
    "Verif.Bound.accept_same_partial",
    "Verif.Bound.step_wrong"
   ],
   "note": "Deviance at the boundary and step control as stated for gamma, inverse Gaussian and matching observations, overflow under log links, and whenever nothing is rounded; proved negation for binomial and Poisson deviances and for step control of binomial models."
  },
  {
   "property": "C140",
   "status": "partial",
   "theorems": [
    "Verif.Dec.decoded_is_mode",
    "Verif.Dec.posterior_law",
    "Verif.Dec.decoded_likeliest_draw_partial"
   ],
   "note": "decoded_is_mode and posterior_law are the full statement for decoding and likelihood. The statement about draws is proved where sampling is right (durations constant over time, emissions not depending on entry); elsewhere the sampler does not draw from the posterior (C03)."
  },
  {
   "property": "C141",
   "status": "partial",
   "theorems": [
    "Verif.Past.future_irrelevant",
    "Verif.Past.length_irrelevant_partial",
    "Verif.Past.llk_splits",
    "Verif.Past.length_wrong",
    "Verif.Past.predictive_past",
    "Verif.Past.predicted_mean_past"
   ],
   "note": "future_irrelevant, predictive_past and predicted_mean_past hold for all boundary settings (predictive residuals for models that are not event models). length_irrelevant_partial and llk_splits are for series without a condition for their end; with ends_with_last the residuals before and at the end depend on the length of the series (length_wrong)."
  },
  {
   "property": "C142",
   "status": "proved",
   "theorems": [
    "Verif.Tot.totals",
    "Verif.Tot.group_means",
    "Verif.Tot.relative",
    "Verif.Tot.class_totals",
    "Verif.Tot.group_moments",
    "Verif.Tot.not_canonical"
   ],
   "note": "Totals for canonical links, group means for all links, relative residuals for Gamma/log, class totals for multinomial models, group mean and variance for Gaussian location-scale models; not_canonical shows that the restriction of the first part is needed. Exact arithmetic, coefficients that no longer change."
  },
  {
   "property": "C143",
   "status": "partial",
   "theorems": [
    "Verif.Red.nothing_lost_partial",
    "Verif.Red.enough_dropped",
    "Verif.Red.same_fit_partial",
    "Verif.Red.indefinite_wrong"
   ],
   "note": "Proved for log-likelihoods that are strictly concave in the linear predictors, exact decompositions. Not true otherwise: indefinite_wrong is a strictly concave penalised problem in which a needed coefficient is dropped because the check looks at separately normalised matrices."
  },
  {
   "property": "C144",
   "status": "proved",
   "theorems": [
    "Verif.HEv.series_gradient",
    "Verif.HEv.gradient"
   ],
   "note": "Event models with durations that do not vary over the series."
  },
  {
   "property": "C145",
   "status": "partial",
   "theorems": [
    "Verif.HEv.own_signals_partial",
    "Verif.HEv.shifted_signals_wrong",
    "Verif.HEv.last_signal_unused_wrong",
    "Verif.HEv.not_own_signals_wrong"
   ],
   "note": "False for several signals with a formula shared by all of them: the data are shifted by one signal and the last signal is ignored (shifted_signals_wrong, last_signal_unused_wrong, not_own_signals_wrong)."
  },
  {
   "property": "C146",
   "status": "partial",
   "theorems": [
    "Verif.Glrt.gamm_partial",
    "Verif.Glrt.newton_partial",
    "Verif.Glrt.gaussian_partial",
    "Verif.Glrt.gaussian_iff",
    "Verif.Glrt.gaussian_undecided",
    "Verif.Glrt.gaussian_wrong"
   ],
   "note": "Holds for GAMMs whose models share their scale (families without scale parameter, or known scale) and for GAMMLSS and GSMM models with concave log-likelihood and Newton steps; the additional terms may be penalised. Fails for Gaussian additive models with estimated scale: each log-likelihood is evaluated at the scale estimate of its own model, the statistic is N log(s2/s1) + q - p, and columns that do not reduce the residual sum of squares never give a decision. The exact condition is proved, and that there is a decision if the scale estimate does not rise."
  },
  {
   "property": "C147",
   "status": "proved",
   "theorems": [
    "Verif.Sep.estimate_exists",
    "Verif.Sep.separated_never",
    "Verif.Sep.exists_iff",
    "Verif.Sep.separated_no_max",
    "Verif.Sep.always"
   ],
   "note": "Fixed smoothing parameters, four families with their usual links, exact arithmetic."
  },
  {
   "property": "C148",
   "status": "partial",
   "theorems": [
    "Verif.Conv.stays_bounded",
    "Verif.Conv.converges_partial",
    "Verif.Conv.converges_or_ties",
    "Verif.Conv.separated_diverges",
    "Verif.Conv.separated_no_limit",
    "Verif.Conv.stop_wrong",
    "Verif.Conv.local_converges",
    "Verif.Conv.level_converges",
    "Verif.Conv.inner_close",
    "Verif.Conv.gamma_level_partial"
   ],
   "note": "Bounded passes; convergence to the estimate if the coefficients change less and less, or unless the passes approach a point from which a step leaves the penalised likelihood exactly unchanged; divergence for separated data with the same exception. Canonical links: passes that come close to the estimate once converge to it with full steps, faster than any geometric series, and there the gain of the penalised log-likelihood bounds the distance (local_converges; in terms of values level_converges), and what the inner loop returns there is within a multiple of its tolerance unless all passes are used (inner_close). Gamma responses with the log link: convergence from values close to the maximum if every response is below twice its estimated mean (gamma_level_partial). Not true as stated: step control accepts unchanged penalised deviances and the stopping rule takes them as convergence, so that the inner loop can stop away from the estimate (stop_wrong)."
  },
  {
   "property": "C149",
   "status": "proved",
   "theorems": [
    "Verif.HEx.estimate_exists",
    "Verif.HEx.estimate_is_max",
    "Verif.HEx.monotone_no_estimate",
    "Verif.HEx.exists_iff",
    "Verif.HEx.monotone_increases"
   ],
   "note": "Model HazardModel/LmlModel, theorems HazExist, cases HazExistEx. Ident: no unpenalised direction leaves the comparisons at all events unchanged. Resting points of the unperturbed Newton step for fixed smoothing parameters; exact arithmetic."
  },
  {
   "property": "C150",
   "status": "proved",
   "theorems": [
    "Verif.MEx.estimate_exists",
    "Verif.MEx.estimate_is_max",
    "Verif.MEx.separated_no_estimate",
    "Verif.MEx.separated_increases",
    "Verif.MEx.exists_iff"
   ],
   "note": "Family and derivatives as in C20 (EtaBetaModel, LssModel), Newton steps as in C125 (LmlModel), theorems MulExist, cases MulExistEx. Ident: no unpenalised direction leaves all predictors unchanged. Resting points of the unperturbed Newton step for fixed smoothing parameters; stored sparsity patterns hold all nonzero values (Holds); exact arithmetic."
  },
  {
   "property": "C151",
   "status": "proved",
   "theorems": [
    "Verif.GBd.default_bounded",
    "Verif.GBd.default_values_converge",
    "Verif.GBd.log_unbounded",
    "Verif.GBd.log_no_max",
    "Verif.GBd.constant_sd_bounded"
   ],
   "note": "Family as in C20 (gauFam, LssModel, FamModel), iterations as in C125 (LmlModel), theorems LssBound, cases LssBoundEx. Convergence of values for iterations without restart; the condition for an unbounded likelihood is sufficient."
  },
  {
   "property": "C152",
   "status": "partial",
   "theorems": [
    "Verif.NCv.hazard_bounded",
    "Verif.NCv.hazard_converges",
    "Verif.NCv.hazard_converges_partial",
    "Verif.NCv.hazard_diverges",
    "Verif.NCv.hazard_no_limit",
    "Verif.NCv.multinomial_bounded",
    "Verif.NCv.multinomial_converges",
    "Verif.NCv.multinomial_converges_partial",
    "Verif.NCv.multinomial_diverges",
    "Verif.NCv.multinomial_no_limit",
    "Verif.NCv.sign_changes_wrong",
    "Verif.NCv.stop_wrong",
    "Verif.NCv.step_close",
    "Verif.NCv.hazard_local",
    "Verif.NCv.multinomial_local",
    "Verif.NCv.hazard_level",
    "Verif.NCv.multinomial_level",
    "Verif.NCv.hazard_stop",
    "Verif.NCv.multinomial_stop"
   ],
   "note": "Bounded iterations; convergence to the maximum of the penalised log-likelihood unless the iterations approach coefficients from which one of the steps tried leaves the penalised log-likelihood exactly unchanged, and without that exception if the coefficients change less and less; no limit, and unbounded norms with the same exception, for monotone or separating directions. Iterations that come close to the estimate once converge to it with full Newton steps, faster than any geometric series, and there the gain of the penalised log-likelihood bounds the distance, without further conditions (hazard_local, multinomial_local; in terms of values hazard_level, multinomial_level), and what the loop reports as converged there is within a multiple of its tolerance (hazard_stop, multinomial_stop). Elsewhere: iterations whose step control finds a step unless the Newton step is zero (Goes). Not true as stated: step control accepts unchanged penalised log-likelihoods, so coefficients can change their sign for ever (sign_changes_wrong), and the solver reports convergence there (stop_wrong)."
  }
 ]
}