{"id": "C01", "title": "HSMM log-likelihood is the log of the sum over all segmentations", "statement": "The log-likelihood reported for a hidden semi-Markov series equals the logarithm of the total probability of the series: the sum, over every way to cut the time axis into segments and to label consecutive segments with different states, of initial-state x duration x transition x emission probabilities. The three boundary switches (first segment starts at time 0, last segment ends at the last time point, last segment is in the last state) restrict exactly the set of segmentations that is summed over, and the internal rescaling of the forward variables does not change the value.", "quantifier": "every number of states, maximum duration, series length, emission/duration/transition/initial table (including tables that vary over time) and every combination of the boundary switches for which the series has positive probability", "why_tests_cant": "The number of segmentations is exponential in the series length and the claim ranges over all real-valued probability tables; a test can only compare a handful of short series against brute force.", "anchors": ["src/mssm/src/cpp/hsmm/llk.cpp: llk", "src/mssm/src/python/hsmm.py: HSMMFamily.llk"]}
{"id": "C02", "title": "Viterbi decoding returns a most probable state path", "statement": "The state path returned by Viterbi decoding is admissible (it is the labelling of some segmentation allowed by the boundary switches) and no admissible labelled segmentation has a larger joint log-probability with the data; whenever some admissible segmentation has positive probability the decoder never reads outside its tables.", "quantifier": "every number of states, maximum duration, series length, log-probability tables (entries may be minus infinity) and boundary switches", "why_tests_cant": "Optimality is a statement against exponentially many competing paths for every real-valued input; sampling inputs and comparing with brute force covers only tiny cases and misses tie-breaking and boundary truncation.", "anchors": ["src/mssm/src/cpp/hsmm/decode.cpp: viterbi", "src/mssm/src/python/hsmm.py: HSMMFamily.decode_viterbi"]}
{"id": "C03", "title": "Posterior state sampling draws from the posterior of the state path", "statement": "The probability with which the backward sampler returns a given path of states (with remaining durations) equals the posterior probability of that path given the series, i.e. the joint probability of path and data divided by the likelihood.", "quantifier": "every series, every path, all probability tables, both time-constant and time-varying duration tables", "why_tests_cant": "A sampler's distribution cannot be established by finitely many draws; a wrong time index in a backward weight changes probabilities slightly and passes any statistical smoke test.", "anchors": ["src/mssm/src/cpp/hsmm/decode.cpp: sample_backwards", "src/mssm/src/python/hsmm.py: HSMMFamily.sample_posterior_states"]}
{"id": "C04", "title": "HSMM gradient is the derivative of the HSMM log-likelihood", "statement": "For models whose emission, duration, transition and initial probabilities depend differentiably on coefficients, every entry of the gradient returned for the series equals the partial derivative of the log-likelihood with respect to that coefficient, for time-constant and time-varying tables.", "quantifier": "every coefficient kind (emission, duration, transition, initial), every series and all differentiable probability tables", "why_tests_cant": "Finite-difference tests check single points with tolerances and only the table shapes that were tried; the claim is an identity for all shapes and all points.", "anchors": ["src/mssm/src/cpp/hsmm/llk.cpp: llkgrad", "src/mssm/src/python/hsmm.py: HSMMFamily.gradient"]}
{"id": "C05", "title": "Forward pseudo-residuals are conditional distribution function values", "statement": "The forward pseudo-residual of an HSMM series at each time is the conditional probability that the signal is at most the observed value given the past of all signals; in particular it lies in [0,1] and equals 1 when the cumulative probabilities are all 1.", "quantifier": "every series, every signal, all proper probability tables and boundary switches", "why_tests_cant": "A violation needs particular combinations of switches and duration tables and is numerically small; randomised tests check only that values look like probabilities.", "anchors": ["src/mssm/src/cpp/hsmm/resid.cpp: forward_resid"]}
{"id": "C06", "title": "Predictive residuals use the mean of the signal that is being checked", "statement": "The one-step-ahead predictive residual of signal m is computed from the predicted means of signal m only, for every number of signals, and all entries are standardised in the same way.", "quantifier": "every number of signals and states, every series", "why_tests_cant": "With a single signal the memory layout makes a wrong index read the right value, so tests with one signal can never see it.", "anchors": ["src/mssm/src/cpp/hsmm/resid.cpp: predictive_resid"]}
{"id": "C07", "title": "Proportional hazard log-likelihood is Breslow's partial log-likelihood", "statement": "The log-likelihood of a proportional hazard model equals Breslow's partial log-likelihood: the sum over events of the linear predictor minus the sum over distinct event times of (number of events at that time) times the log of the summed exponentiated predictors over all subjects whose time is at least that time.", "quantifier": "every data set (any pattern of ties and censoring), every model matrix and coefficient vector", "why_tests_cant": "The running-sum implementation depends on orderings and group indices; equality with the risk-set formula must hold for every tie pattern.", "anchors": ["src/mssm/src/cpp/hazard.cpp: llk2", "src/mssm/src/python/exp_fam.py: PropHaz.llk"]}
{"id": "C08", "title": "Proportional hazard gradient and Hessian are the exact derivatives", "statement": "The gradient of the proportional hazard log-likelihood is its derivative in the coefficients, the Hessian is the derivative of the gradient, and the Hessian is symmetric negative semi-definite, so the log-likelihood is concave.", "quantifier": "every data set, model matrix, coefficient vector and direction", "why_tests_cant": "Derivative identities hold at every point of a continuum; finite differences have tolerances and cannot certify definiteness for all data.", "anchors": ["src/mssm/src/cpp/hazard.cpp: grad2, hessian", "src/mssm/src/python/exp_fam.py: PropHaz.gradient, PropHaz.hessian"]}
{"id": "C09", "title": "Survival estimates are proper survival functions and martingale residuals balance", "statement": "The estimated survival function takes values in [0,1] and never increases with time, the cumulative baseline hazard never decreases, and the martingale residuals of the fitted data sum to zero.", "quantifier": "every data set, tie pattern, model matrix and coefficient vector", "why_tests_cant": "Monotonicity and the balance identity quantify over all time pairs and all data sets.", "anchors": ["src/mssm/src/python/exp_fam.py: PropHaz.get_baseline_hazard, PropHaz.get_survival, PropHaz.get_resid"]}
{"id": "C10", "title": "Derivative of a Cholesky factor is correct", "statement": "Given an upper-triangular factor R with positive diagonal and the symmetric derivative A of the factored matrix, the returned matrix dR is upper triangular and satisfies dR'R + R'dR = A; it is the only such matrix, so it is the true derivative of the factor along any differentiable path.", "quantifier": "every dimension, factor and symmetric derivative matrix", "why_tests_cant": "The recursion mixes indices; an error shows only for particular sparsity patterns and sizes. The identity must hold for all sizes and real values.", "anchors": ["src/mssm/src/cpp/dchol.cpp: dChol, invdChol"]}
{"id": "C11", "title": "Second smoothing-uncertainty correction is the stated covariance and PSD", "statement": "The matrix added to the coefficient covariance to account for the dependence of its root on the smoothing parameters equals the double sum of Vpr(k,l) M_k M_l' over all smoothing-parameter pairs, is symmetric, and is positive semi-definite when the smoothing-parameter covariance is.", "quantifier": "every number of smoothing parameters, all upper-triangular factors M_k and all symmetric covariances", "why_tests_cant": "The code sums only part of each inner product and fills the other triangle by symmetry; correctness depends on triangular structure for every size.", "anchors": ["src/mssm/src/cpp/dchol.cpp: computeV2", "src/mssm/src/python/utils.py: compute_Vb_corr_WPS, correct_VB"]}
{"id": "C12", "title": "Leapfrog integrator is reversible and volume preserving", "statement": "One leapfrog step followed by flipping the momentum, another leapfrog step of the same size and flipping again returns exactly the starting state and momentum, and the stored log-density and gradient belong to the returned state.", "quantifier": "every differentiable log-density, mass matrix, step size, state and momentum", "why_tests_cant": "Reversibility is an algebraic identity for all inputs; floating point tests can only show approximate agreement at samples.", "anchors": ["src/mssm/src/cpp/mcmc.cpp: leap_frog"]}
{"id": "C13", "title": "Sampler bookkeeping: every stored draw is consistent and lies in the slice", "statement": "Whatever random numbers are drawn, every draw stored by the NUTS sampler carries the log-density of exactly that state, is either the previous state or a state reached by leapfrog steps whose joint log-density is at least the log slice level, and the number of leapfrog evaluations in a trajectory doubling of depth j is at most 2^j, with the acceptance statistic an average of numbers in [0,1].", "quantifier": "every log-density, gradient, step size, tree depth, seed/stream of random numbers and every number of iterations", "why_tests_cant": "The recursion is exponential in depth and random; tests see a few seeds. The invariant must hold for every random stream.", "anchors": ["src/mssm/src/cpp/mcmc.cpp: build_tree, advance_chain"]}
{"id": "C14", "title": "Sampler schedule stores every requested draw exactly once", "statement": "The sampler advances chains in blocks such that no block mixes warm-up and sampling iterations, exactly n_iter post-warm-up draws are stored per chain in order without gaps or overwrites, and the loop terminates, for any number of iterations, warm-up iterations and block size.", "quantifier": "every n_iter, M_adapt and n_steps", "why_tests_cant": "Off-by-one errors depend on divisibility relations between three integers; the claim is for all triples.", "anchors": ["src/mssm/src/python/mcmc.py: sample_mssm"]}
{"id": "C15", "title": "Link functions and their inverses", "statement": "Each link function and its inverse are mutually inverse on the natural domain of the mean, and the reported first and second derivatives of the link are its true derivatives.", "quantifier": "every mean in the domain (and every linear predictor), every lower bound of the bounded log link", "why_tests_cant": "Continuum of inputs; equality of derivatives cannot be tested pointwise.", "anchors": ["src/mssm/src/python/exp_fam.py: Logit, Identity, LOG, LOGb"]}
{"id": "C16", "title": "Deviances are non-negative, vanish only at the saturated fit, and match the log-likelihood", "statement": "For every exponential family the unit deviance is non-negative, zero exactly when the mean equals the observation, and (times scale) equals twice the gap between the log-likelihood of the saturated model and that of the fitted mean.", "quantifier": "all valid observations and means (including boundary observations such as 0 counts and proportions 0/1), all scales", "why_tests_cant": "Convexity-type inequalities over a continuum; edge cases at boundaries are measure-zero.", "anchors": ["src/mssm/src/python/exp_fam.py: Binomial.D, Gaussian.D, Gamma.D, InvGauss.D, Poisson.D, and the corresponding lp/llk"]}
{"id": "C17", "title": "Scores of exponential family models", "statement": "The gradient of the log-likelihood of a generalized additive model with respect to the coefficients reported by the family equals the true derivative of the reported log-likelihood, for every family and link combination.", "quantifier": "every data set, model matrix, coefficient vector with valid means, family and link", "why_tests_cant": "Derivative identity over a continuum and over all combinations of family and link.", "anchors": ["src/mssm/src/python/exp_fam.py: Family.dllkdcoef", "src/mssm/src/python/utils.py: GAMLSSGSMMFamily.gradient"]}
{"id": "C18", "title": "Scaled-t family: deviance, mean and shape derivatives", "statement": "For the scaled t family the reported deviance is twice the gap to the saturated log-likelihood, and the reported first and second derivatives of the deviance in the mean and of the log-likelihood in the two shape parameters are the true derivatives.", "quantifier": "every observation, mean, scale > 0 and degrees of freedom above the minimum", "why_tests_cant": "Long hand-derived formulas; agreement must hold at every point.", "anchors": ["src/mssm/src/python/exp_fam.py: ScaledT"]}
{"id": "C19", "title": "Location-scale families: first derivatives and probabilities", "statement": "The reported derivatives of the log-likelihood in the distribution parameters of the Gaussian, Gamma and multinomial location-scale families are the true derivatives; multinomial class probabilities are positive and sum to one.", "quantifier": "all observations and parameter values", "why_tests_cant": "Continuum of inputs and any number of classes.", "anchors": ["src/mssm/src/python/exp_fam.py: GAUMLSS, GAMMALS, MULNOMLSS"]}
{"id": "C20", "title": "Derivatives with respect to linear predictors and coefficients", "statement": "Transforming distribution-parameter derivatives to linear predictors (first, pure second, mixed second) and then to coefficients yields the true gradient and the true, symmetric Hessian of the log-likelihood as a function of the stacked coefficient vector.", "quantifier": "every number of distribution parameters, sizes of model matrices, link functions, observations and coefficients", "why_tests_cant": "Index bookkeeping of blocks for all block sizes; derivative identities over a continuum.", "anchors": ["src/mssm/src/python/gamm_solvers.py: deriv_transform_mu_eta, deriv_transform_eta_beta"]}
{"id": "C21", "title": "Working data reproduce score and curvature", "statement": "For generalized models the working response and weights satisfy: weight times (working response - predictor) is the derivative of the log-likelihood (times scale) in the linear predictor, and the Newton weights equal minus the second derivative.", "quantifier": "every observation, mean, link, variance function", "why_tests_cant": "Derivative identity over a continuum for all link/variance functions.", "anchors": ["src/mssm/src/python/gamm_solvers.py: PIRLS_pdat_weights, PIRLS_newton_weights"]}
{"id": "C22", "title": "Difference penalties penalise exactly the squared differences", "statement": "The penalty matrix of a difference penalty of order m satisfies: the quadratic form of a coefficient vector is the sum of its squared m-th order differences; the matrix is symmetric PSD, the returned root squares to it, and coefficient vectors with zero penalty are exactly the polynomials of degree below m sampled on the grid, so the reported rank n-m is the rank.", "quantifier": "every number of coefficients n and order m < n, every coefficient vector", "why_tests_cant": "All sizes and all real vectors.", "anchors": ["src/mssm/src/python/penalties.py: DifferencePenalty.constructor, IdentityPenalty.constructor"]}
{"id": "C23", "title": "Identifiability constraints are applied consistently to basis and penalty", "statement": "After absorbing an identifiability constraint (QR, dropping a coefficient, or differencing) into a smooth, the constrained basis times constrained coefficients equals the unconstrained basis times the back-transformed coefficients, the constraint (column sums / point / difference) holds for every coefficient vector, and the constrained penalty of the coefficients equals the unconstrained penalty of the back-transformed coefficients.", "quantifier": "every basis, penalty, constraint matrix and coefficient vector", "why_tests_cant": "All sizes and all values; basis and penalty are transformed in different functions.", "anchors": ["src/mssm/src/python/penalties.py: DifferencePenalty.constructor", "src/mssm/src/python/terms.py: f.build_matrix", "src/mssm/src/python/formula.py: Formula.__absorb_constraints"]}
{"id": "C24", "title": "Tensor smooths: row-wise product basis and Kronecker penalties fit together", "statement": "The tensor product basis evaluates the product of the marginal functions, with coefficient index order identical to the index order used by the Kronecker penalties, so the penalty for margin j of a separable coefficient array is the marginal penalty of that factor times the squared norms of the others.", "quantifier": "every number of margins, marginal sizes and values", "why_tests_cant": "Index-order conventions for all sizes.", "anchors": ["src/mssm/src/python/smooths.py: TP_basis_calc", "src/mssm/src/python/penalties.py: TP_pen"]}
{"id": "C25", "title": "Embedding penalties into the full coefficient space", "statement": "Embedding a term penalty at its starting index with its repeat count yields a matrix whose quadratic form in the full coefficient vector is the sum over repeats of the term penalty of the corresponding coefficient block; coefficients outside the blocks are not penalised; the embedded root squares to the embedded penalty; the total penalty matrix is the lambda-weighted sum.", "quantifier": "every penalty, start index, repeat count, total dimension and coefficient vector", "why_tests_cant": "All sizes and positions.", "anchors": ["src/mssm/src/python/penalties.py: embed_in_S_sparse, embed_in_Sj_sparse", "src/mssm/src/python/gamm_solvers.py: compute_S_emb_pinv_det"]}
{"id": "C26", "title": "Pseudo-inverse of the total penalty is placed at the penalised blocks", "statement": "The pseudo-inverse of the total penalty returned together with the penalty acts on the same coefficients as the penalty: its block for a term sits at that term's coefficients, so that the trace used for smoothing-parameter updates and gradients is that of the term's own block.", "quantifier": "every list of penalties, including several formulas with unpenalised coefficients between penalised blocks", "why_tests_cant": "Depends on the position of unpenalised coefficients between blocks; typical tests have a single formula with no gaps.", "anchors": ["src/mssm/src/python/gamm_solvers.py: compute_S_emb_pinv_det"]}
{"id": "C27", "title": "Sharing a smoothing parameter preserves the total penalty", "statement": "Merging penalties that share an id and splitting them again keeps the total penalty matrix: for any smoothing parameters, the penalty applied to the coefficients is the sum over original penalties of the (shared) smoothing parameter times that penalty, each counted once, and merged penalties keep the sum of the ranks.", "quantifier": "every list of penalties with any pattern of ids", "why_tests_cant": "Depends on id patterns (ids used once, ids used by several terms, none); claim is for all patterns.", "anchors": ["src/mssm/src/python/penalties.py: create_id_dict, combine_shared_penalties, split_shared_penalties"]}
{"id": "C28", "title": "Sparse storage conversion is lossless", "statement": "Converting a compressed-column matrix to coordinate lists, passing it to the C++ layer or padding it with zero rows/columns for dropped coefficients keeps every entry: the rebuilt matrix has the same value at each (kept) position and zero elsewhere.", "quantifier": "every compressed-column matrix (any shape, empty columns, duplicates) and every increasing keep list", "why_tests_cant": "All shapes and sparsity patterns.", "anchors": ["src/mssm/src/python/matrix_solvers.py: translate_sparse, map_csc_to_eigen, compute_eigen_perm, apply_eigen_perm"]}
{"id": "C29", "title": "Parallel computations equal their serial counterparts", "statement": "Computations that are split over worker processes by rows or columns (model matrix rows, X'X, X'y, linear predictors, inverse of a triangular factor, trace of V S) return the same result as the unsplit computation for any number of workers, and results come back in the original order.", "quantifier": "every data size and number of workers (including more workers than rows)", "why_tests_cant": "Depends on divisibility and edge sizes; tests use few worker counts.", "anchors": ["src/mssm/src/python/gamm_solvers.py: read_XTX, keep_XTX, read_eta, keep_eta", "src/mssm/src/python/matrix_solvers.py: compute_Linv, compute_B", "src/mssm/models.py: GAMM.fit"]}
{"id": "C30", "title": "Smoothing-parameter updates stay in range and point uphill", "statement": "Every proposed smoothing parameter lies in [1e-7,1e7]; extending, undoing and halving a step keep it in that range and keep the previously accepted value recoverable; and the basic update never points against the gradient of the (approximate) REML criterion.", "quantifier": "all traces, quadratic forms, scales and current smoothing parameters; any sequence of extension/undo/halving decisions", "why_tests_cant": "Real inputs and arbitrary histories of step-control decisions.", "anchors": ["src/mssm/src/python/gamm_solvers.py: step_fellner_schall_sparse, grad_lambda, extend_lambda_step, undo_extension_lambda_step, correct_lambda_step"]}
{"id": "C31", "title": "Step-length control never makes the penalised fit worse and terminates", "statement": "Coefficient step control always terminates, and the accepted coefficients have a penalised deviance (or negative penalised log-likelihood) no larger than the previous coefficients, or are the previous coefficients; the reported deviance, means and predictors belong to the accepted coefficients. Shape-parameter updates never decrease the log-likelihood.", "quantifier": "every deviance/likelihood function (values may be NaN or infinite), every current and proposed coefficient vector and penalty", "why_tests_cant": "Universally quantified over objective functions and starting points, including ones where no improvement exists.", "anchors": ["src/mssm/src/python/gamm_solvers.py: correct_coef_step, correct_coef_step_gammlss, updateTheta"]}
{"id": "C32", "title": "Effective degrees of freedom account for all coefficients", "statement": "Total edf equals the trace of V X'X, i.e. the number of coefficients minus the sum over penalties of lambda times trace(V S_j), lies between 0 and the number of coefficients, and term-wise edf plus the number of unpenalised coefficients add up to total edf.", "quantifier": "every PSD cross-product, list of PSD penalties with positive lambdas, and positive definite sum", "why_tests_cant": "Linear-algebra identity for all sizes and values.", "anchors": ["src/mssm/src/python/gamm_solvers.py: calculate_edf, calculate_term_edf"]}
{"id": "C33", "title": "Newton step, preconditioning and covariance root", "statement": "The Newton update with diagonal preconditioning and optional ridge returns a covariance root LV and factor L such that LV'LV is the inverse of L L', L L' equals the negative penalised Hessian plus a non-negative diagonal ridge (zero ridge if it is positive definite), and the step is an ascent direction of the penalised log-likelihood.", "quantifier": "every gradient, Hessian, penalty and coefficient vector for which the factorisation succeeds", "why_tests_cant": "Matrix identity for all sizes and values.", "anchors": ["src/mssm/src/python/gamm_solvers.py: newton_coef_smooth"]}
{"id": "C34", "title": "Dropping unidentifiable coefficients is consistent", "statement": "Removing dropped coefficients from the model matrices, coefficient vector and penalty and re-inserting zeros afterwards gives the same linear predictors and penalty as the full model with those coefficients set to zero, for every formula separately.", "quantifier": "every list of model matrices and every sorted keep list", "why_tests_cant": "Index bookkeeping across formula boundaries for all sizes.", "anchors": ["src/mssm/src/python/gamm_solvers.py: drop_terms_X, handle_drop_gammlss, update_coef_gammlss"]}
{"id": "C35", "title": "Fitted predictors belong to the returned coefficients", "statement": "When fitting returns, the stored linear predictor equals model matrix times stored coefficients, and the stored weight matrix squares to the Fisher weights of the valid observations.", "quantifier": "every data set and every iteration limit, including fits that stop at the iteration limit or exclude observations", "why_tests_cant": "Requires reasoning about all executions of the fitting loop, including non-convergent ones.", "anchors": ["src/mssm/src/python/gamm_solvers.py: solve_gamm_sparse", "src/mssm/models.py: GAMM.fit"]}
{"id": "C36", "title": "AR(1) residual model", "statement": "With an AR(1) parameter rho the whitening transform applied to response and model matrix satisfies: the implied error covariance is rho^|i-j| within a series and 0 between series, and the correction added to the log-likelihood is the log-determinant of the transform.", "quantifier": "every number and length of series, every rho in (-1,1), any pattern of missing values", "why_tests_cant": "All series partitions and real rho.", "anchors": ["src/mssm/src/python/utils.py: computeAr1Chol"]}
{"id": "C37", "title": "Multivariate normal sampling has the requested mean and covariance", "statement": "Samples drawn from a covariance root, precision factor or permuted factor are affine images of standard normal draws with the requested mean and covariance scale*V, also for a subset of coefficients.", "quantifier": "every mean, factor, permutation, scale, subset", "why_tests_cant": "Covariance identities over all matrices; sample-based tests are only statistical.", "anchors": ["src/mssm/src/python/utils.py: sample_MVN"]}
{"id": "C38", "title": "REML score", "statement": "The REML score equals penalised log-likelihood plus half the log generalised determinant of the penalty minus half the log-determinant of the penalised Hessian (up to the constant), independently of preconditioning used internally.", "quantifier": "every Hessian, penalty, scale", "why_tests_cant": "Matrix identity for all sizes.", "anchors": ["src/mssm/src/python/utils.py: REML"]}
{"id": "C39", "title": "Model comparison by likelihood ratio and AIC", "statement": "Comparing two models returns a test statistic and AIC difference that change sign when the models are swapped, AIC difference equals -2(llk1-llk2)+2(dof1-dof2) with degrees of freedom counted by the same rule for both models, and the result is H1 exactly when the p-value is below alpha.", "quantifier": "every pair of fitted models, all option combinations", "why_tests_cant": "Combinatorial options and real-valued summaries; tests fix a few pairs.", "anchors": ["src/mssm/src/python/compare.py: compare_CDL"]}
{"id": "C40", "title": "Quasi-Newton Hessian approximations satisfy the secant equation and Woodbury inverse", "statement": "The compact SR1 approximation reproduces the most recent (and all) gradient differences when applied to the stored steps, and the implicitly formed inverse is the inverse of approximation plus penalty.", "quantifier": "every number of stored updates and dimension for which the middle matrix is invertible", "why_tests_cant": "Matrix identities for all sizes.", "anchors": ["src/mssm/src/python/compact_rep.py: computeHSR1, computeVSR1, computeSH, computeSVPS", "src/mssm/src/python/gamm_solvers.py: getImplicitV"]}
{"id": "C41", "title": "Re-parameterisation leaves the model unchanged", "statement": "Fitting in the stabilised parameterisation and transforming back gives the same linear predictors, penalty, Hessian quadratic form and covariance as the original parameterisation.", "quantifier": "every orthogonal transform, model matrix, penalty and coefficient vector", "why_tests_cant": "Matrix identities for all sizes.", "anchors": ["src/mssm/src/python/repara.py: reparam_model", "src/mssm/src/python/gamm_solvers.py: correct_lambda_step_gamlss"]}
{"id": "C42", "title": "B-spline bases are a partition of unity", "statement": "At every covariate value within the boundary knots the B-spline basis functions are non-negative and sum to one, so an unconstrained smooth with equal coefficients is constant.", "quantifier": "every degree, number of basis functions, boundary values and covariate value in range", "why_tests_cant": "Continuum of covariate values and all degrees.", "anchors": ["src/mssm/src/python/smooths.py: tpower, bbase, B_spline_basis"]}
{"id": "C43", "title": "Coefficient counts, names and columns agree", "statement": "For every term the number of columns it contributes to the model matrix, the number of coefficient names it reports and its reported coefficient count are equal, and column blocks of different terms are disjoint and contiguous.", "quantifier": "every formula: any list of intercept, linear, interaction, smooth (with by-factors), random and impulse response terms and factor levels", "why_tests_cant": "All combinations of terms and level counts.", "anchors": ["src/mssm/src/python/terms.py: get_coef_info, build_matrix", "src/mssm/src/python/formula.py: Formula.__get_coef_info, build_sparse_matrix_from_formula"]}
{"id": "C44", "title": "Treatment coding and interactions", "statement": "A factor with L levels contributes L-1 indicator columns in the presence of an intercept; each row of the model matrix identifies its level uniquely; interaction columns are products of the main-effect columns; expanding all interactions of n variables yields each non-empty subset once.", "quantifier": "every factor, number of levels, data vector, number of interacting variables", "why_tests_cant": "All level counts and subsets.", "anchors": ["src/mssm/src/python/terms.py: build_linear_term, get_linear_coef_info, li"]}
{"id": "C45", "title": "Encoding of data: factor codes and series splitting", "statement": "Factor levels are encoded by a bijection between levels and codes, decoding codes recovers the data, and data are split into series such that concatenating the series recovers the rows in order and each series holds exactly the rows of one series id.", "quantifier": "every data frame, ordering of rows and set of levels", "why_tests_cant": "All orderings of rows; typical tests have sorted data.", "anchors": ["src/mssm/src/python/formula.py: Formula.__encode_var, Formula.encode_data"]}
{"id": "C46", "title": "Predictions add up over terms", "statement": "The prediction using all terms is the sum of the predictions using each term alone; the standard error is non-negative; the difference prediction of a data set with itself is zero with zero-width interval and swapping the data sets flips the sign but keeps the interval.", "quantifier": "every model, data and term subset", "why_tests_cant": "All models and data.", "anchors": ["src/mssm/models.py: GSMM.predict, GSMM.predict_diff", "src/mssm/src/python/formula.py: build_sparse_matrix_from_formula"]}
{"id": "C47", "title": "Coefficient vectors are split by formula correctly", "statement": "Splitting the stacked coefficient vector yields for each formula (and extra coefficients) exactly its block, with blocks in order and concatenation returning the vector; parameter getters return the block or term asked for and reject invalid indices.", "quantifier": "every number of formulas and coefficients", "why_tests_cant": "All sizes.", "anchors": ["src/mssm/models.py: GSMM.fit, GSMM.get_pars, GAMMLSS.fit"]}
{"id": "C48", "title": "Finite-difference Hessian assembly is symmetric", "statement": "Assembling selected Hessian columns yields a symmetric matrix in which each selected row/column holds the computed derivatives and the remaining block is untouched.", "quantifier": "every selection of columns and matrix", "why_tests_cant": "All selections, including overlapping/repeated ones.", "anchors": ["src/mssm/src/python/exp_fam.py: GSMMFamily.jhessian"]}
{"id": "C49", "title": "Multivariate Gaussian family derivatives", "statement": "Log-likelihood, gradient and Hessian of the multivariate Gaussian family are consistent: the gradient in mean and precision-root parameters is the derivative of the log-likelihood and Hessian columns are derivatives of the gradient.", "quantifier": "every dimension, data and parameter values", "why_tests_cant": "Derivative identities for all dimensions.", "anchors": ["src/mssm/src/python/exp_fam.py: MultiGauss"]}
{"id": "C50", "title": "Smoothing-uncertainty corrected edf bounds and prior support", "statement": "Rho priors return minus infinity outside their support, projected starting values lie in the support, and the corrected edf used for model comparison never exceeds its documented upper bound.", "quantifier": "every bounds, samples, edf values", "why_tests_cant": "Real-valued inputs of any sign.", "anchors": ["src/mssm/src/python/utils.py: MVUniformRhoPrior, CenteredUniformRhoPriors, correct_VB"]}
{"id": "C51", "title": "Reading a variable from several files agrees with reading the concatenated data", "statement": "Reading covariates from several files produces the same levels, ranges and missing-value pattern as reading the concatenated file.", "quantifier": "every partition of the rows into files", "why_tests_cant": "All partitions of data.", "anchors": ["src/mssm/src/python/file_loading.py: read_unique, read_cov", "src/mssm/src/python/formula.py: Formula.__init__"]}
{"id": "C52", "title": "Quantile residual intervals of the multinomial family partition [0,1]", "statement": "For the multinomial family the class-wise cumulative intervals used for randomised quantile residuals are disjoint, cover [0,1] and have length equal to the class probability, so residuals are standard normal under the model.", "quantifier": "any number of classes and probabilities", "why_tests_cant": "All dimensions and real values.", "anchors": ["src/mssm/src/python/exp_fam.py: MULNOMLSS.get_resid"]}
{"id": "C53", "title": "Survival estimate at a time uses only events up to that time", "statement": "The survival estimate at time t is exp(-H(t) exp(predictor)), where H(t) is Breslow's cumulative hazard summing only events observed up to t.", "quantifier": "every data set, coefficient vector and time t, observed or not", "why_tests_cant": "Times between observed times form a continuum and depend on the gap pattern.", "anchors": ["src/mssm/src/python/exp_fam.py: PropHaz.get_survival"]}
{"id": "C54", "title": "Hazard and survival predictions belong to the coefficients passed in", "statement": "Baseline hazard, survival estimates and residuals returned by the proportional hazard family are those of the coefficients and data passed in the call, whatever calls were made before.", "quantifier": "every history of earlier calls and every coefficient vector", "why_tests_cant": "Depends on call history.", "anchors": ["src/mssm/src/python/exp_fam.py: PropHaz.get_baseline_hazard, PropHaz.get_survival, PropHaz.get_resid"]}
{"id": "C55", "title": "Deviance residuals of hazard models are real numbers with the sign of the martingale residual", "statement": "The quantity under the square root of the deviance residual of a proportional hazard model is never negative, it is zero for a zero cumulative hazard without event, and the residual has the sign of the martingale residual.", "quantifier": "every survival value in (0,1] and event indicator", "why_tests_cant": "Continuum of survival values including those below the floating point guard.", "anchors": ["src/mssm/src/python/exp_fam.py: PropHaz.get_resid"]}
{"id": "C56", "title": "Derivative of the inverse Cholesky factor", "statement": "The function documented to return the derivative of the inverse of a Cholesky factor returns that derivative.", "quantifier": "every dimension, factor and symmetric derivative matrix", "why_tests_cant": "Sign errors cancel in the only use of the result, so tests of that use cannot see them.", "anchors": ["src/mssm/src/cpp/dchol.cpp: invdChol"]}
{"id": "C57", "title": "NUTS draws have the right distribution", "statement": "For a fixed step size, one iteration of the sampler leaves the target distribution unchanged: if the current state has density proportional to the exponential of the log-density, then so has the next stored state. Along a trajectory, states in the slice are equally likely.", "quantifier": "every measurable log-density and gradient, every mass matrix with its square root, step size and tree depth limit; every non-negative function of the state", "why_tests_cant": "A distributional statement over a continuum; tests can only compare sample moments with large Monte Carlo error and miss small bias.", "anchors": ["src/mssm/src/cpp/mcmc.cpp: build_tree, advance_chain", "src/mssm/src/python/mcmc.py: r_sampler"]}
{"id": "C58", "title": "All returned draws use one fixed step size", "statement": "After warm-up the step size no longer changes: every returned draw, on every chain, is made with one and the same positive step size.", "quantifier": "every target, number of chains, n_iter, M_adapt, n_steps, and every stream of random numbers", "why_tests_cant": "If the step size kept adapting, draws would look fine while the sampler would no longer leave the target invariant; it is a whole-run invariant.", "anchors": ["src/mssm/src/python/mcmc.py: sample_mssm", "src/mssm/src/cpp/mcmc.cpp: advance_chain"]}
{"id": "C59", "title": "Gradient of extended families in the general solver wrapper", "statement": "When a GAMM of an extended family (scaled t) is wrapped for the general smooth model machinery, the reported gradient with respect to the coefficients is the true gradient of the reported log-likelihood for every link.", "quantifier": "every data set, model matrix, coefficients, shape parameters and link", "why_tests_cant": "A unit test uses the default identity link, for which a wrong link derivative is invisible.", "anchors": ["src/mssm/src/python/utils.py: GAMLSSGSMMFamily.llk, GAMLSSGSMMFamily.gradient", "src/mssm/src/python/exp_fam.py: ScaledT.dDdmu"]}
{"id": "C60", "title": "Second derivatives of location-scale families are expected second derivatives", "statement": "For the Gaussian and Gamma location-scale families the second and mixed derivatives returned by d2 and d2m equal the expectation, under the model with the same parameters, of the true second derivatives of the log density (so minus the assembled Hessian is the expected information). For the multinomial family they are the exact second derivatives in the linear predictors, and the mixed derivative list contains every pair of predictors exactly once.", "quantifier": "for all admissible parameter values and observations; all numbers of classes", "why_tests_cant": "Expectations are integrals over all observations; a test sees finitely many observations and the point-wise second derivative differs from the reported one.", "anchors": ["src/mssm/src/python/exp_fam.py: GAUMLSS", "src/mssm/src/python/exp_fam.py: GAMMALS", "src/mssm/src/python/exp_fam.py: MULNOMLSS"]}
{"id": "C61", "title": "Penalties under constraints: reported rank, weighted and identity penalties", "statement": "After absorbing a constraint the rank reported for a difference penalty is the rank of the constrained penalty; an identity penalty of the constrained coefficients is the identity penalty of the unconstrained ones; a weighted identity penalty comes with a root that squares to it.", "quantifier": "every number of coefficients, order, constraint type and coefficient vector", "why_tests_cant": "tests compare one or two fixed matrices; rank and agreement for all sizes, orders and constraints is a statement about all of them", "anchors": ["src/mssm/src/python/penalties.py: DifferencePenalty.constructor", "src/mssm/src/python/penalties.py: IdentityPenalty.constructor"]}
{"id": "C62", "title": "Dropping coefficients from a term's penalty", "statement": "When a user excludes coefficients of a smooth term, the term's penalty becomes the sub-matrix of the remaining rows and columns in their original order, and the reported number of dropped columns is the number of excluded coefficients of that block.", "quantifier": "every coordinate list, block size, offset and list of excluded coefficients, including coefficients whose penalty column is empty", "why_tests_cant": "A test uses a particular penalty; empty columns (null space of a reparameterised penalty) and offsets of later by-levels need all combinations.", "anchors": ["src/mssm/src/python/penalties.py: adjust_pen_drop", "src/mssm/src/python/terms.py: f.build_penalty"]}
{"id": "C63", "title": "Cached model matrix pieces are the ones that would be built", "statement": "When a model is estimated from several files with caching switched on, each read of a row sub-set of the model matrix returns the matrix that would be built from that file and sub-set without the cache, in any order of reads.", "quantifier": "every list of data files, number of sub-sets and sequence of reads within a fit", "why_tests_cant": "Needs all sequences of reads and all file names; tests use one file list without name clashes.", "anchors": ["src/mssm/src/python/gamm_solvers.py: read_mmat", "src/mssm/src/python/file_loading.py: setup_cache, clear_cache"]}
{"id": "C64", "title": "Trace computations for null-space penalties use the columns of their own term", "statement": "The sum of squares behind the effective degrees of freedom of a null-space penalty runs over exactly the penalised columns of that term, one per level of the factor smooth, wherever the term is located in the model.", "quantifier": "every start column, number of coefficients per level, number of levels and position of the penalised coefficient", "why_tests_cant": "Tests use models in which the factor smooth sits at one position.", "anchors": ["src/mssm/src/python/matrix_solvers.py: compute_B"]}
{"id": "C65", "title": "Smoothing parameter step control terminates", "statement": "The loop that proposes, checks, corrects and accepts smoothing parameters ends: every correction undoes an extension or halves the step, and a step that is small enough is accepted.", "quantifier": "all numbers of penalties, gradients, step sizes, control levels and extension methods, including criteria that are not a number", "why_tests_cant": "Non-termination shows up as a hang on rare data; a test suite only ever exercises inputs on which the loop ended.", "anchors": ["src/mssm/src/python/gamm_solvers.py: correct_lambda_step", "src/mssm/src/python/gamm_solvers.py: correct_lambda_step_gamlss"]}
{"id": "C66", "title": "Difference penalties measure derivatives of the smooth", "statement": "On the range of the covariate, a B-spline smooth whose coefficients are in arithmetic progression (those a second-order difference penalty leaves unpenalised) is a straight line; the derivative of a smooth is the spline of one degree less with the differenced coefficients divided by the knot spacing; non-decreasing coefficients give a non-decreasing smooth.", "quantifier": "every degree from two (one for straight lines), number of basis functions, boundaries, coefficients and covariate value in range", "why_tests_cant": "Continuum of covariate values, all degrees and coefficients.", "anchors": ["src/mssm/src/python/smooths.py: bbase, B_spline_basis"]}
{"id": "C67", "title": "Model matrix columns of smooths after dropping nested coefficients", "statement": "After coefficients of a smooth nested in a larger smooth have been dropped, the model matrix column of every coefficient that is left holds the basis function this coefficient belongs to (by name and penalty), on the rows of its level.", "quantifier": "every smooth, by-variable, set of dropped coefficients and data", "why_tests_cant": "All sets of dropped coefficients.", "anchors": ["src/mssm/src/python/terms.py: f.build_matrix, f.get_coef_info", "src/mssm/src/python/formula.py: Formula.__fix_nested"]}
{"id": "C68", "title": "Importance weights and covariances from sampled smoothing parameters", "statement": "The weights given to sampled smoothing parameters are non-negative, add up to one, vanish exactly for samples outside the prior's support and are proportional to likelihood times prior over proposal density. The covariance of log smoothing parameters and the covariance of the coefficients built from the samples are positive semi-definite; the latter is at least the mean covariance given the samples, and the regularised root never enlarges the covariance.", "quantifier": "every number of samples, scores, coefficient vectors and covariance matrices", "why_tests_cant": "Statements about all real inputs and all numbers of samples; positive semi-definiteness is over all directions.", "anchors": ["src/mssm/src/python/utils.py: estimateVp, updateVp, correct_VB"]}
{"id": "C69", "title": "The sampler is given the true gradient", "statement": "For sample_mssm, each entry of the gradient handed to the No-U-Turn sampler is the partial derivative of the log joint density handed to it, for coefficients, log scale, theta and, if they are sampled, log smoothing parameters.", "quantifier": "all coefficient vectors, all log smoothing parameters, any number of penalties and any overlap between them", "why_tests_cant": "Unit tests compare posterior summaries with loose tolerances for one seed; a wrong gradient entry makes the leaps inefficient, and the draws still look plausible.", "anchors": ["src/mssm/src/python/mcmc.py: sample_mssm"]}
{"id": "C70", "title": "Momentum draws match the kinetic energy", "statement": "For sample_mssm, momentum vectors are drawn from the normal distribution whose precision matrix is the matrix used in the kinetic energy, for coefficients, scale, theta and smoothing parameters together.", "quantifier": "all covariance matrices of the fit, all curvatures of scale and theta including wrong signs, all inflation factors", "why_tests_cant": "A mismatch changes the stationary distribution of the chain only slightly and no test compares the two matrices.", "anchors": ["src/mssm/src/python/mcmc.py: sample_mssm", "src/mssm/src/python/utils.py: sample_MVN"]}
{"id": "C71", "title": "make_proper gives a proper prior", "statement": "With make_proper=True, sample_mssm puts a positive definite prior precision on all coefficients; each term without null-space penalty is given one and no term is given two.", "quantifier": "all models, any number of formulas and terms", "why_tests_cant": "An improper direction shows only as slow drift of a chain.", "anchors": ["src/mssm/src/python/mcmc.py: sample_mssm"]}
{"id": "C72", "title": "The target of the sampler agrees with the fit", "statement": "With fixed smoothing parameters and default priors, the estimated coefficients of the model are the mode of the density that sample_mssm samples from at the estimated scale.", "quantifier": "all models, scale parameters and smoothing parameters", "why_tests_cant": "A wrong penalty scale shifts the posterior; tests only look at shapes and seeds.", "anchors": ["src/mssm/src/python/mcmc.py: sample_mssm"]}
{"id": "C73", "title": "The initial step size search ends and brackets one half", "statement": "find_reasonable_epsilon ends and returns a positive step size of the form 0.1*2^k, k an integer, such that the acceptance probability of a single leap crosses one half between the returned value and its predecessor.", "quantifier": "all targets, states and momenta", "why_tests_cant": "The loop has no limit on its passes; a test can only run targets for which it ends.", "anchors": ["src/mssm/src/cpp/mcmc.cpp: find_reasonable_epsilon"]}
{"id": "C74", "title": "Every penalty sits on the coefficients of its own term", "statement": "build_penalties returns, for every formula, one entry per smoothing parameter, in the order of impulse response terms, smooth terms, random terms. Each entry names its term, its embedded matrix is zero outside the columns which that term has in the model matrix, and its quadratic form in the coefficient vector equals the term's own penalty of the term's own coefficients: one for each level of a by variable, summed over levels if an id is given, with dropped coefficients replaced by zero, and sums of squares for random terms.", "quantifier": "for all formulas: any number of linear, impulse response, smooth and random terms, any number of penalties, levels, dropped coefficients", "why_tests_cant": "Column offsets are carried through nested loops over terms, penalties and levels, with resets; a test sees a few formulas and a shifted penalty still gives a fit.", "anchors": ["src/mssm/src/python/formula.py: build_penalties", "src/mssm/src/python/terms.py: f.build_penalty, irf.build_penalty, ri.build_penalty, rs.build_penalty"]}
{"id": "C75", "title": "Null-space penalties shrink exactly what the smoothing penalty leaves alone", "statement": "If a smooth asks for a null-space penalty, the additional matrix is the orthogonal projection on the coefficient vectors which the smoothing penalty does not penalise, so that both together, with any positive smoothing parameters, are positive definite and a function without smoothing penalty is shrunk towards zero.", "quantifier": "for all penalty matrices with eigenvalues zero or above the threshold, all smooths", "why_tests_cant": "The statement is about every coefficient vector and every smoothing parameter.", "anchors": ["src/mssm/src/python/formula.py: build_penalties"]}
{"id": "C76", "title": "Gradient with fixed transitions and of event models", "statement": "If the transition matrix and the initial distribution are fixed, and for event models (flats and bumps with a template, with or without autocorrelation of the residuals), the gradient entries computed for emission and duration coefficients are the derivatives of the log-likelihood with respect to these coefficients.", "quantifier": "for all series, tables, templates, numbers of signals and states, autocorrelations of absolute value below one, exponential and Gaussian event densities, all coefficients", "why_tests_cant": "A finite-difference test covers one model, one coefficient vector and one precision; the statement quantifies over all of them, and the time lag between a bump and the following flat only matters in particular segmentations.", "anchors": ["src/mssm/src/cpp/hsmm/llk.cpp: llkFTPgrad", "src/mssm/src/python/hsmm.py: HSMMFamily.gradient"]}
{"id": "C77", "title": "Probability tables of a hidden semi-Markov model are distributions", "statement": "For every coefficient vector, the tables HSMMFamily computes from it are proper: the duration probabilities of every state (and every time point for time-varying models) are positive and sum to one over 1..D-1, every row of the transition matrix has a zero diagonal, positive other entries and sum one, and the initial distribution is positive and sums to one. Event states without duration family last exactly event_width samples.", "quantifier": "all coefficient vectors, families, numbers of states and maximum durations, all time points", "why_tests_cant": "tests evaluate a few coefficient vectors; normalisation over the truncated duration range, the scatter of the multinomial row around the diagonal and the event durations have to hold for all of them", "anchors": ["src/mssm/src/python/hsmm.py: _compute_series_probs"]}
{"id": "C78", "title": "HSMMFamily.gradient is the derivative of HSMMFamily.llk in every coefficient", "statement": "For every collection of series, every coefficient vector and every index n, entry n of the array returned by HSMMFamily.gradient is the partial derivative of HSMMFamily.llk in coefficient n, including coefficients of formulas shared between states and signals, and models with fixed transition and initial probabilities. The list of shared parameters may be any list of parameters.", "quantifier": "all coefficient vectors, numbers of states, signals and series, all lists of shared parameters, all formula sizes", "why_tests_cant": "the gradient is put together from per-table derivatives by index arithmetic over blocks; finite differences test one configuration at a few points", "anchors": ["src/mssm/src/python/hsmm.py: HSMMFamily.gradient", "src/mssm/src/python/hsmm.py: HSMMFamily.llk", "src/mssm/src/python/hsmm.py: _compute_series_probs"]}
{"id": "C79", "title": "The log-likelihood of an event model is the log density of the signals under sequences of flats and events", "statement": "For an event model (flats alternating with events of fixed width) with Gaussian errors, HSMMFamily.llk returns the log of the mixture over all admissible flat/event sequences of the density of all signals: means follow the scaled event template inside of events and are zero inside of flats. With Lrhoi the residuals of every signal are a Gaussian AR(1) process with the correlation used to build Lrhoi, and the value still is the log density of the recorded (not the whitened) signals.", "quantifier": "All numbers of samples, signals, states and event widths, all templates, means, transition and duration tables of event models, all autocorrelations in (-1,1).", "why_tests_cant": "A test can compare a few log-likelihood values with stored ones; it cannot sum over all sequences of flats and events for every data set, and stored values carry the sign of the log-determinant along.", "anchors": ["src/mssm/src/python/hsmm.py: HSMMFamily.llk", "src/mssm/src/python/hsmm.py: _compute_series_probs", "src/mssm/src/python/hsmm.py: _split_matrices", "src/mssm/src/python/hsmm.py: ld_wrapper", "src/mssm/src/cpp/hsmm/llk.cpp: llk"]}
{"id": "C80", "title": "Bias corrected degrees of freedom are the trace of 2F - FF", "statement": "After `compute_bias_corrected_edf(model)`, with F = V A (V the unscaled coefficient covariance `lvi.T@lvi`, A the unscaled negative Hessian of the log-likelihood), `model.edf1` equals trace(2F - FF), equals the number of unpenalised coefficients plus the sum of `model.term_edf1`, is at least the effective degrees of freedom trace(F) and at most the number of coefficients in the model.", "quantifier": "All numbers of coefficients, all positive semi-definite Hessians and penalties with positive definite sum, all layouts of sorted penalties, all sets of dropped coefficients, all scales.", "why_tests_cant": "The bound and the trace identity hold over all matrices; tests compare one fitted model with stored numbers.", "anchors": ["src/mssm/src/python/utils.py: compute_bias_corrected_edf"]}
{"id": "C81", "title": "Covariance of the log smoothing parameters is the inverse negative Hessian of the restricted likelihood", "statement": "For a quadratic log-likelihood, `Hp` returned by `compute_Vp_WPS` is the matrix of second derivatives of the approximate restricted log-likelihood with respect to the log smoothing parameters, `dBetadRhos` holds the derivatives of the fitted coefficients, `Vp` is the inverse of -Hp if that is positive definite and a generalised inverse if it is positive semi-definite, the regularised `Vpr` is the inverse after adding 0.1 to the diagonal, and Vp - Vpr is positive semi-definite.", "quantifier": "All numbers of coefficients and penalties, all penalties and Hessians, all smoothing parameters, all scales, overlapping penalties, dropped coefficients.", "why_tests_cant": "Derivatives of a determinant and of a fitted coefficient vector cannot be checked at all parameter values by running the code; finite differences only approximate them.", "anchors": ["src/mssm/src/python/utils.py: compute_Vp_WPS"]}
{"id": "C82", "title": "Smoothing-uncertainty correction is the stated covariance and never lowers a variance", "statement": "`compute_Vb_corr_WPS` returns Vc = D Vp D' with D the derivatives of the fitted coefficients with respect to the log smoothing parameters, and Vcc = scale * sum_kl Vpr_kl E_k E_l' with E_k the derivative of the inverse Cholesky factor of the unscaled penalised negative Hessian. The corrected covariance minus the uncorrected one is positive semi-definite, so no reported standard error gets smaller.", "quantifier": "All numbers of coefficients and penalties, all positive definite penalised Hessians, all scales, with and without dropped coefficients.", "why_tests_cant": "Positive semi-definiteness and the derivative identities quantify over all matrices; tests use a few models.", "anchors": ["src/mssm/src/python/utils.py: compute_Vb_corr_WPS", "src/mssm/src/python/utils.py: correct_VB"]}
{"id": "C83", "title": "Predictions, differences and posterior draws belong to the requested formula and have the stated pointwise coverage", "statement": "`predict` returns the additive predictor of formula `par` at the estimated coefficients, `predict_diff` the difference of two predictions, and the interval pred -/+ b holds the predictor (or difference) with posterior probability 1-alpha, separately per row; b is 0 only if there is no posterior uncertainty. `get_pars` and `sample_post` return coefficients (draws) of exactly that formula's block, also with several formulas and extra coefficients, and the draws are parts of one draw from the posterior of all coefficients.", "quantifier": "All models (numbers of formulas, coefficients, extra coefficients, roots of the covariance), all new model matrices, all alpha in (0,1).", "why_tests_cant": "Coverage is a statement about a measure; tests compare a few numbers for a few models and cannot see a wrong block for other layouts.", "anchors": ["src/mssm/models.py: GSMM.predict", "src/mssm/models.py: GSMM.predict_diff", "src/mssm/models.py: GSMM.sample_post", "src/mssm/models.py: GSMM.get_pars"]}
{"id": "C84", "title": "Whole-function intervals contain the stated share of sampled functions", "statement": "With `whole_interval=True` the half widths are the pointwise ones times one factor, chosen so that at least 1-alpha of the functions sampled from the posterior lie within the interval at every row, and not more than needed.", "quantifier": "All models, new model matrices, selections of terms, numbers of samples, draws and alpha.", "why_tests_cant": "A counting statement for all draws; tests fix a seed.", "anchors": ["src/mssm/src/python/utils.py: adjust_CI", "src/mssm/models.py: GSMM.predict", "src/mssm/models.py: GSMM.predict_diff"]}
{"id": "C85", "title": "The table of linear coefficients reports correct tests", "statement": "print_parametric_terms prints one line per linear coefficient of the chosen formula, in order, with the coefficient of that formula; the p-value is the posterior-based two-sided normal (known scale) or t (estimated scale) tail probability of a statistic at least as large; it is at most alpha exactly if predict's 1-alpha interval for that coefficient alone excludes zero; significance stars agree with the legend.", "quantifier": "all models, formulas, coefficients, covariance matrices, levels", "why_tests_cant": "the tests never look at printed p-values; the relation to intervals is for all levels and covariances", "anchors": ["src/mssm/src/python/utils.py: print_parametric_terms", "src/mssm/models.py: print_parametric_terms"]}
{"id": "C86", "title": "P-values of smooth terms are exact and valid under the null hypothesis", "statement": "The statistics computed for a smooth term are Wood's (2013) rank r Wald statistics; if the coefficients of the term are normal around zero with the covariance used, the p-value is the probability of a statistic at least as large (exact for integer r; mean over two signs otherwise) and the test rejects at level alpha with probability at most alpha; the result does not depend on arbitrary choices of the eigenvalue routine.", "quantifier": "all covariances, coefficients, degrees of freedom, levels", "why_tests_cant": "a null distribution cannot be settled by finitely many data sets, and the sign of an eigenvector is fixed on a given machine", "anchors": ["src/mssm/src/python/utils.py: approx_smooth_p_values"]}
{"id": "C87", "title": "Each test and each printed line belongs to the term named on it", "statement": "approx_smooth_p_values tests each smooth function with its own coefficients and its own degrees of freedom; print_smooth_terms shows, on the line of each function, its own degrees of freedom and p-value.", "quantifier": "all formulas with impulse response, smooth, random and linear terms, penalised or not", "why_tests_cant": "positions depend on the combination of term types; the tests fix one formula", "anchors": ["src/mssm/src/python/utils.py: approx_smooth_p_values", "src/mssm/src/python/utils.py: print_smooth_terms"]}
{"id": "C88", "title": "The estimated scale parameter estimates the scale", "statement": "The scale parameter reported by fit for families with a scale is the sum of squared Pearson residuals over the number of observations minus the effective degrees of freedom, with or without an offset; for unpenalised Gaussian models, also with an AR(1) model of the errors, its mean is the variance of the errors.", "quantifier": "all models with estimated scale, all data", "why_tests_cant": "the mean of an estimator over all data is no finite check; tests use no offset", "anchors": ["src/mssm/src/python/gamm_solvers.py: update_scale_edf", "src/mssm/src/python/gamm_solvers.py: update_PIRLS"]}
{"id": "C89", "title": "A fitted model describes its last fit", "statement": "After fit(...) succeeds, log-likelihood, residuals, model matrix and the degrees of freedom used by tests are those of a new model after the same call, whatever calls were made before; with restart=True estimation continues from the penalties of the last fit; fit(restart=True) of a new model raises the documented ValueError.", "quantifier": "all sequences of calls of fit and of tests, all arguments", "why_tests_cant": "tests fit each model once", "anchors": ["src/mssm/models.py: GAMM.fit", "src/mssm/models.py: GAMM.get_llk", "src/mssm/models.py: GAMM.get_resid", "src/mssm/models.py: GAMM.get_mmat", "src/mssm/src/python/utils.py: compute_bias_corrected_edf"]}
{"id": "C90", "title": "The log-likelihood reported for Gaussian models", "statement": "get_llk(penalized=False) is the log density of the response at the estimates, with offset and AR(1) model; get_llk(penalized=True) is the maximum of the penalised log-likelihood, which the estimates attain.", "quantifier": "all Gaussian models with identity link, all data, penalties, offsets and rho", "why_tests_cant": "a maximum over all coefficients is no finite check", "anchors": ["src/mssm/models.py: GAMM.get_llk", "src/mssm/models.py: GAMM.fit", "src/mssm/src/python/gamm_solvers.py: solve_gamm_sparse"]}
{"id": "C91", "title": "Convergence diagnostics cover the parameters asked for", "statement": "check_convergence reports, for every coefficient (type 0) or every group-level coefficient (other types), every scale, extra and smoothing parameter and the log density given, the diagnostic computed from that parameter's own draws with every chain split into halves.", "quantifier": "all numbers of chains, draws and parameters, all models", "why_tests_cant": "positions depend on the model; tests do not call it", "anchors": ["src/mssm/src/python/mcmc.py: check_convergence"]}
{"id": "C92", "title": "Re-parameterised smooths are the same smooths", "statement": "A smooth term with rp=1 or rp=2 describes the same functions with the same penalties as without it: each coefficient vector corresponds to one new vector with the same values at all data and the same value of every penalty; the factors returned are roots of the penalties, the rank is the rank of the penalty, and terms made identifiable sum to zero over the data.", "quantifier": "all model matrices, penalties, constraints and numbers of penalties", "why_tests_cant": "tests fit a few simulated data sets with rp=1 and compare edf and p-values; the effect of thresholds, of several penalties and of tensor terms is not visible there", "anchors": ["src/mssm/src/python/repara.py: reparam", "src/mssm/src/python/terms.py: absorb_repara, build_penalty, build_matrix", "src/mssm/src/python/formula.py: __absorb_constraints"]}
{"id": "C93", "title": "Results of a GAMMLSS or general smooth fit belong together", "statement": "After fitting a GAMMLSS or GSMM, the smoothing parameters stored with the penalties are those the returned coefficients, Hessian, effective degrees of freedom and penalty were computed with; a reported convergence (code 0) means that the penalised log-likelihood settled; every fit ends, keeps smoothing parameters in [1e-7, 1e7] and leaves frozen ones alone.", "quantifier": "all fits: any likelihood, number of penalties, step control and extension settings, number of outer iterations, including fits that exhaust max_outer", "why_tests_cant": "The state at the end depends on which of several exits an unbounded history of steps, corrections, extensions and random restarts takes; tests fit a handful of converging models", "anchors": ["src/mssm/src/python/gamm_solvers.py: solve_gammlss_sparse", "src/mssm/src/python/gamm_solvers.py: solve_generalSmooth_sparse", "src/mssm/src/python/gamm_solvers.py: correct_lambda_step_gamlss", "src/mssm/src/python/gamm_solvers.py: correct_lambda_step_gen_smooth"]}
{"id": "C94", "title": "Results of the coefficient iterations belong together", "statement": "The coefficient iterations of GAMMLSS and general smooth models return the log-likelihood and penalised log-likelihood of the coefficients they return and the Hessian at these coefficients; a finite penalised log-likelihood stays finite and is never lowered; the iterations end by themselves once the penalised log-likelihood has settled; dropped coefficients are zero.", "quantifier": "all likelihoods, penalties, proposals, random restarts and numbers of iterations", "why_tests_cant": "Halvings, restarts, drops and limits combine in unboundedly many ways; tests follow a few converging runs", "anchors": ["src/mssm/src/python/gamm_solvers.py: update_coef_gammlss", "src/mssm/src/python/gamm_solvers.py: update_coef_gen_smooth", "src/mssm/src/python/gamm_solvers.py: correct_coef_step_gen_smooth", "src/mssm/src/python/gamm_solvers.py: restart_coef, restart_coef_gammlss, check_drop_valid_gensmooth, handle_drop_gsmm"]}
{"id": "C95", "title": "info.dropped names the coefficients that were removed", "statement": "After a fit, the coefficients listed in info.dropped are those that were removed: they are zero and have no variance, the REML score uses the determinant without them, and keep_drop leaves the same ones out of later iterations.", "quantifier": "all re-parameterisations, sets of kept coefficients, estimates and model matrices", "why_tests_cant": "Tests with dropped coefficients compare a few numbers of one model; whether an index refers to the coefficient or to a re-parameterised direction cannot be seen from one of them", "anchors": ["src/mssm/src/python/gamm_solvers.py: correct_lambda_step_gamlss, correct_lambda_step_gen_smooth, update_coef_gammlss, update_coef_gen_smooth", "src/mssm/models.py: GAMMLSS.get_reml, GSMM.get_reml", "src/mssm/src/python/utils.py: REML"]}
{"id": "C96", "title": "Extra coefficients survive dropping", "statement": "When unidentifiable coefficients of a general smooth model are dropped, the extra coefficients of the family (such as those of a covariance matrix) stay separate from those of the formulas, in the check and in the iterations that follow; models with shared model matrices can drop coefficients too.", "quantifier": "all numbers of formulas and extra coefficients, all sorted keep lists", "why_tests_cant": "Needs a rank deficient model with extra coefficients; the test suite has none", "anchors": ["src/mssm/src/python/gamm_solvers.py: check_drop_valid_gensmooth, handle_drop_gsmm, drop_terms_X", "src/mssm/src/python/exp_fam.py: MultiGauss.predict"]}
{"id": "C97", "title": "Fits of strictly additive models are exact, wherever the data are", "statement": "A fit of a Gaussian model with identity link that reports convergence (info.code == 0) returns the minimiser of the residual sum of squares plus penalty over all rows with a response, with linear predictor, scale parameter, degrees of freedom and penalty belonging to these coefficients; reading the rows from several files, with covariates read again or kept in memory and for any number of cores, gives the same result as one data-frame with these rows; unfrozen smoothing parameters stay between 1e-7 and 1e7 and frozen ones are unchanged; with fixed smoothing parameters the fit converges in the second iteration.", "quantifier": "For all data, splits into files, missing responses, numbers of cores, penalties, starting values, extension and control settings, and values of traces and scale.", "why_tests_cant": "Tests compare one data set read from files with stored numbers; they cannot cover splits, missing values, every path of the step control, or models whose coefficients are not identified.", "anchors": ["src/mssm/src/python/gamm_solvers.py: solve_gamm_sparse, solve_gamm_sparse2, update_coef, correct_lambda_step, correct_coef_step, read_XTX, keep_XTX, read_eta, keep_eta", "src/mssm/src/cpp/eigen_solvers.cpp: solve_coef, solve_coefXX", "src/mssm/models.py: GAMM.fit"]}
{"id": "C98", "title": "Simulated hidden semi-Markov series follow the model", "statement": "`HSMMFamily.predict` draws state series from the model whose likelihood the family computes: a state series is returned with the total probability of the segmentations (initial state, duration and transition probabilities, time-varying tables read at the time points the likelihood uses) from which it can be read off. In event models a bump lasts as long as the template and gets the template entry of its position, and its trace in the following flat (with autocorrelated residuals) is added at the first time point of the flat. Different series are simulated independently.", "quantifier": "for all stochastic tables (constant or time-varying), numbers of states, maximum durations, series lengths, templates, random streams", "why_tests_cant": "The claim is about the law of a random series; a test sees a few draws from one seed, and the existing one only compares draws of equivalent models with each other, which agree however long the segments are.", "anchors": ["src/mssm/src/python/hsmm.py: HSMMFamily.predict"]}
{"id": "C99", "title": "Fixed matrices per series", "statement": "If transition matrices and initial distributions are passed as lists with one entry per series, `compute_Tpi` returns for every series its own entry; if they are estimated or common to all series it returns these. The result does not depend on the number of cores.", "quantifier": "for all numbers of series and cores, all matrices", "why_tests_cant": "Whether a loop variable shadows a name used by an inner function shows only for lists on one core; tests use common matrices.", "anchors": ["src/mssm/src/python/hsmm.py: HSMMFamily.compute_Tpi"]}
{"id": "C100", "title": "Residuals of state durations", "statement": "The residuals of types `viterbi_dur` and `posterior_dur` of a series are computed from the path that `decode_viterbi` (or the paths that `sample_posterior_states`) returns for that series. Every run of equal states contributes the residual of its length under the duration model the likelihood uses for it: the model of first segments for the first run, the row of the first time point of the run if duration models change over time.", "quantifier": "for all families, signals, series, fixed or estimated matrices, autocorrelation, paths", "why_tests_cant": "Paths, numbers of series and switches are unbounded; single series with autocorrelation, matrices per series, and time-varying durations are combinations no test covers.", "anchors": ["src/mssm/src/python/hsmm.py: HSMMFamily.get_resid", "src/mssm/src/python/hsmm.py: _compute_dur_res_series", "src/mssm/src/python/hsmm.py: HSMMFamily.decode_viterbi", "src/mssm/src/python/hsmm.py: HSMMFamily.sample_posterior_states"]}
{"id": "C101", "title": "Clustered random smooths bracket the derivatives of the exact ones", "statement": "With `approx_deriv` a factor smooth is discretised: covariates are binned, every series of the data becomes one vector of bin counts, series are clustered within the combinations of the `split_by` factors, and traces are computed only for the representative of each cluster and copied with weights. For the approximation to make sense every series has to be in exactly one cluster, the two sums returned (weights and ones) have to enclose the exact trace term whenever a representative's contribution dominates its cluster, the series number used to place coefficients has to be the level of the factor, and different series must have different vectors unless they have the same bins.", "quantifier": "All data sets, split factors, labels and orders returned by the clustering, numbers of levels, coefficients per level.", "why_tests_cant": "Clusters come from a random optimiser, the tests compare one fit with tolerance; the relations concern arbitrary labels and data.", "anchors": ["src/mssm/src/python/formula.py: Formula.__discretize", "src/mssm/src/python/formula.py: Formula.__split_discretize", "src/mssm/src/python/formula.py: Formula.__cluster_discretize", "src/mssm/src/python/matrix_solvers.py: compute_B", "src/mssm/src/python/matrix_solvers.py: compute_block_B_shared_cluster"]}
{"id": "C102", "title": "Identifiability constraints remove the constant and lower-order effects", "statement": "Smooth terms with `identifiable=True` are constrained so that the model stays identifiable next to an intercept: a smooth of one variable or a `te` smooth contains no constant function (also separately for the levels of `by` and relative to `by_cont`), and a smooth of several variables without `te` contains no main effects and no interactions of fewer variables. With the QR constraint the columns sum to zero over the observed data, as documented for `constraint`. Constraints computed file by file are those of the concatenated data.", "quantifier": "All bases whose functions sum to one, all data on which the unconstrained basis has independent columns, all constraint types, numbers of variables, files, levels and coefficients.", "why_tests_cant": "Tests fit a few models; identifiability is a statement about all coefficient vectors, and the agreement between files and data-frame about all ways to split data.", "anchors": ["src/mssm/src/python/formula.py: _compute_constraint_single_MP", "src/mssm/src/python/formula.py: Formula.__absorb_constraints", "src/mssm/src/python/formula.py: Formula.__absorb_constraints2", "src/mssm/src/python/terms.py: f.build_matrix", "src/mssm/src/python/terms.py: f.absorb_repara"]}
{"id": "C103", "title": "Nested smooth terms keep the space of functions and lose redundancy", "statement": "When a formula contains a variable in several smooth terms (for instance f(['x']), f(['z']) and f(['x','z'], te=True)), the Formula drops coefficients of the larger terms such that the columns which remain of a term are linearly independent of the intercept and the remaining columns of all terms it is compared with, while the space of functions the model can express stays the same; drop_coef of a term lists exactly the positions of the dropped columns in the matrix of all levels of its by factor; terms of one variable lose nothing. Terms count as nested when they share a variable for a level of their by factors, binary and by_cont variables included.", "quantifier": "for all formulas, model matrices, numbers of terms, variables and levels", "why_tests_cant": "tests fit a few formulas with one nested pair; independence and equality of column spaces, the order in which terms are compared and the positions for several levels concern all formulas and data", "anchors": ["src/mssm/src/python/formula.py: Formula.__fix_nested", "src/mssm/src/cpp/eigen_solvers.cpp: id_dependencies"]}
{"id": "C104", "title": "Simulated noise of event models has the distribution of the likelihood", "statement": "For event models `HSMMFamily.predict` adds noise to the simulated template. Mean plus noise has the density that `llk` and the decoders evaluate for an observation, and the cumulative probability stored for the residuals is the distribution function of that density, for both choices of `hmp_fam`; what is evaluated as density integrates to one. Different states, signals, time points and samples use different random numbers, and the noise is independent of the simulated states and durations.", "quantifier": "for all means, scales, seeds, numbers of states, signals, samples and time points", "why_tests_cant": "tests simulate from one seed and look at a plot or an average; a law is a statement about all events, and the sharing of random numbers shows only in joint distributions", "anchors": ["src/mssm/src/python/hsmm.py: _sample_series_emissions", "src/mssm/src/python/hsmm.py: _compute_series_probs", "src/mssm/src/python/hsmm.py: HSMMFamily.predict"]}
{"id": "C105", "title": "Sampled smoothing parameters are scored by the restricted likelihood of the refitted model", "statement": "For the Monte Carlo corrections of smoothing parameter uncertainty (grid types JJJ2 and JJJ3) every sampled vector of smoothing parameters is scored by the restricted likelihood of the model refitted with it: coefficients, scale, degrees of freedom and covariance matrix are those of the refit, offsets included. Scores do not depend on the number of cores. A candidate that cannot be refitted gets weight zero and does not stop the correction. The estimate is among the candidates once. With only_expected_edf the candidates' degrees of freedom are traces of their covariance matrices against the Hessian of the fit.", "quantifier": "all data, model matrices, offsets, penalties, samples, numbers of cores, and restricted likelihood functions; all families for the exceptions and the Newton iterations", "why_tests_cant": "The quantities are internal to a Monte Carlo sum; tests compare corrected degrees of freedom for one seed without offset and without failing candidates.", "anchors": ["src/mssm/src/python/utils.py: compute_reml_candidate_GAMM", "src/mssm/src/python/utils.py: compute_REML_candidate_GSMM", "src/mssm/src/python/utils.py: _compute_VB_corr_terms_MP", "src/mssm/src/python/utils.py: estimateVp", "src/mssm/src/python/utils.py: correct_VB"]}
{"id": "C106", "title": "Impulse response terms describe the response to the event of each series", "statement": "The contribution of an impulse response term to the predictor of a row is the response function at the time elapsed since the event of the row's own series, zero before the event and outside of [min_c, max_c], whatever the number of variables and cores, with the coefficients of the level of the series if there is a factor by. Series and event onsets correspond one to one, also for new data with some of the series only; a factor that varies within a series is an error; missing times do not change other rows.", "quantifier": "all numbers and lengths of series, onsets, time steps, degrees, numbers of basis functions, coefficients, levels of by, and numbers of cores", "why_tests_cant": "Tests fit one simulated pupil data set with times starting at zero; they do not compare the term with the response it stands for, and have no missing times or subsets of series.", "anchors": ["src/mssm/src/python/terms.py: irf.build_matrix", "src/mssm/src/python/terms.py: build_ir_smooth_series", "src/mssm/src/python/smooths.py: B_spline_basis", "src/mssm/src/python/smooths.py: convolve_event"]}
{"id": "C107", "title": "Rows with missing values are left out of all parts of a model alike, and predictions do not invent values", "statement": "Fitting uses exactly those rows of the data in which the response and all variables of the model are available, in their order: the response, the matrices of all formulas and offsets refer to the same row of the data at every position. Every coefficient is informed by rows that are used. A prediction is missing if a variable it needs is missing or has an unknown level, and does not depend on variables of terms that are not used.", "quantifier": "for all data with missing values, all lists of formulas, terms, offsets and coefficients", "why_tests_cant": "Which rows line up depends on the pattern of missing values across formulas; tests use complete data or a few patterns.", "anchors": ["src/mssm/src/python/formula.py: Formula.encode_data", "src/mssm/models.py: GSMM.get_ys", "src/mssm/models.py: GSMM.get_mmat", "src/mssm/models.py: GAMMLSS.fit", "src/mssm/models.py: GSMM.predict", "src/mssm/models.py: GAMM.fit"]}
{"id": "C108", "title": "Hessian, covariance factor and degrees of freedom of a quasi-Newton fit belong to the same penalised Hessian", "statement": "After fitting a general smooth model with method='qEFS' and form_VH=True, let A be the negative of the returned Hessian plus the total penalty at the returned smoothing parameters. The returned factor LV satisfies LV.T @ LV = inv(A), whether it was computed by factorising A or (few stored update vectors) by up- and downdating the factor of the penalty root, finite difference block and scaled identity; the returned degrees of freedom are those of the same A; A is positive definite, as requested with make_pd.", "quantifier": "for all stored update vectors, penalties, smoothing parameters, finite difference blocks and both approximations (quasi-Newton for all coefficients or only for some)", "why_tests_cant": "Tests compare a few fitted models with stored numbers. They cannot show that a sequence of rank one updates and downdates with arbitrary eigenvalues ends at the same matrix as the explicit formula, nor that the outer loop, the re-sampling step and the final computation use the same smoothing parameters and update vectors for every way in which the loop can end.", "anchors": ["src/mssm/src/python/gamm_solvers.py: getCholnH", "src/mssm/src/python/gamm_solvers.py: getExplicitnH", "src/mssm/src/python/gamm_solvers.py: getImplicitV", "src/mssm/src/python/gamm_solvers.py: computetrVS3", "src/mssm/src/python/gamm_solvers.py: sampleHcoef", "src/mssm/src/python/gamm_solvers.py: solve_generalSmooth_sparse", "src/mssm/src/cpp/dchol.cpp: uChol"]}
{"id": "C109", "title": "Fits by QR decomposition solve the penalised least squares problem and report which coefficients were dropped", "statement": "With method='QR' (the default of GAMM.fit) the coefficients of a step minimise ||y - X b||^2 + b' S b, where S is the total penalty, among all b that are zero at the dropped coefficients; kept and dropped coefficients partition all coefficients, there are as many kept coefficients as the rank, coefficients are dropped only if data and penalty cannot tell them apart; the factor that is kept for standard errors and degrees of freedom squares to X'X + S on the kept coefficients and is zero elsewhere. The root of S that is passed to the solver squares to S.", "quantifier": "for all model matrices, responses, penalties (several per term, repeated over levels, in several formulas), smoothing parameters, column orderings and ranks", "why_tests_cant": "Tests fit a few models of full rank in which penalised terms follow each other. They cannot show that two column permutations, insertion of dropped coefficients and a root assembled from blocks belong to the stated problem for every rank and every arrangement of penalties.", "anchors": ["src/mssm/src/python/gamm_solvers.py: compute_S_emb_pinv_det", "src/mssm/src/python/gamm_solvers.py: update_coef", "src/mssm/src/python/gamm_solvers.py: update_coef_and_scale", "src/mssm/src/python/matrix_solvers.py: cpp_solve_coef_pqr", "src/mssm/src/cpp/eigen_solvers.cpp: solve_coef_pqr2"]}
{"id": "C110", "title": "Update vectors of quasi-Newton fits belong to the log-likelihood without penalty", "statement": "Fits by qEFS approximate the Hessian of the log-likelihood from pairs of a step and minus the change of the gradient of the log-likelihood over this step. The optimiser minimises the negative penalised log-likelihood with its gradient. Whatever smoothing parameters and bases the outer iterations used, the stored pairs are the newest maxcor ones over all iterations and each belongs to the log-likelihood without penalty in the original coefficients. With finite differences for some coefficients every pair is corrected with the Hessian at the coefficients reached by its step. Sampled pairs are steps ending at the estimate, in the order drawn, and left out only if the update is not defined; perturbations at which the model is not defined count as rejected when the radius is adapted; if no pair could be sampled the fit continues after the warning.", "quantifier": "all log-likelihoods, gradients, penalties, bases, numbers of steps and outer iterations, options and streams of normal numbers", "why_tests_cant": "tests look at final coefficients of a few models; wrong pairs only change the approximation of the Hessian and with it smoothing parameters and intervals", "anchors": ["src/mssm/src/python/gamm_solvers.py: update_coef_gen_smooth", "src/mssm/src/python/gamm_solvers.py: sample_ys_qefs", "src/mssm/src/python/gamm_solvers.py: update_ys_qefs", "src/mssm/src/python/gamm_solvers.py: init_qEFS_storage", "src/mssm/src/python/gamm_solvers.py: correct_lambda_step_gen_smooth"]}
{"id": "C111", "title": "The sampler stops only if the returned draws meet the criteria", "statement": "sample_mssm returns either all n_iter draws of every chain or, only with auto_converge=True, the second half of the draws made so far; in the second case the effective sample size and Rhat of the returned draws of every monitored parameter and of the log density meet the criteria and at least min_iter draws are returned. All arrays of the result hold parts of the same draws, and the callback is called after every block with the draws so far.", "quantifier": "every model, number of chains, n_iter, n_steps, min_iter, M_adapt, diagnostics and draws", "why_tests_cant": "An early stop depends on the whole history of a random run; tests look at single runs and cannot tell which draws the diagnostics were computed from.", "anchors": ["src/mssm/src/python/mcmc.py: sample_mssm", "src/mssm/src/python/mcmc.py: check_convergence", "src/mssm/src/python/custom_types.py: SamplerResult"]}
{"id": "C112", "title": "Blocks of draws use different random numbers", "statement": "In one call of sample_mssm every chain uses other random numbers in every block of draws, and other ones than the other chains.", "quantifier": "every number of chains and blocks and every sequence of numbers from the generator", "why_tests_cant": "Repeated seeds appear at random and leave no trace in the output of a single run.", "anchors": ["src/mssm/src/python/mcmc.py: sample_mssm", "src/mssm/src/cpp/mcmc.cpp: advance_chain"]}
{"id": "C113", "title": "The reported covariance belongs to the reported Hessian", "statement": "After a fit of a GAMMLSS or GSMM by Newton's method the covariance matrix of the coefficients (lvi.T @ lvi) is the inverse of the penalty matrix minus the stored Hessian. If the negative Hessian of the log-likelihood is positive semi-definite it is stored as it is (info.eps is zero). Otherwise it is perturbed by the smallest tried multiple of the identity for which the traces needed to update the smoothing parameters have the right sign, so that the negative Hessian is at least positive semi-definite.", "quantifier": "every log-likelihood, gradient, Hessian, set of penalties and smoothing parameters", "why_tests_cant": "Perturbations only happen for unusual data; a test sees a warning and numbers, not whether covariance and Hessian are two sides of the same matrix.", "anchors": ["src/mssm/src/python/gamm_solvers.py: update_coef_gammlss", "src/mssm/src/python/gamm_solvers.py: update_coef_gen_smooth", "src/mssm/src/python/gamm_solvers.py: compute_lgdetD_bsb", "src/mssm/src/python/gamm_solvers.py: calculate_edf", "src/mssm/models.py: GAMMLSS.fit", "src/mssm/models.py: GSMM.fit"]}
{"id": "C114", "title": "Traces do not depend on whether the inverse is formed", "statement": "Formulas with a factor smooth that uses approx_deriv are fitted without forming the inverse of the Cholesky factor. For every penalty that is not itself approximated, the trace that enters the degrees of freedom and the update of the smoothing parameter is the same as with the inverse, wherever the smooth stands in the formula.", "quantifier": "every factor, permutation, penalty, number of levels, position in the formula and number of processes", "why_tests_cant": "The result is a number close to the right one; a test would have to fit the same model both ways for every order of terms.", "anchors": ["src/mssm/src/python/matrix_solvers.py: compute_B", "src/mssm/src/python/gamm_solvers.py: calculate_edf", "src/mssm/src/python/formula.py: build_penalties", "src/mssm/models.py: GAMM.fit"]}
{"id": "C115", "title": "P-values of smooth terms come from an accurate distribution function", "statement": "The function that evaluates the distribution of a weighted sum of chi-square variables either reports a fault, with a value that is no probability, or returns the distribution function up to the required accuracy. The p-values of the tests of smooth terms inherit this accuracy.", "quantifier": "every list of weights and degrees of freedom, every argument, required accuracy and limit on the number of terms", "why_tests_cant": "The result is a real number produced by numerical inversion with several adaptive loops; a test compares it at a few points with another implementation of the same method.", "anchors": ["src/mssm/src/cpp/davies.cpp: qf", "src/mssm/src/cpp/davies.cpp: order", "src/mssm/src/cpp/davies.cpp: cfe", "src/mssm/src/cpp/davies.cpp: truncation", "src/mssm/src/cpp/davies.cpp: integrate", "src/mssm/src/python/utils.py: approx_smooth_p_values"]}
{"id": "C116", "title": "Fits start from admissible values", "statement": "The mean a fit starts from lies in the domain of family and link for every response in the range of the family, so that every observation has a finite pseudo-observation with a positive weight in the first step. Coefficients at the start have one entry for every coefficient and are split into those of the formulas; smoothing parameters start from the values given by position, else from equal positive values; the columns for structured quasi-Newton fits are different columns of unpenalised or smooth terms, no more than the budget, never all.", "quantifier": "every response, offset, family, link, list of formulas, list of starting values, budget and draw", "why_tests_cant": "Starting values are overwritten by the fit; a poor start shows only as a failed or slower fit for particular responses, and tests use responses that do not lie on the boundary.", "anchors": ["src/mssm/src/python/exp_fam.py: init_mu", "src/mssm/src/python/exp_fam.py: init_coef", "src/mssm/src/python/exp_fam.py: init_lambda", "src/mssm/src/python/utils.py: GAMLSSGSMMFamily.init_coef", "src/mssm/src/python/gamm_solvers.py: init_step_gam", "src/mssm/models.py: GSMM.fit", "src/mssm/models.py: GAMMLSS.fit"]}
{"id": "C117", "title": "F tests and approximate p-values of smooth terms", "statement": "`approx_smooth_p_values` for a model with an estimated scale and a smooth term with a whole number k of degrees of freedom: the p-value is the upper tail of an F law with k and rs_df degrees of freedom (rs_df any positive number) at the statistic over k, which is the probability, under the hypothesis that the function is zero, of a statistic at least as large relative to an independent scale estimate; if the scale estimate is the true scale times chi-square over rs_df, the probability of a p-value at most alpha is at most alpha. If Davies' method reports a fault (other than round-off for both statistics) or force_approx is set, the p-values are tails of a chi-square law with r degrees of freedom (known scale) or of an F law with r and rs_df degrees of freedom (estimated scale), computed through gamma and beta distribution functions; the chi-square law has the mean and variance of the statistics under the null hypothesis.", "quantifier": "for all eigenvalues, eigenvectors with first entries not zero, coefficients, degrees of freedom, residual degrees of freedom and levels", "why_tests_cant": "A test sees single p-values; that they are tail probabilities of the right law for all inputs is a statement about measures.", "anchors": ["src/mssm/src/python/utils.py: approx_smooth_p_values"]}
{"id": "C118", "title": "Families are probability distributions with the stated mean and variance, and simulation follows them", "statement": "For every exponential family (Binomial, Gaussian, Gamma, InvGauss, Poisson) the exponential of `lp` is a probability density (mass function) on the range of the family, its mean is `mu` and its variance is the scale times `V(mu)`. If the response follows the family, the derivative of the log-likelihood in the linear predictor has mean zero and mean square equal to the Fisher weight over the scale, Newton weights have the Fisher weight as mean, and squared Pearson residuals have the scale as mean. The same holds for `ScaledT` with `V` and `Ed2Ddmu`. `rvs` of GAUMLSS, GAMMALS, MULNOMLSS and MultiGauss draws from the law with log density `lp` (`llk` of a row, up to its constant), `exp(lcp)` is the distribution function of this law, and the residual transform turns simulated rows of MultiGauss into independent standard normal entries.", "quantifier": "for all parameters in the range of the family, scales, links, observations and square roots of the covariance matrix", "why_tests_cant": "That a function integrates to one and has given moments for all parameters cannot be seen from sample values; simulated samples are compared with a law only up to chance.", "anchors": ["src/mssm/src/python/exp_fam.py: Binomial.lp", "src/mssm/src/python/exp_fam.py: Gaussian.lp", "src/mssm/src/python/exp_fam.py: Gamma.lp", "src/mssm/src/python/exp_fam.py: InvGauss.lp", "src/mssm/src/python/exp_fam.py: Poisson.lp", "src/mssm/src/python/exp_fam.py: ScaledT.lp", "src/mssm/src/python/exp_fam.py: ScaledT.V", "src/mssm/src/python/exp_fam.py: ScaledT.Ed2Ddmu", "src/mssm/src/python/exp_fam.py: GAUMLSS.lcp", "src/mssm/src/python/exp_fam.py: GAMMALS.lcp", "src/mssm/src/python/exp_fam.py: GAUMLSS.rvs", "src/mssm/src/python/exp_fam.py: GAMMALS.rvs", "src/mssm/src/python/exp_fam.py: MULNOMLSS.rvs", "src/mssm/src/python/exp_fam.py: MultiGauss.rvs"]}
{"id": "C119", "title": "Condition number checks flag exactly the systems that cannot be solved safely", "statement": "`est_condition(L, Linv)` returns the largest and smallest singular values and the condition number of every `A` with `A.T @ A = L @ L.T`; the code is 0 exactly if no perturbation of `A.T @ A` below the unit round-off (relative to its norm) makes it singular, and 2 exactly if a perturbation of `A` below the unit round-off makes its columns dependent; relative errors of the right-hand side reach the solution multiplied by at most the squared condition number. `fit(check_cond=2)` raises an `ArithmeticError` if the condition number of some system is too high for the chosen method; `check_cond=1` issues a warning after convergence, stores the condition number in `info.K2`, and `info.code` is 0 only if the final system is safe.", "quantifier": "for all factors and their inverses, methods, sequences of systems and outcomes of the singular value solvers", "why_tests_cant": "Ill-conditioned systems near the thresholds are hard to produce in tests, and whether every unsafe system is flagged is a statement about all matrices.", "anchors": ["src/mssm/src/python/matrix_solvers.py: est_condition", "src/mssm/src/python/gamm_solvers.py: solve_gamm_sparse", "src/mssm/src/python/gamm_solvers.py: solve_gammlss_sparse", "src/mssm/src/python/gamm_solvers.py: solve_generalSmooth_sparse"]}
{"id": "C120", "title": "Hidden semi-Markov models with vectors of Gaussian emissions", "statement": "For an `HSMMFamily` in which some states have the family `MultiGauss` for all signals and others independent signals, `llk` is the log-likelihood of a hidden semi-Markov model whose emissions in those states have the multivariate normal density with the means of the formulas (shared formulas added) and precision `R.T @ R`; `gradient` returns one entry per coefficient, the parameters of the precision matrices included, and every entry is the derivative of `llk` in that coefficient; simulated emissions of different states and time points are independent draws.", "quantifier": "for all numbers of states, signals and time points, all mixtures of the two kinds of states, formulas, shared formulas and coefficients", "why_tests_cant": "Positions and derivatives have to be right for every layout of states, signals and shared formulas; a constant missing in one density does not change any single-family test.", "anchors": ["src/mssm/src/python/hsmm.py: compute_log_probs", "src/mssm/src/python/hsmm.py: compute_log_gradient", "src/mssm/src/python/hsmm.py: HSMMFamily.llk", "src/mssm/src/python/hsmm.py: HSMMFamily.gradient", "src/mssm/src/python/hsmm.py: sample_emissions", "src/mssm/src/python/exp_fam.py: MultiGauss.rvs"]}
{"id": "C121", "title": "Smoothing and scale parameters are estimated by maximising the restricted likelihood", "statement": "For additive Gaussian models the REML score is the log of the integral, over all coefficients, of the likelihood times the prior implied by the penalties. The gradient that controls the smoothing parameter updates is the gradient of that function. Proposed steps lead uphill. If the updates no longer move the smoothing parameters then the function is stationary in every smoothing parameter inside the permitted range, and in the scale parameter when it is estimated.", "quantifier": "for all model matrices, responses, penalties (several per term or one), smoothing parameters and scale parameters for which the penalised cross product is positive definite", "why_tests_cant": "Whether a formula is the derivative of an integral over the coefficients cannot be observed from finitely many evaluations; converged values in tests are compared with stored numbers only.", "anchors": ["src/mssm/src/python/gamm_solvers.py: compute_lgdetD_bsb", "src/mssm/src/python/gamm_solvers.py: grad_lambda", "src/mssm/src/python/gamm_solvers.py: step_fellner_schall_sparse", "src/mssm/src/python/gamm_solvers.py: correct_lambda_step", "src/mssm/src/python/gamm_solvers.py: update_scale_edf", "src/mssm/src/python/utils.py: REML"]}
{"id": "C122", "title": "Smoothing parameter updates of GAMMLSS and general smooth models are exact up to the change of the Hessian", "statement": "For models estimated by `GAMMLSS` and `GSMM` with a log-likelihood `l`, let `V(lam)` be the maximum of the penalised log-likelihood. `V` is convex in the smoothing parameters, `-bsb/2` is a subgradient, and a derivative when the maximisers are continuous (which holds for concave `l` with one maximiser); a larger smoothing parameter never increases `coef' S_j coef`. The gradient used to check steps is the gradient of the Laplace approximation of the marginal likelihood with the negative Hessian held fixed; the derivative of the Laplace approximation itself differs by half the trace of the inverse penalised Hessian times the change of the Hessian. Smoothing parameters inside the permitted range that are no longer moved are stationary points of the criterion with the Hessian held fixed, proposed steps lead uphill for it, and the small step rule is never used with positive semi-definite Hessians. The argument `gamma` of `GSMM.fit` weights the penalised log-likelihood in this criterion, and a larger value never leads to a larger proposed smoothing parameter. For quadratic log-likelihoods the criterion is the log of the integral over the coefficients. For other log-likelihoods the final smoothing parameters need not be stationary points of the Laplace approximation.", "quantifier": "all log-likelihoods, coefficients, penalties, smoothing parameters and directions", "why_tests_cant": "The criterion that the updates optimise is never evaluated by the code, and whether a point is stationary for it involves derivatives through the inner maximisation and an integral over all coefficients.", "anchors": ["src/mssm/src/python/gamm_solvers.py: correct_lambda_step_gamlss", "src/mssm/src/python/gamm_solvers.py: correct_lambda_step_gen_smooth", "src/mssm/src/python/gamm_solvers.py: compute_lgdetD_bsb", "src/mssm/src/python/gamm_solvers.py: step_fellner_schall_sparse", "src/mssm/src/python/gamm_solvers.py: grad_lambda", "src/mssm/src/python/gamm_solvers.py: calculate_edf"]}
{"id": "C123", "title": "Fits of additive Gaussian models do not depend on units, row order or parameterisation", "statement": "Let a Gaussian model with identity link and estimated scale be fitted. Multiplying the response by `a != 0` multiplies `model.coef` and the linear predictor by `a`, penalty and scale by `a**2`, and leaves smoothing parameters, degrees of freedom, the number of iterations and `info.code` as they are; adding to the response a combination `X u` of unpenalised columns (for example a constant) adds `u` to the coefficients and changes nothing else. Reordering the rows changes nothing, and every row keeps its prediction. Reordering terms or penalties permutes coefficients and smoothing parameters accordingly, and any invertible recombination of the columns with matching penalties (for example other units of a linear term) gives the same linear predictor, penalty, scale, smoothing parameters and convergence.", "quantifier": "for all data, penalties, options, starting values, numbers of iterations, factors, shifts, permutations and invertible matrices", "why_tests_cant": "Tests fit a few data sets once; invariance of the complete iteration (step control, acceleration, convergence tests) is a statement about pairs of executions for all data.", "anchors": ["src/mssm/src/python/gamm_solvers.py: solve_gamm_sparse", "src/mssm/src/python/gamm_solvers.py: correct_lambda_step", "src/mssm/src/python/gamm_solvers.py: correct_coef_step", "src/mssm/src/python/gamm_solvers.py: init_step_gam", "src/mssm/src/python/gamm_solvers.py: step_fellner_schall_sparse", "src/mssm/models.py: GAMM.fit"]}
{"id": "C124", "title": "Coefficients of generalised additive models maximise the penalised likelihood", "statement": "For fixed smoothing parameters let coefficients be estimated by `fit` of a generalised additive model (exponential family). The proposal computed from the working data equals the current coefficients exactly where the gradient of the penalised log-likelihood vanishes; otherwise it points uphill, so that all sufficiently short steps towards it increase the penalised log-likelihood. A pass takes the longest of the steps 1, 1/2, ..., 1/2**31 that does not lower it. If the passes converge, their limit is stationary unless all 32 steps failed at some pass; for the families and links with concave log-likelihood (binomial with logit, identity or log link, Gaussian with identity link, Gamma with log link, Poisson with log or identity link) it maximises the penalised log-likelihood, and is the only maximum when the log-likelihood is strictly concave. With `max_inner > 1` the coefficients returned for given smoothing parameters are the result of at most `max_inner - 1` passes, have at least the penalised log-likelihood of the incoming ones, and the loop ends early only when the penalised deviance changed by less than 1e-9 of its value.", "quantifier": "all families, links, responses, model matrices, offsets, penalties with identifiable coefficients, coefficients with admissible means, numbers of passes", "why_tests_cant": "A test compares coefficients with another package for a few data sets up to a tolerance. That the fixed points of the iteration are exactly the stationary points, and for which families they are global maxima, is a statement about all data and coefficients.", "anchors": ["src/mssm/src/python/gamm_solvers.py: PIRLS_pdat_weights", "src/mssm/src/python/gamm_solvers.py: update_PIRLS", "src/mssm/src/python/gamm_solvers.py: update_coef", "src/mssm/src/python/gamm_solvers.py: correct_coef_step", "src/mssm/src/python/gamm_solvers.py: correct_lambda_step"]}
{"id": "C125", "title": "Fits of GAMMLSS and general smooth models settle at stationary points", "statement": "For fixed smoothing parameters let coefficients be estimated by `fit` of a `GAMMLSS` or `GSMM` with gradient and Hessian of the family. The Newton proposal (with the ridge added when the negative penalised Hessian is not positive definite) equals the current coefficients exactly where the gradient of the penalised log-likelihood vanishes; otherwise it points uphill, so that all sufficiently short steps towards it increase the penalised log-likelihood; the same holds for gradient proposals. An iteration takes the longest of the steps 1, 1/2, ..., 1/2**31 that does not lower it. If the iterations converge, their limit is stationary unless all 32 steps failed. For concave log-likelihoods, in particular for proportional hazard models (`PropHaz`) and multinomial models (`MULNOMLSS`), the limit maximises the penalised log-likelihood. Not so in general: for a Gaussian location-scale model with four observations and the default initial coefficients every number of iterations leaves the log-likelihood at least log(25/17) below its maximum.", "quantifier": "all models with differentiable log-likelihood, penalties, initial coefficients, numbers of iterations; all survival data and designs; all numbers of classes, responses and designs of multinomial models", "why_tests_cant": "Tests compare estimates with another package for a few data sets. Which points the iteration can settle at, and for which families they are global maxima, is a statement about all data and starting values.", "anchors": ["src/mssm/src/python/gamm_solvers.py: update_coef_gammlss", "src/mssm/src/python/gamm_solvers.py: update_coef_gen_smooth", "src/mssm/src/python/gamm_solvers.py: newton_coef_smooth", "src/mssm/src/python/gamm_solvers.py: gd_coef_smooth", "src/mssm/src/python/gamm_solvers.py: correct_coef_step_gammlss", "src/mssm/src/python/gamm_solvers.py: correct_coef_step_gen_smooth", "src/mssm/src/python/gamm_solvers.py: deriv_transform_eta_beta", "src/mssm/src/python/exp_fam.py: PropHaz.hessian", "src/mssm/src/python/exp_fam.py: MULNOMLSS.dpars", "src/mssm/src/python/exp_fam.py: GAUMLSS.init_coef"]}
{"id": "C126", "title": "Fits of location-scale and hazard models do not depend on row order, time scale, units or basis", "statement": "Fits of `GAMMLSS` and `GSMM` models with gradient and Hessian of the family for fixed smoothing parameters: (a) with the rows in another order all methods return the same coefficients, log-likelihood, penalised log-likelihood, number and outcome of iterations; (b) for proportional hazard models the same holds when the times are replaced by a strictly increasing function of them; (c) when columns of the model matrices are multiplied by positive numbers and the penalty is changed accordingly, Newton's method returns the same fit with coefficients in the new units, even when a ridge has to be added; (d) when the columns of each predictor are recombined by an invertible matrix, Newton's method returns the same log-likelihood, predictors and variances of predictions, provided the penalised negative Hessian is positive definite at the coefficients visited. Without this proviso (d) is false, since the size of the ridge depends on the basis; (c) is false for gradient steps.", "quantifier": "all families, numbers of predictors, designs, responses, orders of rows; all survival data and increasing transformations; all positive units and invertible recombinations; all penalties, start values, tolerances and numbers of iterations", "why_tests_cant": "A test can refit a shuffled or rescaled data set once. That whole trajectories including step halving, ridge and convergence tests correspond for all data sets is a relation between two executions.", "anchors": ["src/mssm/src/python/gamm_solvers.py: update_coef_gammlss", "src/mssm/src/python/gamm_solvers.py: update_coef_gen_smooth", "src/mssm/src/python/gamm_solvers.py: newton_coef_smooth", "src/mssm/src/python/gamm_solvers.py: correct_coef_step_gammlss", "src/mssm/src/python/gamm_solvers.py: deriv_transform_eta_beta", "src/mssm/src/python/exp_fam.py: PropHaz.llk", "src/mssm/src/python/exp_fam.py: PropHaz.gradient", "src/mssm/src/python/exp_fam.py: PropHaz.hessian"]}
{"id": "C127", "title": "Shape parameters are estimated by an ascent that settles at stationary points", "statement": "For a family with shape parameters whose values are estimated, updateTheta never returns parameters with a lower log-likelihood than those it started from, and returns the same ones only if no step was found or the test for convergence was met; every iteration takes the longest of 32 halvings of its proposal that raises the log-likelihood, the proposal points uphill and is the Newton step where the log-likelihood is well conditioned; if the parameters converge as iterations go on their limit is a stationary point of the log-likelihood; for scaled t models the estimates follow a change of the units of the response, and the caller is told when no stationary point was reached.", "quantifier": "for every family, number of shape parameters, data, means and start", "why_tests_cant": "Monotonicity over all iterations, limits of unbounded iterations and invariance under all changes of units cannot be tested; whether parameters are stationary cannot be read off the result.", "anchors": ["src/mssm/src/python/gamm_solvers.py: updateTheta", "src/mssm/src/python/exp_fam.py: ScaledT.gradientLTheta", "src/mssm/src/python/exp_fam.py: ScaledT.hessianLTheta"]}
{"id": "C128", "title": "The numbering of hidden states is arbitrary", "statement": "Listing the states of a hidden semi-Markov model in another order, with their emission and duration families, formulas and coefficients (and the coefficients of transitions and initial distribution rewritten for the new reference states), leaves the log-likelihood of every series and of the data set, forward pseudo-residuals and predictive residuals unchanged; sampled state paths are drawn with the probability of the path they rename, and Viterbi decoding returns the old path with its states renamed.", "quantifier": "all series, numbers of states, tables of probabilities, coefficients and permutations of the states that respect the switches (ends_in_last, alternation of flats and events)", "why_tests_cant": "tests use one order of states and one data set; the claim is about every permutation and every input, and about which coefficients correspond to each other", "anchors": ["src/mssm/src/python/hsmm.py: HSMMFamily.llk", "src/mssm/src/python/hsmm.py: HSMMFamily.decode_viterbi", "src/mssm/src/python/hsmm.py: HSMMFamily.sample_posterior_states", "src/mssm/src/python/hsmm.py: HSMMFamily.get_resid"]}
{"id": "C129", "title": "Fits of generalised additive models do not depend on how the data are written down", "statement": "For given smoothing parameters, the coefficients found by penalised iteratively re-weighted least squares are the same for every order of the rows; with recombined columns of the model matrix (other units, another basis) and the penalty rewritten accordingly they are the old ones expressed in the new columns, with the same linear predictor, standard errors of predictions and effective degrees of freedom; with the effect of unpenalised coefficients moved into the offset they are smaller by these coefficients, with the same linear predictor. Binomial rows of several trials and one row per trial lead through the same coefficients pass by pass (the stopping rule is relative to the deviance, which differs by a constant, so that the last pass may differ).", "quantifier": "all families and links of generalised models, data, offsets, penalties, starting values, numbers of passes, invertible recombinations and permutations", "why_tests_cant": "a test compares two fits up to a tolerance for one data set; the claim is exact and covers halved steps, rows left out for invalid weights and systems that cannot be factorised", "anchors": ["src/mssm/src/python/gamm_solvers.py: update_PIRLS", "src/mssm/src/python/gamm_solvers.py: PIRLS_pdat_weights", "src/mssm/src/python/gamm_solvers.py: correct_coef_step", "src/mssm/src/python/gamm_solvers.py: solve_gamm_sparse"]}
{"id": "C130", "title": "Larger smoothing parameters give smoother fits", "statement": "In an additive Gaussian model, larger smoothing parameters give fewer effective degrees of freedom and (for given scale) smaller variances of all predictions. Raising the smoothing parameter of one penalty takes degrees of freedom from this penalty and none from the others, lowers the penalty of the fit and worsens the rest of the criterion; multiplying all smoothing parameters by a factor raises the residual sum of squares. As a smoothing parameter grows the penalty of the fit vanishes and the fit approaches the best one that the penalty leaves alone, at rate one over the smoothing parameter; for small ones the residual sum of squares approaches that of least squares.", "quantifier": "all data, model matrices, positive semi-definite penalties and pairs of positive smoothing parameters with positive definite systems", "why_tests_cant": "monotonicity and limits over all smoothing parameters cannot be sampled", "anchors": ["src/mssm/src/python/gamm_solvers.py: update_coef", "src/mssm/src/python/gamm_solvers.py: calculate_edf", "src/mssm/src/python/gamm_solvers.py: update_scale_edf"]}
{"id": "C131", "title": "Smooths by level are separate fits, random intercepts are shrunken deviations", "statement": "If the columns of an additive Gaussian model can be recombined such that each belongs to one level of a factor (smooths by level, the factor as parametric term in any coding) and levels share no smoothing parameter, fitted values and their variances (for given scale) of a level depend on the rows and smoothing parameters of that level only. Random intercepts for the levels of a factor are the mean deviations of the levels from the intercept times n / (n + lambda); they sum to zero, levels without rows get zero, the fit of a level lies strictly between its own mean and the intercept, which is a weighted mean of the levels' means. The columns built for these terms are of this form.", "quantifier": "all data, numbers of levels and rows, codings, smoothing parameters", "why_tests_cant": "a test compares one fit with separate fits for one data set; the claim holds for every coding and all data of the other levels", "anchors": ["src/mssm/src/python/gamm_solvers.py: update_coef", "src/mssm/src/python/terms.py: f.build_matrix", "src/mssm/src/python/terms.py: ri.build_matrix"]}
{"id": "C132", "title": "Smooths do not depend on units, origin and direction of covariates", "statement": "B_spline_basis of a covariate in other units and with another origin (a x + b with a > 0, given boundaries converted alike or taken from the data) is the same matrix, also for impulse response bases and margins of tensor smooths, each with units of its own. With the sign changed it has the same columns in reverse order (degree at least one; of degree zero this fails in the knots). Difference penalties read the same from both ends. So a generalised additive model with one smooth of -x instead of x has the same linear predictor after every number of passes, its coefficients reversed.", "quantifier": "all covariates, boundaries, numbers of basis functions, degrees, penalty orders, units, origins; all families, links, data, other terms, starting values, numbers of passes", "why_tests_cant": "tests fix one covariate; a knot placement or boundary in absolute units, or a half-open interval at one end, changes fits only for some units", "anchors": ["src/mssm/src/python/smooths.py: tpower", "src/mssm/src/python/smooths.py: bbase", "src/mssm/src/python/smooths.py: B_spline_basis", "src/mssm/src/python/smooths.py: TP_basis_calc", "src/mssm/src/python/penalties.py: DifferencePenalty.constructor", "src/mssm/src/python/gamm_solvers.py: update_PIRLS"]}
{"id": "C133", "title": "Larger smoothing parameters give smoother generalised, hazard and multinomial fits", "statement": "For generalised additive models with concave log-likelihood the coefficients at which the iteration for given smoothing parameters comes to rest have the smallest penalised deviance. Raising one smoothing parameter lowers (or keeps) the penalty of its term and raises (or keeps) the deviance plus the other penalties. The penalty of a fit is at most the deviance of any unpenalised coefficients, its deviance exceeds that of other coefficients by at most their penalty. With a smoothing parameter growing without bound the penalty of its term tends to zero. The same exchange holds for proportional hazard and multinomial models and all models with concave log-likelihood fitted by Newton's method.", "quantifier": "all data, offsets, model matrices, penalties and smoothing parameters; families and links with concave log-likelihood", "why_tests_cant": "tests compare two smoothing parameters on one data set; a sign or a factor in the penalty can reverse the effect only for some data", "anchors": ["src/mssm/src/python/gamm_solvers.py: update_PIRLS", "src/mssm/src/python/gamm_solvers.py: correct_coef_step", "src/mssm/src/python/gamm_solvers.py: correct_lambda_step", "src/mssm/src/python/gamm_solvers.py: newton_coef_smooth", "src/mssm/src/python/exp_fam.py: PropHaz.llk", "src/mssm/src/python/exp_fam.py: MULNOMLSS.llk"]}
{"id": "C134", "title": "Counts with exposures may be added up, and repeating rows is dividing smoothing parameters", "statement": "For given smoothing parameters: in a Poisson model with log link and `offset = log(exposure)`, rows with the same covariates can be replaced by one row with the sum of the counts and the log of the sum of the exposures; the systems solved are the same, so that coefficients agree pass by pass, and the mean of the joint row is the sum of the means. In a model of any family, fitting data in which every row appears q times (in any order) with smoothing parameters q times as large ends with the same coefficients after the same number of passes; squared standard errors are divided by q for the same scale parameter.", "quantifier": "all data, exposures, groupings of rows, numbers of copies, penalties, starting values and numbers of passes; all families and links for repeated rows", "why_tests_cant": "a test compares two fits of one data set up to a tolerance; the claim is exact, covers all groupings and the step control, and for repeated rows the stopping rule, invalid rows and systems that cannot be factorised", "anchors": ["src/mssm/src/python/gamm_solvers.py: update_PIRLS", "src/mssm/src/python/gamm_solvers.py: PIRLS_pdat_weights", "src/mssm/src/python/gamm_solvers.py: correct_coef_step", "src/mssm/src/python/gamm_solvers.py: correct_lambda_step", "src/mssm/models.py: GAMM.fit"]}
{"id": "C135", "title": "The approximation returned by quasi-Newton fits is taken at the final coefficients", "statement": "For models fitted with `method=\"qEFS\"`: the columns of the Hessian approximated by finite differences are different coefficients of the model, in ascending order, taken from terms that are not factor smooths and from the additional coefficients of the family, as many as `structured_qefs_budget` allows, and at least one coefficient is left to the quasi-Newton update; at least one update vector and at most as many as coefficients are asked for. Sampling the approximation again is tried at most 30 times with successive seeds until enough updates are found; without updates the approximation stays as it was, and otherwise each stored pair belongs to a step that ends at the coefficients returned and the approximation reproduces minus the change of the gradient over that step. The degrees of freedom reported afterwards are those of the new approximation, or the previous ones without updates, also for models without penalties.", "quantifier": "all numbers of formulas, terms, coefficients, budgets, random choices, seeds, numbers of updates asked for, gradients, operators", "why_tests_cant": "a test sees one seed and one model; columns, numbers of attempts and pairs are different for every seed, and models without penalties take another path through the code", "anchors": ["src/mssm/models.py: GSMM.fit", "src/mssm/src/python/gamm_solvers.py: sampleHcoef", "src/mssm/src/python/gamm_solvers.py: solve_generalSmooth_sparse"]}
{"id": "C136", "title": "The same model gives the same result through different interfaces", "statement": "A distribution that can be fitted by more than one class of models gives the same answers. The log densities of `Gaussian` and `GAUMLSS` (standard deviation instead of variance), of `Gamma` and `GAMMALS`, and of `Binomial` with one trial and `MULNOMLSS` with two classes are the same numbers, and so are the probabilities. Coefficients are final for a logistic `GAMM` exactly if they are final for the `GAMMLSS` with two classes and the same smoothing parameters, and then they are unique. Coefficients of a `GAMMLSS` with Gaussian or Gamma distribution and a constant second parameter are final exactly if the mean coefficients are final for the `GAMM` with smoothing parameters multiplied by the dispersion and the dispersion is its maximum likelihood estimate (mean squared residual for the Gaussian). `MultiGauss` with one response has the log-likelihood of the Gaussian model.", "quantifier": "all data, model matrices, links of means and scales, penalties, coefficients, sizes", "why_tests_cant": "a test compares two fits up to tolerances on one data set, with smoothing parameters that were estimated by different criteria", "anchors": ["src/mssm/src/python/exp_fam.py: Gaussian.lp", "src/mssm/src/python/exp_fam.py: GAUMLSS.dpars", "src/mssm/src/python/exp_fam.py: GAMMALS.dpars", "src/mssm/src/python/exp_fam.py: MULNOMLSS.lp", "src/mssm/src/python/exp_fam.py: MultiGauss.llk", "src/mssm/src/python/gamm_solvers.py: update_PIRLS", "src/mssm/src/python/gamm_solvers.py: update_coef_gammlss"]}
{"id": "C137", "title": "The numbering of classes in multinomial models is arbitrary", "statement": "Let the classes of a `MULNOMLSS` model in which all predictors have the same formula be numbered differently (so that another class becomes the reference). With coefficients replaced by the differences to those of the new reference class, log densities, log-likelihood and predicted probabilities of every observation are the same, and coefficients are final for the renumbered data exactly if they belong to final coefficients of the original data.", "quantifier": "all numbers of classes, permutations, model matrices, coefficients, data", "why_tests_cant": "a test tries one permutation on one data set, and differences are hidden by tolerances of the fits", "anchors": ["src/mssm/src/python/exp_fam.py: MULNOMLSS.lp", "src/mssm/src/python/exp_fam.py: MULNOMLSS.dpars", "src/mssm/src/python/exp_fam.py: MULNOMLSS.get_probs", "src/mssm/src/python/gamm_solvers.py: update_coef_gammlss"]}
{"id": "C138", "title": "A model with additional terms fits at least as well", "statement": "Add terms to a model (columns of the model matrix with penalties of their own) and keep data, family, link and the smoothing parameters of the terms present before. Final coefficients of the larger model have a penalised deviance (for `GAMMLSS` multinomial models and proportional hazards: minus the penalised log-likelihood) that is at most that of the smaller model at any of its coefficients. If the terms of the smaller model are not penalised this holds for the deviance itself; in particular the deviance of a model with unpenalised intercept is at most the null deviance, so the share of deviance explained is not negative. If they are penalised, the deviance alone can be larger in the larger model.", "quantifier": "all data, model matrices, penalties, final coefficients; families and links with concave log-likelihood", "why_tests_cant": "a test compares two fits of one data set; the claim is about all pairs of nested models, and the intuitive version (deviance never increases) is false for penalised models", "anchors": ["src/mssm/src/python/gamm_solvers.py: update_PIRLS", "src/mssm/src/python/gamm_solvers.py: update_coef_gammlss", "src/mssm/src/python/gamm_solvers.py: update_coef_gen_smooth", "src/mssm/src/python/exp_fam.py: Family.deviance"]}
{"id": "C139", "title": "Means at the boundary of their range count against a fit", "statement": "Fitted means can reach the boundary of their range in floating point: a probability rounded to 0 or 1, an expected count rounded to 0, a mean that overflows. Then the deviance of an observation is its limit (zero if the observation equals the mean, not a finite number otherwise), so that step control does not accept coefficients because the deviance of badly fitted observations is lost; while no mean is rounded step control is that of the exact means.", "quantifier": "all observations, numbers of trials, families, data, coefficients, rounding limits", "why_tests_cant": "the limits are reached for rare proposals only, and the deviance then looks like a perfect fit", "anchors": ["src/mssm/src/python/exp_fam.py: Binomial.D", "src/mssm/src/python/exp_fam.py: Poisson.D", "src/mssm/src/python/exp_fam.py: Logit.fi", "src/mssm/src/python/gamm_solvers.py: correct_coef_step", "src/mssm/src/python/gamm_solvers.py: PIRLS_pdat_weights"]}
{"id": "C140", "title": "Decoding, likelihood and posterior sampling describe the same posterior", "statement": "For one HSMM with given coefficients, decode_viterbi, llk and sample_posterior_states describe the same posterior over state paths: the path returned by decode_viterbi (computed from logarithms) labels a segmentation whose posterior probability (joint probability divided by exp(llk)) is the largest of all admissible ones, positive, at most one and at least one over the number of admissible segmentations; the posterior probabilities sum to one; one segmentation has posterior probability one exactly if all others are impossible; and no segmentation is drawn by the posterior sampler with a larger probability than the decoded one.", "quantifier": "all series lengths, numbers of states, maximal durations, tables with non-negative entries (zeros included), all settings for starting and ending states, event models included", "why_tests_cant": "The three functions are separate compiled recursions on differently transformed tables; a test can compare a decoded path with a handful of sampled paths but cannot enumerate all segmentations, whose number grows exponentially.", "anchors": ["src/mssm/src/python/hsmm.py: HSMMFamily.decode_viterbi", "src/mssm/src/python/hsmm.py: HSMMFamily.sample_posterior_states", "src/mssm/src/python/hsmm.py: HSMMFamily.llk", "src/mssm/src/cpp/hsmm.cpp: viterbi"]}
{"id": "C141", "title": "Residuals of hidden semi-Markov models use only the past", "statement": "The forward pseudo-residual and the predictive residual of an HSMM at a time point depend on the series up to that time point only: observations, covariates and tables after it do not matter, and neither does how long the series goes on, so that residuals of the first part of a series are the first part of its residuals. Accordingly the log-likelihood of a series is the log-likelihood of its first part plus the logarithms of the one-step predictive densities computed by the same recursion.", "quantifier": "all pairs of series that agree up to a time point, all lengths, numbers of states and durations, all boundary settings, regular and event models", "why_tests_cant": "Independence of everything that comes later is a statement about pairs of series of any length; a test checks a few.", "anchors": ["src/mssm/src/python/hsmm.py: HSMMFamily.get_resid", "src/mssm/src/cpp/hsmm/resid.cpp: forward_resid", "src/mssm/src/cpp/hsmm/resid.cpp: predictive_resid", "src/mssm/src/cpp/hsmm/llk.cpp: llk"]}
{"id": "C142", "title": "Fitted totals are observed totals", "statement": "Once a fit no longer changes, what it predicts adds up to what was observed. For canonical links (Gaussian/identity, Binomial/logit with numbers of trials, Poisson/log) the fitted and the observed totals, weighted with any unpenalised covariate (intercept, factor level, linear effect), are equal; this may fail for other links. For any family and link a group of observations with the same covariates and offset that the unpenalised part of the model singles out has its own (trial-weighted) mean as fitted mean; for Gaussian location-scale models also its own variance. For Gamma models with logarithmic link relative residuals add up to zero. For multinomial models the fitted number of observations of every class, the reference class included, is the observed one.", "quantifier": "all data, model matrices, offsets, penalties and smoothing parameters, all final coefficients, all families and links where not named", "why_tests_cant": "That the fit reproduces totals exactly for every data set and penalty is an identity over all real inputs; a test compares sums of one fit up to a tolerance.", "anchors": ["src/mssm/src/python/utils.py: update_PIRLS", "src/mssm/src/python/utils.py: PIRLS_pdat_weights", "src/mssm/src/python/utils.py: update_coef_gammlss", "src/mssm/src/python/exp_fam.py: MULNOMLSS", "src/mssm/src/python/exp_fam.py: GAUMLSS"]}
{"id": "C143", "title": "Dropping coefficients does not change what a model can fit", "statement": "The coefficients that the identifiability check of GAMMLSS and GSMM models removes are redundant: for every coefficient vector there is one with zeros at the removed positions that has the same linear predictors for all observations and parameters and the same value of every penalty, so that a maximum of the penalised log-likelihood of the reduced model is a maximum for the full model, for all smoothing parameters. What is left is identified: no two different vectors of remaining coefficients describe the same model.", "quantifier": "all model matrices, penalties, log-likelihoods, smoothing parameters, all three methods (QR, LU, Direct), all outcomes of exact decompositions", "why_tests_cant": "Redundancy quantifies over all coefficient vectors and all rank deficient models; a test looks at a few of them and cannot compare maxima.", "anchors": ["src/mssm/src/python/gamm_solvers.py: identify_drop", "src/mssm/src/python/gamm_solvers.py: check_drop_valid_gammlss", "src/mssm/src/python/gamm_solvers.py: solve_gammlss_sparse", "src/mssm/src/python/gamm_solvers.py: solve_generalSmooth_sparse"]}
{"id": "C144", "title": "Gradient of event models in HSMMFamily", "statement": "For event models (HMP-like models with a template, fixed transition matrix and initial distribution) entry n of the array returned by HSMMFamily.gradient is the partial derivative in coefficient n of the log-likelihood of all series that HSMMFamily.llk sums up: coefficients of the event means, with or without formulas shared between events or between events and signals, and coefficients of the duration models of the flats, with or without autocorrelation.", "quantifier": "all coefficient vectors, numbers of series, states, signals and coefficients, all templates, model matrices and duration families, Gaussian and exponential event densities, all autocorrelations below one", "why_tests_cant": "A finite-difference test checks one model at one point; the positions of shared coefficients, events and durations in the assembled array depend on all sizes.", "anchors": ["src/mssm/src/python/hsmm.py: HSMMFamily.gradient", "src/mssm/src/python/hsmm.py: HSMMFamily.llk", "src/mssm/src/python/hsmm.py: _compute_series_probs", "src/mssm/src/cpp/hsmm/llk.cpp: llkFTPgrad"]}
{"id": "C145", "title": "Event models compare each signal with its own data", "statement": "In an event model every signal is compared with its own response: the log-likelihood is that of the model for the data in which signal m has the response named on the left-hand side of the formulas of signal m, whether or not formulas are shared between events and signals.", "quantifier": "all event models, numbers of signals and states, all data and coefficients", "why_tests_cant": "Tests compare gradient and finite differences of the same function, which agree for any data; that the data are the right ones is a statement about all layouts of the list of formulas.", "anchors": ["src/mssm/src/python/hsmm.py: _compute_series_probs", "src/mssm/src/python/hsmm.py: HSMMFamily.gradient", "src/mssm/models.py: get_ys"]}
{"id": "C146", "title": "A requested likelihood-ratio test of nested models is decided", "statement": "If compare_CDL is asked for a likelihood-ratio test (perform_GLRT=True), model1 contains the terms of model2 and more, the terms of model2 are not penalised, and both models were fitted to convergence on the same data, then the result contains a decision: H1 and p are not nan.", "quantifier": "all data, model matrices, families with concave log-likelihood, numbers of coefficients and settings of the comparison", "why_tests_cant": "The larger model of an example usually has the larger log-likelihood by a wide margin; whether it always has is a statement about all data and both fits.", "anchors": ["src/mssm/src/python/compare.py: compare_CDL", "src/mssm/models.py: GAMM.get_llk", "src/mssm/models.py: GAMMLSS.get_llk", "src/mssm/src/python/exp_fam.py: est_scale"]}
{"id": "C147", "title": "A fit has an estimate to converge to exactly if the data are not separated", "statement": "For fixed smoothing parameters consider a generalised additive model without redundant columns (Gaussian/identity, Binomial/logit, Poisson/log or Gamma/log). The coefficient update has exactly one fixed point if the data are not separated, that is if every unpenalised direction in the coefficients makes some observation less likely when followed far enough. If the data are separated, no coefficients are reproduced by the update and every set of coefficients can be improved upon, so whatever `fit` returns is determined by its stopping rule. Penalised models whose penalty reaches every coefficient, and Gaussian and Gamma models, always have an estimate.", "quantifier": "all data, model matrices, offsets, penalties, numbers of trials and coefficients", "why_tests_cant": "An example has an estimate or it has none; which of the two is the case for all data is a statement about the behaviour of the likelihood at infinity, and a fit to separated data stops and looks like any other.", "anchors": ["src/mssm/src/python/gamm_solvers.py: update_PIRLS", "src/mssm/src/python/gamm_solvers.py: update_coef", "src/mssm/src/python/exp_fam.py: Binomial", "src/mssm/src/python/exp_fam.py: Poisson", "src/mssm/src/python/exp_fam.py: Gamma"]}
{"id": "C148", "title": "An iteration that stops has found the estimate", "statement": "For fixed smoothing parameters and data that are not separated, the coefficients of a generalised additive model (Gaussian/identity, Binomial/logit, Poisson/log, Gamma/log; no redundant columns) stay bounded from pass to pass, whatever they start from, and converge to the one maximum of the penalised likelihood; when the inner loop stops because the penalised deviance no longer changes, its coefficients are that maximum up to the tolerance. For separated data they grow without bound and do not converge.", "quantifier": "all data, model matrices, offsets, penalties, starting coefficients and limits on the number of passes", "why_tests_cant": "Convergence is a statement about infinitely many passes from every start; an example shows one path, and an iteration that goes back and forth is found only from special starting coefficients.", "anchors": ["src/mssm/src/python/gamm_solvers.py: correct_coef_step", "src/mssm/src/python/gamm_solvers.py: correct_lambda_step", "src/mssm/src/python/gamm_solvers.py: update_PIRLS", "src/mssm/src/python/gamm_solvers.py: update_coef"]}
{"id": "C149", "title": "Estimates of hazard models exist exactly if no direction is monotone", "statement": "For fixed smoothing parameters and identified coefficients, the Newton steps of a proportional hazard model (PropHaz, GSMM with Newton) have exactly one resting point, at which the penalised partial log-likelihood is largest, if there is no unpenalised direction in which, at every event, the subject with the event has the largest change of the predictor among all those at risk. If there is such a direction no resting point exists: no coefficients are returned as a solution by a step that leaves them unchanged, and the penalised log-likelihood increases strictly however far one goes in that direction.", "quantifier": "all event times with ties, censoring, model matrices, penalties and coefficients", "why_tests_cant": "A test can show that one data set leads to growing coefficients, not which data sets do; for those with a monotone direction any number of iterations returns finite coefficients that look like an estimate.", "anchors": ["src/mssm/src/python/exp_fam.py: PropHaz.llk", "src/mssm/src/python/exp_fam.py: PropHaz.gradient", "src/mssm/src/python/exp_fam.py: PropHaz.hessian", "src/mssm/src/cpp/hazard.cpp: llk2, grad2, hessian", "src/mssm/src/python/gamm_solvers.py: update_coef_gen_smooth"]}
{"id": "C150", "title": "Estimates of multinomial models exist exactly if the classes are not separated", "statement": "For fixed smoothing parameters and identified coefficients, the Newton steps of a multinomial model (MULNOMLSS) have exactly one resting point, at which the penalised log-likelihood is larger than at all other coefficients, if there is no unpenalised direction in which, at every observation, the predictor of the observed class increases at least as much as those of all classes (zero for the reference class). If there is one, for example because a class never occurs, no resting point exists and the penalised log-likelihood increases strictly however far one goes.", "quantifier": "all numbers of classes, formulas per class, responses, penalties and coefficients", "why_tests_cant": "A test can show growing coefficients for one data set, but not which data sets have an estimate; after any number of iterations the coefficients are finite and look like one.", "anchors": ["src/mssm/src/python/exp_fam.py: MULNOMLSS", "src/mssm/src/python/utils.py: GAMLSSGSMMFamily", "src/mssm/src/python/gamm_solvers.py: deriv_transform_eta_beta", "src/mssm/src/python/gamm_solvers.py: update_coef_gammlss"]}
{"id": "C151", "title": "Gaussian location-scale likelihoods are bounded with the default link", "statement": "With the default link for the standard deviation (LOGb(b), b < 0) the penalised log-likelihood of a Gaussian location-scale model (GAUMLSS) stays below n(-log sqrt(2 pi) - log(-b)) for all coefficients, and the penalised log-likelihoods of successive iterations converge to a finite value. With the link LOG it grows without bound, and no coefficients maximise it, as soon as coefficients reproduce some observations exactly and an unpenalised direction lowers the standard deviations of these observations more than it raises the others; with one standard deviation for all observations it is bounded unless the means reproduce all observations.", "quantifier": "all data, formulas, mean links (default link) or identity mean link (LOG), penalties and coefficients", "why_tests_cant": "Whether a likelihood has an upper bound concerns infinitely many coefficients; a fit that runs into the unbounded region ends after the maximum number of iterations with finite values.", "anchors": ["src/mssm/src/python/exp_fam.py: GAUMLSS", "src/mssm/src/python/exp_fam.py: LOGb", "src/mssm/src/python/exp_fam.py: LOG", "src/mssm/src/python/utils.py: GAMLSSGSMMFamily", "src/mssm/src/python/gamm_solvers.py: update_coef_gammlss"]}
{"id": "C152", "title": "Newton iterations of hazard and multinomial models reach the estimate", "statement": "If a proportional hazards model has no monotone direction (C149), or the classes of a multinomial model are not separated (C150), the coefficients of successive Newton iterations stay bounded for every start, and they converge to the coefficients that maximise the penalised log-likelihood. If there is a monotone or separating direction the coefficients do not converge to anything and their norm grows without bound.", "quantifier": "all data, formulas, penalties and starting coefficients with identified coefficients", "why_tests_cant": "Convergence is a statement about all iterations and all starts; a test sees finitely many iterations of one start.", "anchors": ["src/mssm/src/python/gamm_solvers.py: update_coef_gammlss", "src/mssm/src/python/gamm_solvers.py: update_coef_gen_smooth", "src/mssm/src/python/exp_fam.py: PropHaz", "src/mssm/src/python/exp_fam.py: MULNOMLSS"]}
