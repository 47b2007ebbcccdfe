# Formal model of mssm in Lean 4

## What this is

`/verif/lean` holds a Lean 4 model of parts of `mssm` (sparse mixed models, location-scale models,
proportional hazard models, hidden semi-Markov models, NUTS sampler) and theorems about it.
`properties.jsonl` lists the properties, `MANIFEST.json` maps them to theorem names,
`seeded/LOG.jsonl` logs the experiments in which the model was broken on purpose.

## Layout

One area = one or more files `Verif/<Area>Model.lean` (definitions mirroring the code, each with a comment
citing file and lines), `Verif/<Area>Lemmas.lean` (helper lemmas, when there are many) and
`Verif/<Area>.lean` (specification, property theorems, and `example`s that show that hypotheses are met).

## How numbers and arrays are modelled

* Floating point numbers are modelled by real numbers (`ℝ`). Rounding, overflow and underflow are out of the model.
  Where the code tests for NaN/infinite values (step control) the model uses an explicit "undefined" value.
* Arrays are functions on `Fin n`, `List`s, or Mathlib `Matrix`; loops are folds/recursions over the same range
  in the same order where the order matters.
* Exceptions are values (`Except`/`Option`).
* Calls into numpy/scipy/Eigen are replaced by their documented mathematical meaning, or are parameters
  with their documented behaviour as a hypothesis. Each such case is named in the section of the area.

## Plan per property

| id | model | proof |
|----|-------|-------|
| C01 | forward recursion of `llk` cell by cell with all switches, scaled variables | sum over an inductively defined list of all labelled segmentations; induction over time; telescoping of scale factors |
| C02 | max-plus recursion, back pointers, backtracking of `viterbi` | induction over time: value = max over partial paths; backtrack attains it |
| C03 | weights used by `sample_backwards` | product of the conditional weights along a path = joint / likelihood; negation with witness for time-varying durations |
| C04 | derivative recursion of `llkgrad` | `HasDerivAt` of each forward cell by induction over time, then of the log-likelihood; negation with witness for the initial-state coefficients with time-varying durations |
| C05 | `forward_resid` | non-negativity + conservation of mass; negation where pruning applies |
| C06 | memory layout of the array used in `predictive_resid` | offset arithmetic; negation for two signals |
| C07 | loops of `llk2` over sorted groups | induction over the groups, equality with risk-set sums |
| C08 | loops of `grad2`, `hessian` | `HasDerivAt`, Cauchy-Schwarz for the sign |
| C09 | baseline hazard / survival / martingale residual formulas | monotonicity of partial sums, exchange of sums |
| C10 | `dChol` recursion | strong induction on the row, uniqueness |
| C11 | `computeV2` loops | triangularity kills the omitted part of the sum |
| C12 | `leap_frog` | algebra |
| C13 | `build_tree`, `advance_chain` with a stream of random numbers | invariant by induction over depth, doublings and iterations |
| C14 | block schedule of `sample_mssm` | invariant + termination measure |
| C15 | links | `HasDerivAt`, `Real.log`/`exp` algebra |
| C16 | deviances and log-likelihoods | `log x ≤ x - 1` and cases on boundaries |
| C17 | `dllkdcoef` | chain rule |
| C18 | scaled-t formulas | `HasDerivAt` |
| C19 | location-scale formulas | `HasDerivAt`, sum of probabilities |
| C20 | `deriv_transform_*` | chain rule, block indices |
| C21 | working weights | chain rule |
| C22 | repeated `np.diff` of identity | induction on the order; kernel = polynomials |
| C23 | three constraint kinds | matrix algebra |
| C24 | row-wise Kronecker product and Kronecker penalties | index arithmetic, Kronecker algebra |
| C25 | triplet embedding | induction over repeats |
| C26 | index accumulation of the pseudo-inverse | negation with witness, correct when there are no gaps |
| C27 | id dictionary, merge and split | induction over penalties; negation with witness for an id used once |
| C28 | compressed-column traversal | induction over columns |
| C29 | block splits | induction over blocks |
| C30 | lambda step functions | order arguments |
| C31 | step control loops | loop invariants, termination measure |
| C32 | traces | matrix algebra, eigenvalue-free PSD arguments |
| C33 | preconditioned Newton step | matrix algebra |
| C34 | column deletion | sums over sublists |
| C35 | final part of the fit loop | case analysis; negation with witness |
| C36 | whitening transform | direct computation for any partition into series |
| C37 | sampling transforms | matrix algebra |
| C38 | REML | determinants |
| C39 | comparison arithmetic | algebra |
| C40 | compact SR1 | matrix algebra |
| C41 | re-parameterisation | matrix algebra |
| C42 | truncated power differences | induction on degree (Cox-de Boor), partition of unity |
| C43 | counts | induction over term lists |
| C44 | coding | list/finset arguments |
| C45 | encoding | list arguments |
| C46 | prediction | linearity |
| C47 | splitting | list arguments |
| C48 | assembly | list arguments |
| C49 | multivariate Gaussian | `HasDerivAt` |
| C50 | priors | order arguments |
| C51 | file reading | list arguments |
| C52 | intervals | partial sums |
| C53 | survival at any time | search for the index, counterexample between times |
| C54 | stored baseline of `PropHaz` | state carried between calls |
| C55 | deviance residuals | order arguments |
| C56 | `invdChol` | uniqueness of the derivative of the inverse |
| C57 | random decisions of an iteration as probability trees | invariant: uniform on the slice; detailed balance over doublings |
| C58 | step size of stored draws | invariant of the blocks |
| C59 | gradient of extended families | chain rule; counterexample for the log link |
| C60 | expected second derivatives | integrals over the densities |
| C61 | ranks and roots under constraints | rank-nullity |
| C62 | `adjust_pen_drop` | induction over columns |
| C63 | cache of model matrix pieces | path functions |
| C64 | columns for null-space penalties | index arithmetic |
| C65 | loops of the smoothing parameter step control | halving bound; loop that never ends |
| C66 | derivative and monotonicity of B-spline smooths | recursion of derivatives |
| C67 | columns after `drop_coef` | index arithmetic |
| C68 | importance weights, `updateVp` | sums, positive semi-definite matrices |
| C69 | target density and gradient | `HasDerivAt` of every part, Jacobi's formula |
| C70 | metric | matrix algebra, law of a linear image of a Gaussian |
| C71 | vague priors | positive definiteness |
| C72 | smoothing parameters of the target | stationarity at the fitted coefficients |
| C73 | initial step size | loop invariants |
| C74 | `build_penalties` | induction over terms, penalties, levels |
| C75 | null-space penalty | orthogonal projection |
| C76 | `llkFTPgrad`, event emission tables | derivative along a curve of tables, comparison with the two-slot loop |
| C77 | building of duration, transition and initial tables in hsmm.py | each table row sums to one, time-varying event durations fail |
| C78 | class `HSMMFamily`: coefficients, predictors, tables, gradient incl. shared formulas | chain rule along one coefficient, summation over merged columns |
| C79 | `HSMMFamily.llk` for event models with and without AR(1) residuals | induction over segments; weights equal densities of the signals; offset by the log-determinant |
| C80 | `compute_bias_corrected_edf` | loop invariant over sorted penalties; trace of 2F-FF; bounds from the spectrum |
| C81 | `compute_Vp_WPS` | second derivative of the REML criterion of a quadratic likelihood; generalised inverse from eigen-decomposition |
| C82 | `compute_Vb_corr_WPS`, corrected covariance | derivative of the inverse Cholesky factor, delta method, positive semi-definite sum |
| C83 | `predict`, `predict_diff`, `sample_post`, `get_pars`, split positions | law of affine images of standard normals, symmetry of the normal law |
| C84 | `adjust_CI` | counting argument for order statistics |
| C85 | `print_parametric_terms` | symmetry of the normal law, marginals of the posterior, duality of test and interval |
| C86 | statistic and p-value part of `approx_smooth_p_values` | whitening along eigenvectors, rotation of the last two coordinates, laws of weighted sums of squares |
| C87 | loops of `approx_smooth_p_values` and `print_smooth_terms` | induction over terms with invariants for coefficient, penalty and p-value position |
| C88 | scale part of `update_scale_edf`, working residuals | working residuals equal Pearson residuals; trace of the residual maker, whitening of AR(1) errors |
| C89 | `GAMM.fit`, getters, `compute_bias_corrected_edf` as operations on the model object | invariant over sequences of calls; wrong sequences exhibited |
| C90 | `GAMM.get_llk` | completion of squares: the criterion at any other coefficients |
| C91 | `check_convergence` | induction over chains; positions of formulas; column sums of constrained bases |
| C92 | `reparam` options 1–3, `absorb_repara`, use of the results in `build_penalty` and the term matrix | congruence with an orthogonal eigenbasis; rank as number of eigenvalues; trace bound; witness |
| C93 | outer loops and step control of GAMMLSS and general smooth models | loop invariants linking reported and used smoothing parameters; witnesses for the exits where they differ |
| C94 | coefficient loops of GAMMLSS and general smooth models: step control, restarts, drop check, limits | loop invariants; lower bound on the rise per iteration; witnesses for Hessian, restart and index error |
| C95 | re-parameterised drop: padding, back transformation, stored indices, REML submatrix, `keep_drop` | linear algebra with an orthogonal matrix; rotations as witnesses |
| C96 | split positions of `check_drop_valid_gensmooth` and `handle_drop_gsmm` | extends the counting lemmas of C34; failure shown for every model with two formulas and extra coefficients |
| C97 | whole fit of a Gaussian model with identity link from a data-frame or files: cross products, solver, both step controls, convergence | files reduce to one list of rows; completing the square shows the step control never halves coefficients; invariant over outer iterations; witness for failed factorisation |
| C98 | `HSMMFamily.predict`: sampled states, template and emission per time point | law of a stream of uniform numbers: induction over segments, independence of the next number; witnesses for tables with a point mass |
| C99 | `compute_Tpi`: serial loop with its closure variables, pool | induction over series; witness with two series |
| C100 | `get_resid` for durations, nested decoding, `_compute_dur_res_series` | equality of the path arguments case by case; induction over runs; witnesses |
| C101 | `__discretize`, `__split_discretize`, `__cluster_discretize`, `compute_B` for clusters | partitions of lists, sums over clusters; arbitrary labels; witnesses |
| C102 | `__absorb_constraints` (data-frame, files), columns of smooth terms | sums over files; constraint as linear functional; elimination along one variable after the other; witnesses |
| C103 | `__fix_nested`, `id_dependencies` | invariant of the loop along the order of comparisons; triangular elimination; dimension of column spaces; witnesses |
| C104 | `_sample_series_emissions` and `ld_wrapper`/`lcp_wrapper` of event models, seeds | push-forward of the standard normal and exponential laws, Gaussian integrals; division with remainder for seeds; witnesses for exponential noise and shared streams |
| C105 | candidates of `estimateVp`/`correct_VB`: refit, score, exceptions, inclusion of the estimate, expected degrees of freedom | completing the square; loop invariant of the Newton passes; trace identities; case analysis of the exceptions; witnesses |
| C106 | `build_ir_smooth_series`, `irf.build_matrix`, convolution with the event | shift of the rows of tensor products by induction on the variables; position of the rows of a series; support of splines on evenly spaced knots; witnesses |
| C107 | masks of `encode_data`, `get_ys`, `get_mmat`, offsets, rows of `predict`, with missing cells | lists of row numbers kept by filters; sums of the contributions of terms by induction; witnesses for formulas that lack values in different rows |
| C108 | `getCholnH`, `getExplicitnH`, `computetrVS3`, `uChol`, end of `solve_generalSmooth_sparse`, attributes replaced by `sampleHcoef` | induction over the updates (matrices in between are positive definite because the last one is), block matrices, eigenvalue bounds; witnesses for what differs |
| C109 | the root in `compute_S_emb_pinv_det`, `solve_coef_pqr2`, the QR branch of `update_coef`, `L = P.T @ LP` with zero rows and columns | block sums by lists; back substitution by induction; orthogonality of the residual from `A P = Q R`; expansion of the sum of squares; witness for gaps |
| C110 | `__neg_llk`, `__neg_grad`, rows of the optimiser and their corrections, padding and change of basis over outer iterations, `sample_ys_qefs`, attempts, `init_qEFS_storage` | derivative along lines; induction over paths, outer iterations, draws and adaptation steps; Cauchy-Schwarz case of a single pair; witnesses for what differs |
| C111 | slices given to `check_convergence`, criteria, early stop, callback and result of `sample_mssm` | induction over the loop on top of C14 and C91; witness run |
| C112 | `chain_seed` of every chain and block | induction over chains and blocks; pigeonhole principle; counting of injective sequences |
| C113 | end of `update_coef_gammlss` and `update_coef_gen_smooth` (`checkH`), `compute_lgdetD_bsb`, stored Hessian | invariant of the loop on top of C33; Theorem 1 of Wood and Fasiolo; trace of an idempotent matrix; witnesses for what differs |
| C114 | column selection of `compute_B` | sum over blocks of columns on top of the models for C32; arithmetic of `np.arange`; exact condition and witnesses for null space penalties |
| C115 | `davies.cpp` (all functions), calls for the tests of smooth terms | characteristic function of the sum; Gil-Pelaez type inversion by a square wave series, error of the trapezoidal rule from tail probabilities, truncation bounds by integrals, Chernoff bounds; branch by branch through the adaptive loops; witnesses for the faulty sort |
| C116 | `init_mu`, `init_coef`, `form_n_coef`, split of coefficients, starting smoothing parameters, columns for structured fits | case analysis over families and links in extended reals; induction over formulas; counting of columns; witnesses for the log link |
| C117 | F test and fallback branches of `approx_smooth_p_values` | uniqueness of laws from moment generating functions, change of variables for the ratio of gamma variables; the weights have the right first two moments; limits of moment generating functions |
| C118 | `lp`, `V`, `Ed2Ddmu`, `lcp`, `rvs` of the families as measures | densities identified with Mathlib's laws where these exist; inverse Gaussian and t integrals by antiderivatives and recursions; sums for discrete families; change of variables for multivariate normal rows |
| C119 | `est_condition` on matrices with the Euclidean operator norm; checks of the three solvers | norms attained on the compact unit sphere, distance to singularity from the smallest singular value with a rank-one perturbation; case analysis for the checks |
| C120 | states with the family `MultiGauss` in `HSMMFamily`: tables, gradient columns and layout, simulation | derivative along one coefficient of a model in which the vector states are frozen; layout by a generic lemma on segments of columns; change of the emission constant by induction over the forward recursion; seeds by induction over states |
| C121 | quantities of one pass of the smoothing parameter estimation (coefficients, traces, scale, gradient, step) for Gaussian additive models; `REML` of C38 | Gaussian integral from the total mass of the multivariate normal law, completing the square; directional derivatives of log (generalised) determinants and of the inverse; degrees of freedom identity for the scale |
| C122 | quantities of one pass of the smoothing parameter estimation of GAMMLSS and general smooth models (traces, gradient, step with the small step rule, `gamma`), for an arbitrary log-likelihood | value function as a supremum of affine functions (subgradient, convexity, squeeze for the derivative); compactness and concavity for continuous maximisers; derivative of determinants along differentiable curves; explicit log-likelihood of degree four for the negation |
| C123 | whole fits as in C97, with the traces and the scale estimate computed as in the code | simulation between two executions (relation on the variables of all loops, induction over passes, step halvings and iterations); homogeneity of all tests; traces with generalised inverses do not depend on the inverse |
| C124 | working data, proposal, step control and the loop over passes for generalised additive models with fixed smoothing parameters | real versions of the family formulas (C15-C21); second order expansion along segments with Newton weights as remainder; first accepted halving by induction over the step control; continuity of weights and score for limits |
| C125 | coefficient loops of GAMMLSS and general smooth models (C33, C94) with the Newton and gradient proposals; derivatives of location-scale families (C20), proportional hazards (C07, C08) | Newton system with positive definite matrix; slope of the penalised log-likelihood; first accepted halving; limits with bounded Newton matrices; tangents of log-sum-exp and of the partial log-likelihood; invariant over iterations for the counterexample |
| C126 | coefficient loops as in C125, run on two versions of the same data | simulation between two executions (relation on the variables of the loop); equal preconditioned matrices need equal ridges; sums over rows are invariant under permutations; Hessian blocks of recombined columns; counterexample by comparing the Newton systems for all gradients |
| C127 | `updateTheta` in full; the scaled t family as instance | eigendecomposition with raised eigenvalues gives a positive definite system; slope along the proposal; first accepted halving; induction over the loop; bounded systems for limits; continuity of the scaled t derivatives (digamma, trigamma); change of units as a simulation |
| C128 | renumbering of the tables handed to the C++ functions and of `HSMMFamily` with its coefficients; functions as in C01, C02, C03, C05, C06, C07 | induction over time with sums reindexed by the permutation; softmax does not see a common shift, which moves the reference state; segmentations renamed one by one, so best ones correspond |
| C129 | functions as in C124, run on rewritten data (`recomb`, `reorder`, `shift`, `Trials`) | simulation between two executions of the loop; normal equations as matrix products, so that recombination is a congruence; sums over rows are invariant under permutations and under splitting rows into trials |
| C130 | pass as in C121 (`RlModel`), for two vectors of smoothing parameters | inverses are antitone (variational argument); degrees of freedom as sums of quadratic forms; rescaled systems for the own term; exchange argument for minimisers; completing the square for the limit |
| C131 | pass as in C121; columns of smooths and random intercepts as in C43 (`MmatModel`) | block structured systems in a suitable basis, uniqueness of solutions; normal equations of random intercepts; positions in the list of columns |
| C132 | functions of `BsplineModel` (C42), `diffPenalty` (C22), passes as in C124 | factors of truncated powers and knot distances cancel; reflection: truncated powers of both sides add up to a polynomial whose differences vanish; reversal as a permutation of columns, recombination theorem of C129 |
| C133 | passes as in C124 (`PirlsModel`), Newton fits as in C125 (`LmlModel`), hazards (C07), multinomial families (C19) | penalised deviance is a constant minus twice the scale times the penalised log-likelihood, fixed points are maxima (C124, C125); exchange argument of C130; squeeze for the limit |
| C134 | passes as in C124 (`PirlsModel`) | sums over rows regrouped; deviances differ by a constant (exposures) or a factor (copies), so that steps are halved alike; induction over step control and passes |
| C135 | choice of columns, number of vectors, `sampleHcoef`, degrees of freedom at the end of `solve_generalSmooth_sparse` (`ResampleModel`), sampling as in C110 | lists of columns by induction over formulas; induction over attempts; secant equations from C110; negation for models without penalties |
| C136 | `GAMM` with `update_PIRLS` (C124) against `GAMMLSS` with Newton steps (C125), log densities, `MultiGauss.llk` (C49) | both fixed points are rewritten as score equations; scores of the families are proportional with the dispersion as factor |
| C137 | `MULNOMLSS` with one formula for all predictors in the Newton step of `GAMMLSS` (C125) | scores of all classes including the reference sum to zero; permutations act on them |
| C138 | nested `GAMM`s with `update_PIRLS` (C124), `GAMMLSS`/`GSMM` with Newton steps (C125) | fixed points are minima of convex penalised deviances; coefficients of the smaller model padded with zeros are coefficients of the larger one; an example in which the deviance increases |
| C139 | inverse links with the roundings of the exponential function, step control (`BoundModel`), unit deviances | case distinction over families at the boundary, limits of the exact deviances; step control over a convex set of coefficients is unchanged; an intercept model that is lost |
| C140 | tables of logarithms built by `decode_viterbi` from those of `llk` and `sample_posterior_states` (`logT` in `Decode`) | `np.log` turns joint probabilities of segmentations into sums of logarithms; then C02, C01 and C03 about the same tables |
| C141 | `forward_resid`, `predictive_resid` (`ResidModel`), `llk` (`HsmmModel`) | induction over time for two series that agree before a time point; a pair of series of different length for the negation |
| C142 | fixed points of `update_PIRLS` (C124) and of Newton steps for `MULNOMLSS`, `GAUMLSS` (C125) | at a fixed point the penalised score is zero; contracted with an unpenalised direction it becomes the balance of fitted and observed totals; a Gamma model for which totals differ |
| C143 | `identify_drop` with the matrix it examines, `S_norm` (`RedundModel`, index part from C34) | null vectors of sums of positive semi-definite matrices; invariant of the search: vectors with zeros at dropped positions reach all values; a strictly concave problem for which the check drops a needed coefficient |
| C144 | means, tables, columns and assembly of the gradient for event models (`HsmmEvModel`, `Hsmm.llkFTPgrad`, `HFam.collect`) | derivative of the tables along a coefficient is the sum over its copies; linearity of the derivative of the log-likelihood in the direction; list lemmas for the positions of duplicates (C78) |
| C145 | list of responses and `y_mat` (`HsmmEvModel`) | the first formulas in the list, by cases on the sharing; for formulas shared by all signals the data are shifted by one signal: negation, and a model with one time point as witness |
| C146 | `compare_CDL` (C39) applied to nested fits (C138), `GAMM.get_llk`, scale estimate (`GlrtModel`) | the larger model has the larger log-likelihood by C124, C125 with padded coefficients; closed form of the Gaussian log-likelihood at the estimated scale, negation by a column without effect |
| C147 | fixed points of the coefficient update (`PirlsModel`, `FamModel`), `Separated` in terms of data, model matrix and penalty (`Exist`) | upper bound of the penalised log-likelihood by a function that grows linearly in every direction if the data are not separated, compactness of the unit sphere, uniqueness by C124; along a separating direction the log-likelihood increases strictly |
| C148 | passes and inner loop (`PirlsModel`) | level sets are bounded (C147), proposals are continuous in the coefficients, one of 32 step lengths recurs near a cluster point, uniqueness of the estimate; negation by coefficients whose proposal is their mirror image (intermediate value theorem); close to the estimate by expansions of gradient and value (`NewtQuad`) |
| C149 | Newton steps (`LmlModel`) on the partial likelihood (`HazardModel`), `HEx.Monotone` in terms of data, model matrix and penalty (`HazExist`) | log-likelihood event by event, bounded by a function that grows linearly in every direction if none is monotone; Hessian as weighted variance among those at risk, so derivatives along lines decrease strictly; along a monotone direction they are never zero |
| C150 | Newton steps (`LmlModel`) on multinomial models (`EtaBetaModel`, `mnFam`), `MEx.Separated` in terms of responses, model matrices and penalty (`MulExist`) | as C149; uniqueness by strict tangents of the logarithm of a sum of exponentials; along a separating direction every difference to the observed class falls |
| C151 | `GAUMLSS` with links `LOGb` and `LOG` (`gauFam`), Newton iterations (`LmlModel`), `GBd.Degenerate` in terms of data, model matrices and penalty (`LssBound`) | every term is bounded as the standard deviation exceeds `-b`; ascent of the iterations (C125) and monotone convergence; linear growth along the degenerate direction; log x ≤ x - 1 for a common standard deviation |
| C152 | Newton iterations and coefficient loop (`LmlModel`, `CoefModel`) on hazards (`HazardModel`) and multinomial models (`EtaBetaModel`, `mnFam`) | negative definite Hessians (variances among those at risk, variances between classes) give proposals without ridge that are continuous in the coefficients; then as C148, with the bounds of C149 and C150; negation by coefficients whose proposal is their mirror image; close to the estimate by expansions of gradient and value (`NewtQuad`) |

## Areas: what is modelled, what is not, what is assumed

"Not modelled" lists what a reader might expect to be covered and is not. Code not named anywhere in this section is outside
the model: plotting, most printing, the drivers of
the fits apart from the parts named below.

### Hidden semi-Markov models (C01-C06, C76-C79; see also C98-C100)
`HsmmModel`, `ViterbiModel`, `SampleModel`, `HsmmGradModel`, `ResidModel`, `HsmmFtpModel`, `HsmmFamModel`, `HsmmArModel`.
* Modelled: `llk`, `llkgrad` (llk.cpp), `viterbi`, `sample_backwards` (decode.cpp), `forward_resid`, `predictive_resid` (resid.cpp),
  with all switches and time-varying tables; `hmp` only where named.
* Assumed: probabilities in the tables are non-negative; a discrete distribution draws index `i` with probability proportional to
  its weight. The specification is a sum over an inductively defined list of all labelled segmentations.
* Also modelled: `llkFTPgrad` (llk.cpp) and the emission tables of event models (C76, C79); in hsmm.py the linear predictors,
  tables for durations, transitions and initial states, shared formulas, the assembly of the gradient (C77, C78), whitening and
  log-determinant correction for one series (C79).
* Assumed for C78: each emission and duration family returns the derivative of its log density (`Fam.Ok`).
* Not modelled: multivariate Gaussian emissions, splitting of several series by `sid`/`tid`, non-finite table entries.
* Differences to the intended behaviour: backward sampling reads the duration table at `t - 1` (C03); entry-dependent emissions
  (C03); gradient for initial-state coefficients with time-varying durations (C04); residuals with `ends_with_last` (C05); a
  wrong signal is read with several signals, first residual not standardised (C06); no gradient entry for estimated transition
  and initial tables of event models (C76); time-varying event durations fail (C77); AR(1) event models
  subtract the log-determinant, once instead of per signal, and lose the sign of the autocorrelation (C79).

### Proportional hazard models (C07-C09, C53-C55)
`HazardModel`: `llk2`, `grad2`, `hessian` (hazard.cpp) and `PropHaz` (exp_fam.py).
* Assumed: `ut` strictly decreasing and `r` its inverse index, as documented.
* Differences: survival between observed times uses the next later time (C53); results are stored by the first call and
  reused for other coefficients (C54).

### Derivatives of Cholesky factors (C10, C11, C56)
`DCholModel`: `dChol`, `invdChol`, `computeV2` (dchol.cpp). Not modelled: `uChol`.
Difference: `invdChol` returns minus the derivative (C56).

### Sampler (C12-C14, C57, C58, C69-C73)
`NutsModel`, `SchedModel`, `JointModel`, `StepSizeModel`.
* Modelled: leap frog, tree building, one iteration, dual averaging (mcmc.cpp); blocks, storage and early stop (mcmc.py); target
  density, gradient, metric, vague priors, initial step size.
* Assumed: exact arithmetic, finite log density; `U(gen)` uniform (C57); convergence decision arbitrary (C14); for C69 the
  likelihood's and prior's own gradients, and generalised inverse and log determinant as in C26 and C38; pivoted Cholesky factors by
  their equations (C70).
* Not modelled here: `check_convergence` and the slices it is given (see C91).
* Differences: without warm-up the step size changes after the first draw (C58); models without penalties cannot be sampled
  (`compute_S_emb_pinv_det` indexes an empty list, C69); null-space penalties are matched by formula and term separately, impulse
  response terms stay improper (C71); fixed smoothing parameters are not divided by the scale (C72); the search for a step size
  never ends for a flat target (C73).

### Families (C15-C19, C21, C49, C52, C59, C60)
`FamModel`, `ScaledTModel`, `LssModel`, `MGaussModel`.
* Modelled: all links, the five exponential families, `ScaledT`, `GAUMLSS`, `GAMMALS`, `MULNOMLSS`, `MultiGauss` element by
  element; PIRLS weights and working data.
* Assumed: scipy's log densities are the logarithms of the documented densities; `gammaln`, `digamma`, `polygamma` are log Gamma
  and its derivatives; the normal quantile function is any function with the quantile property (C52). Overflow of `exp` in `Logit.fi` is out
  of the model.
* Differences: gradient of extended families evaluates the link derivative at the deviance derivative (C59); `MultiGauss`: no link
  derivative in the gradient, one second derivative of `theta` wrong (C49).

### Chain rules for location, scale and shape models (C20)
`EtaBetaModel`: `deriv_transform_mu_eta`, `deriv_transform_eta_beta`. Assumed: `AllStored` where the shape of the Hessian is inferred from
the largest stored index; without it the shape is wrong (`hessian_shape_wrong`).

### Penalties (C22-C27, C61, C74, C75)
`PenModel`, `TensorModel`, `EmbedModel`, `LayoutModel`.
* Modelled: `DifferencePenalty`, `IdentityPenalty`, absorbing constraints, `TP_pen`, embedding, `embed_shared_penalties`,
  `combine_shared_penalties`, `split_shared_penalties`, pseudo-inverse of `compute_S_emb_pinv_det`, `build_penalties` with dropped coefficients.
* Assumed: `QrSpec`, `EighSpec` (decompositions by their equations); `nul` returns coordinates within the block (C74); every dropped
  coefficient has a stored entry (C62, C74).
* Not modelled: natural (Demmler-Reinsch) re-parameterisation of a term (`rp`), except the diagonal null-space penalties it asks for.
* Differences: pseudo-inverse misplaced when unpenalised coefficients lie between blocks (C26); a lone id is counted twice (C27);
  wrong rank for order zero, identity penalty under the difference constraint, root of a weighted identity penalty (C61);
  unpenalised impulse response terms are counted twice and raise, null-space penalty of the last level used for all levels after a drop,
  tensor smooths with several penalties per variable and a null-space penalty raise (C74); eigenvalues in (0, 1e-7] count as null space (C75).

### Sparse matrices and dropping coefficients (C28, C34, C62)
`SparseModel`, `DropModel`. Assumed: Eigen reads compressed arrays as documented; permutation convention of `cpp_cholP`; a null vector found by the
Foster method has a nonzero entry. Difference: an excluded coefficient without stored entry is neither removed nor realigned (C62).

### Several processes (C29, C63, C64)
`ParModel`. Assumed: `pool.starmap` returns results in order whatever the order of completion. Differences: impulse response terms with several
workers raise, as do fewer kept rows than files (C29); cache files collide for equal base names (C63); columns for null-space
penalties found only in one layout (C64).

### Fitting loops (C30-C33, C35, C65)
`LamModel`, `StepModel`, `EdfModel`, `NewtonModel`.
* Modelled: Fellner-Schall and Newton-type smoothing parameter updates with step control, coefficient step control, effective
  degrees of freedom, preconditioned Newton step, end of the outer loop.
* Assumed: `CholSpec`; no zero on the diagonal that is used as preconditioner (C33); traces exact (C30). `Step` is simplified
  after a tiny corrected step, as said at the definition.
* Not modelled: quasi-Newton branch of the degrees of freedom.
* Differences: dropped coefficients counted without penalties (C32); coefficients and predictors disagree at the iteration limit and
  after a corrected tiny inner step, weights rooted twice with excluded observations (C35); criterion `nan` loops for ever (C65).

### AR(1) residuals, multivariate normal draws (C36, C37)
`Ar1Model`, `MvnModel`. Assumed: standard normal draws independent; triangular solves by `Solves`. Differences: missing first
observation of a series; gaps treated as neighbours (C36).

### REML, comparison, re-parameterisation, quasi-Newton (C38-C41, C48)
`RemlModel`, `LogDet`, `CompareModel`, `ReparaModel`, `ReparaAsmModel`, `CompactModel`, `JhessModel`.
* Modelled: `REML`, `compare_CDL`, option 4 of `reparam`, `reparam_model`, the SR1 and BFGS compact forms used by the solver, storage of
  pairs, implicit inverse, finite-difference assembly.
* Assumed: `EigOK`, `BalOK`, `GoodRun`, `CholOf`, `DecOK`, `SvdOK`, `StepsOK`: the decompositions of this run satisfy their equations.
* Not modelled: options 0-3 of `reparam`.
* Differences: constant of REML not counting repeats and later formulas, scale forgotten in the QR fallback (C38); theta of model 2 ignored,
  automatic settings from model 1 only, `only_expected_edf` with other options raises (C39); earlier secant pairs not reproduced,
  `make_pd` may return a singular matrix (C40); other penalties lost when the first penalty has full rank (C41); duplicate
  columns counted twice (C48).

### Bases, model matrices, formulas, files (C42-C47, C51, C66, C67)
`BsplineModel`, `MmatModel`, `EncodeModel`, `SplitModel`, `FilesModel`.
* Assumed: `fftconvolve` is the convolution; evaluated bases have the requested width; codes are natural numbers without NaN (C43).
* Differences: basis of degree zero vanishes at the left boundary (C42); impulse response terms with `by` report too many names and carry
  `True`/`False` instead of a term index (C43); interactions restart after a factor with one level, unseen levels look like the first
  level (C44); series with separated rows are mixed, codebooks may collide (C45); negative indices accepted, extra coefficients
  forgotten after a drop (C47); level order from files arbitrary, missing values, `file_loading_kwargs` ignored (C51); wrong columns
  after `drop_coef` (C67).

### Smoothing parameter uncertainty (C50, C68)
`RhoModel`: priors, weights, `updateVp`, last part of `correct_VB`. Assumed: the covariance matrices that enter are positive semi-definite;
`model.edf` is the trace it stands for. Differences: projection to the valid interval fails if it excludes zero, aliasing of the
degrees of freedom with `form_t1` (C50).

### Covariance of smoothing parameters, bias-corrected degrees of freedom (C80-C82)
`WpsModel`, `WpsCrit` (criterion), `BiasEdfModel`.
* Modelled: `compute_bias_corrected_edf`, `compute_Vp_WPS`, `compute_Vb_corr_WPS`, the sum formed by `correct_VB` for `JJJ1`.
* Assumed: quadratic log-likelihood in the coefficients (exact for Gaussian models, the approximation the paper makes otherwise);
  `reparam` returns `Q' S Q` with orthogonal `Q` and a generalised inverse; `eigh` returns an orthogonal decomposition of `-Hp`;
  `cpp_chol` returns the lower factor or, on failure, the identity; penalties with different start positions do not overlap.
* Differences: unpenalised coefficients that were dropped stay in the total (C80); the second derivative is wrong for a penalty repeated
  over levels (C81: traces are multiplied by the repeats although the full matrices are used), `Vp` of a non-concave criterion drops
  directions (C81); derivative multiplied by the scale when coefficients were dropped (C82).

### Predictions (C83, C84)
`PredictModel`. The model matrix of the new data is an input. Assumed: `norm.ppf` inverts the distribution function at the level used;
draws are standard normal (C83), arbitrary (C84). The values of `np.quantile` for infinite entries are left open. Differences (C84):
interpolated quantile below the level; columns with sum zero are not sampled when `use_terms` is given, so that the interval of a
linear effect on a symmetric grid has width zero; a zero row makes all half widths `nan`.

### Summaries and tests (C85-C87)
`SummaryModel`, `WaldModel`.
* Modelled: `print_parametric_terms`, loops of `print_smooth_terms` and `approx_smooth_p_values` (coefficient slices, positions in the
  list of degrees of freedom, lines), statistics and p-values of smooth terms, both cases.
* Assumed: `eigh` returns an orthogonal decomposition (eigenvalues sorted and nonnegative are not needed beyond the leading ones being
  positive); `daviesQF` returns the exact probability without fault (C115 is about what is returned) and truncates degrees of freedom to integers; `chi2.cdf` is
  exact. `f.cdf`, `beta.cdf`, `gamma.cdf` are parameters about which nothing is assumed.
* Not modelled: formatting. F tests and the approximation used if Davies fails are in C117.
* Differences: eigenvectors with first entry zero are multiplied by sign zero and drop out of the statistic, signs of eigenvectors matter
  for the second statistic and so for the p-value and the statistic, which is their maximum (C86); terms behind an impulse response or
  unpenalised term are reported with the degrees of freedom of another term, coefficients are divided evenly among levels after a
  drop in one level (C87).

### Estimated scale (C88)
`ScaleModel`. Modelled: the residuals `wres` and the quotient of `update_scale_edf`, working data of `update_PIRLS`, with and without AR(1)
transformation. Assumed: coefficients solve the normal equations of the columns kept (that is what the solver is proved to return, see
C31); errors have the stated second moments. Nothing is said about the mean of the estimate in penalised or generalised models, where it
is only approximately the scale. Differences: `wres` subtracts a predictor with offset from working data without it; without penalties
the degrees of freedom are the number of columns, also if columns were dropped.

### State of fitted models (C89, C90)
`FitModel`. Modelled: attributes of `GAMM` objects, `fit` with its checks and assignments, `get_llk`, `get_resid`, `get_mmat`, storage of
bias corrected degrees of freedom. Parameters: the solver `solve_gamm_sparse` (any function of its arguments, may raise), computation of
the degrees of freedom, family. Not modelled: models built from files, `discretize`, removal of missing values (inputs are the rows
left), `get_resid("family")`, which passes the check and returns `None`. For C90 the solver is assumed to return a solution of the
penalised normal equations of the data it is given, with `penalty = coef.T @ S_emb @ coef` (gamm_solvers.py 3126). Differences: see the
claims; `rho`, `res_ar`, `transform_X`, `edf1` are never reset, and the penalty is not divided by the scale in `get_llk`.

### Convergence diagnostics (C91)
`ChkModel`. Modelled: `check_convergence` for one diagnostic. arviz is a parameter: a function of the draws of one parameter. The matrix of
group-level terms (`model.predict`) is an input. In floating point, column sums of constrained bases are rounding errors of either
sign instead of zero, so that which coefficients are reported is arbitrary; the model says zero.

### Re-parameterised smooths (C92)
`NatParModel`. Modelled: `reparam` for options 1 to 3 from the factor `R` on (the rows chosen by options 2 and 3 are the input), the
tensor transformation of `absorb_repara`, which `RP` entry `build_penalty` uses, and the order of constraint and transformation in the
term matrix. Assumed: `R.T R = X.T X` with `R` invertible (what Cholesky or QR return), the decompositions `eigh` and `svd` for the matrix at
hand. Not modelled: kernel penalties under `rp=1` (formula.py 2349-2370), which use the rank of the penalty constructor. With `scale`
and rank zero the code divides by the mean of no columns; theorems about scaled columns ask for a positive rank. Differences: see the claim.

### Outer iterations of GAMMLSS and general smooth models (C93)
`OuterModel`, with the step control of `LamModel`. Modelled: both loops over smoothing parameters with step control, fallback to the previous
Hessian approximation and restarts for `qEFS`, convergence test, results. Parameters: the estimates for given smoothing parameters
(any function of iteration, pass, smoothing parameters and starting coefficients, so `keep_drop` and stored optimizers are covered), the
restart vector. Left out: models without penalties, the final sampling of the `qEFS` Hessian (which is done with `S_emb` of `used` and
the penalties with `lam`, 9604-9664), condition number. Differences: see the claim.

### Coefficient iterations (C94), dropped coefficients (C95, C96)
`CoefModel`: one model of `update_coef_gammlss` and `update_coef_gen_smooth` for all methods but `qEFS`, using the step control of
`StepModel` and the padding of `DroppedModel`. Parameters: log-likelihood (of the model with any subset of the coefficients), penalty,
derivatives, Newton and gradient proposals with the ridge, random numbers, outcome of `identify_drop`. Left out: invalid observations of
the GAMMLSS (part of the log-likelihood), the loop after the iterations that adds a ridge until the Fellner-Schall updates are
non-negative (5499-5540, 8453-8491). `DroppedModel`: what happens to the results of re-parameterised fits with dropped coefficients; `Q_emb`
is any (for some theorems orthogonal) matrix. `DropExtraModel` extends `DropModel` by extra coefficients and missing model matrices.
Differences: see the claims.

### Strictly additive models (C97)
`GaussModel`, on top of `ParModel` (cross products and predictors put together from workers and files), `LamModel`, `StepModel`. Modelled:
`solve_gamm_sparse` and `solve_gamm_sparse2` for `Gaussian` with identity link. The solver is exact: inverse for positive definite
matrices, zero coefficients with code 1 otherwise, as in eigen_solvers.cpp. Parameters: traces, log-determinants, scale, whether the criterion is
`nan`. Left out: `method="QR"` (which drops coefficients, C31, C34), condition numbers (the factor of a failed factorisation is replaced by the identity,
so they raise no alarm), AR1 transformation (C36), impulse response terms, which file models ignore. Differences: see the claim.

### Simulated series, fixed matrices, duration residuals (C98-C100)
`HsmmPredModel`, `HsmmWrapModel`.
* Modelled: the loop of `HSMMFamily.predict` over time points, samples and series (states, remaining durations, template position,
  emission means); `compute_Tpi`; the wrappers `decode_viterbi`, `sample_posterior_states` and `get_resid` as far as they select
  matrices, series and autocorrelation; `_compute_dur_res_series`.
* Assumed: numpy's `choice(n, p=p)` uses one uniform number and a binary search in the normalised cumulative sums; the uniform
  numbers of a generator are independent (`streams`, an infinite product measure). Noise of the observations is a parameter.
* Simplified: one signal in `HWrap`; decoder, sampler and residual of a duration are parameters, so the theorems are about their
  arguments (C02, C03 are about the decoders).
* The autocorrelation is put back with the exact inverse of the matrix (`arBack`). Not modelled: multivariate Gaussian emissions.
* Differences: simulated states last one time point too long and time-varying transitions are read one time point too late, bumps
  get a shifted template, all series share one seed (C98); lists of matrices are ignored after the first series on one core (C99);
  duration residuals decode every series with the first matrices, transform a single autocorrelated series twice, read
  time-varying duration models after the run, treat a path with one run as a later segment (C100).

### Clustered factor smooths (C101)
`ClusModel`.
* Modelled: `__discretize` (bins), `__split_discretize` (sub-groups and combinations of `split_by`), `__cluster_discretize` (vector of a
  series, choice among the runs, representative, weights), the two sums of `compute_B` for a clustered term.
* Parameters: labels and loss of `kmeans2`, order of `argsort` (any permutation), the contribution of one level's coefficients.
* Simplified: rows carry the values after `unique`; the standardisation of vectors (`normalized`) is defined, no theorem uses it.
* Differences: series whose split factor changes get several clusters; two split factors with sub-groups raise `IndexError`; series
  numbers in order of appearance are used as levels of the factor; with three covariates columns of the third overlap the first.

### Identifiability constraints (C102)
`ConsModel`, on top of `PenModel` and `TensorModel`.
* Modelled: `__absorb_constraints`, `__absorb_constraints2`, `_compute_constraint_single_MP`, the checks of `absorb_repara`, the columns of
  `f.build_matrix` for terms that are not re-parameterised, `by`, `by_cont`.
* Assumed: a basis evaluates row by row given `min_c`, `max_c`; functions of a variable sum to one on the data (`Unity`, C42 for B-splines); full
  QR of one column (`QrSpec`). Independence of the unconstrained columns is a hypothesis on the data.
* Not modelled: `drop_coef` (C103), `binary`, tolerance `tol`, the re-parameterised columns (C92).
* Differences: columns do not sum to zero for `DROP`, `DIFF` and for interactions; tensor smooths with default arguments raise for
  files; interactions with `DROP`/`DIFF` raise `ValueError` with the default `rp`, because a basis is multiplied by the integer `constraint.Z`
  (terms.py 601).

### Nested smooth terms (C103)
`NestModel`.
* Modelled: names of terms and levels, order of the comparisons, choice of the compared terms, deletion of columns, `drop_coef`
  (`__fix_nested`); `id_dependencies` in exact arithmetic, including the loop that lowers the rank.
* Assumed: the first decomposition gives an orthogonal matrix that makes the compared columns upper triangular (`Qr1Spec`); the pivoted
  one gives a permutation, a rank, orthonormal columns and a triangular factor with non-zero pivots (`PivSpec`). The hypotheses are stated for
  the matrices that occur.
* Parameters: the matrices of all terms and levels (C42, C43, C102).
* Not modelled: `build_matrix` with `drop_coef` (C67 shows that it can take other columns).
* Differences: see the claim.

### Noise of event models (C104)
`HsmmSimModel`.
* Modelled: `ld_wrapper`, `lcp_wrapper`, `rvs_wrapper`, seeds and layout of the noise of `_sample_series_emissions`.
* Assumed: scipy's exponential and normal numbers are scale times standard ones, those have the exponential and normal law and do not depend on
  the uniform numbers of `default_rng` with the same seed (another generator); uniform numbers have the uniform law.
* Not modelled: `seed=None`; other families (their `rvs` are scipy's), multivariate Gaussian emissions.
* Differences: see the claim.

### Scores of sampled smoothing parameters (C105)
`CandModel`, on top of `GaussModel`, `StepModel`, `RhoModel`.
* Modelled: `compute_reml_candidate_GAMM` and `_compute_VB_corr_terms_MP` for strictly additive models; the Newton passes of
  `compute_reml_candidate_GAMM` for other families; the exceptions of it and of `compute_REML_candidate_GSMM` and what the
  callers do with them; the rows of `p_sample`; the place where `only_expected_edf` gets the candidates' degrees of freedom.
* Parameters: `REML` (C38) as a function that may raise; pseudo-data and solver of the Newton passes; the samples of the t distribution; the
  points at which `scipy.differentiate.hessian` evaluates the score.
* Assumed: the Cholesky factorisation succeeds exactly for positive definite matrices.
* Not modelled: shared memory, dropped coefficients, shape parameters of extended families during the passes, the clipping of the mean
  of the samples to `[a, b]`, `recompute_H`.
* Differences: see the claim.

### Responses to events (C106)
`RespModel`, on top of `BsplineModel`.
* Modelled: the basis of every variable with and without convolution, tensor products, blocks of the levels of `by`, kept entries,
  the pairing of series and onsets and the assembly of the rows, with `nan`.
* Assumed: `fftconvolve` is the convolution without rounding if no value is `nan`, and `nan` everywhere otherwise; `abs(nan) > tol` is false.
  `response_start` is about `tol = 0`; rounding of the fft leaves small non-zero entries otherwise.
* Not modelled: reparameterisation and constraints of impulse response terms, `identifiable`, the removal of rows with missing values after building.
* Differences: the basis is evaluated at the time values of the series before the shift, so times must start at zero; a missing time
  silently removes the term from its series (`build_model_matrix` later drops only the row that is missing); onsets are paired by position.

### Rows with missing values (C107)
`RowsModel`.
* Modelled: masks of data frames and of file data with covariates in memory, response and matrices of all formulas, offsets of
  strictly additive models, rows of predictions with `use`, sums with `nan`.
* Terms: intercept, numeric and dummy-coded linear effects, smooths (with `by`), random intercepts. A basis is any function of the variable;
  it is `nan` if the variable is.
* Not modelled: impulse responses (C106), interactions, random slopes, functions of the response, sparse storage (a missing entry is zero, a stored
  `nan` makes the sum `nan`).
* Differences: the masks are computed per formula and never compared, and `GAMMLSS.fit`/`GSMM.fit` take the response of the first formula: formulas that
  lack values in different rows are fitted to responses of other rows, without an error if the numbers of rows agree.

### Factors of quasi-Newton fits (C108)
`QfacModel`, on top of `CompactModel`.
* Modelled: `E`, its Cholesky factor, the second QR and eigendecomposition, up- and downdates, both branches of `form_VH`, the number of pairs that chooses
  between them, smoothing parameters after the last iteration, traces column by column, the count `n_corrs` kept by the stored operator.
* Assumed (`ExtOK`, which `ext_exists` shows can be met): pivoted Cholesky succeeds exactly for positive definite matrices and otherwise returns the identity; Eigen's rank one
  update returns the triangular factor whenever the updated matrix is positive definite; `compute_Linv` inverts. `DecOK`, `EigOK`: decompositions by their equations.
* Not modelled: the QR fallback (in exact arithmetic it is reached only for a singular `E Eᵀ`, returns a factor of the size of the rank, and `P @ Lp` raises);
  a downdate to a matrix that is not positive definite (the code of `rankUpdate` is not looked at); rounding.
* Differences: see the claim.

### Fits by QR decomposition (C109)
`RootModel`, on top of `EmbedModel`.
* Modelled: blocks with their embedded roots (`DJs`), the loop that places roots of blocks with several penalties by a running index and adds those of blocks with one penalty,
  the stacked problem, both column permutations, back substitution, insertion and removal of `nan`, `keep`, `drop`, `Pr`, the padded factor.
* Assumed: `EighOf` (eigenvalues and orthonormal eigenvectors), `Qr.Of` (`A P = Q R`, `Q` orthogonal, `R` triangular, non-zero diagonal below the rank; `rot_of` gives one);
  any column ordering. Nothing is assumed about what the rank decision leaves behind, except in `fit_global_partial`. The hypotheses on penalties (`Emb`) are proved for penalties as built
  (`emb_holds`).
* Not modelled: linear predictor, working weights, rounding; a failed decomposition (code 2) raises `ValueError` when the coefficients of twice the length are permuted.
* Differences: eigenvalues up to `eps**0.7` are dropped from the root, which costs at most that times the squared coefficients (`root_close`); with unpenalised coefficients
  between penalised blocks the root of later blocks with several penalties is misplaced (`gap_wrong`). A single formula cannot have such gaps (smooths without penalty behind penalised ones
  are refused), so `GAMM.fit` is not affected; factors of quasi-Newton fits of several formulas use the same root (gamm_solvers.py 9653-9664).

### Update vectors of quasi-Newton fits (C110)
`SecantModel`, on top of `CompactModel` (C40: the approximations built from the vectors).
* Modelled: function and gradient handed to the optimiser, removal of the penalty from the rows, the loop back over the rows with finite differences, padding with earlier rows, change of basis before and
  after an outer iteration and the choice of the earlier approximation, sampling with both methods (step, dual averaging of the radius with special float values, test of every pair, attempts over seeds), columns.
* Assumed: a Cholesky factor `LV H LVᵀ = 1` (`step_scale` only), the normal numbers are an arbitrary stream, `scp.differentiate.jacobian` returns the derivative, the optimiser returns at most `maxcor` rows.
  In the basis of an iteration the gradient is `Qᵀ g(Q b)` with an orthogonal `Q`.
* Assumed about scipy, not checked here: the rows of `hess_inv` are its buffer in storage order, and when the buffer is full the oldest row is overwritten (`ring`); `LbfgsInvHessProduct` refuses one dimensional arrays.
* Not modelled: convergence of the optimiser, basin hopping, skipped updates of the optimiser (rows then are not consecutive steps), finite difference blocks in a changed basis other than `nHfd`, `omega0`.
* Differences: after more than `maxcor` steps the rows are not in order and the Hessian is approximated at coefficients that were never visited (`ring_wrong`); the finite difference block stays in the basis used for
  fitting if there are no rows (`block_back_wrong`); a log-likelihood that is not a number counts as accepted when the radius is adapted, which enlarges it (`invalid_nan_wrong`); `adapt_r` with `Madapt=0` uses radius one instead
  of `init_r` (`no_adaptation_wrong`); when no pair could be sampled the warning is followed by an exception (`no_samples_wrong`), in exact arithmetic always for a negative Hessian that is a multiple of the identity
  (`isotropic_wrong`), in particular for a single coefficient.

### Early stop and seeds of the sampler (C111, C112)
`StopModel`, `SeedsModel`, on top of `SchedModel` (C14) and `ChkModel` (C91).
* Modelled: arrays of draws and their parts, slices given to the convergence check, criteria, early stop, calls of the callback, result; seeds of chains and blocks.
* Assumed: diagnostics of arviz are arbitrary functions with real values; the random numbers of a block are a function of its seed (`rnd_eng gen(seed)`).
* Not modelled: `nan` as diagnostic (the sampler then does not stop), progress bar, shared memory.
* Differences: the log density is checked on all draws since warm-up although only the second half is returned; the callback misses the last block of a run that stops early; seeds are integers below 10000.

### Reported Hessian and covariance of fits by Newton's method (C113)
`RidgeModel`, on top of `NewtonModel` (C33).
* Modelled: last Newton step, traces, check, perturbation by doubled multiples of the identity, end after 32 passes, Hessian stored by the models.
* Assumed: `CholSpec` as for C33 (`cholC_spec` gives one for every size); `S_pinv` is a generalised inverse (`unperturbed`, `lgdetD_rank`).
* Not modelled: dropped coefficients, penalties with a shared smoothing parameter (`id`), the orthogonal re-parameterisation, rounding.
* Differences: a ridge added by `newton_coef_smooth` is a multiple of the absolute diagonal, but the stored Hessian is changed by the same multiple of the identity, so it need not belong to the covariance and the negative
  penalised Hessian can stay negative (`hessian_wrong`); after 32 passes a perturbation that does not help is kept (`gives_up_wrong`); the check compares traces and can pass for an indefinite Hessian, contrary to the comment at
  gamm_solvers.py 8433 (`psd_wrong`).

### Traces computed without the inverse (C114)
`BcolModel`, on top of `EmbedModel`, `EdfModel`, `ParModel` (sum over columns, in parallel or not).
* Modelled: sums of columns, detection of penalties on a single coefficient, `np.arange`, slices clipped at the number of columns, index out of bounds.
* Assumed: `cpp_solve_tr` solves, so that the columns are multiplied by the inverse factor.
* Not modelled: dropped coefficients (the method must be "Chol" here); clusters are in C101.
* Differences: the upper end of `np.arange` at matrix_solvers.py 670 is `k * (rep + 1)` instead of `start + k * rep`. Behind more than about two functions' worth of columns levels are left out, the trace is too small and the
  degrees of freedom too large (`null_wrong`, `null_zero_wrong`); with an intercept and a factor smooth with two null space functions the index is out of bounds (`null_raises_wrong`).

### Distribution of weighted sums of chi-square variables (C115)
`QfModel` (davies.cpp 24-421); proofs in `QfWave`, `QfTrap` (inversion), `QfLaw` (transforms of the law), `QfTrunc`, `QfLemmas`, `QfAcc`; theorems in `Qf`, `QfUnits` (units of `cfe`), a complete run in `QfEx`.
* Modelled: every function of davies.cpp, with the counter as a budget, in exact arithmetic. `log1` by the value of its series (`log1_series`). Terms below `exp(-50)` are set to zero as in the code; this appears in the bound.
* Not modelled: non-centrality parameters (all callers pass zeros), round-off (fault 2), allocation, entries of `trace` other than the convergence factor and the number of auxiliary integrations.
* Not proved: the error made by the convergence factor itself and by auxiliary integrations, which rest on `cfe`. Over the same nodes auxiliary and main sums add up to the sum without convergence factor (`auxiliary_complement` in `QfAux`).
* Differences: a misplaced `break` (davies.cpp 83) ends the insertion after one comparison, so that `order` does not sort (`order_wrong`); in the tests for an estimated scale one weight is lost and another used twice
  (`order_test_wrong`); the coefficient computed by `cfe` is then too small (`cfe_wrong`).

### Starting values (C116)
`InitModel`, on top of `FamModel`.
* Modelled: starting means, first pseudo-data and weights, starting coefficients of the families and of the caller, split of coefficients, starting smoothing parameters, columns for structured quasi-Newton fits.
* Assumed: the inner fits of `init_coef` return one coefficient for every column of the first formula (`hf`); `np_gen.choice` draws without replacement (`Draws`); `scp.stats.norm.rvs` returns as many numbers as asked for.
* Not modelled: columns given by the caller (used as they are), budgets that are floats above one (`choice` raises), extended families in `first`.
* Differences: normal responses with the log link start from the response (`log_start_wrong`, `log_start_raises_wrong`); the length of given coefficients is not checked (`length_unchecked_wrong`).

### F tests and approximate p-values (C117)
`WaldModel`; proofs in `FtestLemmas` (gamma laws, chi-square laws as gamma laws, means and variances), `FtestRatio` (ratio of gamma variables and the beta law); theorems in `Ftest`.
* Assumed: the distribution functions of scipy are exact: `FCdf` for the ratio of two independent chi-square variables over their degrees of freedom, `BetaCdf`, `GammaCdf` for Mathlib's beta and gamma measures. `lib` satisfies all three.
* For validity of the F test: eigenvectors with first entry not zero, the scale estimate independent of the coefficients and proportional to a chi-square variable with `rsdf` degrees of freedom.
* Differences: the approximating law has the right mean and variance but is never the law of the statistic (`approx_not_exact`, as documented by the code's comments); `force_approx=True` is ignored if Davies' method reports round-off
  for both statistics (`force_wrong`).

### Families as probability distributions (C118)
`DensModel`, on top of `FamModel`, `ScaledTModel`, `LssModel`, `MGaussModel`; proofs in `DensIg` (inverse Gaussian integrals), `DensT` (t integrals), `DensLemmas`, `DensMvn`; theorems in `Dens`.
* Modelled: the laws with log density `lp`; `V` and `Ed2Ddmu` of the scaled t family; distribution functions; laws of single simulated entries and seeds of the rows of `MultiGauss.rvs`.
* Assumed: scipy's `norm`, `gamma` and `multivariate_normal` draw `loc + scale * z`, `scale * g` and `mean + A z` for standard variables and some square root `A` of the covariance; numpy's `choice` draws with the given probabilities
  and raises unless they are nonnegative and sum to one (exactly, where numpy allows round-off).
* Not modelled: independence of the entries of one call; the relation of draws with different seeds.
* Differences: with `min_df` below two, which the constructor accepts, `ScaledT.V` can be negative (`scaledT_variance_wrong`).

### Condition number checks (C119)
`CondModel` (matrix_solvers.py 433-533; gamm_solvers.py 2847-2866, 3092-3112, 3189-3217, 6393-6411, 9681-9699); proofs in `CondLemmas`; theorems in `Cond`.
* Assumed: `svds(A, k=1)` returns the operator norm, raises unless `1 <= k <= min(A.shape) - 1` (solvers "arpack" and "lobpcg") and may fail to converge (flags). The theorems about `est_condition` need one of the solvers to converge for both
  matrices and `L @ Linv = I`.
* Not modelled: factors padded with zeros for dropped coefficients; the message texts; the warnings issued by `est_condition` itself with `verbose`.
* Differences: the checks of `solve_gamm_sparse` test `Kcode == 1` for "Chol", so that the worst systems, which have code 2, neither raise nor warn (`chol_guard_wrong`); `raise warnings.warn(..)` at line 3209 raises a `TypeError`
  (`final_raises_wrong`); for one coefficient `svds` always raises and the fit is reported as not converged (`single_code_wrong`).

### Vectors of Gaussian emissions in hidden semi-Markov models (C120)
`HsmmMgModel`, on top of `HsmmFamModel` (C78), `MGaussModel`, `DensModel`; proofs in `HsmmMgLemmas` (segments of columns), `HsmmMgLemmas2` (densities), `HsmmMgLemmas3` (derivatives, columns); theorems in `HsmmMg`.
* Modelled: predictors, densities and signal-wise probabilities of states with `MultiGauss`, columns of `b_grad` for formulas and parameters of the precision matrices, merging of shared formulas, rearrangement of the gradient, position of the
  parameters in the coefficients, seeds of simulated emissions. States with independent signals as in C78.
* Assumed: two numbers drawn from generators with the same seed are equal (`noise` is a function of the seed).
* Not modelled: event models (`hmp_code`) with vectors, several series (sum of the gradients of the series as in C78), missing values.
* Differences: no link derivative in the columns of the means (`link_wrong`, lines 3351-3356); constant missing in the density (`mixed_states_wrong`, lines 488 and 3322: harmless if all states have vectors, `llk_shift`);
  row `t` of state `j + 1` is simulated with the noise of row `t + 1` of state `j` (`simulated_noise_wrong`, lines 953-961 with exp_fam.py 5226-5238).

### Restricted likelihood (C121)
`RlModel` (gamm_solvers.py 60-182, 890-1012, 1185-1226, 1289-1337, 2396-2399); specification `restricted` and facts in `RlSpec`; proofs in `RlLemmas`; theorems in `Rl`.
* `restricted` is the log of an integral over all coefficients, defined without the code: product of Gaussian densities times the Gaussian density on the range of the penalty (flat on its kernel).
* Assumed (`Ok`): penalties given by roots, exact inverse of the Cholesky factor, exact pseudo-inverse of the summed penalties of terms with several penalties, penalised cross product positive definite, stored ranks right, and terms with
  one penalty sharing no coefficients with others. The code's pseudo-inverse drops singular values below 1e-7 ("svd") or adds 1e-10 to the diagonal ("chol").
* Not modelled: shared smoothing parameters, dropped coefficients, acceleration and correction of steps (C30, C65), the fits of generalised models, for which the weights depend on the smoothing parameters.
* `fixed_stationary` is about the interior of the permitted range; at its ends `fixed_kkt` gives the sign. `stationary_fixed`: the converse needs `bSb > 0`, since a term whose coefficients are all zero is always sent to 1e7.

### Laplace approximation in GAMMLSS and general smooth models (C122)
`LapModel` (gamm_solvers.py 60-182, 969-970, 5804-5846, 5897-5916, 8778-8818, 8906-8924); specification `pval`, `Best`, `laplace` and facts in `LapSpec`; theorems in `Lap`.
* The log-likelihood `l` and the map `nH` from coefficients to negative Hessians are arbitrary. Coefficients are maximisers of the penalised log-likelihood (`Best`); `total_gradient` needs them to be continuous along the line and the Hessian along
  them to be differentiable. `best_continuous` proves continuity for concave `l` with one maximiser.
* Assumed (`Ok`): as for C121, with the negative Hessian at the returned coefficients in place of the cross product; the Hessian was not modified (`eps = 0`), no coefficients dropped.
* Not modelled: the quasi-Newton approximation of the Hessian (C108), extension and damping of steps (C30; `step_is_delta` connects the two models).
* Differences: the comment in the code calls the gradient approximate. `laplace_stationary_wrong` shows that the approximation matters: a fixed point of the updates at which the Laplace approximation has derivative 1/2.

### Units, row order and parameterisation (C123)
`EquiModel` (gamm_solvers.py 46-100, 948-991, 1185-1226) on top of `GaussModel` (C97); simulation of one fit by another in `EquiLemmas`; traces in `EquiSpec`; theorems in `Equi`.
* `Sim` lists what two fits must share; `Sim.whole` then relates all variables of the complete loops: proposals, corrections, extensions, halvings, convergence test. The same fuel is used on both sides, so the numbers of iterations agree.
* The transformed data are fitted in memory; by `files_memory` (C97) this covers data in files.
* Assumed (`Good`, only for recombined or reordered columns): roots, exact inverse factor, exact generalised inverse of the overlapping penalties and stored ranks, for both parameterisations.
* Not modelled: AR1 models (reordering rows would not be harmless), dropped coefficients, shared smoothing parameters, `nan`.
* A scale given by the user is not homogeneous: `known_scale_depends`.

### Penalised iteratively re-weighted least squares (C124)
`PirlsModel` (gamm_solvers.py 459-461, 580-616, 1286-1291, 1798-1858, 2210-2292) on top of `FamModel` and `StepModel`; real versions and curvature of the rows in `PirlsLemmas`; gradient, expansion, halvings and limits in `PirlsSpec`;
theorems in `Pirls`.
* `pllk`: sum of the log densities (as documented by scipy, C16) at the fitted means minus `b' S b / (2 scale)`. `Adm`: all means in the domain of the family. `Ident`: no direction is in the kernels of both model matrix and penalty.
* `concave`, `strict`: the combinations of family and link for which the Newton weights are non-negative (positive) for all admissible means. Inverse Gaussian models are in neither list.
* `limit_is_max` needs that a pass leaves the coefficients alone only if the proposal did (`hgo`); `limit_is_stationary` says what else can happen. Convergence itself is not claimed.
* Not modelled: families with shape parameters (`updateTheta`, C31), AR(1) residuals, dropped coefficients, file-based data, floating point overflow in the means.
* Differences: `Poisson.D` and `Binomial.D` replace the logarithm of a negative mean by zero, so that the penalised deviance of coefficients with negative means is finite and can be lower than that of all admissible ones
  (`negative_mean_wrong`: identity link, one pass from means 1/2, 1/2 to 5/2, -3/2).

### Coefficient iterations of GAMMLSS and general smooth models (C125)
`LmlModel` (gamm_solvers.py 5352-5478, 8275-8396) on top of `CoefModel` and `NewtonModel`; facts in `LmlLemmas`, `LmlSpec`; general theorems in `Lml`; proportional hazards and multinomial models in `LmlFam`; the Gaussian counterexample in
`LmlSaddle`; further cases in `LmlEx`.
* The family enters through log-likelihood, gradient and Hessian. The general theorems need the gradient to be right (proved for the families of the package in C08 and C20) and Hessian and penalty to be symmetric; the Hessian need not be right, which
  matters because GAUMLSS and GAMMALS report expected second derivatives. The diagonal of the negative penalised Hessian must not vanish (C33).
* The sparse Cholesky factorisation is specified by `CholSpec`; the stored patterns of sparse products by `Holds` (every nonzero value stored).
* `limit_is_max`, `hazard_limit_is_max`, `multinomial_limit_is_max` need that an iteration leaves the coefficients alone only if the proposal did (`hgo`); `limit_is_stationary` says what else can happen. Convergence itself is not claimed.
* `Calm`: no random restarts (C94). Not modelled: dropped coefficients, removal of rows with `nan` means, quasi-Newton methods, changes of the smoothing parameters between iterations.
* Differences: for likelihoods that are not concave the result depends on the start. `default_start_wrong`: with observations symmetric around their mean the mean never moves from its initial value, where the log-likelihood is not even locally
  maximal (`fixed_not_max_wrong`). The user is not told.

### Row order, time scale, units and basis in location-scale and hazard models (C126)
`InvarModel` (recombined model matrices) on top of `LmlModel` (C125); relation between two executions in `InvarLemmas`; data of hazard and location-scale models in `InvarFam`; theorems in `Invar`; cases in `InvarEx`.
* `Same x x' A`: log-likelihood, gradient, Hessian and penalty of `x'` at `c` are those of `x` at `A c`. It is proved for the data of hazard models and of location-scale models with any family, from the code's formulas.
* `Agree` is what the user sees: coefficients, log-likelihood, penalised log-likelihood, ridge, how the iterations ended, variances of predictions from the last Hessian.
* `units_lss`, `units_hazard` need that the diagonal of the penalised Hessian does not vanish at the coefficients visited (C33); `recombined_lss`, `recombined_hazard` that it is positive definite there.
* Not modelled: changes of the smoothing parameters between the iterations (for Gaussian models: C123), dropped coefficients, quasi-Newton methods, restarts (they do not occur with Newton's method and finite log-likelihoods).
* Differences: the ridge of `newton_coef_smooth` is a multiple of the diagonal of the penalised Hessian, so that it does not depend on units but on the basis (`ridge_wrong`). Gradient steps depend on units (`gradient_wrong`).

### Shape parameters of extended families (C127)
`ShapeModel` (gamm_solvers.py 2552-2635; `thetaInner` from `StepModel`), lemmas in `ShapeLemmas`, the scaled t family in `ShapeFam`, theorems in `Shape`, cases in `ShapeEx`.
* `scp.linalg.eigh` is a parameter with `EighSpec` (orthonormal eigenvectors of symmetric matrices); `eighC` satisfies it for every size.
* With a zero Hessian the code divides by zero and the step becomes `nan`; the model then has no proposal. Assumed: the log-likelihood of `nan` parameters is not a finite number.
* `limit_is_stationary` needs a gradient that is continuous and a Hessian that is bounded near the limit; both are proved for the scaled t family. The gradient of that family is shown to be the gradient in both parameters together.
* `path` is the sequence of parameters without the test for convergence; `update_spec` says which of its members is returned. Convergence itself is not claimed (for data with light tails the log-likelihood grows as the degrees of freedom tend to
  infinity).
* Differences: the test for convergence `max |grad| < 1e-7 |llk|` depends on the units of the response (`units_wrong`; the units needed are extreme for a gradient that is not small). If 32 halvings do not help, or the Hessian is zero, the function
  returns at once and skips its own warning (`silent_wrong`).

### Numbering of the hidden states (C128)
`HsmmRelModel`, `HsmmRelFamModel` (what renumbering does to tables, series and coefficients; nothing in /repo renumbers states, these definitions belong to the statement), lemmas in `HsmmRelLemmas`, `HsmmRelSeg`, theorems in `HsmmRel`, `HsmmRelDec`, `HsmmRelFam`, cases in `HsmmRelEx`. The functions are those of `HsmmModel`, `ResidModel`, `SampleModel`, `ViterbiModel`, `HsmmFamModel`.
* `Ok` lists which permutations the switches leave possible: `ends_in_last` names the last state, event models name flats and events by parity.
* For event models the statement is about the tables. How the tables of events depend on the previous state (AR(1) errors after an event) is not part of it.
* `seriesLlk_relab` asks for one model matrix for all transitions out of a state (`SameX`) unless transitions are fixed: with different formulas per target the renumbered model is in general not a model of the class. Penalties are not part of it: a penalty on the coefficients of a transition is not the penalty on differences of them.
* Differences: with several signals predictive residuals depend on the numbering (`predictive_wrong`, the defect of C06 in resid.cpp 501). Among equally good segmentations Viterbi decoding prefers low numbers (`ties_wrong`).

### Row order, units, basis, offsets and trials in generalised additive models (C129)
`PirlsInvModel` (the rewritten data; nothing in /repo rewrites data like this, these definitions belong to the statement), relation between two executions in `PirlsInvLemmas` (`Sim`), theorems in `PirlsInv`, cases in `PirlsInvEx`. The functions are those of `PirlsModel` (C124), with the same simplifications.
* `recombined`, `rows` hold without conditions on the data: also if steps are halved, rows are left out or the system is not positive definite. `offset` needs positive definite systems (if the factorisation fails, the model returns zero coefficients, which are not shifted) and a `b0` without penalty.
* `trials`: binomial family with logit link. The deviances differ by a constant, so steps are halved alike; the stopping rule compares changes with the deviance and may stop elsewhere, so the statement is about the sequence of passes.
* Not part of it: the smoothing parameters are given (for Gaussian models: C123), starting values are given (the default ones depend on the listing of the data).

### What smoothing parameters do (C130)
Functions of `RlModel` (C121); lemmas in `SmoLemmas`, theorems in `Smo`, cases in `SmoEx`. `Core` says what the other parts of the code provide: roots of the penalties, positive smoothing parameters, the inverse of the Cholesky factor of a positive definite system.
* `Same`, `Raise` relate two fits of the same model to the same data. `rss`, `rough` are residual sum of squares and penalty of any coefficients.
* In `term_edf` the number `lam j * bps x j` is what `calculate_edf` takes off the number of coefficients of the term.
* The scale is given: an estimated scale is not monotone in the smoothing parameters.
* Gaussian models with identity link. For generalised models the statements hold for each weighted system (C124), not for the fit as a whole.

### Separate and pooled levels (C131)
Functions of `RlModel` (C121) and `MmatModel` (C43); theorems in `Pool`, `PoolCode`, cases in `SmoEx`.
* `Levels` asks for a basis in which each column belongs to one level. `by_columns` shows this for the columns of a smooth by level as they are (no dropped coefficients); an intercept with treatment-coded levels needs the recombination to means of levels (case `exT`).
* `separate` compares any two data sets that agree on one level; the smoothing parameters of other levels may differ as well. The scale is given; smoothing parameters are given (estimated ones depend on all levels through the scale).
* `random_intercept` and the following need the identity as penalty (the penalty of `ri` terms, C61) and an unpenalised intercept.

### Units and direction of covariates (C132)
Functions of `BsplineModel` (C42), `PenModel` (C22), `PirlsModel` (C124); `BsplineUnits` adds lines 140-147 of `B_spline_basis` (`bsplineBasis`: boundaries given or taken from the data) and the theorems.
* Terms hand `min_c` and `max_c` over from the data (or `basis_kwargs`); the conversion of both is part of the hypotheses (`Option.map`).
* `Smooth` describes a term without constraints. With absorbed constraints the unit statements apply unchanged because the basis is the same; for the mirrored covariate the columns after the QR decomposition are not reversed columns, and equality of fits follows from C129 only after recombination.
* `mirror_zero_wrong`: step functions (degree zero) are closed on the right, so the mirrored basis differs in the knots.
* The smoothing parameters are given.

### Smoothing parameters of generalised models (C133)
Functions of `PirlsModel` (C124) and `LmlModel` (C125); theorems in `SmoGlm`, cases in `SmoGlmEx`.
* The fits compared are fixed points of the iterations (`next x b = b`, `Lml.step x c = c`). The loops stop when the penalised deviance changes little; C124 and C125 say what is known about their limits.
* `Same`: two models that differ in their penalties only. `S0` collects the other terms, `P` is the penalty of the term whose smoothing parameter changes.
* Families and links as in `Pirls.concave`; for others (Gaussian with log link) fixed points need not be maxima (`gaussian_log_not_max`).
* The scale is the same in both models (it cancels from the deviance).

### Rows added up and repeated (C134)
Functions of `PirlsModel` (C124); `PirlsAggModel` says how two data sets are related, theorems in `PirlsAgg`, cases in `PirlsAggEx`.
* `exposures`: Poisson family with log link. As for `trials` (C129) the deviances differ by a constant and the last pass may differ, so the statement is about the sequence of passes.
* `copies`: no conditions on data or systems. The stopping rule is relative to the penalised deviance, which is multiplied by q; the same pass is the last one.
* Smoothing parameters and starting values are given. Estimated smoothing parameters depend on the amount of data (repeating rows is information the data do not have).

### The last approximation of quasi-Newton fits (C135)
Functions in `ResampleModel` (models.py 1075-1157, gamm_solvers.py 7681-7872 and 9590-9636), sampling of pairs from `SecantModel` (C110); theorems in `Resample`, cases in `ResampleEx`.
* `numpy.random.Generator.choice` without replacement is specified as returning a given number of positions in some order (`Choice`); `fcols_spec` holds for all such functions.
* The budget is a number of columns or a share of at most one (`Budget.Auto`). A share above one is compared with numbers of columns and handed to `choice` as a float, which numpy rejects; this is not modelled as an exception. A list of columns is taken as given by the user.
* `sampled_secant` speaks about pairs and about any quasi-Newton block that satisfies the secant equation of the pair (the last pair for BFGS, all pairs for SR1 with all pairs kept, C39 and C110).
* The loop over attempts and the sampling use exact arithmetic; `calculate_edf` is a parameter (C05).
* Disagreement (`edf_wrong`): for models without penalties `sampleHcoef` sets the degrees of freedom only if it also builds the penalty matrix. The solver hands over a penalty matrix, gets `None` and stores it: after a fit with the default `qEFS_final_memory_usage=1` `model.edf` is `None` where it was the number of coefficients before. `edf_partial` is the statement for models with penalties.

### The same model through different interfaces (C136)
Functions of `PirlsModel` (C124), `LmlModel` (C125), `LssModel`, `MGaussModel`; theorems in `Iface`, cases in `IfaceEx`.
* The fits compared are fixed points (`Pirls.next x b = b`, `Lml.step x c = c`), smoothing parameters are given. The starting values and the numbers of iterations differ between the classes.
* `Fits`: what the Newton step of the `GAMMLSS` needs to be a step (a factorisation, a diagonal without zeros). `Const`: second formula an intercept without penalty.
* The mean may have any link as long as the `GAMM` can use it at these coefficients (`Pirls.Adm`); the second parameter may have any link with a positive value.
* Disagreement (`multigauss_wrong`): `MultiGauss.llk` is documented as the log-likelihood under a multivariate normal but leaves out log(2π)/2 for each observation and response; it is larger than the log-likelihood of the same `GAUMLSS`, and log-likelihoods (and criteria computed from them) cannot be compared between the classes. `multigauss_partial` gives the exact difference.

### The numbering of classes (C137)
Functions of `LssModel`, `EtaBetaModel`, `LmlModel`; theorems in `Classes`, cases in `ClassesEx`.
* All predictors have the same model matrix. With different formulas the renumbered model is another model.
* `final_partial` is for models without penalties, `two_classes` for two classes with any penalty (coefficients change their sign).
* Disagreement (`penalised_wrong`): with three or more classes and penalties the choice of the reference class changes the fit, even if all predictors have the same penalty and smoothing parameter, because differences to the reference class are penalised. The documentation does not mention it.

### Additional terms (C138)
Functions of `PirlsModel` (C124), `LmlModel` (C125), `HazardModel`; theorems in `Nested`, cases in `NestedEx`.
* `Larger`: the columns and penalties of the smaller model are found in the larger one at places `J`. Penalties between old and new terms are allowed as long as the whole penalty matrix is positive semi-definite.
* The smaller model is not required to be fitted: the statements are for any of its coefficients, so also for its final ones.
* Only families and links with concave log-likelihood (`Pirls.concave`, `Lml.Concave`); otherwise final coefficients need not be a minimum.
* Smoothing parameters are given. With estimated smoothing parameters the penalised deviances of two fits are not comparable.
* `deviance_can_increase`: two observations, one penalised term, one further term without penalty, the same smoothing parameter: the residual sum of squares increases from 2/9 to 1/4.

### Means at the boundary (C139)
`BoundModel` puts three roundings into the inverse links (`exp` is zero for small, infinite for large arguments; `1 + exp(eta)` equals `exp(eta)` for large ones); all other operations stay exact. The three limits are parameters. Theorems in `Bound`, cases in `BoundEx`.
* Disagreement (`binomial_one_wrong`, `binomial_zero_wrong`, `poisson_wrong`): `Binomial.D` and `Poisson.D` replace every infinite logarithm by zero. This is the limit for boundary observations (0 log 0) but not for boundary means: an observed failure with fitted probability 1 has deviance 0, a mixed observation a negative one, a count k with mean 0 has deviance -2k. The exact deviance grows beyond all bounds there.
* Disagreement (`step_wrong`): therefore, and because rows with a mean that is not a number are left out, step control accepts steps that it should halve. In double precision probabilities are 1 from a predictor of about 36.7 on. With one success, one failure and current intercept -5 the Fisher scoring proposal is about 69; it is accepted with deviance 0, and the next iteration raises the `ValueError` of `PIRLS_pdat_weights`. Exact step control would halve the step (C31).
* `overflow_rejected`: with logarithmic links the other families are safe from overflow. `boundary_partial`, `accept_same_partial`: what holds.
* The starting values (C116) are not at -5; the witness is about step control from any current coefficients, not about a fit from the default start.

### Decoding, likelihood and sampling (C140)
`logT` in `Decode` is the step between the tables of probabilities (C01, C03) and those of logarithms (C02); `np.log(0)` is minus infinity. Theorems and cases in `Decode`.
* The tables contain real numbers. With nan or infinite entries the three functions differ: `llk` returns minus infinity, `decode_viterbi` and `sample_posterior_states` treat nan as impossible and go on.
* `decoded_is_mode` is about segmentations. The decoded path of states may belong to several segmentations only if adjacent segments have the same state, which `Admissible` excludes, or if the end of the last one is open; the returned excess duration then tells them apart.
* `decoded_likeliest_draw_partial` needs durations that are constant over time and emissions that do not depend on entry, as in C03.

### Residuals use only the past (C141)
Functions of `ResidModel` (C05, C06) and `HsmmModel`; theorems and cases in `Causal`.
* `SamePast`: same model, same tables before the time point; durations at the time point itself count as given by covariates. The distribution function values at the time point are arguments of the residual.
* Predictive residuals for models that are not event models only, as in C06; the first residual and the order of signals are the subject of C06.
* Disagreement (`length_wrong`): with `ends_with_last` the recursion leaves out durations beyond the end of the series already before the end without renormalising. The residual of the second observation is 11/16 in a series of two and 1 in a series of three observations with the same past and present.

### Fitted totals (C142)
Functions of `PirlsModel` (C124) and `LmlModel` (C125); theorems in `Totals`, cases in `TotalsEx`.
* `Free`: a covariate that is a combination of columns which the penalty matrix maps to zero, so also a factor level under treatment coding. Other columns may be penalised.
* Fixed points of the update, as in C124: the fit is in exact arithmetic and the statements are about coefficients that no longer change. After finitely many iterations totals agree up to the tolerance of the convergence check.
* `group_means` needs one family for the group, for Binomial up to the number of trials.
* `not_canonical`: Gamma observations 1 and 1 with exposures 1 and 2 and an intercept have fitted total 9/4. This is a property of the method, not a fault of the code.
* Fisher weights, as in C124. Newton weights are not covered.

### Dropped coefficients are redundant (C143)
`RedundModel` adds the matrix examined by `identify_drop` (normalised, preconditioned) and the normalised penalty to the index part in `DropModel`; theorems in `Redund`, cases in `RedundEx`.
* `Exact`: what pivoted QR, singular vector and condition check return in exact arithmetic, for the one matrix they are applied to. Such decompositions exist for every positive semi-definite matrix (`exact_exists`). The check is assumed to accept every matrix without null vector; in double precision it also rejects badly conditioned ones, and then coefficients are dropped that are nearly, not exactly, redundant.
* `vec` may fail (`none`), as the two `try` blocks allow: then less than necessary may be dropped (`enough_dropped` excludes this, `nothing_lost_partial` does not).
* `Curved`: the Hessian belongs to a log-likelihood that is strictly concave in the linear predictors. The penalties are those that the fit uses, in any weighting.
* Disagreement (`indefinite_wrong`): the check examines `-H / norm(H) + S_norm`, not the penalised Hessian of the fit. If the log-likelihood is convex in some direction the two parts can cancel although the penalised log-likelihood is strictly concave. In the witness (three coefficients, ridge penalty with smoothing parameter 2) every exact decomposition drops the first coefficient and the penalised log-likelihood falls from 1/2 to 0. The following check of the code only looks for finite values.
* Not modelled: removal of extra coefficients from the list (C96), re-parameterised models (C95).

### Event models in `HSMMFamily` (C144, C145)
`HsmmEvModel` adds to `HsmmFamModel` (C78) the branches for event models: data, means, tables, columns. Theorems in `HsmmEv`, `HsmmEvData`, cases in `HsmmEvEx`.
* Formulas, their order and the collection of duplicates are those of C78: `Ev.fm` is a model with one formula per signal of every odd state and none for even states.
* `tvdtpi` is false: with durations that vary over the series an event without duration family raises (C77). Events with a duration family are included.
* `shared_pars` is `[]` or `[0]`; the transition matrix and the initial distribution are fixed (C76 shows what happens otherwise).
* `Usable`: positive scale, autocorrelation below one in absolute value, non-negative tables and one possible segmentation. The log-likelihood is the sum over series; the term that `llk` adds for autocorrelation does not depend on coefficients (C79).
* Disagreement (`shifted_signals_wrong`, `last_signal_unused_wrong`, `not_own_signals_wrong`): the data of signal `m` are read as `ys[m]`, which is the response of the `m`-th formula in the list. With a formula shared by all signals (`shared_m=True`) this formula comes first, so signal 0 is used twice, every other signal in place of the next one, and the last one not at all. The models of `tests/test_hsmm.py` with `shared_m=True` and three signals are of this kind. The gradient reads the same data and hence agrees with the log-likelihood (C144), which is why a comparison with finite differences passes.

### Likelihood ratio tests of nested models (C146)
`GlrtModel` links fits (`PirlsModel`) to what `compare_CDL` reads (`CompareModel`); theorems in `Glrt`, cases in `GlrtEx`.
* Fits are fixed points, as in C124, C125, C138; the coefficients of the smaller model are arbitrary in the positive results.
* `Reads`: without penalties the degrees of freedom are the number of columns, and so is `t1`. For the Gaussian results `correct_V` is false, as there is no smoothing parameter whose uncertainty could be corrected for.
* Disagreement (`gaussian_undecided`, `gaussian_wrong`): `get_llk` evaluates the log-likelihood of a Gaussian model at the scale estimate of that model, which divides by the residual degrees of freedom. Twice the difference is `N log(s2/s1) + q - p`, negative if the additional columns raise the scale estimate enough. The test, meant for exactly this situation, then returns nan in place of a p-value near one. For 1, -1, 1, -1 with a mean and a column without correlation the statistic is `4 log(2/3) + 1 < 0`.
* Not covered: autoregressive errors, Gamma and inverse Gaussian models with estimated scale.

### Existence of estimates (C147)
Theorems in `Exist`, cases in `ExistEx`; model definitions are those of C124.
* `Separated` does not mention the likelihood or the update. It speaks about signs of the changes of the predictor in terms of the responses: zero and one for the binomial, zero for the Poisson family.
* `Pirls.Ident`: no direction leaves predictors and penalty unchanged. Redundant columns are dropped before (C34, C143).
* The smoothing parameters are fixed. The theorem says whether there is something to converge to, not that the passes converge (C124 covers the limits).
* Exact arithmetic. For separated data the predictors grow until the means are rounded to the boundary; C139 says what happens then.
* Not covered: other links, inverse Gaussian models, location-scale models (hazard models: C149, multinomial models: C150).

### Convergence of the passes (C148)
Theorems in `Conv`, cases and the negation in `ConvEx`; model definitions are those of C124.
* `Goes`: the coefficients are those of successive passes, and step control gives up (32 steps failed) only where there is nothing left to improve. `Ties`: a cluster point that is not a fixed point and from which one of the 32 steps leaves the penalised log-likelihood exactly as it is.
* Disagreement (`stop_wrong`): step control accepts steps that do not change the penalised deviance (`while pen_dev > c_dev_prev`, 1800), and the inner loop takes an unchanged penalised deviance as convergence (2274-2277). With responses 0 and 1 and an intercept there are coefficients (about 2.18, the solution of sinh c = 2c) whose proposal is their mirror image: the inner loop returns them after two passes, though the estimate is zero. The coefficients are a state the loop accepts as incoming; no claim is made that a particular call of `fit` arrives there exactly. In floating point the tolerance of 1e-9 gives such states a small neighbourhood.
* `converges_partial` assumes that the coefficients change less and less, `converges_or_ties` shows that ties are the only other possibility. Missing: a bound on the distance from the estimate in terms of the tolerance of the stopping rule; `stop_wrong` shows that none holds in general.
* `local_converges` (`ConvLocal`, cases in `ConvLocalEx`): for the three canonical pairs of family and link, passes that come close to the estimate once use full steps from then on, converge faster than any geometric series, and what the penalised log-likelihood gains bounds the distance from the estimate; neither `Goes` nor the exception for ties is needed. `level_converges` (`NewtLevel`) is the same in terms of values of the penalised log-likelihood. `inner_close` (`ConvStop`, case in `ConvStopEx`): close to the estimate the stopping rule does what is claimed, the squared distance of what the inner loop returns is at most a multiple of 1e-9 times the penalised deviance unless it has used all of its passes. For Gamma with the log link the weights are not minus the second derivatives; `gamma_level_partial` (`GamLocal`, `NewtDamp`, case in `GamLocalEx`) shows convergence from values close to the maximum if every response is below twice its estimated mean. Missing there: responses above, for which full steps may be too long, and a rate.
* Exact arithmetic, fixed smoothing parameters.

### Existence of estimates of hazard models (C149)
Theorems in `HazExist`, cases in `HazExistEx`; model definitions are those of C125 and of the hazard model (`HazardModel`).
* `HEx.Monotone` compares changes of the predictor among those at risk (`ut (r i) ≤ ut (r k)`, times in the order of the data, ties included). It does not mention the likelihood.
* `HEx.Ident` replaces full column rank: an intercept, for example, is never identified in this model.
* The result concerns resting points of Newton steps with fixed smoothing parameters. Not covered: convergence of the steps, quasi-Newton methods, overflow handling in `PropHaz`.

### Existence of estimates of multinomial models (C150)
Theorems in `MulExist`, cases in `MulExistEx` (three classes with intercepts, one class never observed); model definitions are those of C20, C125, C137.
* `MEx.chg` are the predictors of all classes, with zero for the reference class, for the coefficients `v`; as they are linear, also their change in direction `v`.
* Every class may have a formula of its own. `Holds`: see C20, C125.
* Not covered: as for C149; the first class of the code is the reference (C137 shows what other choices change).

### Bounded likelihoods of location-scale models (C151)
Theorems in `LssBound`, cases in `LssBoundEx`; model definitions are those of C20, C125.
* `GBd.Degenerate` is sufficient for an unbounded likelihood with the link `LOG`; that it is necessary is shown only for a common standard deviation (`constant_sd_bounded`).
* `default_values_converge` concerns the values, not the coefficients: for degenerate data the coefficients of the standard deviation go on falling towards the bound.
* Exact arithmetic; Gamma location-scale models and observations with infinite density are not covered.

### Convergence of Newton iterations (C152)
Theorems in `NewtConv`, cases in `NewtConvEx` (two subjects observed at the same time; two classes with an intercept); model definitions are those of C07, C20, C125.
* `NCv.Nice` collects what both models share, `haz_nice` and `mul_nice` establish it from the data. `NCv.Goes`: Newton's method, no restart, and the step control finds one of its 32 steps unless the proposal equals the coefficients. `goes_of` shows it for iterations whose full steps do not lower the penalised log-likelihood; the cases use it.
* Disagreement (`sign_changes_wrong`, `stop_wrong`): step control accepts steps that leave the penalised log-likelihood unchanged, and the convergence test (8331, 5418) takes that as convergence. For two subjects with events at the same time and a binary covariate, Newton steps from the solution of sinh c = 2c (about 2.18) lead to its mirror image. The solver stops there, though the estimate is zero.
* Theorems in `NewtLocal`, cases in `NewtLocalEx`: iterations that come close to the estimate once (`hazard_local`, `multinomial_local`) use full Newton steps from then on and converge to it, faster than any geometric series. Neither `Goes` nor the exception for ties is needed there. What the penalised log-likelihood gains in an iteration there is at least a multiple of the squared distance from the estimate, so the stopping rule, which looks at this gain, is reliable close to the estimate. The argument is in `NewtQuad` (no model definitions); `haz_exact` and `mul_exact` supply that gradient and Hessian of the code are the derivatives.
* `hazard_level`, `multinomial_level` (`NewtLevel`, cases in `NewtLevelEx`): the same in terms of values. Iterations whose penalised log-likelihood exceeds the maximum minus some positive number once converge to the estimate, because away from the maximum the function falls along every line (`NQ.falls`). So iterations that do not converge stay below the maximum by that number for ever.
* `hazard_stop`, `multinomial_stop` (`NewtStop`, case in `NewtStopEx`): from starts close to the estimate, coefficients for which the loop reports convergence are within a multiple of the tolerance (squared distance against tolerance times penalised log-likelihood), and a loop that uses all its iterations has halved the distance with each. Nothing is said about how close a loop ended by `eps <= 0` (5475, 8393) comes, except that it is no further than the start.
* Missing: that ties can be excluded for all but exceptional starts far from the estimate, and that `Goes` holds for all starts (31 halvings may not be enough).

## Trusted base

* The Lean 4 kernel (4.33.0), and Mathlib's definitions, which occur in the statements.
* Axioms, as printed by `#print axioms` for every theorem named in `MANIFEST.json`: no axiom is added, `sorry`, `native_decide`,
  `bv_decide` are not used. All theorems use `propext`, `Classical.choice` and `Quot.sound` except
  - `propext`: `Verif.Encode.codebook_collision`, `Verif.Split.coefIdx_flatten`
  - `Quot.sound`, `propext`: `Verif.Encode.series_mixed`, `Verif.Par.null_columns_none`, `Verif.HWrap.tpi_first`, `Verif.Nest.compared_iff`, `Verif.Cand.gamm_failure_partial`, `Verif.Cand.gamm_failure_wrong`, `Verif.Cand.gamm_scores`, `Verif.Seeds.position_inj`, `Verif.Init.unique_perm`, `Verif.Rsm.mem_fixedCols`
  - no axiom: `Verif.Par.null_columns_missed`
* That the model definitions say what the Python and C++ code says. Every definition cites the lines it was written from; nothing of the
  code was run.
* The assumptions named in the sections above. They appear as hypotheses (usually a structure or predicate such as `QrSpec`, `CholSpec`,
  `EigOK`) of the theorems, never as axioms, and concern one call of a library routine each.
* Real arithmetic in place of floating point numbers, as said at the top.

## Testing the theorems

`seeded/LOG.jsonl` has one line per deliberate bug: the definition edited, the edit, the claim that becomes false, the theorems that failed to
build. Edits after which everything still proved led to stronger theorems (field `tightened`). Lines with a `note` are controls: edits that do not
break the claim, or repairs of a defect, after which the negative theorem must fail.
