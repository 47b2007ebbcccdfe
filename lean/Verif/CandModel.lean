import Verif.GaussModel
import Verif.RhoModel
import Mathlib.Analysis.SpecialFunctions.Trigonometric.Basic

/-!
# Scores of sampled smoothing parameters (property C105)

Model of src/mssm/src/python/utils.py: `compute_reml_candidate_GAMM` (1642-1921), `compute_REML_candidate_GSMM` (1924-2149, its exceptions),
`_compute_VB_corr_terms_MP` (2968-3099), and of the loops over candidates in `estimateVp` (2494-2528, 2597-2880) and `correct_VB` (4006-4343).

`REML` (C38) is a parameter: a function of log-likelihood, negative Hessian, coefficients, scale and smoothing parameters, `none` if it raises. Exact
arithmetic, no dropped coefficients, `method="Chol"` unless stated otherwise.
-/

namespace Verif.Cand

open Matrix

variable {N p m : ℕ}

/-- Response, model matrix, `model.offset`, penalties, `family.scale`, of a strictly additive model. -/
structure Data (N p m : ℕ) where
  X : Matrix (Fin N) (Fin p) ℝ
  y : Fin N → ℝ
  offset : Fin N → ℝ
  S : Fin m → Matrix (Fin p) (Fin p) ℝ
  known : Option ℝ

/-- `REML(llk, nH, coef, scale, penalties)`. -/
abbrev RemlFn (p m : ℕ) := ℝ → Matrix (Fin p) (Fin p) ℝ → (Fin p → ℝ) → ℝ → (Fin m → ℝ) → Option ℝ

/-- What a candidate returns: score (`none`: `-inf`), coefficients, scale, degrees of freedom, log-likelihood (`none`: `-inf`), `Linv.T @ Linv`. -/
structure Res (p : ℕ) where
  reml : Option ℝ
  coef : Fin p → ℝ
  scale : ℝ
  edf : ℝ
  llk : Option ℝ
  V : Matrix (Fin p) (Fin p) ℝ

/-- `X.T @ X + S_emb`. -/
noncomputable def pen (D : Data N p m) (lam : Fin m → ℝ) : Matrix (Fin p) (Fin p) ℝ := D.Xᵀ * D.X + Gauss.sEmb D.S lam

open Classical in
/-- Inverse of `L @ L.T` for the factor that `solve_coef` returns: the identity if the factorisation failed (eigen_solvers.cpp 441-458). -/
noncomputable def inv (A : Matrix (Fin p) (Fin p) ℝ) : Matrix (Fin p) (Fin p) ℝ := if A.PosDef then A⁻¹ else 1

/-- `calculate_edf` for penalties without clusters (gamm_solvers.py 948-991). -/
noncomputable def edfOf (D : Data N p m) (lam : Fin m → ℝ) : ℝ := p - (inv (pen D lam) * Gauss.sEmb D.S lam).trace

/-- `est_scale` (exp_fam.py 450-470) unless the scale is known (gamm_solvers.py 1222-1226). -/
noncomputable def scaleOf (D : Data N p m) (lam : Fin m → ℝ) (eta : Fin N → ℝ) : ℝ :=
  D.known.getD ((∑ i, (D.y i - eta i) * (D.y i - eta i)) / (N - edfOf D lam))

/-- `Gaussian.llk` (exp_fam.py 1050, 1052-1072). -/
noncomputable def gllk (y mu : Fin N → ℝ) (s : ℝ) : ℝ := ∑ i, (-(y i - mu i) ^ 2 / (2 * s) - Real.log (2 * Real.pi * s) / 2)

/-- `compute_reml_candidate_GAMM` for strictly additive models with `compute_inv=True` (1714-1719, 1838-1921); `orig` is `origNH`, the scale of the fit. -/
noncomputable def serial (R : RemlFn p m) (orig : Option ℝ) (D : Data N p m) (lam : Fin m → ℝ) : Res p :=
  let coef := (Gauss.solveXX (pen D lam) (D.Xᵀ *ᵥ (D.y - D.offset))).1
  let eta := D.X *ᵥ coef + 0
  let edf := edfOf D lam
  let scale := scaleOf D lam eta
  let llk := gllk D.y eta scale
  match R llk ((1 / scale) • (D.Xᵀ * D.X)) coef scale lam with
  | none => ⟨none, coef, scale, edf, none, 0⟩
  | some r =>
    let edf := match orig with
      | none => edf
      | some s => edf * (scale / s)
    ⟨some r, coef, scale, edf, some llk, inv (pen D lam)⟩

/-- `_compute_VB_corr_terms_MP` (3052-3099); `none`: an exception, which `starmap` raises again. -/
noncomputable def fast (R : RemlFn p m) (D : Data N p m) (lam : Fin m → ℝ) : Option (Res p) :=
  let sol := Gauss.solveXX (pen D lam) (D.Xᵀ *ᵥ (D.y - D.offset))
  if sol.2 ≠ 0 then none
  else
    let eta := D.X *ᵥ sol.1 + D.offset
    let scale := scaleOf D lam eta
    let llk := gllk D.y eta scale
    (R llk ((1 / scale) • (D.Xᵀ * D.X)) sol.1 scale lam).map fun r => ⟨some r, sol.1, scale, edfOf D lam, some llk, inv (pen D lam)⟩

/-- The candidates of `correct_VB` for a strictly additive model (4017-4343): `cores` is `n_c`, `chol` whether `method == "Chol"` (which only selects the
worker here), `orig` the scale of the fit if `only_expected_edf`. -/
noncomputable def grid (R : RemlFn p m) (cores : ℕ) (chol : Bool) (orig : Option ℝ) (D : Data N p m) (lams : List (Fin m → ℝ)) : Option (List (Res p)) :=
  if cores > 1 then
    if chol then lams.mapM (fast R D)
    else some (lams.map (serial R orig D))
  else some (lams.map (serial R none D))

/-! ### Exceptions -/

/-- What the `try` block of a candidate ends with: a result, the values of the `except` branch, or `UnboundLocalError` raised in that branch. -/
inductive Outcome (α : Type) where
  | ok (a : α)
  | ninf
  | unbound

/-- `compute_reml_candidate_GAMM` (1713-1921): coefficients, then degrees of freedom and scale, then everything else; `none`: an exception. The `except` branch reads
`coef`, `scale` and `edf` (1910-1919). -/
def guardGamm {C S α : Type} (coef : Option C) (scale : C → Option S) (rest : C → S → Option α) : Outcome α :=
  match coef with
  | none => .unbound
  | some c => match scale c with
    | none => .unbound
    | some s => match rest c s with
      | none => .ninf
      | some a => .ok a

/-- `compute_REML_candidate_GSMM` (2001-2149): estimation, score, degrees of freedom, then their replacement if `origNH` is given. The `except` branch reads `total_edf`;
`coef` is an argument. -/
def guardGsmm {F : Type} (fit : Option F) (reml : F → Option ℝ) (edf : F → Option ℝ) (orig : Option (F → Option ℝ)) : Outcome (F × ℝ × ℝ) :=
  match fit with
  | none => .unbound
  | some f => match reml f with
    | none => .unbound
    | some r => match edf f with
      | none => .unbound
      | some e => match orig with
        | none => .ok (f, r, e)
        | some t => match t f with
          | none => .ninf
          | some e' => .ok (f, r, e')

/-- Scores of GAMMs (4178-4200, 4284-4296): an exception ends the loop and is raised again by the pool. -/
def scoresGamm {L α : Type} (cand : L → Outcome α) (ls : List L) : Option (List (Option α)) :=
  ls.mapM fun l => match cand l with
    | .ok a => some (some a)
    | .ninf => some none
    | .unbound => none

/-- Scores of other models: on one core candidates that raise are left out (4307-4325), the pool raises (4205-4228). -/
def scoresGsmm {L α : Type} (cores : ℕ) (cand : L → Outcome α) (ls : List L) : Option (List (L × Option α)) :=
  if cores > 1 then
    ls.mapM fun l => match cand l with
      | .ok a => some (l, some a)
      | .ninf => some (l, none)
      | .unbound => none
  else some (ls.filterMap fun l => match cand l with
      | .ok a => some (l, some a)
      | .ninf => some (l, none)
      | .unbound => none)

/-- `calculate_edf` with `lgdetDs=None` (1845, 3076; gamm_solvers.py 972-984): a clustered penalty looks up `lgdetDs[lti]`, which raises `TypeError`. -/
def edfClust (clustered : List Bool) (edf : ℝ) : Option ℝ := if clustered.any id then none else some edf

/-! ### Sampled values -/

open Classical in
/-- The estimate is put in front of the samples unless one of them is close to it (2636-2644, 2829-2836, 4045-4054, 4270-4278); `V` is the diagonal of `Vpr`, `k + 1`
smoothing parameters. -/
noncomputable def withEstimate {k : ℕ} (V : Fin (k + 1) → ℝ) (lam : Fin (k + 1) → ℝ) (sample : List (Fin (k + 1) → ℝ)) : List (Fin (k + 1) → ℝ) :=
  let minDiag := 1 / 10 * Finset.univ.inf' Finset.univ_nonempty fun i => √(V i)
  if ∃ s ∈ sample, (Finset.univ.sup' Finset.univ_nonempty fun i => |s i - lam i|) < minDiag then sample else lam :: sample

/-- `rPen` of `estimateVp` when the samples are drawn: `reml_wrapper` leaves the values of its last call (2496-2499); `evals` are the log smoothing parameters
it was called with. -/
noncomputable def leftOver {k : ℕ} (lam : Fin k → ℝ) (evals : List (Fin k → ℝ)) : Fin k → ℝ :=
  match evals.getLast? with
  | none => lam
  | some r => fun i => Real.exp (r i)

/-! ### Generalised models -/

variable {V E M W F : Type} [AddCommGroup V] [Module ℝ V]

/-- `dev_diff_inner < 1e-9 * pen_dev` (1790-1791). -/
def Conv : Fl → Fl → Prop
  | .fin a, .fin b => |a - b| < 1 / 10 ^ 9 * a
  | _, _ => False

/-- What the loop ends with: accepted coefficients with predictor, mean and deviances, weights, factor. -/
structure NOut (V E M W F : Type) where
  st : Step.St V E M
  w : W
  fac : F
  conv : Bool

open Classical in
/-- The loop over Newton steps (1745-1806) after the first pass: `left` passes remain. `coef` and `prev` are the coefficients and the penalised deviance of the last pass, `s`
and `fac` the proposal and its factor. `work` gives pseudo-data and weights (`update_PIRLS`), `solve` coefficients and factor (`update_coef`). Shape
parameters are not updated. -/
noncomputable def newton (P : Step.Prob V E M) (work : E → M → W) (solve : W → V × F) : ℕ → V → Fl → Step.St V E M → F → Option (NOut V E M W F)
  | 0, _, _, _, _ => none
  | left + 1, coef, prev, s, fac =>
    match Step.coefLoop P coef prev 34 0 s with
    | none => none
    | some r =>
      let w := work r.eta r.mu
      if Conv r.pen prev then some ⟨r, w, fac, true⟩
      else if left = 0 then some ⟨r, w, fac, false⟩
      else newton P work solve left r.n r.pen (Step.evalAt P (solve w).1) (solve w).2

/-- The candidate of a generalised model up to 1806: first pass with the weights at `eta0`, then the loop, whose pass 0 only proposes. -/
noncomputable def candidate (P : Step.Prob V E M) (work : E → M → W) (solve : W → V × F) (eta0 : E) : Option (NOut V E M W F) :=
  let c := (solve (work eta0 (P.muF eta0))).1
  let s := Step.evalAt P c
  let w := work s.eta s.mu
  newton P work solve 499 c s.pen (Step.evalAt P (solve w).1) (solve w).2

end Verif.Cand
