import Verif.RlModel

/-!
# One pass of the smoothing parameter estimation of GAMMLSS and general smooth models (property C122)

Model of what `correct_lambda_step_gamlss` and `correct_lambda_step_gen_smooth` (src/mssm/src/python/gamm_solvers.py) compute from the
coefficients of a pass and the inverse `LV` of the Cholesky factor of the penalised negative Hessian: the two ingredients computed by
`compute_lgdetD_bsb` (60-100, called at 5804-5814), traces (`calculate_edf` 969-970, called at 5816), the gradient (5842-5846,
8814-8818) and the proposed step before it is extended (5897-5916, 8906-8924).

Results of other parts of the code are inputs: penalties `S` with roots `D`, `FS_use_rank` and the pseudo-inverse returned by
`compute_S_emb_pinv_det`, coefficients and `LV`. No coefficients are dropped and the Hessian was not modified (`eps` is zero).
-/

namespace Verif.Lap

open Matrix

/-- Inputs of a pass; `gamma` is the argument of `GSMM.fit`, 1 in a GAMMLSS. -/
structure In (p K : ℕ) where
  coef : Fin p → ℝ
  S : Fin K → Matrix (Fin p) (Fin p) ℝ
  D : Fin K → Matrix (Fin p) (Fin p) ℝ
  lam : Fin K → ℝ
  frozen : Fin K → Bool
  useRank : Fin K → Bool
  rank : Fin K → ℕ
  pinv : Matrix (Fin p) (Fin p) ℝ
  LV : Matrix (Fin p) (Fin p) ℝ
  gamma : ℝ

variable {p K : ℕ} (x : In p K)

/-- `lgdetD` (92-95, 5806-5812). -/
noncomputable def lgdetD (j : Fin K) : ℝ := if x.useRank j then x.rank j / x.lam j else (x.pinv * x.S j).trace

/-- `bsb` (99, 8784-8788). -/
def bsb (j : Fin K) : ℝ := x.coef ⬝ᵥ (x.S j *ᵥ x.coef) * x.gamma

/-- `ldetHS` (969-970). -/
def ldetHS (j : Fin K) : ℝ := ∑ a, ∑ b, (x.LV * x.D j) a b ^ 2

/-- `lam_grad` (5842-5845, 8814-8817). -/
noncomputable def grad (j : Fin K) : ℝ := Lam.gradLam (lgdetD x j) (ldetHS x j) (bsb x j) 1

/-- `dLam` (5904-5907, 8912-8915). -/
noncomputable def step0 (j : Fin K) : ℝ := if x.frozen j then 0 else Lam.fsStep (lgdetD x j) (ldetHS x j) (bsb x j) (x.lam j) 1

/-- `dLam` after the small step rule (5914-5916, 8922-8924). -/
noncomputable def step (j : Fin K) : ℝ :=
  if lgdetD x j - ldetHS x j < 0 then
    let d := Real.sign (step0 x j) * min (|x.lam j| * 0.001) |step0 x j|
    if x.lam j + d < 0 then 0 else d
  else step0 x j

end Verif.Lap
