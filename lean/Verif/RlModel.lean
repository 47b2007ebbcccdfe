import Verif.GaussModel
import Verif.ScaleModel
import Verif.LamModel
import Mathlib.LinearAlgebra.Matrix.Trace

/-!
# One pass of the smoothing parameter estimation of additive Gaussian models (property C121)

Model of what `solve_gamm_sparse` and `correct_lambda_step` (src/mssm/src/python/gamm_solvers.py) compute from the current
smoothing parameters in a Gaussian model with identity link: coefficients (`update_coef` 1289-1337), the two ingredients of the
gradient computed by `compute_lgdetD_bsb` (60-100), traces and degrees of freedom (`calculate_edf` 890-1012), scale
(`update_scale_edf` 1185-1226), gradient (`grad_lambda` 152-182, called at 2396-2399) and the proposed step
(`step_fellner_schall_sparse` 103-149).

Results of other parts of the code are inputs: the penalties `S` with roots `D`, `FS_use_rank` and the pseudo-inverse returned by
`compute_S_emb_pinv_det`, the inverse `Linv` of the Cholesky factor, the rank stored in a penalty. No coefficients are dropped, no smoothing
parameters are shared, `X` and `y` are the transformed ones in models with AR(1) errors.
-/

namespace Verif.Rl

open Matrix

/-- Inputs of a pass; `known` is `family.scale`. -/
structure In (N p K : ℕ) where
  X : Matrix (Fin N) (Fin p) ℝ
  y : Fin N → ℝ
  S : Fin K → Matrix (Fin p) (Fin p) ℝ
  D : Fin K → Matrix (Fin p) (Fin p) ℝ
  lam : Fin K → ℝ
  useRank : Fin K → Bool
  rank : Fin K → ℕ
  pinv : Matrix (Fin p) (Fin p) ℝ
  Linv : Matrix (Fin p) (Fin p) ℝ
  known : Option ℝ

variable {N p K : ℕ} (x : In N p K)

/-- Coefficients (1289-1291, 1334-1337). -/
noncomputable def coef : Fin p → ℝ := (Gauss.solveXX (x.Xᵀ * x.X + Gauss.sEmb x.S x.lam) (x.Xᵀ *ᵥ x.y)).1

/-- `lgdet_deriv` (92-95). -/
noncomputable def lgdetD (j : Fin K) : ℝ := if x.useRank j then x.rank j / x.lam j else (x.pinv * x.S j).trace

/-- `bSb` (99). -/
noncomputable def bsb (j : Fin K) : ℝ := coef x ⬝ᵥ (x.S j *ᵥ coef x)

/-- `Bps` (969-970). -/
def bps (j : Fin K) : ℝ := ∑ a, ∑ b, (x.Linv * x.D j) a b ^ 2

/-- `total_edf` (948, 986-991). -/
def edf : ℝ := p - ∑ j, x.lam j * bps x j

/-- `scale` (1185, 1222-1226). -/
noncomputable def scale : ℝ := Scale.scaleA x.known x.y (x.X *ᵥ coef x) (some (edf x)) p

/-- `lam_grad` (2396-2399). -/
noncomputable def grad (j : Fin K) : ℝ := Lam.gradLam (lgdetD x j) (bps x j) (bsb x j) (scale x)

/-- `lam_delta` before it is extended. -/
noncomputable def step (j : Fin K) : ℝ := Lam.fsStep (lgdetD x j) (bps x j) (bsb x j) (x.lam j) (scale x)

end Verif.Rl
