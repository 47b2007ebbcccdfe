import Verif.FamModel
import Verif.Ar1Model
import Mathlib.LinearAlgebra.Matrix.NonsingularInverse

/-!
# Estimated scale parameters (property C88)

Model of the residuals and the scale estimate of `update_scale_edf` (src/mssm/src/python/gamm_solvers.py 1080-1228), of `est_scale`
(src/mssm/src/python/exp_fam.py 450-470), of the predictor formed by `update_coef` (gamm_solvers.py 1339-1352) and of the
linear predictor passed to `update_PIRLS` (1655, 2270, 2473, 2845, 2941: always `eta - offset`).
-/

namespace Verif.Scale

open Verif Fl Fam Matrix

/-- Observations that are kept: `inval == False` (1165). -/
def Valid {N : ℕ} (zw : Fin N → Fl × Fl) : Type := {i : Fin N // ¬ invalid (zw i)}

noncomputable instance {N : ℕ} (zw : Fin N → Fl × Fl) : Fintype (Valid zw) := by
  classical
  unfold Valid
  infer_instance

/-- Working data of exponential families for the predictor `eta` (590): `update_PIRLS` gets `mu` and `eta - offset`. -/
noncomputable def work {N : ℕ} (fam : Fin N → FamKind) (lk : LinkKind) (y eta offset : Fin N → ℝ) : Fin N → Fl × Fl :=
  fun i => fisherZW (fam i) lk (fin (y i)) (lk.fi (fin (eta i))) (fin (eta i - offset i))

/-- `eta = X @ coef + offset` (1341). -/
def etaOf {N p : ℕ} (X : Matrix (Fin N) (Fin p) ℝ) (coef : Fin p → ℝ) (offset : Fin N → ℝ) : Fin N → ℝ := X *ᵥ coef + offset

/-- `wres` for generalised models (1165-1183), `L` is `Lrhoi`; `Wr` holds roots of the weights (592-594). -/
noncomputable def wres {N : ℕ} (zw : Fin N → Fl × Fl) (eta : Fin N → ℝ) (L : Option (Matrix (Fin N) (Fin N) ℝ)) : Valid zw → ℝ :=
  let r : Valid zw → ℝ := fun i => √(zw i.1).2.val * ((zw i.1).1.val - eta i.1)
  match L with
  | none => r
  | some L => (L.submatrix (fun i : Valid zw => i.1) (fun i : Valid zw => i.1))ᵀ *ᵥ r

/-- `est_scale`. -/
noncomputable def estScale {ι : Type} [Fintype ι] (res : ι → ℝ) (rows edf : ℝ) : ℝ := (∑ i, res i * res i) / (rows - edf)

/-- `total_edf` (1205-1220): `pen` is the result of `calculate_edf` if there are penalties, else all columns. -/
def totalEdf (pen : Option ℝ) (colsX : ℕ) : ℝ := pen.getD colsX

/-- `scale` for generalised models (1158-1226); `known` is `family.scale`, `dropped` the number of invalid observations. -/
noncomputable def scaleG {N : ℕ} (known : Option ℝ) (zw : Fin N → Fl × Fl) (eta : Fin N → ℝ) (L : Option (Matrix (Fin N) (Fin N) ℝ))
    (pen : Option ℝ) (colsX : ℕ) : ℝ :=
  known.getD (estScale (wres zw eta L) (N - ((N : ℝ) - Fintype.card (Valid zw))) (totalEdf pen colsX))

/-- `scale` for Gaussian models with identity link (1185, 1222-1226); with an AR(1) model `y` and `eta` are transformed
(2786-2790). -/
noncomputable def scaleA {N : ℕ} (known : Option ℝ) (y eta : Fin N → ℝ) (pen : Option ℝ) (colsX : ℕ) : ℝ :=
  known.getD (estScale (y - eta) N (totalEdf pen colsX))

end Verif.Scale
