import Verif.DCholModel
import Mathlib.Data.Real.Sqrt
import Mathlib.LinearAlgebra.Matrix.Trace
import Mathlib.LinearAlgebra.Matrix.NonsingularInverse

/-! Model of `compute_Vp_WPS` and `compute_Vb_corr_WPS` (`/repo/src/mssm/src/python/utils.py` 3102-3442): covariance of the
log smoothing parameters, and the correction of the coefficient covariance for smoothing parameter uncertainty. Dense real
matrices instead of sparse doubles. Results of library calls (`reparam`, `eigh`, `cpp_chol`, `solve_triangular`) are inputs or
specified in the theorems. -/

namespace Verif.Wps

open Matrix

variable {n K : ℕ}

/-- Inputs of `compute_Vp_WPS` (utils.py 3102-3111) and the output of `reparam(..., option=4, form_inverse=2)` used by it
(3168-3170): `SR` are the `S_J_emb` of the re-parameterised penalties, `Sinv` is `S_inv_rp`. Penalty `k` has `lam`, `S_J_emb`,
`D_J_emb`, `start_index`, `rep_sj`. -/
structure In (n K : ℕ) where
  Vbr : Matrix (Fin n) (Fin n) ℝ
  H : Matrix (Fin n) (Fin n) ℝ
  Semb : Matrix (Fin n) (Fin n) ℝ
  S : Fin K → Matrix (Fin n) (Fin n) ℝ
  D : Fin K → Matrix (Fin n) (Fin n) ℝ
  lam : Fin K → ℝ
  start : Fin K → ℕ
  rep : Fin K → ℕ
  coef : Fin n → ℝ
  scale : ℝ
  SR : Fin K → Matrix (Fin n) (Fin n) ℝ
  Sinv : Matrix (Fin n) (Fin n) ℝ

/-- `nH` (utils.py 3157). -/
noncomputable def nH (x : In n K) : Matrix (Fin n) (Fin n) ℝ := (-1 : ℝ) • x.H + x.scale⁻¹ • x.Semb

/-- Column `k` of `dBetadRhos` (utils.py 3160-3166). -/
noncomputable def dBeta (x : In n K) (k : Fin K) : Fin n → ℝ :=
  -x.lam k • (x.Vbrᵀ *ᵥ (x.Vbr *ᵥ (x.S k *ᵥ x.coef)))

/-- First term (utils.py 3195). -/
noncomputable def t1 (x : In n K) (i j : Fin K) : ℝ := -1 * (dBeta x i ⬝ᵥ (nH x *ᵥ dBeta x j))

/-- Second term (utils.py 3198-3219). -/
noncomputable def t2 (x : In n K) (i j : Fin K) : ℝ :=
  x.lam i / x.scale * (x.coef ⬝ᵥ (x.S i *ᵥ dBeta x j)) + x.lam j / x.scale * (x.coef ⬝ᵥ (x.S j *ᵥ dBeta x i))
    + if i = j then x.lam i / (2 * x.scale) * (x.coef ⬝ᵥ (x.S i *ᵥ x.coef)) else 0

/-- Third term (utils.py 3223-3245). -/
noncomputable def t3 (x : In n K) (i j : Fin K) : ℝ :=
  if i = j ∨ x.start i = x.start j then
    1 / 2 * (-1 * x.lam i * x.lam j * x.rep i * (x.Sinv * x.SR j * x.Sinv * x.SR i).trace
      + if i = j then x.lam i * x.rep i * (x.Sinv * x.SR i).trace else 0)
  else 0

/-- Fourth term (utils.py 3250-3257). -/
noncomputable def t4 (x : In n K) (i j : Fin K) : ℝ :=
  1 / 2 * (∑ a, ∑ b, ((x.D i)ᵀ * x.Vbrᵀ * x.Vbr * x.D j) a b ^ 2) * x.lam i * x.lam j

/-- Fifth term (utils.py 3260-3266). -/
noncomputable def t5 (x : In n K) (i j : Fin K) : ℝ :=
  if i = j then 1 / 2 * (∑ a, ∑ b, (x.Vbr * x.D i) a b ^ 2) * x.lam i else 0

/-- `Vpij` (utils.py 3269). -/
noncomputable def vpij (x : In n K) (i j : Fin K) : ℝ := t1 x i j - t2 x i j + t3 x i j + t4 x i j - t5 x i j

/-- The returned `Hp` (utils.py 3184-3279): the loop runs over `penj ≥ peni` and mirrors the value. -/
noncomputable def hp (x : In n K) : Matrix (Fin K) (Fin K) ℝ :=
  Matrix.of fun i j => if i ≤ j then vpij x i j else vpij x j i

/-- `ire` with shift 0 (utils.py 3281-3287) and `ire2` with shift 0.1 (3299-3300). -/
noncomputable def ire (shift : ℝ) (eig : Fin K → ℝ) (k : Fin K) : ℝ :=
  if 0 < eig k then 1 / Real.sqrt (eig k + shift) else 0

/-- `Ri` (utils.py 3290) and `Rir` (3301). -/
noncomputable def root (shift : ℝ) (eig : Fin K → ℝ) (U : Matrix (Fin K) (Fin K) ℝ) : Matrix (Fin K) (Fin K) ℝ :=
  Matrix.diagonal (ire shift eig) * Uᵀ

/-- `Vp` (utils.py 3292) and, with shift 0.1, `Vpr` (3303). -/
noncomputable def vp (shift : ℝ) (eig : Fin K → ℝ) (U : Matrix (Fin K) (Fin K) ℝ) : Matrix (Fin K) (Fin K) ℝ :=
  (root shift eig U)ᵀ * root shift eig U

/-! ## `compute_Vb_corr_WPS` -/

/-- Inputs of `compute_Vb_corr_WPS` (utils.py 3308-3318). `dropped` says whether `drop is not None`. `chol` is the result of
`cpp_chol(PI @ nH @ PI)` (3374), `none` if the code is not zero. -/
structure CorrIn (n K : ℕ) where
  Vbr : Matrix (Fin n) (Fin n) ℝ
  Vpr : Matrix (Fin K) (Fin K) ℝ
  Vr : Matrix (Fin K) (Fin K) ℝ
  H : Matrix (Fin n) (Fin n) ℝ
  Semb : Matrix (Fin n) (Fin n) ℝ
  S : Fin K → Matrix (Fin n) (Fin n) ℝ
  lam : Fin K → ℝ
  coef : Fin n → ℝ
  scale : ℝ
  dropped : Bool
  chol : Option (Matrix (Fin n) (Fin n) ℝ)

/-- `nH` (utils.py 3368). -/
noncomputable def cnH (x : CorrIn n K) : Matrix (Fin n) (Fin n) ℝ := x.scale • ((-1 : ℝ) • x.H) + x.Semb

/-- `Sdiag` (utils.py 3371). -/
noncomputable def sdiag (x : CorrIn n K) (i : Fin n) : ℝ := Real.sqrt |cnH x i i|

/-- The matrix given to `cpp_chol` (utils.py 3372-3374). -/
noncomputable def precond (x : CorrIn n K) : Matrix (Fin n) (Fin n) ℝ :=
  Matrix.diagonal (fun i => 1 / sdiag x i) * cnH x * Matrix.diagonal (fun i => 1 / sdiag x i)

/-- `R` (utils.py 3375). When the factorisation fails `chol` returns the identity (eigen_solvers.cpp 38-43). -/
noncomputable def rfac (x : CorrIn n K) : Matrix (Fin n) (Fin n) ℝ := (Matrix.diagonal (sdiag x) * x.chol.getD 1)ᵀ

/-- `V` (utils.py 3384-3393): `Vbr` is used if coefficients were dropped, the Cholesky factor otherwise. -/
noncomputable def cV (x : CorrIn n K) : Matrix (Fin n) (Fin n) ℝ :=
  if x.dropped then x.scale • (x.Vbrᵀ * x.Vbr) else (rfac x)⁻¹ * ((rfac x)⁻¹)ᵀ

/-- Column `k` of `dBetadRhos` (utils.py 3395-3398). -/
noncomputable def cdBeta (x : CorrIn n K) (k : Fin K) : Fin n → ℝ := -x.lam k • (cV x *ᵥ (x.S k *ᵥ x.coef))

/-- `dBetadRhos`. -/
noncomputable def cdBetas (x : CorrIn n K) : Matrix (Fin n) (Fin K) ℝ := Matrix.of fun a k => cdBeta x k a

/-- `Vc` (utils.py 3404-3405). -/
noncomputable def vc (x : CorrIn n K) : Matrix (Fin n) (Fin n) ℝ := (x.Vr * (cdBetas x)ᵀ)ᵀ * (x.Vr * (cdBetas x)ᵀ)

/-- `dRdRhos` (utils.py 3416-3436). -/
noncomputable def dRs (x : CorrIn n K) (k : Fin K) : Matrix (Fin n) (Fin n) ℝ :=
  ((rfac x)⁻¹ * Verif.DChol.dChol (rfac x) (x.lam k • x.S k)) * (rfac x)⁻¹

/-- `Vcc` (utils.py 3409-3410, 3439-3442): zero when the factorisation failed. -/
noncomputable def vcc (x : CorrIn n K) : Matrix (Fin n) (Fin n) ℝ :=
  if x.chol.isSome then x.scale • Verif.DChol.computeV2 x.Vpr (dRs x) else 0

/-- The corrected covariance of `correct_VB` with `grid_type = "JJJ1"` (utils.py 3988-3991); `lvi` is `Vbr`. The scale is 1 for
models that are not of class `Family`. -/
noncomputable def corrected (x : CorrIn n K) : Matrix (Fin n) (Fin n) ℝ := vc x + vcc x + x.scale • (x.Vbrᵀ * x.Vbr)

end Verif.Wps
