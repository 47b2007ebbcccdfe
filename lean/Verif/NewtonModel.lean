import Mathlib.Data.Real.Basic
import Mathlib.Analysis.SpecialFunctions.Pow.Real
import Mathlib.Data.Matrix.Mul
import Mathlib.LinearAlgebra.Matrix.NonsingularInverse
import Mathlib.Data.Matrix.Diagonal

/-!
# The Newton step of location, scale and shape models (property C33)

Model of `newton_coef_smooth` and `gd_coef_smooth` (src/mssm/src/python/gamm_solvers.py 4466-4610).
Exact real arithmetic.  The sparse Cholesky factorisation with pivoting (`cpp_cholP`) and the inversion
of its factor (`compute_Linv`) are specified by `CholSpec` and the matrix inverse.
-/

namespace Verif.Newton

open Matrix

variable {n : ℕ}

/-- Matrix of a permutation: entry `(r, c)` is one if `Pr[c] = r` (matrix_solvers.py 144-148). -/
def permM (Pr : Equiv.Perm (Fin n)) : Matrix (Fin n) (Fin n) ℝ := fun r c => if Pr c = r then 1 else 0

/-- What is assumed of `cpp_cholP`: factor and permutation, `none` for a code other than zero.  It
succeeds for positive definite matrices, and then `P A Pᵀ = L Lᵀ` with an invertible factor. -/
structure CholSpec (chol : Matrix (Fin n) (Fin n) ℝ →
    Option (Matrix (Fin n) (Fin n) ℝ × Equiv.Perm (Fin n))) : Prop where
  sound : ∀ A L Pr, chol A = some (L, Pr) → permM Pr * A * (permM Pr)ᵀ = L * Lᵀ ∧ IsUnit L.det
  complete : ∀ A : Matrix (Fin n) (Fin n) ℝ, A.IsSymm → (∀ x, x ≠ 0 → 0 < x ⬝ᵥ A *ᵥ x) →
    (chol A).isSome

/-- `pgrad` (4502, 4605). -/
def pgrad (grad coef : Fin n → ℝ) (S : Matrix (Fin n) (Fin n) ℝ) : Fin n → ℝ :=
  fun i => grad i - (S i) ⬝ᵥ coef

/-- `nH` (4503). -/
def negH (H S : Matrix (Fin n) (Fin n) ℝ) : Matrix (Fin n) (Fin n) ℝ := (-1 : ℝ) • H + S

/-- `nHdgr` (4533-4534). -/
noncomputable def dgr (nH : Matrix (Fin n) (Fin n) ℝ) : Fin n → ℝ :=
  fun i => |nH i i| ^ (-(1 / 2) : ℝ)

/-- `nH2` (4538). -/
noncomputable def scaled (nH : Matrix (Fin n) (Fin n) ℝ) : Matrix (Fin n) (Fin n) ℝ :=
  diagonal (dgr nH) * nH * diagonal (dgr nH)

/-- Next value of `eps` (4553-4556). -/
noncomputable def nextEps (eps : ℝ) : ℝ := if eps = 0 then eps + 1 / 10 ^ 14 else eps * 2

/-- The `while` loop (4542-4561), stopped after `fuel` passes: factor, permutation and `eps`. -/
noncomputable def ridge (chol : Matrix (Fin n) (Fin n) ℝ →
    Option (Matrix (Fin n) (Fin n) ℝ × Equiv.Perm (Fin n))) (nH2 : Matrix (Fin n) (Fin n) ℝ) :
    ℕ → ℝ → Option (Matrix (Fin n) (Fin n) ℝ × Equiv.Perm (Fin n) × ℝ)
  | 0, _ => none
  | fuel + 1, eps =>
    match chol (nH2 + eps • (1 : Matrix (Fin n) (Fin n) ℝ)) with
    | none => ridge chol nH2 fuel (nextEps eps)
    | some r => some (r.1, r.2, eps)

/-- Result: new coefficients, factor, root of the covariance matrix, `eps`. -/
structure Out (n : ℕ) where
  coef : Fin n → ℝ
  L : Matrix (Fin n) (Fin n) ℝ
  LV : Matrix (Fin n) (Fin n) ℝ
  eps : ℝ

/-- `newton_coef_smooth` (4502-4574). -/
noncomputable def newton (chol : Matrix (Fin n) (Fin n) ℝ →
    Option (Matrix (Fin n) (Fin n) ℝ × Equiv.Perm (Fin n))) (fuel : ℕ) (coef grad : Fin n → ℝ)
    (H S : Matrix (Fin n) (Fin n) ℝ) : Option (Out n) :=
  let nH := negH H S
  let D := diagonal (dgr nH)
  let DI := diagonal fun i => 1 / dgr nH i
  match ridge chol (scaled nH) fuel 0 with
  | none => none
  | some (Lp, Pr, eps) =>
    let LV := Lp⁻¹ * permM Pr
    let V := D * (LVᵀ * LV) * D
    some ⟨coef + V *ᵥ pgrad grad coef S, DI * (permM Pr)ᵀ * Lp, LV * D, eps⟩

/-- `gd_coef_smooth` (4605-4608). -/
def gradStep (coef grad : Fin n → ℝ) (S : Matrix (Fin n) (Fin n) ℝ) (a : ℝ) : Fin n → ℝ :=
  coef + a • pgrad grad coef S

end Verif.Newton
