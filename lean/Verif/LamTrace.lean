import Verif.Lam
import Mathlib.LinearAlgebra.Matrix.PosDef
import Mathlib.LinearAlgebra.Matrix.NonsingularInverse
import Mathlib.Analysis.Matrix.PosDef
import Mathlib.Algebra.Order.Star.Real
import Mathlib.Tactic.Abel
import Mathlib.Tactic.FinCases
import Mathlib.LinearAlgebra.Matrix.Notation

/-!
# The order of the two traces behind the smoothing parameter update (property C30)

`lgdet` is `tr(S⁻ S_j)` (gamm_solvers.py 95; `S⁻` a generalised inverse of the total penalty) and
`ldet` is `tr((X'WX + S)⁻¹ S_j)` (calculate_edf 969-970).
-/

namespace Verif.Lam

open Matrix

variable {n k : Type} [Fintype n] [Fintype k] [DecidableEq n] [DecidableEq k]

theorem trace_quad_nonneg (S : Matrix n n ℝ) (hS : S.PosSemidef) (X : Matrix n k ℝ) :
    0 ≤ (Xᵀ * S * X).trace := by
  have := hS.conjTranspose_mul_mul_same X
  rw [conjTranspose_eq_transpose_of_trivial] at this
  exact this.trace_nonneg

/-- The columns of a root of one penalty lie in the range of the total penalty. -/
theorem root_in_range (S R G : Matrix n n ℝ) (D : Matrix n k ℝ) (l : ℝ) (hl : 0 < l)
    (hS : S = l • (D * Dᵀ) + R) (hR : R.PosSemidef) (hG : S * G * S = S) : S * (G * D) = D := by
  set N := 1 - S * G with hN
  have h0 : N * S * Nᵀ = 0 := by
    have : N * S = 0 := by rw [hN, sub_mul, one_mul, hG, sub_self]
    rw [this, zero_mul]
  have h1 : (N * S * Nᵀ).trace = l * ((N * D) * (N * D)ᵀ).trace + (N * R * Nᵀ).trace := by
    rw [hS, mul_add, add_mul, trace_add, Matrix.mul_smul, Matrix.smul_mul, trace_smul, smul_eq_mul,
      transpose_mul]
    simp only [Matrix.mul_assoc]
  rw [h0, trace_zero] at h1
  have h2 : 0 ≤ (N * R * Nᵀ).trace := by
    have := hR.mul_mul_conjTranspose_same N
    rw [conjTranspose_eq_transpose_of_trivial] at this
    exact this.trace_nonneg
  have h3 : 0 ≤ ((N * D) * (N * D)ᵀ).trace := by
    have := (posSemidef_self_mul_conjTranspose (N * D)).trace_nonneg
    rwa [conjTranspose_eq_transpose_of_trivial] at this
  have h4 : ((N * D) * (N * D)ᵀ).trace = 0 := by nlinarith
  have h5 : N * D = 0 := by
    have := trace_mul_conjTranspose_self_eq_zero_iff.1
      (show ((N * D) * (N * D)ᴴ).trace = 0 by rw [conjTranspose_eq_transpose_of_trivial]; exact h4)
    exact this
  rw [hN, Matrix.sub_mul, Matrix.one_mul, sub_eq_zero, Matrix.mul_assoc] at h5
  exact h5.symm

/-- **C30.** For every positive semi-definite cross product `A`, penalty `S_j = D Dᵀ` with positive
weight `l` in the total penalty `S`, and generalised inverse `G` of `S`:
`tr((A + S)⁻¹ S_j) ≤ tr(G S_j)`. -/
theorem trace_diff_nonneg (A S R G : Matrix n n ℝ) (D : Matrix n k ℝ) (l : ℝ) (hl : 0 < l)
    (hA : A.PosSemidef) (hS : S = l • (D * Dᵀ) + R) (hR : R.PosSemidef) (hG : S * G * S = S)
    (hM : (A + S).PosDef) : ((A + S)⁻¹ * (D * Dᵀ)).trace ≤ (G * (D * Dᵀ)).trace := by
  have hW := root_in_range S R G D l hl hS hR hG
  have hDD : (D * Dᵀ).PosSemidef := by
    have := posSemidef_self_mul_conjTranspose D
    rwa [conjTranspose_eq_transpose_of_trivial] at this
  have hSp : S.PosSemidef := by
    rw [hS]; exact (hDD.smul hl.le).add hR
  have hSs : Sᵀ = S := by
    have := hSp.isHermitian
    rwa [IsHermitian, conjTranspose_eq_transpose_of_trivial] at this
  have hdet : IsUnit (A + S).det := (isUnit_iff_isUnit_det _).1 hM.isUnit
  set W := G * D with hWdef
  set X := (A + S)⁻¹ * D with hX
  have hMX : (A + S) * X = D := by rw [hX, ← Matrix.mul_assoc, mul_nonsing_inv _ hdet, Matrix.one_mul]
  have e1 : ((A + S)⁻¹ * (D * Dᵀ)).trace = (Dᵀ * X).trace := by
    rw [← Matrix.mul_assoc, trace_mul_comm]
  have e2 : (G * (D * Dᵀ)).trace = (Wᵀ * S * W).trace := by
    rw [← Matrix.mul_assoc, trace_mul_comm]
    have : Dᵀ = Wᵀ * S := by
      conv_lhs => rw [← hW]
      rw [transpose_mul, hSs]
    conv_lhs => rw [this]
  have e3 := trace_quad_nonneg S hSp (W - X)
  have e4 := trace_quad_nonneg A hA X
  have hWS : Wᵀ * S = Dᵀ := by
    have := congrArg transpose hW
    rw [transpose_mul, hSs] at this
    exact this
  have hDX : (Xᵀ * D).trace = (Dᵀ * X).trace := by
    rw [← trace_transpose, transpose_mul, transpose_transpose]
  have e5 : ((W - X)ᵀ * S * (W - X)).trace
      = (Wᵀ * S * W).trace - 2 * (Dᵀ * X).trace + (Xᵀ * S * X).trace := by
    have : (W - X)ᵀ * S * (W - X)
        = Wᵀ * S * W - Wᵀ * S * X - Xᵀ * (S * W) + Xᵀ * S * X := by
      rw [transpose_sub, Matrix.sub_mul, Matrix.sub_mul, Matrix.mul_sub, Matrix.mul_sub,
        Matrix.mul_assoc Xᵀ S W]
      abel
    rw [this, trace_add, trace_sub, trace_sub, hW, hDX, hWS]
    ring
  have e6 : (Xᵀ * S * X).trace = (Dᵀ * X).trace - (Xᵀ * A * X).trace := by
    have : Xᵀ * D = Xᵀ * A * X + Xᵀ * S * X := by
      have h : Xᵀ * ((A + S) * X) = Xᵀ * D := congrArg (Xᵀ * ·) hMX
      rw [← h, Matrix.add_mul, Matrix.mul_add, Matrix.mul_assoc Xᵀ A X, Matrix.mul_assoc Xᵀ S X]
    have h := congrArg trace this
    rw [trace_add, hDX] at h
    linarith
  rw [e1, e2]
  linarith

/-- **C30.** With exact traces the update never points against the gradient of the criterion. -/
theorem fs_direction_exact (A S R G : Matrix n n ℝ) (D : Matrix n k ℝ) (l scale : ℝ) (b : n → ℝ)
    (hl : InRange l) (hs : 0 < scale) (hA : A.PosSemidef) (hS : S = l • (D * Dᵀ) + R)
    (hR : R.PosSemidef) (hG : S * G * S = S) (hM : (A + S).PosDef) :
    0 ≤ fsStep (G * (D * Dᵀ)).trace ((A + S)⁻¹ * (D * Dᵀ)).trace (b ⬝ᵥ (D * Dᵀ) *ᵥ b) l scale
      * gradLam (G * (D * Dᵀ)).trace ((A + S)⁻¹ * (D * Dᵀ)).trace (b ⬝ᵥ (D * Dᵀ) *ᵥ b) scale :=
  fs_direction _ _ _ _ _ hs hl
    (Or.inr (trace_diff_nonneg A S R G D l (lt_of_lt_of_le lo_pos hl.1) hA hS hR hG hM))

/-! ### Non-vacuity -/

example : InRange (1 + fsStep 3 1 2 1 1) ∧ 0 ≤ fsStep 3 1 2 1 1 * gradLam 3 1 2 1 :=
  ⟨fs_range _ _ _ _ _, fs_direction 3 1 2 1 1 (by norm_num) (by constructor <;> norm_num) (by norm_num)⟩

/-- A penalty on the second of two coefficients. -/
example (D : Matrix (Fin 2) (Fin 1) ℝ) (hD : D = fun i _ => if i = 1 then 1 else 0) :
    ((1 + D * Dᵀ)⁻¹ * (D * Dᵀ)).trace ≤ (D * Dᵀ * (D * Dᵀ)).trace := by
  have hd : (D * Dᵀ).PosSemidef := by
    have := posSemidef_self_mul_conjTranspose D
    rwa [conjTranspose_eq_transpose_of_trivial] at this
  have h1 : Dᵀ * D = 1 := by
    ext i j
    fin_cases i
    fin_cases j
    rw [Matrix.mul_apply, Fin.sum_univ_two, transpose_apply, transpose_apply]
    simp [hD]
  refine trace_diff_nonneg 1 (D * Dᵀ) 0 (D * Dᵀ) D 1 one_pos PosSemidef.one (by simp) PosSemidef.zero ?_
    (PosDef.one.add_posSemidef hd)
  have h2 : D * Dᵀ * (D * Dᵀ) = D * Dᵀ := by
    rw [Matrix.mul_assoc, ← Matrix.mul_assoc Dᵀ, h1, Matrix.one_mul]
  rw [h2, h2]

/-- A step that is extended, rejected and undone. -/
example : (undo (applyStep (extend .nesterov 3 ⟨2, 0, 1, 0, false, false⟩ (1 / 2)))).lam = 2 + 1 / 2 :=
  (extend_correct .nesterov 3 ⟨2, 0, 1, 0, false, false⟩ (1 / 2) (by constructor <;> norm_num)).2.2.2.2.2.2.1

example : (extend .nesterov 3 ⟨2, 0, 1, 0, false, false⟩ (1 / 2)).delta = 3 / 4 := by
  have h : accel .nesterov 3 (1 / 2) (2 - 1) = 1 / 4 := by
    unfold accel
    rw [Real.sign_of_pos (by norm_num), Real.sign_of_pos (by norm_num)]
    have : max macheps |(2 : ℝ) - 1| = 1 := by
      rw [max_eq_right (by unfold macheps; norm_num)]
      norm_num
    simp only [this]
    norm_num
  unfold extend
  dsimp only
  rw [h]
  unfold hi lo
  rw [if_pos (by norm_num [abs_of_pos])]
  norm_num

end Verif.Lam
