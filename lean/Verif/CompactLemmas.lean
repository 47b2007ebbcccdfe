import Verif.CompactModel
import Mathlib.LinearAlgebra.Matrix.SchurComplement
import Mathlib.Data.Matrix.ColumnRowPartitioned
import Mathlib.Tactic.Linarith
import Mathlib.Tactic.NoncommRing
import Mathlib.Tactic.Abel

/-! Helper lemmas for the compact quasi-Newton approximations. -/

namespace Verif.Compact

open Matrix

variable {n m p : ℕ}

/-- `rho` holds the reciprocal inner products (6880, 539). -/
def RhoOK (s y : Fin m → Fin n → ℝ) (rho : Fin m → ℝ) : Prop := ∀ k, rho k = 1 / (s k ⬝ᵥ y k)

theorem Rmat_apply {s y : Fin m → Fin n → ℝ} {rho : Fin m → ℝ} (h : RhoOK s y rho) (k l : Fin m) :
    Rmat s y rho k l = if k ≤ l then s k ⬝ᵥ y l else 0 := by
  unfold Rmat
  rw [Matrix.of_apply]
  by_cases h1 : k < l
  · rw [if_pos h1, if_pos h1.le]
  · rw [if_neg h1]
    by_cases h2 : k = l
    · subst h2
      rw [if_pos rfl, if_pos le_rfl, h k]
      by_cases h3 : k.1 = 0
      · rw [if_pos h3]
      · rw [if_neg h3, one_div_one_div]
    · rw [if_neg h2, if_neg (fun hh => h1 (lt_of_le_of_ne hh h2))]

theorem cols_apply (s : Fin m → Fin n → ℝ) (i : Fin n) (k : Fin m) : cols s i k = s k i := rfl

theorem cols_mul_cols (s y : Fin m → Fin n → ℝ) (k l : Fin m) : ((cols s)ᵀ * cols y) k l = s k ⬝ᵥ y l := rfl

theorem cols_quad (s y : Fin m → Fin n → ℝ) (A : Matrix (Fin n) (Fin n) ℝ) (k l : Fin m) :
    ((cols s)ᵀ * A * cols y) k l = s k ⬝ᵥ (A *ᵥ y l) := by
  rw [Matrix.mul_assoc]
  rfl

/-- Entries of the middle matrix: the later step against the earlier difference. -/
theorem hMid_apply {s y : Fin m → Fin n → ℝ} {rho : Fin m → ℝ} (h : RhoOK s y rho) (H0 : Matrix (Fin n) (Fin n) ℝ) (k l : Fin m) :
    hMid s y rho H0 k l = (if k ≤ l then s l ⬝ᵥ y k else s k ⬝ᵥ y l) - s k ⬝ᵥ (H0 *ᵥ s l) := by
  unfold hMid Lmat DK
  simp only [Matrix.sub_apply, Matrix.add_apply, Matrix.transpose_apply, cols_quad, cols_mul_cols, Rmat_apply h]
  rcases lt_trichotomy k l with h1 | h1 | h1
  · rw [if_pos h1.le, if_pos h1.le, if_neg (not_le.2 h1), Matrix.diagonal_apply_ne _ h1.ne]
    ring
  · subst h1
    simp
  · rw [if_neg (not_le.2 h1), if_neg (not_le.2 h1), if_pos h1.le, Matrix.diagonal_apply_ne _ h1.ne']
    ring

theorem vMid_eq {s y : Fin m → Fin n → ℝ} {rho : Fin m → ℝ} (h : RhoOK s y rho) (V0 : Matrix (Fin n) (Fin n) ℝ) :
    vMid s y rho V0 = hMid y s rho V0 := by
  have h' : RhoOK y s rho := fun k => by rw [h k, dotProduct_comm]
  ext k l
  rw [hMid_apply h']
  unfold vMid DK
  simp only [Matrix.sub_apply, Matrix.add_apply, Matrix.transpose_apply, cols_quad, Rmat_apply h]
  rcases lt_trichotomy k l with h1 | h1 | h1
  · rw [if_pos h1.le, if_pos h1.le, if_neg (not_le.2 h1), Matrix.diagonal_apply_ne _ h1.ne, dotProduct_comm (y l)]
    ring
  · subst h1
    simp [dotProduct_comm]
  · rw [if_neg (not_le.2 h1), if_neg (not_le.2 h1), if_pos h1.le, Matrix.diagonal_apply_ne _ h1.ne', dotProduct_comm (y k) (s l)]
    ring

theorem vsr1_eq {s y : Fin m → Fin n → ℝ} {rho : Fin m → ℝ} (h : RhoOK s y rho) (V0 : Matrix (Fin n) (Fin n) ℝ) :
    vsr1 s y rho V0 = hsr1 y s rho V0 := by
  unfold vsr1 hsr1
  rw [vMid_eq h]

/-- The factors of a run that does not raise. -/
theorem hsr1_some {s y : Fin m → Fin n → ℝ} {rho : Fin m → ℝ} {H0 : Matrix (Fin n) (Fin n) ℝ} {f : Fac n m}
    (h : hsr1 s y rho H0 = some f) :
    IsUnit (hMid s y rho H0).det ∧ f.t1 = cols y - H0 * cols s ∧ f.t2 = (hMid s y rho H0)⁻¹ := by
  unfold hsr1 inv? at h
  by_cases h0 : m = 0
  · rw [if_pos h0] at h
    cases h
  · rw [if_neg h0] at h
    by_cases h1 : IsUnit (hMid s y rho H0).det
    · rw [if_pos h1] at h
      simp only [Option.map_some, Option.some.injEq] at h
      subst h
      exact ⟨h1, rfl, rfl⟩
    · rw [if_neg h1] at h
      cases h

theorem hsr1_of {s y : Fin m → Fin n → ℝ} {rho : Fin m → ℝ} {H0 : Matrix (Fin n) (Fin n) ℝ} (h0 : m ≠ 0)
    (h : IsUnit (hMid s y rho H0).det) :
    hsr1 s y rho H0 = some ⟨cols y - H0 * cols s, (hMid s y rho H0)⁻¹⟩ := by
  unfold hsr1 inv?
  rw [if_neg h0, if_pos h]
  rfl

/-- If `t1ᵀ s_k` is column `k` of the middle matrix, the approximation maps `s_k` to `y_k`. -/
theorem secant_of {s y : Fin m → Fin n → ℝ} {rho : Fin m → ℝ} {H0 : Matrix (Fin n) (Fin n) ℝ} {f : Fac n m}
    (h : hsr1 s y rho H0 = some f) (k : Fin m)
    (hc : ∀ i, (cols y - H0 * cols s)ᵀ.mulVec (s k) i = hMid s y rho H0 i k) :
    f.val H0 *ᵥ s k = y k := by
  obtain ⟨hu, h1, h2⟩ := hsr1_some h
  have hv : (cols y - H0 * cols s)ᵀ *ᵥ s k = hMid s y rho H0 *ᵥ Pi.single k 1 := by
    rw [Matrix.mulVec_single_one]
    funext i
    exact hc i
  unfold Fac.val
  rw [h1, h2, Matrix.add_mulVec, ← Matrix.mulVec_mulVec, hv, ← Matrix.mulVec_mulVec, Matrix.mulVec_mulVec (Pi.single k 1),
    Matrix.nonsing_inv_mul _ hu, Matrix.one_mulVec, Matrix.mulVec_single_one]
  funext i
  simp only [Pi.add_apply, Matrix.col_apply, Matrix.sub_apply, cols_apply]
  have : (H0 * cols s) i k = (H0 *ᵥ s k) i := rfl
  rw [this]
  ring

theorem t1_mulVec {s y : Fin m → Fin n → ℝ} {H0 : Matrix (Fin n) (Fin n) ℝ} (hs : H0ᵀ = H0) (v : Fin n → ℝ) (i : Fin m) :
    ((cols y - H0 * cols s)ᵀ *ᵥ v) i = v ⬝ᵥ y i - s i ⬝ᵥ (H0 *ᵥ v) := by
  have e1 : ((cols y - H0 * cols s)ᵀ *ᵥ v) i = (y i - H0 *ᵥ s i) ⬝ᵥ v := rfl
  rw [e1, sub_dotProduct, dotProduct_comm (y i), dotProduct_mulVec, ← mulVec_transpose, hs]

/-! ### One more pair -/

/-- Inverse of a bordered matrix, squeezed between `[T u]` and its transpose. -/
theorem border {ι : Type} [Fintype ι] [DecidableEq ι] {N : Type} [Fintype N] [DecidableEq N]
    (A : Matrix ι ι ℝ) (c : Matrix ι (Fin 1) ℝ) (d : Matrix (Fin 1) (Fin 1) ℝ)
    (T : Matrix N ι ℝ) (u : Matrix N (Fin 1) ℝ) (hA : IsUnit A.det) (hAs : Aᵀ = A)
    (hM : IsUnit (Matrix.fromBlocks A c cᵀ d).det) :
    IsUnit (d - cᵀ * A⁻¹ * c).det ∧
    Matrix.fromCols T u * (Matrix.fromBlocks A c cᵀ d)⁻¹ * (Matrix.fromCols T u)ᵀ
      = T * A⁻¹ * Tᵀ + (u - T * A⁻¹ * c) * (d - cᵀ * A⁻¹ * c)⁻¹ * (u - T * A⁻¹ * c)ᵀ := by
  have hAu : IsUnit A := (Matrix.isUnit_iff_isUnit_det A).2 hA
  have hMu : IsUnit (Matrix.fromBlocks A c cᵀ d) := (Matrix.isUnit_iff_isUnit_det _).2 hM
  cases hAu.nonempty_invertible with | intro iA =>
  cases hMu.nonempty_invertible with | intro iM =>
  have hS : IsUnit (d - cᵀ * ⅟A * c) := (Matrix.isUnit_fromBlocks_iff_of_invertible₁₁).1 hMu
  cases hS.nonempty_invertible with | intro iS =>
  have e1 : A⁻¹ = ⅟A := (Matrix.invOf_eq_nonsing_inv A).symm
  refine ⟨by rw [e1]; exact (Matrix.isUnit_iff_isUnit_det _).1 hS, ?_⟩
  have hts : (⅟A)ᵀ = ⅟A := by rw [← e1, Matrix.transpose_nonsing_inv, hAs]
  rw [← Matrix.invOf_eq_nonsing_inv (Matrix.fromBlocks A c cᵀ d), Matrix.invOf_fromBlocks₁₁_eq, e1,
    ← Matrix.invOf_eq_nonsing_inv (d - cᵀ * ⅟A * c), Matrix.transpose_fromCols, Matrix.fromCols_mul_fromBlocks,
    Matrix.fromCols_mul_fromRows]
  generalize ⅟(d - cᵀ * ⅟A * c) = W
  generalize ⅟A = B at hts ⊢
  simp only [Matrix.transpose_sub, Matrix.transpose_mul, hts, Matrix.mul_add, Matrix.add_mul, Matrix.mul_sub, Matrix.sub_mul,
    Matrix.mul_neg, Matrix.neg_mul, Matrix.mul_assoc]
  abel

theorem hMid_symm {s y : Fin m → Fin n → ℝ} {rho : Fin m → ℝ} {H0 : Matrix (Fin n) (Fin n) ℝ} (hs : H0ᵀ = H0) :
    (hMid s y rho H0)ᵀ = hMid s y rho H0 := by
  unfold hMid DK
  simp only [Matrix.transpose_sub, Matrix.transpose_add, Matrix.transpose_mul, Matrix.transpose_transpose,
    Matrix.diagonal_transpose, hs, Matrix.mul_assoc]
  rw [add_right_comm]

end Verif.Compact
