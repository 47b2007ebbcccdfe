import Verif.CondModel
import Mathlib.Analysis.InnerProductSpace.PiL2
import Mathlib.Analysis.Matrix.Normed
import Mathlib.LinearAlgebra.Matrix.NonsingularInverse
import Mathlib.LinearAlgebra.Matrix.ToLinearEquiv

/-!
# Condition numbers: singular values and distances to singular matrices
-/

namespace Verif.Cond

open Matrix
open scoped Matrix.Norms.L2Operator

variable {m n : ℕ}

/-- Euclidean length (statements only). -/
noncomputable def len {k : ℕ} (v : Fin k → ℝ) : ℝ := √(∑ i, v i ^ 2)

theorem len_eq {k : ℕ} (v : Fin k → ℝ) : len v = ‖WithLp.toLp 2 v‖ := by
  rw [EuclideanSpace.norm_eq]
  simp [len]

theorem len_nonneg {k : ℕ} (v : Fin k → ℝ) : 0 ≤ len v := Real.sqrt_nonneg _

theorem len_sq {k : ℕ} (v : Fin k → ℝ) : len v ^ 2 = v ⬝ᵥ v := by
  rw [len, Real.sq_sqrt (Finset.sum_nonneg fun i _ => sq_nonneg _)]
  simp only [dotProduct, pow_two]

theorem len_pos {k : ℕ} {v : Fin k → ℝ} (h : v ≠ 0) : 0 < len v := by
  rw [len_eq, norm_pos_iff]
  intro h0
  exact h (by simpa using congrArg WithLp.ofLp h0)

theorem len_zero {k : ℕ} : len (0 : Fin k → ℝ) = 0 := by simp [len]

theorem len_neg {k : ℕ} (v : Fin k → ℝ) : len (-v) = len v := by simp [len]

theorem len_smul {k : ℕ} (c : ℝ) (v : Fin k → ℝ) : len (c • v) = |c| * len v := by
  rw [len_eq, len_eq, ← Real.norm_eq_abs, ← norm_smul]
  rfl

theorem dot_le {k : ℕ} (v w : Fin k → ℝ) : |v ⬝ᵥ w| ≤ len v * len w := by
  rw [← Real.sqrt_sq_eq_abs, len, len, ← Real.sqrt_mul (Finset.sum_nonneg fun i _ => sq_nonneg _)]
  refine Real.sqrt_le_sqrt ?_
  exact Finset.sum_mul_sq_le_sq_mul_sq _ _ _

theorem mul_le (A : Matrix (Fin m) (Fin n) ℝ) (x : Fin n → ℝ) : len (A *ᵥ x) ≤ ‖A‖ * len x := by
  rw [len_eq, len_eq]
  exact l2_opNorm_mulVec A (WithLp.toLp 2 x)

theorem norm_le {A : Matrix (Fin m) (Fin n) ℝ} {c : ℝ} (hc : 0 ≤ c) (h : ∀ x, len (A *ᵥ x) ≤ c * len x) : ‖A‖ ≤ c := by
  rw [l2_opNorm_def]
  refine ContinuousLinearMap.opNorm_le_bound _ hc fun x => ?_
  have := h (WithLp.ofLp x)
  rw [len_eq, len_eq] at this
  exact this

/-- The operator norm is attained. -/
theorem norm_attained (hn : 0 < n) (A : Matrix (Fin m) (Fin n) ℝ) : ∃ v, len v = 1 ∧ len (A *ᵥ v) = ‖A‖ := by
  have : Nonempty (Fin n) := ⟨⟨0, hn⟩⟩
  let T := (toEuclideanLin (𝕜 := ℝ) (m := Fin m) (n := Fin n)).trans LinearMap.toContinuousLinearMap A
  have hc : IsCompact (Metric.sphere (0 : EuclideanSpace ℝ (Fin n)) 1) := isCompact_sphere 0 1
  have hne : (Metric.sphere (0 : EuclideanSpace ℝ (Fin n)) 1).Nonempty := NormedSpace.sphere_nonempty.2 zero_le_one
  obtain ⟨v, hv, hmax⟩ := hc.exists_isMaxOn hne (f := fun x => ‖T x‖) (by fun_prop)
  have hv1 : ‖v‖ = 1 := by simpa using hv
  have e1 : len (WithLp.ofLp v) = ‖v‖ := by rw [len_eq]
  have e2 : ∀ x : EuclideanSpace ℝ (Fin n), len (A *ᵥ WithLp.ofLp x) = ‖T x‖ := by
    intro x
    rw [len_eq]
    rfl
  refine ⟨WithLp.ofLp v, by rw [e1, hv1], le_antisymm ?_ ?_⟩
  · have := mul_le A (WithLp.ofLp v)
    rwa [e1, hv1, mul_one] at this
  · rw [e2]
    refine norm_le (norm_nonneg _) fun x => ?_
    by_cases hx : x = 0
    · subst hx
      simp [len_zero]
    · have hp := len_pos hx
      have h1 : ‖WithLp.toLp 2 ((len x)⁻¹ • x)‖ = 1 := by
        rw [← len_eq, len_smul, abs_of_pos (inv_pos.2 hp), inv_mul_cancel₀ hp.ne']
      have h2 : ‖T (WithLp.toLp 2 ((len x)⁻¹ • x))‖ ≤ ‖T v‖ := hmax (by simpa using h1)
      rw [← e2] at h2
      change len (A *ᵥ ((len x)⁻¹ • x)) ≤ ‖T v‖ at h2
      rw [mulVec_smul, len_smul, abs_of_pos (inv_pos.2 hp), inv_mul_le_iff₀ hp] at h2
      linarith

theorem norm_tr (A : Matrix (Fin m) (Fin n) ℝ) : ‖Aᵀ‖ = ‖A‖ := by
  rw [← l2_opNorm_conjTranspose A, conjTranspose_eq_transpose_of_trivial]

theorem norm_gram (A : Matrix (Fin m) (Fin n) ℝ) : ‖Aᵀ * A‖ = ‖A‖ * ‖A‖ := by
  rw [← l2_opNorm_conjTranspose_mul_self A, conjTranspose_eq_transpose_of_trivial]

/-- Lengths of images depend on the Gram matrix only. -/
theorem gram_len {k : ℕ} {A : Matrix (Fin m) (Fin n) ℝ} {B : Matrix (Fin k) (Fin n) ℝ} (h : Aᵀ * A = Bᵀ * B) (x : Fin n → ℝ) :
    len (A *ᵥ x) = len (B *ᵥ x) := by
  have e : ∀ {j : ℕ} (C : Matrix (Fin j) (Fin n) ℝ), len (C *ᵥ x) ^ 2 = x ⬝ᵥ ((Cᵀ * C) *ᵥ x) := by
    intro j C
    rw [len_sq, ← mulVec_mulVec, dotProduct_mulVec x, vecMul_transpose]
  have : len (A *ᵥ x) ^ 2 = len (B *ᵥ x) ^ 2 := by rw [e, e, h]
  exact (pow_left_inj₀ (len_nonneg _) (len_nonneg _) two_ne_zero).1 this

/-- `s` is the smallest singular value of `A`. -/
def Smallest (A : Matrix (Fin m) (Fin n) ℝ) (s : ℝ) : Prop := (∀ x, s * len x ≤ len (A *ᵥ x)) ∧ ∃ x, x ≠ 0 ∧ len (A *ᵥ x) = s * len x

/-- Smallest singular value and distance to the matrices whose columns are linearly dependent. -/
theorem distance {A : Matrix (Fin m) (Fin n) ℝ} {s t : ℝ} (hs : 0 ≤ s) (h : Smallest A s) :
    (∀ E : Matrix (Fin m) (Fin n) ℝ, ‖E‖ < t → ∀ x, (A + E) *ᵥ x = 0 → x = 0) ↔ t ≤ s := by
  constructor
  · intro hE
    by_contra hn
    obtain ⟨v, hv, hv2⟩ := h.2
    have hp := len_pos hv
    refine hv (hE (-(((len v) ^ 2)⁻¹ • vecMulVec (A *ᵥ v) v)) ?_ v ?_)
    · refine lt_of_le_of_lt (norm_le (c := s) hs fun x => ?_) (not_le.1 hn)
      rw [neg_mulVec, len_neg, smul_mulVec, vecMulVec_mulVec, len_smul, op_smul_eq_smul, len_smul, hv2, abs_of_pos (by positivity)]
      have := dot_le v x
      calc (len v ^ 2)⁻¹ * (|v ⬝ᵥ x| * (s * len v)) ≤ (len v ^ 2)⁻¹ * (len v * len x * (s * len v)) := by gcongr
        _ = s * len x := by field_simp
    · rw [add_mulVec, neg_mulVec, smul_mulVec, vecMulVec_mulVec, op_smul_eq_smul, ← len_sq, smul_smul, inv_mul_cancel₀ (by positivity), one_smul,
        add_neg_cancel]
  · intro hts E hE x hx
    by_contra hx0
    have hp := len_pos hx0
    have h1 : A *ᵥ x = -(E *ᵥ x) := by
      rw [add_mulVec] at hx
      exact eq_neg_of_add_eq_zero_left hx
    have h2 := h.1 x
    rw [h1, len_neg] at h2
    have h3 := mul_le E x
    have : s * len x < t * len x := lt_of_le_of_lt (h2.trans h3) (by gcongr)
    have := lt_of_mul_lt_mul_right this hp.le
    linarith

variable {L Linv : Matrix (Fin n) (Fin n) ℝ}

theorem tr_inv (h : L * Linv = 1) : Linvᵀ * Lᵀ = 1 ∧ Lᵀ * Linvᵀ = 1 := by
  refine ⟨by rw [← transpose_mul, h, transpose_one], ?_⟩
  rw [← transpose_mul, mul_eq_one_comm.1 h, transpose_one]

/-- The smallest singular value of the transposed factor. -/
theorem smallest_tr (hn : 0 < n) (h : L * Linv = 1) : 0 < ‖Linv‖ ∧ Smallest Lᵀ (1 / ‖Linv‖) := by
  obtain ⟨v, hv, hv2⟩ := norm_attained hn Linvᵀ
  obtain ⟨i1, i2⟩ := tr_inv h
  have hpos : 0 < ‖Linv‖ := by
    rw [← norm_tr, ← hv2]
    refine len_pos fun h0 => ?_
    have : v = 0 := by
      rw [← one_mulVec v, ← i2, ← mulVec_mulVec, h0, mulVec_zero]
    rw [this, len_zero] at hv
    exact zero_ne_one hv
  refine ⟨hpos, fun x => ?_, Linvᵀ *ᵥ v, ?_, ?_⟩
  · have := mul_le Linvᵀ (Lᵀ *ᵥ x)
    rw [mulVec_mulVec, i1, one_mulVec, norm_tr] at this
    rw [div_mul_eq_mul_div, one_mul, div_le_iff₀ hpos]
    linarith
  · intro h0
    rw [h0, len_zero] at hv2
    rw [norm_tr] at hv2
    exact hpos.ne hv2
  · rw [mulVec_mulVec, i2, one_mulVec, hv, hv2, norm_tr]
    field_simp

/-- The smallest singular value of the product. -/
theorem smallest_prod (hn : 0 < n) (h : L * Linv = 1) : Smallest (L * Lᵀ) ((1 / ‖Linv‖) ^ 2) := by
  obtain ⟨i1, i2⟩ := tr_inv h
  have hinv : (L * Lᵀ) * (Linvᵀ * Linv) = 1 := by
    rw [Matrix.mul_assoc, ← Matrix.mul_assoc Lᵀ, i2, Matrix.one_mul, h]
  have h2 := smallest_tr hn hinv
  have e : ‖Linvᵀ * Linv‖ = ‖Linv‖ * ‖Linv‖ := norm_gram Linv
  have e2 : (L * Lᵀ)ᵀ = L * Lᵀ := by rw [transpose_mul, transpose_transpose]
  rw [e, e2] at h2
  have : (1 / ‖Linv‖) ^ 2 = 1 / (‖Linv‖ * ‖Linv‖) := by
    rw [div_pow, one_pow, pow_two]
  rw [this]
  exact h2.2

theorem u_pos : 0 < u := by
  unfold u
  positivity

theorem u_eq : u = 1 / 2 ^ 53 := by
  unfold u
  norm_num

theorem u_lt : u < 1 := by
  unfold u
  norm_num

end Verif.Cond
