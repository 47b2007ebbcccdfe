import Verif.RlModel
import Verif.DensMvn
import Verif.WpsLemmas
import Verif.WaldLemmas
import Verif.Edf
import Verif.LamTrace

/-! Helper lemmas for C121: Gaussian integrals, generalised determinants of scaled matrices, completing the square. -/

namespace Verif.Rl

open Matrix MeasureTheory ProbabilityTheory Real Verif.Reml Verif.LogDet

variable {N p K : ℕ}

/-- The Gaussian integral. -/
theorem gauss_int {H : Matrix (Fin p) (Fin p) ℝ} (hH : H.PosDef) (b : Fin p → ℝ) :
    ∫ β : Fin p → ℝ, Real.exp (-(1 / 2) * ((β - b) ⬝ᵥ (H *ᵥ (β - b)))) = √(2 * π) ^ p / √H.det := by
  obtain ⟨A, hA⟩ := Wald.cov_root hH.posSemidef
  obtain ⟨R, hHR⟩ : ∃ R : Matrix (Fin p) (Fin p) ℝ, H = Rᵀ * R := ⟨Aᵀ, by rw [hA, transpose_transpose]⟩
  have hdet : H.det = R.det ^ 2 := by rw [hHR, det_mul, det_transpose, sq]
  have hR0 : R.det ≠ 0 := by
    intro h
    have := hH.det_pos
    rw [hdet, h] at this
    norm_num at this
  have hu : IsUnit R.det := isUnit_iff_ne_zero.2 hR0
  have hi0 : (R⁻¹).det ≠ 0 := by
    rw [det_nonsing_inv, Ring.inverse_eq_inv']
    exact inv_ne_zero hR0
  have hq : ∀ β : Fin p → ℝ, ∑ i, ((R⁻¹)⁻¹ *ᵥ (β - b)) i ^ 2 = (β - b) ⬝ᵥ (H *ᵥ (β - b)) := by
    intro β
    rw [nonsing_inv_nonsing_inv _ hu, hHR, ← mulVec_mulVec, dotProduct_mulVec, vecMul_transpose]
    simp only [dotProduct, sq]
  have hm := Dens.mvn_density b hi0
  have hpm : Dens.mvnRvs b R⁻¹ Set.univ = 1 := by
    have hmap : Measurable fun z : Fin p → ℝ => b + R⁻¹ *ᵥ z := by
      refine measurable_pi_iff.2 fun i => ?_
      show Measurable fun z : Fin p → ℝ => b i + ∑ j, R⁻¹ i j * z j
      fun_prop
    unfold Dens.mvnRvs
    rw [Measure.map_apply hmap MeasurableSet.univ, Set.preimage_univ, measure_univ]
  rw [hm, withDensity_apply _ MeasurableSet.univ, Measure.restrict_univ] at hpm
  simp only [hq] at hpm
  set c : ℝ := |(R⁻¹).det|⁻¹ * (√(2 * π) ^ p)⁻¹ with hc
  have hc0 : 0 < c := by
    have : 0 < √(2 * π) := Real.sqrt_pos.2 (by positivity)
    have := abs_pos.2 hi0
    positivity
  have hmeas : Measurable fun β : Fin p → ℝ => c * Real.exp (-(1 / 2) * ((β - b) ⬝ᵥ (H *ᵥ (β - b)))) := by
    show Measurable fun β : Fin p → ℝ => c * Real.exp (-(1 / 2) * (∑ i, (β i - b i) * ∑ j, H i j * (β j - b j)))
    fun_prop
  have hone : ∫ β : Fin p → ℝ, c * Real.exp (-(1 / 2) * ((β - b) ⬝ᵥ (H *ᵥ (β - b)))) = 1 := by
    rw [integral_eq_lintegral_of_nonneg_ae (Filter.Eventually.of_forall fun β => by positivity) hmeas.aestronglyMeasurable]
    simp only [hc, mul_assoc]
    rw [hpm, ENNReal.toReal_one]
  rw [integral_const_mul] at hone
  have h1 := eq_div_of_mul_eq hc0.ne' ((mul_comm _ _).trans hone)
  rw [h1, hc, hdet, Real.sqrt_sq_eq_abs, det_nonsing_inv, Ring.inverse_eq_inv', abs_inv]
  have : √(2 * π) ^ p ≠ 0 := pow_ne_zero _ (Real.sqrt_pos.2 (by positivity)).ne'
  have := abs_pos.2 hR0
  field_simp

section
variable {n r : Type} [Fintype n] [DecidableEq n] [Fintype r] [DecidableEq r]

theorem rank_card (U : Matrix n r ℝ) (hU : Uᵀ * U = 1) {T : Matrix n n ℝ} (hT : T.PosSemidef)
    (hk : ∀ v : n → ℝ, Uᵀ *ᵥ v = 0 ↔ T *ᵥ v = 0) : T.rank = Fintype.card r := by
  have hrep := compress U hU T (Wps.psd_symm hT) fun v hv => (hk v).1 hv
  have hpd := compress_pd U hU T hT fun v hv => (hk v).2 hv
  have hr : (Uᵀ * T * U).rank = Fintype.card r := rank_of_isUnit _ ((Matrix.isUnit_iff_isUnit_det _).2 (isUnit_iff_ne_zero.2 hpd.det_pos.ne'))
  refine le_antisymm ?_ ?_
  · rw [hrep]
    refine (rank_mul_le_left _ _).trans ((rank_mul_le_right _ _).trans ?_)
    rw [hr]
  · rw [← hr]
    exact (rank_mul_le_left _ _).trans (rank_mul_le_right _ _)

theorem pdet_pos {T : Matrix n n ℝ} (hT : T.PosSemidef) : 0 < pdet T := by
  obtain ⟨r, _, _, U, hU, hk⟩ := range_basis T hT
  have hpd := compress_pd U hU T hT fun v hv => (hk v).2 hv
  rw [compress U hU T (Wps.psd_symm hT) fun v hv => (hk v).1 hv, pdet_compress U hU _ hpd]
  exact hpd.det_pos

theorem pdet_smul {T : Matrix n n ℝ} (hT : T.PosSemidef) {c : ℝ} (hc : 0 < c) : pdet (c • T) = c ^ T.rank * pdet T := by
  obtain ⟨r, _, _, U, hU, hk⟩ := range_basis T hT
  have hpd := compress_pd U hU T hT fun v hv => (hk v).2 hv
  have hrep := compress U hU T (Wps.psd_symm hT) fun v hv => (hk v).1 hv
  rw [rank_card U hU hT hk]
  have e : c • T = U * (c • (Uᵀ * T * U)) * Uᵀ := by
    rw [Matrix.mul_smul, Matrix.smul_mul, ← hrep]
  rw [e, pdet_compress U hU _ (hpd.smul hc), det_smul]
  congr 1
  conv_rhs => rw [hrep]
  rw [pdet_compress U hU _ hpd]

/-- Multiplicity of the eigenvalue zero. -/
theorem nullity_rank {T : Matrix n n ℝ} (hT : T.PosSemidef) : nullity T + T.rank = Fintype.card n := by
  obtain ⟨r, _, _, U, hU, hk⟩ := range_basis T hT
  have hpd := compress_pd U hU T hT fun v hv => (hk v).2 hv
  have hrep := compress U hU T (Wps.psd_symm hT) fun v hv => (hk v).1 hv
  rw [rank_card U hU hT hk]
  set A := Uᵀ * T * U with hA
  have h : Polynomial.X ^ Fintype.card r * T.charpoly = Polynomial.X ^ Fintype.card n * A.charpoly := by
    have := charpoly_mul_comm' U (A * Uᵀ)
    rw [Matrix.mul_assoc A, hU, Matrix.mul_one, ← Matrix.mul_assoc, ← hrep] at this
    exact this
  have h1 := congrArg (fun q : Polynomial ℝ => q.roots.count 0) h
  have hx : ∀ (k : ℕ) (q : Polynomial ℝ), q ≠ 0 → (Polynomial.X ^ k * q).roots.count 0 = k + q.roots.count 0 := fun k q hq => by
    rw [Polynomial.roots_mul (mul_ne_zero (pow_ne_zero _ Polynomial.X_ne_zero) hq), Multiset.count_add, Polynomial.roots_pow,
      Polynomial.roots_X, Multiset.count_nsmul, Multiset.count_singleton_self, mul_one]
  have hA0 : A.charpoly.roots.count 0 = 0 := by
    rw [Multiset.count_eq_zero, Polynomial.mem_roots (charpoly_monic A).ne_zero, Polynomial.IsRoot, eval_charpoly]
    simp only [map_zero, zero_sub, det_neg]
    exact mul_ne_zero (pow_ne_zero _ (by norm_num)) hpd.det_pos.ne'
  simp only [hx _ _ (charpoly_monic _).ne_zero, hA0, add_zero] at h1
  unfold nullity
  omega

theorem rank_same {T T' : Matrix n n ℝ} (hT : T.PosSemidef) (hT' : T'.PosSemidef)
    (hk : ∀ v : n → ℝ, T *ᵥ v = 0 ↔ T' *ᵥ v = 0) : T.rank = T'.rank := by
  obtain ⟨r, _, _, U, hU, h⟩ := range_basis T hT
  rw [rank_card U hU hT h, rank_card U hU hT' fun v => (h v).trans (hk v)]
end

section
variable {n : Type} [Fintype n] [DecidableEq n]

/-- A generalised inverse of one of two orthogonal matrices gives the right traces for the sum. -/
theorem ginv_extend {P R : Matrix n n ℝ} (hP : P.PosSemidef) (hR : R.PosSemidef) (hPR : P * R = 0) {F : Matrix n n ℝ} (hF : P * F * P = P) :
    ∃ G : Matrix n n ℝ, (P + R) * G * (P + R) = P + R ∧
      ∀ T : Matrix n n ℝ, Tᵀ = T → (∀ v, P *ᵥ v = 0 → T *ᵥ v = 0) → (T * G).trace = (T * F).trace := by
  obtain ⟨r, _, _, U, hU, hk⟩ := range_basis P hP
  obtain ⟨q, _, _, W, hW, hl⟩ := range_basis R hR
  have hA := compress_pd U hU P hP fun v hv => (hk v).2 hv
  have hB := compress_pd W hW R hR fun v hv => (hl v).2 hv
  have hPe := compress U hU P (Wps.psd_symm hP) fun v hv => (hk v).1 hv
  have hRe := compress W hW R (Wps.psd_symm hR) fun v hv => (hl v).1 hv
  set A := Uᵀ * P * U with hAd
  set B := Wᵀ * R * W with hBd
  have hAu : IsUnit A.det := isUnit_iff_ne_zero.2 hA.det_pos.ne'
  have hBu : IsUnit B.det := isUnit_iff_ne_zero.2 hB.det_pos.ne'
  have hUW : Uᵀ * W = 0 := by
    have h1 : A⁻¹ * (Uᵀ * (P * R) * W) * B⁻¹ = 0 := by rw [hPR]; simp
    have h2 : A⁻¹ * (Uᵀ * (P * R) * W) * B⁻¹ = Uᵀ * W := by
      rw [hPe, hRe]
      calc A⁻¹ * (Uᵀ * (U * A * Uᵀ * (W * B * Wᵀ)) * W) * B⁻¹ = A⁻¹ * (Uᵀ * U) * A * (Uᵀ * W) * B * (Wᵀ * W) * B⁻¹ := by
            simp only [Matrix.mul_assoc]
        _ = A⁻¹ * A * (Uᵀ * W) * (B * B⁻¹) := by rw [hU, hW]; simp only [Matrix.mul_one, Matrix.mul_assoc]
        _ = _ := by rw [nonsing_inv_mul _ hAu, mul_nonsing_inv _ hBu, Matrix.one_mul, Matrix.mul_one]
    rw [← h2, h1]
  have hWU : Wᵀ * U = 0 := by
    have := congrArg Matrix.transpose hUW
    rwa [transpose_mul, transpose_transpose, transpose_zero] at this
  refine ⟨U * A⁻¹ * Uᵀ + W * B⁻¹ * Wᵀ, ?_, ?_⟩
  · have c1 : (P + R) * (U * A⁻¹ * Uᵀ + W * B⁻¹ * Wᵀ) = U * Uᵀ + W * Wᵀ := by
      rw [Matrix.mul_add, Matrix.add_mul, Matrix.add_mul]
      have a1 : P * (U * A⁻¹ * Uᵀ) = U * Uᵀ := by
        rw [hPe]
        calc U * A * Uᵀ * (U * A⁻¹ * Uᵀ) = U * A * (Uᵀ * U) * A⁻¹ * Uᵀ := by simp only [Matrix.mul_assoc]
          _ = U * (A * A⁻¹) * Uᵀ := by rw [hU, Matrix.mul_one]; simp only [Matrix.mul_assoc]
          _ = _ := by rw [mul_nonsing_inv _ hAu, Matrix.mul_one]
      have a2 : R * (U * A⁻¹ * Uᵀ) = 0 := by
        rw [hRe]
        calc W * B * Wᵀ * (U * A⁻¹ * Uᵀ) = W * B * (Wᵀ * U) * A⁻¹ * Uᵀ := by simp only [Matrix.mul_assoc]
          _ = _ := by rw [hWU]; simp
      have a3 : P * (W * B⁻¹ * Wᵀ) = 0 := by
        rw [hPe]
        calc U * A * Uᵀ * (W * B⁻¹ * Wᵀ) = U * A * (Uᵀ * W) * B⁻¹ * Wᵀ := by simp only [Matrix.mul_assoc]
          _ = _ := by rw [hUW]; simp
      have a4 : R * (W * B⁻¹ * Wᵀ) = W * Wᵀ := by
        rw [hRe]
        calc W * B * Wᵀ * (W * B⁻¹ * Wᵀ) = W * B * (Wᵀ * W) * B⁻¹ * Wᵀ := by simp only [Matrix.mul_assoc]
          _ = W * (B * B⁻¹) * Wᵀ := by rw [hW, Matrix.mul_one]; simp only [Matrix.mul_assoc]
          _ = _ := by rw [mul_nonsing_inv _ hBu, Matrix.mul_one]
      rw [a1, a2, a3, a4, add_zero, zero_add]
    have b1 : (U * Uᵀ) * P = P := by
      rw [hPe]
      calc U * Uᵀ * (U * A * Uᵀ) = U * (Uᵀ * U) * A * Uᵀ := by simp only [Matrix.mul_assoc]
        _ = _ := by rw [hU, Matrix.mul_one]
    have b2 : (W * Wᵀ) * P = 0 := by
      rw [hPe]
      calc W * Wᵀ * (U * A * Uᵀ) = W * (Wᵀ * U) * A * Uᵀ := by simp only [Matrix.mul_assoc]
        _ = _ := by rw [hWU]; simp
    have b3 : (U * Uᵀ) * R = 0 := by
      rw [hRe]
      calc U * Uᵀ * (W * B * Wᵀ) = U * (Uᵀ * W) * B * Wᵀ := by simp only [Matrix.mul_assoc]
        _ = _ := by rw [hUW]; simp
    have b4 : (W * Wᵀ) * R = R := by
      rw [hRe]
      calc W * Wᵀ * (W * B * Wᵀ) = W * (Wᵀ * W) * B * Wᵀ := by simp only [Matrix.mul_assoc]
        _ = _ := by rw [hW, Matrix.mul_one]
    rw [c1, Matrix.add_mul, Matrix.mul_add, Matrix.mul_add, b1, b2, b3, b4, zero_add, add_zero]
  · intro T hT hTk
    have hTe := compress U hU T hT fun v hv => hTk v ((hk v).1 hv)
    have hg : Uᵀ * F * U = A⁻¹ := ginv_compress U hU A hAu F (by rw [← hPe]; exact hF)
    set C := Uᵀ * T * U with hCd
    rw [Matrix.mul_add, trace_add]
    have e1 : (T * (U * A⁻¹ * Uᵀ)).trace = (C * A⁻¹).trace := by
      rw [show T * (U * A⁻¹ * Uᵀ) = (T * U * A⁻¹) * Uᵀ by simp only [Matrix.mul_assoc], trace_mul_comm, hCd]
      simp only [Matrix.mul_assoc]
    have e2 : T * (W * B⁻¹ * Wᵀ) = 0 := by
      rw [hTe]
      calc U * C * Uᵀ * (W * B⁻¹ * Wᵀ) = U * C * (Uᵀ * W) * B⁻¹ * Wᵀ := by simp only [Matrix.mul_assoc]
        _ = _ := by rw [hUW]; simp
    have e3 : (T * F).trace = (C * A⁻¹).trace := by
      conv_lhs => rw [hTe]
      rw [← hg, show U * C * Uᵀ * F = U * (C * Uᵀ * F) by simp only [Matrix.mul_assoc], trace_mul_comm]
      simp only [Matrix.mul_assoc]
    rw [e1, e2, trace_zero, add_zero, e3]

/-- Derivative of the log generalised determinant along a line that keeps the kernel. -/
theorem log_pdet_line {T B G : Matrix n n ℝ} (hT : T.PosSemidef) (hG : T * G * T = T) (hB : Bᵀ = B)
    (hk : ∀ v, T *ᵥ v = 0 → B *ᵥ v = 0)
    (he : ∀ᶠ t in nhds (0 : ℝ), (T + t • B).PosSemidef ∧ ∀ v, (T + t • B) *ᵥ v = 0 → T *ᵥ v = 0) :
    HasDerivAt (fun t : ℝ => Real.log (pdet (T + t • B))) (B * G).trace 0 := by
  obtain ⟨r, _, _, U, hU, hu⟩ := range_basis T hT
  have hA := compress_pd U hU T hT fun v hv => (hu v).2 hv
  have hTe := compress U hU T (Wps.psd_symm hT) fun v hv => (hu v).1 hv
  have hBe := compress U hU B hB fun v hv => hk v ((hu v).1 hv)
  set A := Uᵀ * T * U with hAd
  set C := Uᵀ * B * U with hCd
  have hAu : IsUnit A.det := isUnit_iff_ne_zero.2 hA.det_pos.ne'
  have hg : Uᵀ * G * U = A⁻¹ := ginv_compress U hU A hAu G (by rw [← hTe]; exact hG)
  have hd := (hasDerivAt_det_line A C hA.det_pos.ne').log (by rw [zero_smul, add_zero]; exact hA.det_pos.ne')
  have hev : (fun t : ℝ => Real.log (pdet (T + t • B))) =ᶠ[nhds 0] fun t => Real.log (A + t • C).det := by
    filter_upwards [he] with t ht
    have hpd := compress_pd U hU _ ht.1 fun v hv => (hu v).2 (ht.2 v hv)
    have e1 : Uᵀ * (T + t • B) * U = A + t • C := by
      rw [Matrix.mul_add, Matrix.add_mul, Matrix.mul_smul, Matrix.smul_mul]
    have e2 : T + t • B = U * (A + t • C) * Uᵀ := by
      rw [Matrix.mul_add, Matrix.add_mul, Matrix.mul_smul, Matrix.smul_mul, ← hTe, ← hBe]
    rw [e1] at hpd
    rw [e2, pdet_compress U hU _ hpd]
  refine (hd.congr_of_eventuallyEq hev).congr_deriv ?_
  rw [zero_smul, add_zero, mul_div_cancel_left₀ _ hA.det_pos.ne', trace_mul_comm]
  conv_rhs => rw [hBe]
  rw [← hg, show U * C * Uᵀ * G = U * (C * Uᵀ * G) by simp only [Matrix.mul_assoc], trace_mul_comm U]
  simp only [Matrix.mul_assoc]
end

/-- Derivative of a quadratic form of an inverse along a line. -/
theorem quad_line {M B : Matrix (Fin p) (Fin p) ℝ} (hM : IsUnit M.det) (c : Fin p → ℝ) :
    HasDerivAt (fun t : ℝ => c ⬝ᵥ ((M + t • B)⁻¹ *ᵥ c)) (-(c ⬝ᵥ ((M⁻¹ * B * M⁻¹) *ᵥ c))) 0 := by
  have h : HasDerivAt (fun t : ℝ => ∑ a, c a * ∑ b, (M + t • B)⁻¹ a b * c b) (∑ a, c a * ∑ b, (-(M⁻¹ * B * M⁻¹) a b) * c b) 0 :=
    HasDerivAt.fun_sum fun a _ => (HasDerivAt.fun_sum fun b _ => (Wps.hasDerivAt_inv_line M B hM a b).mul_const _).const_mul _
  refine h.congr_deriv ?_
  simp only [dotProduct, mulVec, neg_mul, Finset.sum_neg_distrib, mul_neg]

/-- Completing the square. -/
theorem complete_square (X : Matrix (Fin N) (Fin p) ℝ) (y : Fin N → ℝ) {S : Matrix (Fin p) (Fin p) ℝ} (hS : Sᵀ = S) {b : Fin p → ℝ}
    (hb : (Xᵀ * X + S) *ᵥ b = Xᵀ *ᵥ y) (β : Fin p → ℝ) :
    ∑ i, (y i - (X *ᵥ β) i) ^ 2 + β ⬝ᵥ (S *ᵥ β)
      = (∑ i, (y i - (X *ᵥ b) i) ^ 2 + b ⬝ᵥ (S *ᵥ b)) + (β - b) ⬝ᵥ ((Xᵀ * X + S) *ᵥ (β - b)) := by
  have hM : (Xᵀ * X + S)ᵀ = Xᵀ * X + S := by
    rw [transpose_add, transpose_mul, transpose_transpose, hS]
  have key : ∀ γ : Fin p → ℝ, ∑ i, (y i - (X *ᵥ γ) i) ^ 2 + γ ⬝ᵥ (S *ᵥ γ)
      = y ⬝ᵥ y - 2 * (γ ⬝ᵥ (Xᵀ *ᵥ y)) + γ ⬝ᵥ ((Xᵀ * X + S) *ᵥ γ) := by
    intro γ
    have e1 : ∑ i, (y i - (X *ᵥ γ) i) ^ 2 = (y - X *ᵥ γ) ⬝ᵥ (y - X *ᵥ γ) := by
      simp only [dotProduct, sq, Pi.sub_apply]
    have e2 : γ ⬝ᵥ (Xᵀ *ᵥ y) = (X *ᵥ γ) ⬝ᵥ y := by
      rw [dotProduct_mulVec, vecMul_transpose]
    have e3 : γ ⬝ᵥ ((Xᵀ * X) *ᵥ γ) = (X *ᵥ γ) ⬝ᵥ (X *ᵥ γ) := by
      rw [← mulVec_mulVec, dotProduct_mulVec, vecMul_transpose]
    rw [e1, add_mulVec, dotProduct_add, e2, e3, sub_dotProduct, dotProduct_sub, dotProduct_sub, dotProduct_comm y (X *ᵥ γ)]
    ring
  have hsw : b ⬝ᵥ ((Xᵀ * X + S) *ᵥ β) = β ⬝ᵥ ((Xᵀ * X + S) *ᵥ b) := by
    rw [dotProduct_mulVec, ← mulVec_transpose, hM, dotProduct_comm]
  rw [key β, key b, mulVec_sub, sub_dotProduct, dotProduct_sub, dotProduct_sub, hsw, ← hb]
  ring

theorem prod_pdf (m y : Fin N → ℝ) {φ : ℝ} (hφ : 0 < φ) :
    ∏ i, gaussianPDFReal (m i) φ.toNNReal (y i) = (√(2 * π * φ) ^ N)⁻¹ * Real.exp (-(∑ i, (y i - m i) ^ 2) / (2 * φ)) := by
  have e : ∀ i, gaussianPDFReal (m i) φ.toNNReal (y i) = (√(2 * π * φ))⁻¹ * Real.exp (-(y i - m i) ^ 2 / (2 * φ)) := by
    intro i
    rw [gaussianPDFReal_def, Real.coe_toNNReal _ hφ.le]
  simp only [e]
  rw [Finset.prod_mul_distrib, ← Real.exp_sum, Finset.prod_const, Finset.card_univ, Fintype.card_fin, inv_pow,
    ← Finset.sum_div, Finset.sum_neg_distrib]

/-- Steps of the update that are zero. -/
theorem fs_zero {lgdet ldet bSb l scale : ℝ} (hs : 0 < scale) (hl : Lam.InRange l) (hb : 0 ≤ bSb) (hd : ldet ≤ lgdet)
    (h : Lam.fsStep lgdet ldet bSb l scale = 0) :
    (Lam.lo < l → 0 ≤ Lam.gradLam lgdet ldet bSb scale) ∧ (l < Lam.hi → Lam.gradLam lgdet ldet bSb scale ≤ 0) := by
  have hl0 : 0 < l := lt_of_lt_of_le Lam.lo_pos hl.1
  unfold Lam.fsStep at h
  dsimp only at h
  have hg : ∀ x, Lam.gradLam lgdet ldet x scale = (scale * (lgdet - ldet) - x) / (2 * scale) := by
    intro x
    unfold Lam.gradLam
    field_simp
  rw [max_eq_right hb, max_eq_right (sub_nonneg.2 hd)] at h
  rw [hg]
  by_cases h0 : bSb ≤ 0
  · rw [if_pos h0] at h
    have hb0 : bSb = 0 := le_antisymm h0 hb
    refine ⟨fun _ => ?_, fun hlt => absurd h (by have := hlt; linarith)⟩
    rw [hb0, sub_zero]
    have := sub_nonneg.2 hd
    positivity
  · rw [if_neg h0] at h
    push Not at h0
    have h' := sub_eq_zero.1 h
    set q := scale * ((lgdet - ldet) / bSb) * l with hq
    have hq1 : q = (scale * (lgdet - ldet)) * l / bSb := by rw [hq]; ring
    constructor
    · intro hlo
      have : l ≤ q := by
        rcases le_max_iff.1 (h'.symm.le.trans (min_le_left _ _)) with h2 | h2
        · exact h2
        · exact absurd h2 (not_le.2 hlo)
      rw [hq1, le_div_iff₀ h0, mul_comm] at this
      have := le_of_mul_le_mul_right this hl0
      refine div_nonneg (by linarith) (by positivity)
    · intro hhi
      have : q ≤ l := by
        rcases min_le_iff.1 h'.le with h2 | h2
        · exact (le_max_left _ _).trans h2
        · exact absurd h2 (not_le.2 hhi)
      rw [hq1, div_le_iff₀ h0, mul_comm l] at this
      have := le_of_mul_le_mul_right this hl0
      exact div_nonpos_of_nonpos_of_nonneg (by linarith) (by positivity)

/-- Steps that are not zero have the sign of the gradient. -/
theorem fs_strict {lgdet ldet bSb l scale : ℝ} (hs : 0 < scale) (hl : Lam.InRange l) (hb : 0 < bSb) (hd : ldet ≤ lgdet)
    (h : Lam.fsStep lgdet ldet bSb l scale ≠ 0) : 0 < Lam.fsStep lgdet ldet bSb l scale * Lam.gradLam lgdet ldet bSb scale := by
  refine lt_of_le_of_ne (Lam.fs_direction _ _ _ _ _ hs hl (Or.inl hb)) fun h0 => ?_
  have hg := (mul_eq_zero.1 h0.symm).resolve_left h
  refine h ?_
  have e : bSb = scale * (lgdet - ldet) := by
    unfold Lam.gradLam at hg
    field_simp at hg
    linarith
  unfold Lam.fsStep
  dsimp only
  rw [max_eq_right hb.le, max_eq_right (sub_nonneg.2 hd), if_neg (not_le.2 hb)]
  have : scale * ((lgdet - ldet) / bSb) * l = l := by
    rw [mul_div_assoc', ← e, div_self hb.ne', one_mul]
  rw [this, max_eq_left (show Lam.lo ≤ l from hl.1), min_eq_left (show l ≤ Lam.hi from hl.2), sub_self]

end Verif.Rl
