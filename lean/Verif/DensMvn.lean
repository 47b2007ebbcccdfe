import Verif.DensModel
import Verif.MGauss
import Mathlib.MeasureTheory.Integral.Pi
import Mathlib.MeasureTheory.Measure.Lebesgue.Basic

/-!
# Densities of multivariate normal laws (for C118)
-/

namespace Verif.Dens
open MeasureTheory ProbabilityTheory Real Matrix
open scoped ENNReal

variable {d : ℕ}

theorem prod_pdf (z : Fin d → ℝ) : ∏ i, gaussianPDFReal 0 1 (z i) = (√(2 * π) ^ d)⁻¹ * Real.exp (-(1 / 2) * ∑ i, z i ^ 2) := by
  have e : ∀ i, gaussianPDFReal 0 1 (z i) = (√(2 * π))⁻¹ * Real.exp (-(1 / 2) * z i ^ 2) := by
    intro i
    rw [gaussianPDFReal_def]
    simp only [NNReal.coe_one, mul_one, sub_zero]
    congr 2
    ring
  simp only [e]
  rw [Finset.prod_mul_distrib, ← Real.exp_sum, Finset.prod_const, Finset.card_univ, Fintype.card_fin, inv_pow, ← Finset.mul_sum]

theorem pi_density : (Measure.pi fun _ : Fin d => gaussianReal 0 1) =
    volume.withDensity fun z : Fin d → ℝ => ENNReal.ofReal ((√(2 * π) ^ d)⁻¹ * Real.exp (-(1 / 2) * ∑ i, z i ^ 2)) := by
  refine Measure.pi_eq fun s hs => ?_
  rw [withDensity_apply _ (MeasurableSet.univ_pi hs)]
  simp only [← prod_pdf]
  have hr : (volume : Measure (Fin d → ℝ)).restrict (Set.univ.pi s) = Measure.pi fun i => volume.restrict (s i) := by
    rw [volume_pi, Measure.restrict_pi_pi]
  rw [hr]
  have hi : ∀ i, Integrable (gaussianPDFReal 0 1) (volume.restrict (s i)) := fun i => (integrable_gaussianPDFReal 0 1).restrict
  have hI : Integrable (fun z : Fin d → ℝ => ∏ i, gaussianPDFReal 0 1 (z i)) (Measure.pi fun i => volume.restrict (s i)) :=
    Integrable.fintype_prod (f := fun _ => gaussianPDFReal 0 1) hi
  rw [← ofReal_integral_eq_lintegral_ofReal hI (Filter.Eventually.of_forall fun z => Finset.prod_nonneg fun i _ => gaussianPDFReal_nonneg _ _ _),
    integral_fintype_prod_eq_prod (f := fun _ => gaussianPDFReal 0 1),
    ENNReal.ofReal_prod_of_nonneg fun i _ => setIntegral_nonneg (hs i) fun x _ => gaussianPDFReal_nonneg _ _ _]
  refine Finset.prod_congr rfl fun i _ => ?_
  rw [gaussianReal_apply_eq_integral _ one_ne_zero]

theorem mvn_density (mean : Fin d → ℝ) {A : Matrix (Fin d) (Fin d) ℝ} (hA : A.det ≠ 0) :
    mvnRvs mean A = volume.withDensity fun y => ENNReal.ofReal (|A.det|⁻¹ * ((√(2 * π) ^ d)⁻¹ * Real.exp (-(1 / 2) * ∑ i, (A⁻¹ *ᵥ (y - mean)) i ^ 2))) := by
  have hcont : ∀ B : Matrix (Fin d) (Fin d) ℝ, Continuous fun z : Fin d → ℝ => B *ᵥ z := fun B => by
    exact (toLin' B).continuous_of_finiteDimensional
  have hg : Measurable fun z : Fin d → ℝ => ENNReal.ofReal ((√(2 * π) ^ d)⁻¹ * Real.exp (-(1 / 2) * ∑ i, z i ^ 2)) := by
    fun_prop
  have hmap : Measurable fun z : Fin d → ℝ => mean + A *ᵥ z := (continuous_const.add (hcont A)).measurable
  ext S hS
  unfold mvnRvs
  rw [Measure.map_apply hmap hS, pi_density, withDensity_apply _ (hmap hS), withDensity_apply _ hS, ← lintegral_indicator (hmap hS), ← lintegral_indicator hS]
  set g : (Fin d → ℝ) → ℝ≥0∞ := fun z => ENNReal.ofReal ((√(2 * π) ^ d)⁻¹ * Real.exp (-(1 / 2) * ∑ i, z i ^ 2)) with hgdef
  set H : (Fin d → ℝ) → ℝ≥0∞ := fun w => S.indicator (fun y => g (A⁻¹ *ᵥ (y - mean))) (mean + w) with hH
  have hHm : Measurable H := by
    refine (Measurable.indicator (hg.comp ?_) hS).comp (measurable_const.add measurable_id)
    exact ((hcont A⁻¹).comp (continuous_id.sub continuous_const)).measurable
  have hinv : ∀ z : Fin d → ℝ, A⁻¹ *ᵥ (A *ᵥ z) = z := by
    intro z
    rw [mulVec_mulVec, nonsing_inv_mul _ hA.isUnit, one_mulVec]
  have e1 : ∀ z, ((fun z => mean + A *ᵥ z) ⁻¹' S).indicator g z = H (toLin' A z) := by
    intro z
    classical
    rw [toLin'_apply, hH]
    by_cases h : mean + A *ᵥ z ∈ S
    · rw [Set.indicator_of_mem (show z ∈ (fun z => mean + A *ᵥ z) ⁻¹' S from h)]
      dsimp only
      rw [Set.indicator_of_mem h, add_sub_cancel_left, hinv]
    · rw [Set.indicator_of_notMem (show z ∉ (fun z => mean + A *ᵥ z) ⁻¹' S from h)]
      dsimp only
      rw [Set.indicator_of_notMem h]
  rw [lintegral_congr e1, ← lintegral_map (f := H) (g := toLin' A) hHm (hcont A).measurable, Real.map_matrix_volume_pi_eq_smul_volume_pi hA,
    lintegral_smul_measure, smul_eq_mul, hH]
  rw [lintegral_add_left_eq_self (fun y => S.indicator (fun y => g (A⁻¹ *ᵥ (y - mean))) y) mean, ← lintegral_const_mul' _ _ ENNReal.ofReal_ne_top]
  refine lintegral_congr fun y => ?_
  by_cases h : y ∈ S
  · rw [Set.indicator_of_mem h, Set.indicator_of_mem h, hgdef, ← ENNReal.ofReal_mul (abs_nonneg _), abs_inv]
  · rw [Set.indicator_of_notMem h, Set.indicator_of_notMem h, mul_zero]

/-- The law depends on the square root only through the covariance. -/
theorem mg_density (θ : ℕ → ℝ) (mean : Fin d → ℝ) {A : Matrix (Fin d) (Fin d) ℝ} (hA : A * Aᵀ = mgCov θ) :
    mvnRvs mean A = volume.withDensity fun y => ENNReal.ofReal (Real.exp (MGauss.llk (of fun _ : Fin 1 => y - mean) θ) / √(2 * π) ^ d) := by
  obtain ⟨-, -, hdet, -, -⟩ := MGauss.factor_spec (m := d) θ
  set R := MGauss.getR d θ with hR
  have hRd : R.det ≠ 0 := by rw [hdet]; exact (Real.exp_pos _).ne'
  have hRu : IsUnit R.det := hRd.isUnit
  have hRt : IsUnit (Rᵀ * R).det := by
    rw [det_mul, det_transpose]
    exact hRu.mul hRu
  have hprod : A.det * A.det * (R.det * R.det) = 1 := by
    have h := congrArg (fun M : Matrix (Fin d) (Fin d) ℝ => (M * (Rᵀ * R)).det) hA
    simp only [mgCov] at h
    rw [nonsing_inv_mul _ hRt, det_one, det_mul, det_mul, det_mul, det_transpose, det_transpose] at h
    exact h
  have hAd : A.det ≠ 0 := by
    intro h
    rw [h] at hprod
    simp at hprod
  have hdet' : |A.det|⁻¹ = Real.exp (MGauss.logdet d θ) := by
    rw [← hdet]
    have hpos : 0 < R.det := by rw [hdet]; exact Real.exp_pos _
    have h1 : (|A.det| * R.det) ^ 2 = 1 := by
      rw [mul_pow, sq_abs]
      linarith
    have h2 : |A.det| * R.det = 1 := by
      have := abs_nonneg A.det
      nlinarith [mul_nonneg this hpos.le]
    rw [eq_inv_of_mul_eq_one_left h2, inv_inv]
  have hquad : A⁻¹ᵀ * A⁻¹ = Rᵀ * R := by
    rw [transpose_nonsing_inv, ← Matrix.mul_inv_rev, hA]
    exact nonsing_inv_nonsing_inv _ hRt
  rw [mvn_density mean hAd]
  congr 1
  funext y
  congr 1
  have hsq : ∀ B : Matrix (Fin d) (Fin d) ℝ, ∀ v : Fin d → ℝ, ∑ i, (B *ᵥ v) i ^ 2 = v ⬝ᵥ ((Bᵀ * B) *ᵥ v) := by
    intro B v
    rw [← mulVec_mulVec, dotProduct_mulVec, vecMul_transpose]
    simp only [dotProduct, pow_two]
  have hl : MGauss.llk (of fun _ : Fin 1 => y - mean) θ = -(1 / 2) * (∑ i, (A⁻¹ *ᵥ (y - mean)) i ^ 2) + MGauss.logdet d θ := by
    unfold MGauss.llk
    rw [hsq, hquad, ← hsq]
    simp only [Finset.univ_unique, Finset.sum_singleton, Nat.cast_one, one_mul]
    congr 3
    funext p
    rw [pow_two]
    have : ((of fun _ : Fin 1 => y - mean) * (MGauss.getR d θ)ᵀ) default p = (R *ᵥ (y - mean)) p := by
      rw [mul_apply, mulVec, dotProduct]
      refine Finset.sum_congr rfl fun q _ => ?_
      rw [mul_comm, transpose_apply]
      rfl
    rw [this]
  rw [hl, Real.exp_add, hdet']
  ring

end Verif.Dens
