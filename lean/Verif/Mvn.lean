import Verif.MvnModel
import Mathlib.Probability.Distributions.Gaussian.Multivariate
import Mathlib.LinearAlgebra.Matrix.NonsingularInverse
import Mathlib.Algebra.Order.Star.Real

/-!
# Sampling from a multivariate normal (property C37)
-/

namespace Verif.Mvn

open Matrix MeasureTheory ProbabilityTheory WithLp Complex
open scoped RealInnerProductSpace

/-- Independent standard normal draws. -/
noncomputable def std (q : ℕ) : Measure (Fin q → ℝ) := Measure.pi fun _ => gaussianReal 0 1

instance (q : ℕ) : IsProbabilityMeasure (std q) := by unfold std; infer_instance

/-- Law of an affine image of standard normal draws. -/
theorem affine_law {m q : ℕ} (b : Fin m → ℝ) (A : Matrix (Fin m) (Fin q) ℝ) :
    (std q).map (fun z => toLp 2 (b + A.mulVec z)) = multivariateGaussian (toLp 2 b) (A * Aᵀ) := by
  have hmeas : Measurable (fun z : Fin q → ℝ => toLp 2 (b + A.mulVec z)) := by
    have h1 : Measurable (fun z : Fin q → ℝ => b + A.mulVec z) := by
      refine measurable_pi_iff.2 fun i => ?_
      show Measurable fun z : Fin q → ℝ => b i + ∑ j, A i j * z j
      fun_prop
    fun_prop
  have hS : (A * Aᵀ).PosSemidef := by
    have := Matrix.posSemidef_self_mul_conjTranspose A
    rwa [Matrix.conjTranspose_eq_transpose_of_trivial] at this
  haveI : IsProbabilityMeasure ((std q).map (fun z => toLp 2 (b + A.mulVec z))) :=
    Measure.isProbabilityMeasure_map hmeas.aemeasurable
  apply Measure.ext_of_charFun (E := EuclideanSpace ℝ (Fin m))
  ext t
  rw [charFun_multivariateGaussian hS, charFun_apply, integral_map hmeas.aemeasurable
    (Measurable.aestronglyMeasurable (by fun_prop))]
  have hinner : ∀ z : Fin q → ℝ, ⟪toLp 2 (b + A.mulVec z), t⟫
      = ⟪t, toLp 2 b⟫ + ⟪toLp 2 z, toLp 2 (Aᵀ.mulVec t.ofLp)⟫ := by
    intro z
    rw [PiLp.inner_apply, PiLp.inner_apply, PiLp.inner_apply]
    simp only [RCLike.inner_apply, conj_trivial, ofLp_toLp, Pi.add_apply]
    have h1 : ∑ i, t.ofLp i * (b i + A.mulVec z i) = dotProduct t.ofLp b + dotProduct t.ofLp (A.mulVec z) := by
      rw [← dotProduct_add]; rfl
    have h2 : dotProduct t.ofLp (A.mulVec z) = dotProduct (Aᵀ.mulVec t.ofLp) z := by
      rw [Matrix.dotProduct_mulVec, Matrix.mulVec_transpose]
    rw [h1, h2]
    unfold dotProduct
    congr 1
    exact Finset.sum_congr rfl fun i _ => mul_comm _ _
  simp_rw [hinner]
  have hstd : ∫ z : Fin q → ℝ, cexp (⟪toLp 2 z, toLp 2 (Aᵀ.mulVec t.ofLp)⟫ * I) ∂(std q)
      = cexp (-‖(toLp 2 (Aᵀ.mulVec t.ofLp) : EuclideanSpace ℝ (Fin q))‖ ^ 2 / 2) := by
    rw [← charFun_stdGaussian, ← map_pi_eq_stdGaussian, charFun_apply, integral_map (by fun_prop)
      (Measurable.aestronglyMeasurable (by fun_prop))]
    rfl
  have hsplit : ∀ z : Fin q → ℝ,
      cexp (((⟪t, toLp 2 b⟫ + ⟪toLp 2 z, toLp 2 (Aᵀ.mulVec t.ofLp)⟫ : ℝ) : ℂ) * I)
      = cexp (⟪t, toLp 2 b⟫ * I) * cexp (⟪toLp 2 z, toLp 2 (Aᵀ.mulVec t.ofLp)⟫ * I) := by
    intro z
    rw [← Complex.exp_add]
    congr 1
    push_cast
    ring
  simp_rw [hsplit]
  rw [integral_const_mul, hstd, ← Complex.exp_add]
  congr 1
  rw [← Complex.ofReal_pow, EuclideanSpace.real_norm_sq_eq]
  have hq : ∑ i, (Aᵀ.mulVec t.ofLp) i ^ 2 = dotProduct t.ofLp ((A * Aᵀ).mulVec t.ofLp) := by
    rw [← Matrix.mulVec_mulVec, Matrix.dotProduct_mulVec, ← Matrix.mulVec_transpose]
    unfold dotProduct
    exact Finset.sum_congr rfl fun i _ => sq _
  simp only [ofLp_toLp]
  rw [hq]
  ring

/-- Covariance root: `Cs Csᵀ`. -/
theorem Cs_mul {p q : ℕ} (scale : ℝ) (hs : 0 ≤ scale) (P : Option (Matrix (Fin p) (Fin p) ℝ))
    (LI : Matrix (Fin q) (Fin p) ℝ) :
    Cs scale P LI * (Cs scale P LI)ᵀ = scale • ((LI * P.getD 1)ᵀ * (LI * P.getD 1)) := by
  have hsq : √scale * √scale = scale := Real.mul_self_sqrt hs
  cases P with
  | none =>
    simp only [Cs, Option.getD_none, Matrix.mul_one]
    rw [Matrix.transpose_smul, Matrix.transpose_transpose, Matrix.smul_mul, Matrix.mul_smul, smul_smul, hsq]
  | some P =>
    simp only [Cs, Option.getD_some]
    rw [Matrix.transpose_mul, Matrix.transpose_smul, Matrix.transpose_transpose, Matrix.transpose_transpose,
      Matrix.transpose_mul, Matrix.mul_smul, Matrix.smul_mul, Matrix.smul_mul, Matrix.mul_smul, smul_smul,
      hsq]

/-- **C37.** Draws from `LI` are normal with mean `mu` and covariance `scale` times
`(LI P)ᵀ (LI P)`. -/
theorem sampleLI_law {p q : ℕ} (mu : Option (Fin p → ℝ)) (scale : ℝ) (hs : 0 ≤ scale)
    (P : Option (Matrix (Fin p) (Fin p) ℝ)) (LI : Matrix (Fin q) (Fin p) ℝ) :
    (std q).map (fun z => toLp 2 (sampleLI mu scale P LI z))
      = multivariateGaussian (toLp 2 (mean mu)) (scale • ((LI * P.getD 1)ᵀ * (LI * P.getD 1))) := by
  unfold sampleLI
  rw [affine_law, Cs_mul scale hs]

/-- **C37.** Draws for a subset of the parameters have the sub-vector of the mean and the sub-block of
the covariance. -/
theorem sampleUse_law {p q m : ℕ} (use : Fin m → Fin p) (mu : Option (Fin p → ℝ)) (scale : ℝ)
    (hs : 0 ≤ scale) (P : Option (Matrix (Fin p) (Fin p) ℝ)) (LI : Matrix (Fin q) (Fin p) ℝ) :
    (std q).map (fun z => toLp 2 (sampleUse use mu scale P LI z))
      = multivariateGaussian (toLp 2 fun i => mean mu (use i))
        ((scale • ((LI * P.getD 1)ᵀ * (LI * P.getD 1))).submatrix use use) := by
  unfold sampleUse
  rw [affine_law, ← Cs_mul scale hs P LI]
  rfl

/-- **C37.** A subset draw is the subset of the full draw for the same random numbers. -/
theorem sampleUse_eq {p q m : ℕ} (use : Fin m → Fin p) (mu : Option (Fin p → ℝ)) (scale : ℝ)
    (P : Option (Matrix (Fin p) (Fin p) ℝ)) (LI : Matrix (Fin q) (Fin p) ℝ) (z : Fin q → ℝ) (i : Fin m) :
    sampleUse use mu scale P LI z i = sampleLI mu scale P LI z (use i) := rfl

/-- A factor of a permuted precision matrix: `L Lᵀ = P H Pᵀ`. -/
structure Factor {p : ℕ} (H P L : Matrix (Fin p) (Fin p) ℝ) : Prop where
  perm : Pᵀ * P = 1
  chol : P * H * Pᵀ = L * Lᵀ
  unit : IsUnit L.det

/-- Inverse from the factor. -/
theorem Factor.inv_eq {p : ℕ} {H P L LI : Matrix (Fin p) (Fin p) ℝ} (h : Factor H P L) (hLI : LI * L = 1) :
    (LI * P)ᵀ * (LI * P) = H⁻¹ := by
  have hL : L * LI = 1 := mul_eq_one_comm.1 hLI
  have hPP : P * Pᵀ = 1 := mul_eq_one_comm.1 h.perm
  have hLt : LIᵀ * Lᵀ = 1 := by rw [← Matrix.transpose_mul, hL, Matrix.transpose_one]
  symm
  refine Matrix.inv_eq_left_inv ?_
  have hH : H = Pᵀ * (L * Lᵀ) * P := by
    rw [← h.chol]
    calc H = (Pᵀ * P) * H * (Pᵀ * P) := by rw [h.perm, Matrix.one_mul, Matrix.mul_one]
      _ = _ := by simp only [Matrix.mul_assoc]
  rw [Matrix.transpose_mul]
  calc Pᵀ * LIᵀ * (LI * P) * H = Pᵀ * LIᵀ * LI * (P * H) := by simp only [Matrix.mul_assoc]
    _ = Pᵀ * LIᵀ * LI * (P * Pᵀ * (L * Lᵀ) * P) := by
        conv_lhs => rw [hH]
        simp only [Matrix.mul_assoc]
    _ = Pᵀ * (LIᵀ * ((LI * L) * Lᵀ)) * P := by
        rw [hPP, Matrix.one_mul]
        simp only [Matrix.mul_assoc]
    _ = 1 := by rw [hLI, Matrix.one_mul, hLt, Matrix.mul_one, h.perm]

/-- **C37.** With the inverse factor of the (permuted) precision matrix `H`, draws are normal with
covariance `scale H⁻¹`. -/
theorem sampleLI_posterior {p : ℕ} {H P L LI : Matrix (Fin p) (Fin p) ℝ} (h : Factor H P L)
    (hLI : LI * L = 1) (mu : Option (Fin p → ℝ)) (scale : ℝ) (hs : 0 ≤ scale) :
    (std p).map (fun z => toLp 2 (sampleLI mu scale (some P) LI z))
      = multivariateGaussian (toLp 2 (mean mu)) (scale • H⁻¹) := by
  rw [sampleLI_law mu scale hs, Option.getD_some, h.inv_eq hLI]

/-- **C37.** `LI` already un-pivoted (`P` omitted). -/
theorem sampleLI_unpivoted {p : ℕ} {H P L LI : Matrix (Fin p) (Fin p) ℝ} (h : Factor H P L)
    (hLI : LI * L = 1) (mu : Option (Fin p → ℝ)) (scale : ℝ) (hs : 0 ≤ scale) :
    (std p).map (fun z => toLp 2 (sampleLI mu scale none (LI * P) z))
      = multivariateGaussian (toLp 2 (mean mu)) (scale • H⁻¹) := by
  rw [sampleLI_law mu scale hs, Option.getD_none, Matrix.mul_one, h.inv_eq hLI]

/-- **C37.** Solving with the factor gives the same draws as multiplying with its inverse. -/
theorem sampleL_eq {p : ℕ} (backsolve : Matrix (Fin p) (Fin p) ℝ → (Fin p → ℝ) → Fin p → ℝ)
    (hb : Solves backsolve) {P L LI : Matrix (Fin p) (Fin p) ℝ} (hLI : LI * L = 1)
    (mu : Option (Fin p → ℝ)) (scale : ℝ) (hs : 0 < scale) (z : Fin p → ℝ) :
    sampleL backsolve mu scale P L z = sampleLI mu scale (some P) LI z := by
  have hL : L * LI = 1 := mul_eq_one_comm.1 hLI
  have hLt : LIᵀ * Lᵀ = 1 := by rw [← Matrix.transpose_mul, hL, Matrix.transpose_one]
  have hr : √(1 / scale) ≠ 0 := (Real.sqrt_pos.2 (one_div_pos.2 hs)).ne'
  have hunit : IsUnit (√(1 / scale) • Lᵀ).det := by
    rw [Matrix.det_smul]
    refine IsUnit.mul (IsUnit.pow _ (isUnit_iff_ne_zero.2 hr)) ?_
    exact (Matrix.isUnit_iff_isUnit_det _).1 (IsUnit.of_mul_eq_one_right _ hLt)
  have hy := hb _ z hunit
  set y := backsolve (√(1 / scale) • Lᵀ) z with hydef
  have hmul : √scale * √(1 / scale) = 1 := by
    rw [← Real.sqrt_mul hs.le, mul_one_div_cancel hs.ne', Real.sqrt_one]
  have hyz : y = (√scale • LIᵀ).mulVec z := by
    rw [← hy, Matrix.mulVec_mulVec, Matrix.smul_mul, Matrix.mul_smul, smul_smul, hmul, one_smul, hLt,
      Matrix.one_mulVec]
  unfold sampleL sampleLI Cs
  rw [← hydef, hyz, Matrix.mulVec_mulVec]

/-- **C37.** Draws from the factor itself are normal with covariance `scale H⁻¹`. -/
theorem sampleL_posterior {p : ℕ} (backsolve : Matrix (Fin p) (Fin p) ℝ → (Fin p → ℝ) → Fin p → ℝ)
    (hb : Solves backsolve) {H P L : Matrix (Fin p) (Fin p) ℝ} (h : Factor H P L)
    (mu : Option (Fin p → ℝ)) (scale : ℝ) (hs : 0 < scale) :
    (std p).map (fun z => toLp 2 (sampleL backsolve mu scale P L z))
      = multivariateGaussian (toLp 2 (mean mu)) (scale • H⁻¹) := by
  have hLI : L⁻¹ * L = 1 := Matrix.nonsing_inv_mul _ h.unit
  simp_rw [sampleL_eq backsolve hb hLI mu scale hs]
  exact sampleLI_posterior h hLI mu scale hs.le

/-- **C37.** Mean and covariance of single parameters of a draw. -/
theorem sample_moments {p : ℕ} {H P L LI : Matrix (Fin p) (Fin p) ℝ} (h : Factor H P L)
    (hLI : LI * L = 1) (mu : Option (Fin p → ℝ)) (scale : ℝ) (hs : 0 ≤ scale) (i j : Fin p) :
    let ν := (std p).map (fun z => toLp 2 (sampleLI mu scale (some P) LI z))
    cov[fun x : EuclideanSpace ℝ (Fin p) => x.ofLp i, fun x => x.ofLp j; ν] = scale * H⁻¹ i j ∧
    ∫ x, x ∂ν = toLp 2 (mean mu) := by
  intro ν
  have hν : ν = multivariateGaussian (toLp 2 (mean mu)) (scale • H⁻¹) := sampleLI_posterior h hLI mu scale hs
  have hpsd : (scale • H⁻¹).PosSemidef := by
    rw [← h.inv_eq hLI]
    have h1 := Matrix.posSemidef_conjTranspose_mul_self (LI * P)
    rw [Matrix.conjTranspose_eq_transpose_of_trivial] at h1
    exact h1.smul hs
  rw [hν]
  refine ⟨?_, integral_id_multivariateGaussian⟩
  rw [covariance_eval_multivariateGaussian hpsd]
  rfl

/-- **C37.** Which root is used: an error exactly when no root is given, or only `L` without
permutation or with a subset. -/
theorem way_error {p : ℕ} (P L LI : Option (Matrix (Fin p) (Fin p) ℝ)) (use : Bool) :
    way P L LI use = .error ↔ LI = none ∧ (L = none ∨ P = none ∨ use = true) := by
  cases L <;> cases LI <;> cases P <;> cases use <;> simp [way]

/-- **C37.** `LI` is preferred. -/
theorem way_LI {p : ℕ} (P L : Option (Matrix (Fin p) (Fin p) ℝ)) (LI : Matrix (Fin p) (Fin p) ℝ) :
    way P L (some LI) false = .byLI P LI ∧ way P L (some LI) true = .byLIuse P LI := by
  cases L <;> exact ⟨rfl, rfl⟩

/-! ### Cases -/

/-- Precision `[[1, 2], [2, 8]]` with its two parameters swapped before factoring. -/
def exH : Matrix (Fin 2) (Fin 2) ℝ := !![1, 2; 2, 8]
def exP : Matrix (Fin 2) (Fin 2) ℝ := !![0, 1; 1, 0]
noncomputable def exL : Matrix (Fin 2) (Fin 2) ℝ := !![2 * √2, 0; √2 / 2, √2 / 2]

theorem exFactor : Factor exH exP exL := by
  have h2 : √2 * √2 = 2 := Real.mul_self_sqrt (by norm_num)
  refine ⟨?_, ?_, ?_⟩
  · ext i j
    fin_cases i <;> fin_cases j <;> simp [exP, Matrix.mul_apply, Fin.sum_univ_two]
  · ext i j
    fin_cases i <;> fin_cases j <;>
      simp [exP, exH, exL, Matrix.mul_apply, Fin.sum_univ_two] <;> nlinarith [h2]
  · rw [isUnit_iff_ne_zero]
    unfold exL
    rw [Matrix.det_fin_two_of]
    have : (2 * √2 * (√2 / 2) - 0 * (√2 / 2)) = 2 := by nlinarith [h2]
    rw [this]
    norm_num

noncomputable example := sampleLI_posterior exFactor (Matrix.nonsing_inv_mul _ exFactor.unit) (some ![1, 2]) 3 (by norm_num)

/-- A solver meeting the specification. -/
noncomputable def exSolve : Matrix (Fin 2) (Fin 2) ℝ → (Fin 2 → ℝ) → Fin 2 → ℝ := fun U z => U⁻¹.mulVec z

theorem exSolves : Solves exSolve := fun U z hU => by
  unfold exSolve
  rw [Matrix.mulVec_mulVec, Matrix.mul_nonsing_inv _ hU, Matrix.one_mulVec]

example := sampleL_posterior exSolve exSolves exFactor (some ![1, 2]) 3 (by norm_num)

example := sampleUse_law ![1] (some ![(1 : ℝ), 2]) 3 (by norm_num) none (1 : Matrix (Fin 2) (Fin 2) ℝ)

example := sample_moments exFactor (Matrix.nonsing_inv_mul _ exFactor.unit) none 3 (by norm_num) 0 1

end Verif.Mvn
