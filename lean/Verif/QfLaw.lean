import Verif.WaldLemmas
import Mathlib.Analysis.SpecialFunctions.Gaussian.FourierTransform
import Mathlib.Analysis.SpecialFunctions.Trigonometric.Arctan
import Mathlib.Probability.Distributions.Gaussian.Real
import Mathlib.Probability.Moments.Basic
import Mathlib.MeasureTheory.Integral.Pi

/-!
# Characteristic function and moment generating function of a weighted sum of squared normals (for C115)
-/

namespace Verif.Qf

open Real MeasureTheory ProbabilityTheory

/-- `1 - i x` in polar form. -/
theorem polar (x : ℝ) : (1 : ℂ) - x * Complex.I = Complex.exp ((1 / 2 * log (1 + x ^ 2) : ℝ) - (arctan x : ℝ) * Complex.I) := by
  have hp : (0 : ℝ) < 1 + x ^ 2 := by positivity
  have hs : exp (1 / 2 * log (1 + x ^ 2)) = √(1 + x ^ 2) := by
    rw [Real.sqrt_eq_rpow, Real.rpow_def_of_pos hp, mul_comm]
  rw [show ((1 / 2 * log (1 + x ^ 2) : ℝ) : ℂ) - (arctan x : ℝ) * Complex.I
      = ((1 / 2 * log (1 + x ^ 2) : ℝ) : ℂ) + ((-arctan x : ℝ) : ℂ) * Complex.I by push_cast; ring, Complex.exp_add,
    Complex.exp_mul_I, ← Complex.ofReal_exp, ← Complex.ofReal_cos, ← Complex.ofReal_sin, hs, cos_neg, sin_neg, cos_arctan, sin_arctan]
  have h0 : √(1 + x ^ 2) ≠ 0 := (Real.sqrt_pos.2 hp).ne'
  push_cast
  have hc : ((√(1 + x ^ 2) : ℝ) : ℂ) ≠ 0 := by exact_mod_cast h0
  field_simp
  ring

/-- The Gaussian integral behind both transforms. -/
theorem gauss_sq (s : ℂ) (hs : (2 * s).re < 1) :
    ∫ z, Complex.exp (s * z ^ 2) ∂(gaussianReal 0 1) = Complex.exp (-(1 / 2) * Complex.log (1 - 2 * s)) := by
  rw [integral_gaussianReal_eq_integral_smul one_ne_zero]
  have hb : 0 < (1 / 2 - s : ℂ).re := by
    simp only [Complex.sub_re, Complex.mul_re, Complex.re_ofNat, Complex.im_ofNat, zero_mul, sub_zero] at hs ⊢
    norm_num
    linarith
  have he : ∀ z : ℝ, gaussianPDFReal 0 1 z • Complex.exp (s * z ^ 2) = ((√(2 * π))⁻¹ : ℝ) * Complex.exp (-(1 / 2 - s) * z ^ 2) := by
    intro z
    unfold gaussianPDFReal
    rw [Complex.real_smul]
    push_cast
    rw [mul_assoc, ← Complex.exp_add]
    congr 2
    · simp
    · simp; ring
  simp_rw [he]
  rw [integral_const_mul, integral_gaussian_complex hb]
  have hd : (1 : ℂ) - 2 * s ≠ 0 := by
    intro h
    have := congrArg Complex.re h
    simp only [Complex.sub_re, Complex.one_re, Complex.zero_re] at this
    linarith
  have hre : 0 < (1 - 2 * s : ℂ).re := by simp only [Complex.sub_re, Complex.one_re]; linarith
  have hq : (π : ℂ) / (1 / 2 - s) = ((2 * π : ℝ) : ℂ) * (1 - 2 * s)⁻¹ := by
    have : (1 / 2 - s : ℂ) ≠ 0 := by
      intro h
      apply hd
      linear_combination 2 * h
    field_simp
    push_cast
    ring
  have hpos : (0 : ℝ) < 2 * π := by positivity
  have hinv : (1 - 2 * s : ℂ)⁻¹ ≠ 0 := inv_ne_zero hd
  have harg : (1 - 2 * s : ℂ).arg ≠ π := by
    have := Complex.abs_arg_lt_pi_div_two_iff.2 (Or.inl hre)
    intro h
    rw [h, abs_of_pos pi_pos] at this
    linarith [pi_pos]
  rw [hq, Complex.cpow_def_of_ne_zero (mul_ne_zero (by exact_mod_cast hpos.ne') hinv), Complex.log_ofReal_mul hpos hinv, Complex.log_inv _ harg]
  have hsq : ((√(2 * π))⁻¹ : ℝ) = exp (-(1 / 2 * log (2 * π))) := by
    rw [Real.exp_neg, Real.sqrt_eq_rpow, Real.rpow_def_of_pos hpos, mul_comm]
  rw [hsq, Complex.ofReal_exp, ← Complex.exp_add]
  congr 1
  push_cast
  ring

/-- Characteristic function of `a z²`. -/
theorem gauss_char (a t : ℝ) :
    ∫ z, Complex.exp (t * (a * z ^ 2 : ℝ) * Complex.I) ∂(gaussianReal 0 1)
      = Complex.exp ((-(1 / 4) * log (1 + (2 * a * t) ^ 2) : ℝ) + (1 / 2 * arctan (2 * a * t) : ℝ) * Complex.I) := by
  have h := gauss_sq (t * a * Complex.I) (by simp)
  have e : ∀ z : ℝ, Complex.exp (t * (a * z ^ 2 : ℝ) * Complex.I) = Complex.exp (t * a * Complex.I * z ^ 2) := by
    intro z; congr 1; push_cast; ring
  simp_rw [e]
  rw [h]
  have hp := polar (2 * a * t)
  rw [show (1 : ℂ) - 2 * (t * a * Complex.I) = 1 - (2 * a * t : ℝ) * Complex.I by push_cast; ring, hp, Complex.log_exp]
  · congr 1
    push_cast
    ring
  · simp
    have := arctan_lt_pi_div_two (2 * a * t)
    linarith [pi_pos]
  · simp
    have := neg_pi_div_two_lt_arctan (2 * a * t)
    linarith [pi_pos]

/-- Moment generating function of `a z²`. -/
theorem gauss_mgf {a u : ℝ} (h : 2 * u * a < 1) :
    Integrable (fun z : ℝ => exp (u * (a * z ^ 2))) (gaussianReal 0 1) ∧
      ∫ z, exp (u * (a * z ^ 2)) ∂(gaussianReal 0 1) = exp (-(1 / 2) * log (1 - 2 * u * a)) := by
  have hi : ∫ z, exp (u * (a * z ^ 2)) ∂(gaussianReal 0 1) = exp (-(1 / 2) * log (1 - 2 * u * a)) := by
    have h1 := gauss_sq ((u * a : ℝ) : ℂ) (by
      rw [show (2 * ((u * a : ℝ) : ℂ)) = ((2 * (u * a) : ℝ) : ℂ) by push_cast; ring, Complex.ofReal_re]
      linarith)
    have e : ∀ z : ℝ, Complex.exp (((u * a : ℝ) : ℂ) * z ^ 2) = ((exp (u * (a * z ^ 2)) : ℝ) : ℂ) := by
      intro z; rw [Complex.ofReal_exp]; congr 1; push_cast; ring
    simp_rw [e] at h1
    rw [integral_complex_ofReal] at h1
    have e2 : (1 : ℂ) - 2 * ((u * a : ℝ) : ℂ) = ((1 - 2 * u * a : ℝ) : ℂ) := by push_cast; ring
    rw [e2, ← Complex.ofReal_log (by linarith), show -(1 / 2 : ℂ) * ((log (1 - 2 * u * a) : ℝ) : ℂ)
      = ((-(1 / 2) * log (1 - 2 * u * a) : ℝ) : ℂ) by push_cast; ring, ← Complex.ofReal_exp] at h1
    exact_mod_cast h1
  refine ⟨?_, hi⟩
  by_contra hn
  rw [integral_undef hn] at hi
  exact (exp_pos _).ne hi

open scoped MeasureTheory

theorem chi_charFun (e : List ℝ) (t : ℝ) :
    charFun (Wald.chi e) t = Complex.exp (((e.map fun a => -(1 / 4) * log (1 + (2 * a * t) ^ 2)).sum : ℝ)
      + ((e.map fun a => 1 / 2 * arctan (2 * a * t)).sum : ℝ) * Complex.I) := by
  rw [charFun_apply_real]
  unfold Wald.chi Mvn.std
  rw [integral_map (Wald.sumsq_measurable _).aemeasurable (by fun_prop)]
  have e1 : ∀ x : Fin e.length → ℝ, Complex.exp (t * ((∑ j, e.get j * x j ^ 2 : ℝ) : ℂ) * Complex.I)
      = ∏ j, (fun (j : Fin e.length) (z : ℝ) => Complex.exp (t * (e.get j * z ^ 2 : ℝ) * Complex.I)) j (x j) := by
    intro x
    rw [← Complex.exp_sum]
    congr 1
    push_cast
    rw [Finset.mul_sum, Finset.sum_mul]
  simp_rw [e1]
  rw [integral_fintype_prod_eq_prod (E := fun _ => ℝ) (μ := fun _ => gaussianReal 0 1)
    (fun (j : Fin e.length) (z : ℝ) => Complex.exp (t * (e.get j * z ^ 2 : ℝ) * Complex.I))]
  simp_rw [gauss_char]
  rw [← Complex.exp_sum]
  congr 1
  rw [Finset.sum_add_distrib, ← Finset.sum_mul, ← Complex.ofReal_sum, ← Complex.ofReal_sum,
    ← Fin.sum_univ_fun_getElem, ← Fin.sum_univ_fun_getElem]
  rfl

theorem chi_mgf (e : List ℝ) {u : ℝ} (h : ∀ a ∈ e, 2 * u * a < 1) :
    Integrable (fun x => exp (u * x)) (Wald.chi e) ∧
      ∫ x, exp (u * x) ∂(Wald.chi e) = exp ((e.map fun a => -(1 / 2) * log (1 - 2 * u * a)).sum) := by
  have hm : ∀ j : Fin e.length, e.get j ∈ e := fun j => List.get_mem _ _
  have e1 : ∀ x : Fin e.length → ℝ, exp (u * ∑ j, e.get j * x j ^ 2)
      = ∏ j, (fun (j : Fin e.length) (z : ℝ) => exp (u * (e.get j * z ^ 2))) j (x j) := by
    intro x
    rw [← Real.exp_sum, Finset.mul_sum]
  have hint : ∫ x, exp (u * x) ∂(Wald.chi e) = exp ((e.map fun a => -(1 / 2) * log (1 - 2 * u * a)).sum) := by
    unfold Wald.chi Mvn.std
    rw [integral_map (Wald.sumsq_measurable _).aemeasurable (by fun_prop)]
    simp_rw [e1]
    rw [integral_fintype_prod_eq_prod (E := fun _ => ℝ) (μ := fun _ => gaussianReal 0 1)
      (fun (j : Fin e.length) (z : ℝ) => exp (u * (e.get j * z ^ 2))), Finset.prod_congr rfl fun j _ => (gauss_mgf (h _ (hm j))).2, ← Real.exp_sum,
      ← Fin.sum_univ_fun_getElem]
    rfl
  refine ⟨?_, hint⟩
  by_contra hn
  rw [integral_undef hn] at hint
  exact (exp_pos _).ne hint

/-- Law of the weighted sum of squares plus an independent normal with variance `v`. -/
noncomputable def sumLaw (e : List ℝ) (v : NNReal) : Measure ℝ := Wald.chi e ∗ gaussianReal 0 v

instance (e : List ℝ) (v : NNReal) : IsProbabilityMeasure (sumLaw e v) := by unfold sumLaw; infer_instance

theorem sumLaw_zero (e : List ℝ) : sumLaw e 0 = Wald.chi e := by
  unfold sumLaw
  rw [gaussianReal_zero_var, Measure.conv_dirac_zero]

theorem sumLaw_charFun (e : List ℝ) (v : NNReal) (t : ℝ) :
    charFun (sumLaw e v) t
      = Complex.exp ((-(1 / 2) * v * t ^ 2 + (e.map fun a => -(1 / 4) * log (1 + (2 * a * t) ^ 2)).sum : ℝ)
        + ((e.map fun a => 1 / 2 * arctan (2 * a * t)).sum : ℝ) * Complex.I) := by
  unfold sumLaw
  rw [charFun_conv, chi_charFun, charFun_gaussianReal, ← Complex.exp_add]
  congr 1
  push_cast
  ring

theorem sumLaw_mgf (e : List ℝ) (v : NNReal) {u : ℝ} (h : ∀ a ∈ e, 2 * u * a < 1) :
    Integrable (fun x => exp (u * x)) (sumLaw e v) ∧
      ∫ x, exp (u * x) ∂(sumLaw e v) = exp (1 / 2 * v * u ^ 2 + (e.map fun a => -(1 / 2) * log (1 - 2 * u * a)).sum) := by
  obtain ⟨i1, m1⟩ := chi_mgf e h
  have i2 : Integrable (fun x => exp (u * x)) (gaussianReal 0 v) := integrable_exp_mul_gaussianReal u
  have m2 : ∫ x, exp (u * x) ∂(gaussianReal 0 v) = exp (v * u ^ 2 / 2) := by
    have := congrFun (mgf_id_gaussianReal (μ := 0) (v := v)) u
    simpa [mgf] using this
  have hprod : Integrable (fun p : ℝ × ℝ => exp (u * (p.1 + p.2))) ((Wald.chi e).prod (gaussianReal 0 v)) := by
    have := i1.mul_prod i2
    refine this.congr (Filter.Eventually.of_forall fun p => ?_)
    dsimp only
    rw [mul_add, exp_add]
  have hmap : Integrable (fun x => exp (u * x)) (sumLaw e v) := by
    unfold sumLaw Measure.conv
    rw [integrable_map_measure (by fun_prop) (by fun_prop)]
    exact hprod
  refine ⟨hmap, ?_⟩
  unfold sumLaw at hmap ⊢
  rw [integral_conv hmap]
  simp_rw [mul_add, exp_add, integral_const_mul, integral_mul_const]
  rw [m1, m2, ← exp_add, ← exp_add]
  congr 1
  ring

/-- A convolution has no atoms if one factor has none. -/
theorem conv_null {μ ν : Measure ℝ} [IsProbabilityMeasure μ] [IsProbabilityMeasure ν] (h : ∀ c, ν {c} = 0) (c : ℝ) : (μ ∗ ν) {c} = 0 := by
  unfold Measure.conv
  rw [Measure.map_apply (by fun_prop) (measurableSet_singleton c), Measure.prod_apply ((measurableSet_singleton c).preimage (by fun_prop))]
  refine lintegral_eq_zero_of_ae_eq_zero (Filter.Eventually.of_forall fun x => ?_)
  dsimp only
  have : Prod.mk x ⁻¹' ((fun p : ℝ × ℝ => p.1 + p.2) ⁻¹' {c}) = {c - x} := by
    ext y
    simp only [Set.mem_preimage, Set.mem_singleton_iff]
    constructor <;> intro h <;> linarith
  rw [this]
  exact h _

/-- The law of one weighted square. -/
theorem sq_null {a : ℝ} (ha : a ≠ 0) (c : ℝ) : Wald.chi [a] {c} = 0 := by
  have hm : Measurable fun z : ℝ => a * z ^ 2 := by fun_prop
  have e : Wald.chi [a] = (gaussianReal 0 1).map fun z => a * z ^ 2 := by
    refine Measure.ext_of_charFun ?_
    funext t
    rw [chi_charFun, charFun_apply_real, integral_map hm.aemeasurable (by fun_prop), gauss_char]
    simp
  rw [e, Measure.map_apply hm (measurableSet_singleton c)]
  have hsub : (fun z : ℝ => a * z ^ 2) ⁻¹' {c} ⊆ {√(c / a), -√(c / a)} := by
    intro z hz
    simp only [Set.mem_preimage, Set.mem_singleton_iff] at hz
    have hz2 : z ^ 2 = c / a := by rw [← hz]; field_simp
    have : |z| = √(c / a) := by rw [← hz2, Real.sqrt_sq_eq_abs]
    rcases abs_choice z with h | h
    · left; rw [← this, h]
    · right; simp only [Set.mem_singleton_iff]; rw [← this, h, neg_neg]
  haveI := nullSingletonClass_gaussianReal (μ := 0) (v := 1) one_ne_zero
  exact measure_mono_null hsub ((Set.toFinite _).measure_zero _)

theorem chi_split (a : ℝ) (l1 l2 : List ℝ) : Wald.chi (l1 ++ a :: l2) = Wald.chi (l1 ++ l2) ∗ Wald.chi [a] := by
  refine Measure.ext_of_charFun ?_
  funext t
  rw [charFun_conv, chi_charFun, chi_charFun, chi_charFun, ← Complex.exp_add]
  congr 1
  simp only [List.map_append, List.map_cons, List.sum_append, List.sum_cons, List.map_nil, List.sum_nil]
  push_cast
  ring

/-- The law has no atoms unless it is degenerate. -/
theorem sumLaw_null {e : List ℝ} {v : NNReal} (h : v ≠ 0 ∨ ∃ a ∈ e, a ≠ 0) (c : ℝ) : sumLaw e v {c} = 0 := by
  unfold sumLaw
  rcases h with h | ⟨a, ha, h⟩
  · haveI := nullSingletonClass_gaussianReal (μ := 0) h
    exact conv_null (fun c => measure_singleton c) c
  · obtain ⟨l1, l2, rfl⟩ := List.append_of_mem ha
    rw [Measure.conv_comm]
    refine conv_null (fun c => ?_) c
    rw [chi_split]
    exact conv_null (sq_null h) c

end Verif.Qf
