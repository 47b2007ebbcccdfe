import Verif.WaldInt
import Verif.QfLaw
import Mathlib.Probability.Moments.ComplexMGF
import Mathlib.Probability.Distributions.Gamma
import Mathlib.Probability.Distributions.Beta
import Mathlib.MeasureTheory.Function.Jacobian

/-!
# Gamma, chi-square and beta laws (for C117)
-/

namespace Verif.Ftest

open Real MeasureTheory ProbabilityTheory

/-- Two laws with the same moment generating function near zero are equal. -/
theorem mgf_ext {μ ν : Measure ℝ} [IsProbabilityMeasure μ] [IsProbabilityMeasure ν] {ε : ℝ} (hε : 0 < ε)
    (h1 : ∀ u, |u| < ε → Integrable (fun x => exp (u * x)) μ) (h2 : ∀ u, |u| < ε → Integrable (fun x => exp (u * x)) ν)
    (h : ∀ u, |u| < ε → ∫ x, exp (u * x) ∂μ = ∫ x, exp (u * x) ∂ν) : μ = ν := by
  let S : Set ℂ := {z | z.re ∈ Set.Ioo (-ε) ε}
  have hsub : ∀ (ρ : Measure ℝ), (∀ u, |u| < ε → Integrable (fun x => exp (u * x)) ρ) → Set.Ioo (-ε) ε ⊆ interior (integrableExpSet id ρ) := by
    intro ρ hρ
    refine interior_maximal ?_ isOpen_Ioo
    intro u hu
    exact hρ u (abs_lt.2 hu)
  have a1 : AnalyticOnNhd ℂ (complexMGF id μ) S := analyticOnNhd_complexMGF.mono fun z hz => hsub μ h1 hz
  have a2 : AnalyticOnNhd ℂ (complexMGF id ν) S := analyticOnNhd_complexMGF.mono fun z hz => hsub ν h2 hz
  have hpre : IsPreconnected S := ((convex_Ioo (-ε) ε).linear_preimage Complex.reLm).isPreconnected
  have h0 : (0 : ℂ) ∈ S := by
    show (0 : ℂ).re ∈ Set.Ioo (-ε) ε
    simp [hε]
  have hfr : ∃ᶠ z in nhdsWithin (0 : ℂ) {0}ᶜ, complexMGF id μ z = complexMGF id ν z := by
    have hr : ∃ᶠ x : ℝ in nhdsWithin 0 {0}ᶜ, complexMGF id μ x = complexMGF id ν x := by
      refine Filter.Eventually.frequently ?_
      refine Filter.Eventually.filter_mono nhdsWithin_le_nhds ?_
      have : Set.Ioo (-ε) ε ∈ nhds (0 : ℝ) := Ioo_mem_nhds (by linarith) hε
      filter_upwards [this] with x hx
      rw [complexMGF_ofReal, complexMGF_ofReal]
      have := h x (abs_lt.2 hx)
      simp only [mgf, id]
      rw [this]
    rw [Filter.frequently_iff_seq_forall] at hr ⊢
    obtain ⟨xs, hx, he⟩ := hr
    refine ⟨fun n => (xs n : ℂ), ?_, fun n => he n⟩
    rw [tendsto_nhdsWithin_iff] at hx ⊢
    refine ⟨?_, ?_⟩
    · exact (Complex.continuous_ofReal.tendsto' 0 0 Complex.ofReal_zero).comp hx.1
    · filter_upwards [hx.2] with n hn
      simpa using hn
  have hEq := a1.eqOn_of_preconnected_of_frequently_eq a2 hpre h0 hfr
  refine Measure.ext_of_charFun ?_
  funext t
  have ht : ((t : ℂ) * Complex.I) ∈ S := by
    show ((t : ℂ) * Complex.I).re ∈ Set.Ioo (-ε) ε
    simp [hε]
  have := hEq ht
  rw [charFun_apply_real, charFun_apply_real]
  have e : ∀ ρ : Measure ℝ, complexMGF id ρ ((t : ℂ) * Complex.I) = ∫ x, Complex.exp (t * x * Complex.I) ∂ρ := by
    intro ρ
    unfold complexMGF
    refine integral_congr_ae (Filter.Eventually.of_forall fun x => ?_)
    show Complex.exp (t * Complex.I * ((id x : ℝ) : ℂ)) = _
    congr 1
    simp only [id]
    ring
  rw [e, e] at this
  exact this

/-- Integrals under a gamma law. -/
theorem gamma_integral {a r : ℝ} (ha : 0 < a) (hr : 0 < r) (g : ℝ → ℝ) :
    ∫ x, g x ∂(gammaMeasure a r) = ∫ x in Set.Ioi 0, r ^ a / Gamma a * x ^ (a - 1) * exp (-(r * x)) * g x := by
  unfold gammaMeasure
  have hm : Measurable (gammaPDF a r) := (measurable_gammaPDFReal a r).ennreal_ofReal
  rw [integral_withDensity_eq_integral_toReal_smul hm (Filter.Eventually.of_forall fun x => ENNReal.ofReal_lt_top)]
  have e : ∀ x, (gammaPDF a r x).toReal • g x = (Set.Ici (0 : ℝ)).indicator (fun x => r ^ a / Gamma a * x ^ (a - 1) * exp (-(r * x)) * g x) x := by
    intro x
    unfold gammaPDF
    rw [ENNReal.toReal_ofReal (gammaPDFReal_nonneg ha hr x), smul_eq_mul]
    by_cases hx : 0 ≤ x
    · rw [Set.indicator_of_mem (show x ∈ Set.Ici (0 : ℝ) from hx), gammaPDFReal, if_pos hx]
    · rw [Set.indicator_of_notMem (show x ∉ Set.Ici (0 : ℝ) from hx), gammaPDFReal, if_neg hx, zero_mul]
  simp_rw [e]
  rw [integral_indicator measurableSet_Ici, integral_Ici_eq_integral_Ioi]

theorem gamma_mgf {a r : ℝ} (ha : 0 < a) (hr : 0 < r) {u : ℝ} (hu : u < r) :
    Integrable (fun x => exp (u * x)) (gammaMeasure a r) ∧ ∫ x, exp (u * x) ∂(gammaMeasure a r) = (r / (r - u)) ^ a := by
  have hru : 0 < r - u := by linarith
  have key : ∫ x, exp (u * x) ∂(gammaMeasure a r) = (r / (r - u)) ^ a := by
    rw [gamma_integral ha hr]
    have e : ∀ x : ℝ, r ^ a / Gamma a * x ^ (a - 1) * exp (-(r * x)) * exp (u * x) = r ^ a / Gamma a * (x ^ (a - 1) * exp (-((r - u) * x))) := by
      intro x
      rw [mul_assoc, ← exp_add, mul_assoc]
      congr 3
      ring
    simp_rw [e]
    rw [integral_const_mul, integral_rpow_mul_exp_neg_mul_Ioi ha hru, div_rpow hr.le hru.le, div_rpow zero_le_one hru.le, one_rpow]
    have := (Gamma_pos_of_pos ha).ne'
    field_simp
  refine ⟨?_, key⟩
  by_contra hn
  rw [integral_undef hn] at key
  exact (rpow_pos_of_pos (div_pos hr hru) a).ne key

/-- A chi-square law with `n` degrees of freedom is the gamma law with shape `n / 2` and rate one half. -/
theorem chi_gamma {n : ℕ} (hn : 0 < n) : Wald.chi (List.replicate n 1) = gammaMeasure (n / 2) (1 / 2) := by
  have ha : (0 : ℝ) < n / 2 := by positivity
  have := isProbabilityMeasure_gammaMeasure ha (show (0 : ℝ) < 1 / 2 by norm_num)
  have hc : ∀ u : ℝ, |u| < 1 / 2 → ∀ a ∈ List.replicate n (1 : ℝ), 2 * u * a < 1 := by
    intro u hu a haa
    rw [List.eq_of_mem_replicate haa]
    have := (abs_lt.1 hu).2
    linarith
  refine mgf_ext (ε := 1 / 2) (by norm_num) (fun u hu => (Qf.chi_mgf _ (hc u hu)).1)
    (fun u hu => (gamma_mgf ha (by norm_num) (abs_lt.1 hu).2).1) fun u hu => ?_
  have hu2 := (abs_lt.1 hu).2
  rw [(Qf.chi_mgf _ (hc u hu)).2, (gamma_mgf ha (by norm_num) hu2).2]
  have hp : 0 < 1 - 2 * u := by linarith
  have e : (1 / 2 : ℝ) / (1 / 2 - u) = (1 - 2 * u)⁻¹ := by
    have : (1 / 2 - u : ℝ) ≠ 0 := by linarith
    field_simp
  rw [e, rpow_def_of_pos (inv_pos.2 hp), log_inv]
  congr 1
  rw [List.map_replicate, List.sum_replicate, nsmul_eq_mul, mul_one]
  ring

/-- Powers under a gamma law. -/
theorem gamma_moment {a r : ℝ} (ha : 0 < a) (hr : 0 < r) (k : ℕ) :
    ∫ x, x ^ k ∂(gammaMeasure a r) = Gamma (a + k) / Gamma a / r ^ k := by
  rw [gamma_integral ha hr]
  have hak : 0 < a + k := by positivity
  have e : ∀ x ∈ Set.Ioi (0 : ℝ), r ^ a / Gamma a * x ^ (a - 1) * exp (-(r * x)) * x ^ k = r ^ a / Gamma a * (x ^ (a + k - 1) * exp (-(r * x))) := by
    intro x hx
    rw [show a + k - 1 = (a - 1) + k by ring, rpow_add hx, rpow_natCast]
    ring
  rw [setIntegral_congr_fun measurableSet_Ioi e, integral_const_mul, integral_rpow_mul_exp_neg_mul_Ioi hak hr, div_rpow zero_le_one hr.le, one_rpow,
    rpow_add hr, rpow_natCast]
  have := (Gamma_pos_of_pos ha).ne'
  have := (rpow_pos_of_pos hr a).ne'
  field_simp

theorem gamma_mean {a r : ℝ} (ha : 0 < a) (hr : 0 < r) : ∫ x, x ∂(gammaMeasure a r) = a / r := by
  have := gamma_moment ha hr 1
  simp only [pow_one, Nat.cast_one] at this
  rw [this, Gamma_add_one ha.ne']
  have := (Gamma_pos_of_pos ha).ne'
  field_simp

theorem gamma_second {a r : ℝ} (ha : 0 < a) (hr : 0 < r) : ∫ x, x ^ 2 ∂(gammaMeasure a r) = a * (a + 1) / r ^ 2 := by
  rw [gamma_moment ha hr 2]
  push_cast
  rw [show a + 2 = (a + 1) + 1 by ring, Gamma_add_one (by positivity), Gamma_add_one ha.ne']
  have := (Gamma_pos_of_pos ha).ne'
  field_simp

theorem gamma_memLp {a r : ℝ} (ha : 0 < a) (hr : 0 < r) : MemLp id 2 (gammaMeasure a r) := by
  rw [memLp_two_iff_integrable_sq measurable_id.aestronglyMeasurable]
  by_contra hn
  have := gamma_second ha hr
  simp only [id] at hn
  rw [integral_undef hn] at this
  have : 0 < a * (a + 1) / r ^ 2 := by positivity
  linarith

theorem gamma_variance {a r : ℝ} (ha : 0 < a) (hr : 0 < r) : Var[id; gammaMeasure a r] = a / r ^ 2 := by
  have := isProbabilityMeasure_gammaMeasure ha hr
  rw [variance_eq_sub (gamma_memLp ha hr)]
  have e1 : ∫ x, (id ^ 2 : ℝ → ℝ) x ∂(gammaMeasure a r) = a * (a + 1) / r ^ 2 := gamma_second ha hr
  have e2 : ∫ x, id x ∂(gammaMeasure a r) = a / r := gamma_mean ha hr
  rw [e1, e2]
  field_simp
  ring

/-- Fourth moment of a standard normal variable. -/
theorem normal_sq : MemLp (fun x : ℝ => x ^ 2) 2 (gaussianReal 0 1) ∧ Var[fun x : ℝ => x ^ 2; gaussianReal 0 1] = 2 := by
  have hm : Measurable fun x : ℝ => x ^ 2 := by fun_prop
  have hl : (gaussianReal 0 1).map (fun x : ℝ => x ^ 2) = gammaMeasure (1 / 2) (1 / 2) := by
    have := chi_gamma one_pos
    rw [Nat.cast_one] at this
    rw [← this]
    unfold Wald.chi Mvn.std
    have he := (measurePreserving_funUnique (μ := gaussianReal 0 1) (β := ℝ) (Fin 1)).map_eq
    conv_lhs => rw [← he]
    rw [Measure.map_map hm (MeasurableEquiv.measurable _)]
    have ef : ((fun x : ℝ => x ^ 2) ∘ (MeasurableEquiv.funUnique (Fin 1) ℝ)) = fun x : Fin 1 → ℝ => ∑ j, (List.replicate 1 (1 : ℝ)).get j * x j ^ 2 := by
      funext x
      show x 0 ^ 2 = ∑ j : Fin 1, (List.replicate 1 (1 : ℝ)).get j * x j ^ 2
      rw [Fin.sum_univ_one]
      simp
    rw [ef]
    rfl
  have h2 : MemLp (id : ℝ → ℝ) 2 ((gaussianReal 0 1).map (fun x : ℝ => x ^ 2)) := by
    rw [hl]; exact gamma_memLp (by norm_num) (by norm_num)
  refine ⟨?_, ?_⟩
  · have := (memLp_map_measure_iff (measurable_id.aestronglyMeasurable) hm.aemeasurable).1 h2
    exact this
  · have := variance_map (X := id) (Y := fun x : ℝ => x ^ 2) (μ := gaussianReal 0 1) measurable_id.aemeasurable hm.aemeasurable
    rw [hl, gamma_variance (by norm_num) (by norm_num)] at this
    have e : (id ∘ fun x : ℝ => x ^ 2) = fun x : ℝ => x ^ 2 := rfl
    rw [e] at this
    rw [← this]
    norm_num

/-- Variance of a weighted sum of squares. -/
theorem chi_variance (e : List ℝ) : Var[id; Wald.chi e] = (e.map fun a => 2 * a ^ 2).sum := by
  unfold Wald.chi
  rw [variance_map measurable_id.aemeasurable (Wald.sumsq_measurable _).aemeasurable]
  have h := variance_sum_pi (μ := fun _ : Fin e.length => gaussianReal 0 1) (X := fun (j : Fin e.length) (x : ℝ) => e.get j * x ^ 2)
    (fun j => normal_sq.1.const_mul _)
  unfold Mvn.std
  have e1 : (id ∘ fun x : Fin e.length → ℝ => ∑ j, e.get j * x j ^ 2) = ∑ j, fun x : Fin e.length → ℝ => e.get j * x j ^ 2 := by
    funext x
    simp
  rw [e1, h, ← Fin.sum_univ_fun_getElem]
  refine Finset.sum_congr rfl fun j _ => ?_
  rw [variance_const_mul, normal_sq.2]
  show e.get j ^ 2 * 2 = 2 * e[j] ^ 2
  rw [mul_comm]
  rfl

end Verif.Ftest
