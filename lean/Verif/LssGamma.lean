import Verif.LssModel
import Mathlib.Probability.Distributions.Gamma
import Mathlib.Analysis.MellinTransform

/-!
# Moments of the Gamma distribution (mean and mean logarithm) and the second derivatives of `GAMMALS`
(C60)
-/

namespace Verif.Lss
open Verif Filter Topology MeasureTheory Set

/-- Integrals against the Gamma distribution. -/
theorem gamma_integral {a r : ℝ} (ha : 0 < a) (hr : 0 < r) (f : ℝ → ℝ) :
    ∫ y, f y ∂(ProbabilityTheory.gammaMeasure a r) =
      r ^ a / Real.Gamma a * ∫ y in Ioi 0, y ^ (a - 1) * Real.exp (-(r * y)) * f y := by
  unfold ProbabilityTheory.gammaMeasure
  have hm : Measurable (ProbabilityTheory.gammaPDF a r) :=
    (ProbabilityTheory.measurable_gammaPDFReal a r).ennreal_ofReal
  rw [integral_withDensity_eq_integral_toReal_smul hm
    (Eventually.of_forall fun x => by simp [ProbabilityTheory.gammaPDF])]
  rw [← integral_const_mul, ← integral_Ici_eq_integral_Ioi,
    ← setIntegral_eq_integral_of_forall_compl_eq_zero (s := Ici 0)]
  · refine setIntegral_congr_fun measurableSet_Ici fun y hy => ?_
    have hy' : (0 : ℝ) ≤ y := hy
    simp only [ProbabilityTheory.gammaPDF, smul_eq_mul]
    rw [ENNReal.toReal_ofReal (ProbabilityTheory.gammaPDFReal_nonneg ha hr y)]
    simp only [ProbabilityTheory.gammaPDFReal, if_pos hy']
    ring
  · intro y hy
    have hy' : ¬ (0 : ℝ) ≤ y := hy
    simp [ProbabilityTheory.gammaPDF, ProbabilityTheory.gammaPDFReal, hy']

theorem gamma_integrable {a r : ℝ} (ha : 0 < a) (hr : 0 < r) (f : ℝ → ℝ)
    (hf : IntegrableOn (fun y => y ^ (a - 1) * Real.exp (-(r * y)) * f y) (Ioi 0)) :
    Integrable f (ProbabilityTheory.gammaMeasure a r) := by
  unfold ProbabilityTheory.gammaMeasure
  have hm : Measurable (ProbabilityTheory.gammaPDF a r) :=
    (ProbabilityTheory.measurable_gammaPDFReal a r).ennreal_ofReal
  rw [integrable_withDensity_iff_integrable_smul' hm
    (Eventually.of_forall fun x => by simp [ProbabilityTheory.gammaPDF])]
  have h1 : IntegrableOn (fun y => r ^ a / Real.Gamma a *
      (y ^ (a - 1) * Real.exp (-(r * y)) * f y)) (Ici 0) :=
    ((integrableOn_Ici_iff_integrableOn_Ioi enorm_ne_top).2 hf).const_mul _
  rw [← integrable_indicator_iff measurableSet_Ici] at h1
  refine h1.congr (Eventually.of_forall fun y => ?_)
  by_cases hy : (0 : ℝ) ≤ y
  · rw [indicator_of_mem (show y ∈ Ici (0 : ℝ) from hy)]
    simp only [ProbabilityTheory.gammaPDF, smul_eq_mul]
    rw [ENNReal.toReal_ofReal (ProbabilityTheory.gammaPDFReal_nonneg ha hr y)]
    simp only [ProbabilityTheory.gammaPDFReal, if_pos hy]
    ring
  · rw [indicator_of_notMem (show y ∉ Ici (0 : ℝ) from hy)]
    simp [ProbabilityTheory.gammaPDF, ProbabilityTheory.gammaPDFReal, hy]

theorem exp_bigO_top {r : ℝ} (hr : 0 < r) (c : ℝ) :
    (fun t : ℝ => ((Real.exp (-(r * t)) : ℝ) : ℂ)) =O[atTop] (fun t : ℝ => t ^ (-c)) := by
  rw [← Asymptotics.isBigO_norm_left]
  simp_rw [Complex.norm_real, Asymptotics.isBigO_norm_left]
  simpa only [neg_mul] using (isLittleO_exp_neg_mul_rpow_atTop hr (-c)).isBigO

theorem exp_bigO_bot (r : ℝ) :
    (fun t : ℝ => ((Real.exp (-(r * t)) : ℝ) : ℂ)) =O[𝓝[>] 0] (fun t : ℝ => t ^ (-(0 : ℝ))) := by
  simp_rw [neg_zero, Real.rpow_zero]
  refine Asymptotics.isBigO_const_of_tendsto (?_ : Tendsto _ _ (𝓝 (1 : ℂ))) one_ne_zero
  have hc : Continuous fun t : ℝ => ((Real.exp (-(r * t)) : ℝ) : ℂ) := by fun_prop
  have := hc.tendsto 0
  simp only [mul_zero, neg_zero, Real.exp_zero, Complex.ofReal_one] at this
  exact this.mono_left nhdsWithin_le_nhds

theorem exp_locInt (r : ℝ) :
    LocallyIntegrableOn (fun t : ℝ => ((Real.exp (-(r * t)) : ℝ) : ℂ)) (Ioi 0) := by
  refine (Continuous.continuousOn ?_).locallyIntegrableOn measurableSet_Ioi
  fun_prop

/-- Mellin transform of `exp (-r t)`. -/
theorem mellin_exp {r : ℝ} (hr : 0 < r) {s : ℂ} (hs : 0 < s.re) :
    mellin (fun t : ℝ => ((Real.exp (-(r * t)) : ℝ) : ℂ)) s = (1 / (r : ℂ)) ^ s * Complex.Gamma s := by
  rw [← Complex.integral_cpow_mul_exp_neg_mul_Ioi hs hr]
  unfold mellin
  refine setIntegral_congr_fun measurableSet_Ioi fun t _ => ?_
  simp

theorem mellin_log {r a : ℝ} (hr : 0 < r) (ha : 0 < a) :
    mellin (fun t : ℝ => Real.log t • ((Real.exp (-(r * t)) : ℝ) : ℂ)) a =
      (1 / (r : ℂ)) ^ (a : ℂ) * (deriv Complex.Gamma a - Real.log r * Complex.Gamma a) := by
  have h := (mellin_hasDerivAt_of_isBigO_rpow (a := a + 1) (b := 0) (s := (a : ℂ)) (exp_locInt r)
    (exp_bigO_top hr _) (by simp) (exp_bigO_bot r) (by simpa using ha)).2
  have hr0 : (1 / (r : ℂ)) ≠ 0 := one_div_ne_zero (by exact_mod_cast hr.ne')
  have hG : HasDerivAt Complex.Gamma (deriv Complex.Gamma a) (a : ℂ) := by
    refine (Complex.differentiableAt_Gamma a fun m hm => ?_).hasDerivAt
    have h : (a : ℂ).re = -(m : ℝ) := by rw [hm]; simp
    rw [Complex.ofReal_re] at h
    have : (0 : ℝ) ≤ m := Nat.cast_nonneg m
    linarith
  have hp : HasDerivAt (fun s : ℂ => (1 / (r : ℂ)) ^ s)
      ((1 / (r : ℂ)) ^ (a : ℂ) * Complex.log (1 / (r : ℂ)) * 1) (a : ℂ) :=
    (hasDerivAt_id (a : ℂ)).const_cpow (Or.inl hr0)
  have h2 := (hp.mul hG).congr_of_eventuallyEq (f₁ := mellin fun t : ℝ =>
    ((Real.exp (-(r * t)) : ℝ) : ℂ)) (by
      have ho : IsOpen {s : ℂ | 0 < s.re} := isOpen_lt continuous_const Complex.continuous_re
      filter_upwards [ho.mem_nhds (show (a : ℂ) ∈ {s : ℂ | 0 < s.re} by simpa using ha)] with s hs
      exact mellin_exp hr hs)
  rw [h.unique h2]
  have hl : Complex.log (1 / (r : ℂ)) = -(Real.log r : ℂ) := by
    rw [show (1 / (r : ℂ)) = ((1 / r : ℝ) : ℂ) by push_cast; ring, ← Complex.ofReal_log (by positivity),
      one_div, Real.log_inv]
    push_cast; ring
  rw [hl]
  ring

/-- Mean of the Gamma distribution. -/
theorem gamma_mean {a r : ℝ} (ha : 0 < a) (hr : 0 < r) :
    Integrable (fun y : ℝ => y) (ProbabilityTheory.gammaMeasure a r) ∧
    ∫ y, y ∂(ProbabilityTheory.gammaMeasure a r) = a / r := by
  have e : ∀ y ∈ Ioi (0 : ℝ), y ^ (a - 1) * Real.exp (-(r * y)) * y =
      y ^ (a + 1 - 1) * Real.exp (-(r * y)) := by
    intro y hy
    have hy' : (0 : ℝ) < y := hy
    rw [show a + 1 - 1 = (a - 1) + 1 by ring, Real.rpow_add hy', Real.rpow_one]
    ring
  constructor
  · refine gamma_integrable ha hr _ ?_
    refine IntegrableOn.congr_fun (f := fun y => y ^ (a + 1 - 1) * Real.exp (-(r * y))) ?_
      (fun y hy => (e y hy).symm) measurableSet_Ioi
    have := integrableOn_rpow_mul_exp_neg_mul_rpow (s := a + 1 - 1) (p := 1) (b := r)
      (by linarith) one_pos hr
    simpa using this
  · rw [gamma_integral ha hr, setIntegral_congr_fun measurableSet_Ioi e,
      Real.integral_rpow_mul_exp_neg_mul_Ioi (by linarith) hr, Real.Gamma_add_one ha.ne',
      Real.rpow_add (by positivity), Real.rpow_one, Real.div_rpow zero_le_one hr.le, Real.one_rpow]
    have := (Real.Gamma_pos_of_pos ha).ne'
    have := (Real.rpow_pos_of_pos hr a).ne'
    field_simp

/-- Mean logarithm of the Gamma distribution. -/
theorem gamma_mean_log {a r : ℝ} (ha : 0 < a) (hr : 0 < r) :
    Integrable (fun y : ℝ => Real.log y) (ProbabilityTheory.gammaMeasure a r) ∧
    ∫ y, Real.log y ∂(ProbabilityTheory.gammaMeasure a r) = digamma a - Real.log r := by
  have e : ∀ y ∈ Ioi (0 : ℝ), (y : ℂ) ^ ((a : ℂ) - 1) • (Real.log y • ((Real.exp (-(r * y)) : ℝ) : ℂ))
      = ((y ^ (a - 1) * Real.exp (-(r * y)) * Real.log y : ℝ) : ℂ) := by
    intro y hy
    have hy' : (0 : ℝ) < y := hy
    rw [show (a : ℂ) - 1 = ((a - 1 : ℝ) : ℂ) by push_cast; ring, ← Complex.ofReal_cpow hy'.le]
    simp only [smul_eq_mul, Complex.real_smul]
    push_cast
    ring
  constructor
  · refine gamma_integrable ha hr _ ?_
    have h := (mellin_hasDerivAt_of_isBigO_rpow (a := a + 1) (b := 0) (s := (a : ℂ)) (exp_locInt r)
      (exp_bigO_top hr _) (by simp) (exp_bigO_bot r) (by simpa using ha)).1
    have h' := (IntegrableOn.congr_fun h e measurableSet_Ioi).re
    exact h'.congr (Eventually.of_forall fun y => by simp only [RCLike.re_to_complex, Complex.ofReal_re])
  · rw [gamma_integral ha hr]
    have h := mellin_log hr ha
    unfold mellin at h
    rw [setIntegral_congr_fun measurableSet_Ioi e] at h
    have h' := congrArg Complex.re (integral_ofReal (𝕜 := ℂ) (μ := volume.restrict (Ioi 0))
      (f := fun y : ℝ => y ^ (a - 1) * Real.exp (-(r * y)) * Real.log y))
    have h' := (congrArg Complex.re h).symm.trans h'
    have e2 : ((1 / (r : ℂ)) ^ (a : ℂ) * (deriv Complex.Gamma a - Real.log r * Complex.Gamma a)).re
        = (1 / r) ^ a * ((deriv Complex.Gamma a).re - Real.log r * Real.Gamma a) := by
      rw [show (1 / (r : ℂ)) = ((1 / r : ℝ) : ℂ) by push_cast; ring,
        ← Complex.ofReal_cpow (by positivity), Complex.re_ofReal_mul, Complex.sub_re,
        Complex.re_ofReal_mul, Complex.Gamma_ofReal, Complex.ofReal_re]
    rw [e2] at h'
    have h'' : ∫ y in Ioi 0, y ^ (a - 1) * Real.exp (-(r * y)) * Real.log y =
        (1 / r) ^ a * ((deriv Complex.Gamma a).re - Real.log r * Real.Gamma a) := by
      rw [h']; rfl
    rw [h'', digamma_eq ha, Real.div_rpow zero_le_one hr.le, Real.one_rpow]
    have := (Real.Gamma_pos_of_pos ha).ne'
    have := (Real.rpow_pos_of_pos hr a).ne'
    field_simp

/-- **C60.** Gamma family: each reported second derivative is the expectation under the model of the
true one. -/
theorem gam_second {mu s : ℝ} (hs : 0 < s) (hm : 0 < mu) :
    ∃ tmu tscale tmix : ℝ → ℝ,
      (∀ y, HasDerivAt (fun m => gamD1mu y m s) (tmu y) mu) ∧
      (∀ y, HasDerivAt (fun t => gamD1scale y mu t) (tscale y) s) ∧
      (∀ y, HasDerivAt (fun t => gamD1mu y mu t) (tmix y) s) ∧
      ∀ y,
      (∫ z, tmu z ∂(ProbabilityTheory.gammaMeasure (1 / s) (1 / s / mu)) = gamD2mu y mu s) ∧
      (∫ z, tscale z ∂(ProbabilityTheory.gammaMeasure (1 / s) (1 / s / mu)) = gamD2scale y mu s) ∧
      (∫ z, tmix z ∂(ProbabilityTheory.gammaMeasure (1 / s) (1 / s / mu)) = gamD2m y mu s) := by
  have ha : (0 : ℝ) < 1 / s := by positivity
  have hr : (0 : ℝ) < 1 / s / mu := by positivity
  have hP := ProbabilityTheory.isProbabilityMeasure_gammaMeasure ha hr
  obtain ⟨i1, m1⟩ := gamma_mean ha hr
  obtain ⟨i2, m2⟩ := gamma_mean_log ha hr
  have m1' : ∫ y, y ∂(ProbabilityTheory.gammaMeasure (1 / s) (1 / s / mu)) = mu := by
    rw [m1]; field_simp
  refine ⟨fun y => 1 / (s * mu ^ 2) - 2 / (s * mu ^ 3) * y,
    fun y => (-2 / (s ^ 3)) * (1 / mu * y - Real.log y + (Real.log mu + Real.log s - 1
      + digamma (1 / s))) + (1 / s ^ 3 - 1 / s ^ 4 * trigamma (1 / s)),
    fun y => -1 / (s ^ 2 * mu ^ 2) * (y - mu), fun y => ?_, fun y => ?_, fun y => ?_,
    fun y => ⟨?_, ?_, ?_⟩⟩
  · have h := ((hasDerivAt_id mu).const_sub y).div ((hasDerivAt_pow 2 mu).const_mul s)
      (by positivity)
    refine h.congr_deriv ?_
    simp only [id]
    field_simp
    norm_num
    ring
  · have hd : HasDerivAt (fun t : ℝ => 1 / t) (-1 / s ^ 2) s := by
      refine ((hasDerivAt_const s (1 : ℝ)).div (hasDerivAt_id s) hs.ne').congr_deriv ?_
      simp
    have hdg := (digamma_hasDeriv ha).comp s hd
    have h1 := (((Real.hasDerivAt_log hs.ne').const_add (y / mu - Real.log y + Real.log mu)).sub_const
      1).add hdg
    have h2 : HasDerivAt (fun t : ℝ => 1 / t ^ 2) (-2 / s ^ 3) s := by
      refine ((hasDerivAt_const s (1 : ℝ)).div (hasDerivAt_pow 2 s) (by positivity)).congr_deriv ?_
      field_simp
      norm_num
      ring
    refine (h2.mul h1).congr_deriv ?_
    simp only [Function.comp, Pi.add_apply]
    field_simp
    ring
  · have hd : HasDerivAt (fun t : ℝ => t * mu ^ 2) (mu ^ 2) s := by
      simpa using (hasDerivAt_id s).mul_const (mu ^ 2)
    refine ((hasDerivAt_const s (y - mu)).div hd (by positivity)).congr_deriv ?_
    field_simp
    ring
  · rw [integral_sub (integrable_const _) (i1.const_mul _), integral_const_mul, m1']
    simp only [integral_const, probReal_univ, smul_eq_mul, one_mul, gamD2mu]
    field_simp
    ring
  · have i3 : Integrable (fun y : ℝ => 1 / mu * y - Real.log y + (Real.log mu + Real.log s - 1
        + digamma (1 / s))) (ProbabilityTheory.gammaMeasure (1 / s) (1 / s / mu)) :=
      ((i1.const_mul _).sub i2).add (integrable_const _)
    have i4 : Integrable (fun y : ℝ => 1 / mu * y - Real.log y)
        (ProbabilityTheory.gammaMeasure (1 / s) (1 / s / mu)) := (i1.const_mul _).sub i2
    rw [integral_add (i3.const_mul _) (integrable_const _), integral_const_mul,
      integral_add i4 (integrable_const _),
      integral_sub (i1.const_mul _) i2, integral_const_mul, m1', m2]
    simp only [integral_const, probReal_univ, smul_eq_mul, one_mul, gamD2scale]
    rw [Real.log_div ha.ne' hm.ne', Real.log_div one_ne_zero hs.ne', Real.log_one]
    field_simp
    ring
  · rw [integral_const_mul, integral_sub i1 (integrable_const _), m1']
    simp only [integral_const, probReal_univ, smul_eq_mul, one_mul, gamD2m, sub_self, mul_zero]

example : (0 : ℝ) < 2 ∧ (0 : ℝ) < 3 ∧ gamD2mu 1 3 2 = -1 / 18 := by
  norm_num [gamD2mu]

end Verif.Lss
