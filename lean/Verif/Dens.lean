import Verif.DensLemmas
import Verif.DensMvn
import Verif.Lss

/-!
# Families are probability distributions with the stated mean and variance, and simulation follows them (C118)
-/

namespace Verif.Dens
open Verif Fl MeasureTheory ProbabilityTheory Real Filter Topology
open scoped ENNReal

/-! ### Exponential families -/

/-- **C118.** The exponential of the log density of every exponential family is a probability density (mass function), its mean is
the parameter `mu` and its variance is the scale times the variance function. -/
theorem family_law {fam : Fam.FamKind} {mu s : ℝ} (ho : fam.ok) (hm : mu ∈ fam.dom) (hs : 0 < s) (h2 : fam.twopar = true ∨ s = 1) :
    IsProbabilityMeasure (law fam mu s) ∧ Integrable id (law fam mu s) ∧ ∫ y, y ∂(law fam mu s) = mu ∧ MemLp id 2 (law fam mu s) ∧
      ∃ v, fam.V (fin mu) = fin v ∧ Var[id; law fam mu s] = s * v := by
  have h := family_mom ho hm hs h2
  exact ⟨h.prob, h.int, h.mean, h.memLp, _, Fam.V_eq ho mu, h.var⟩

example : (Fam.FamKind.binomial 4).ok ∧ (1 / 3 : ℝ) ∈ (Fam.FamKind.binomial 4).dom ∧ Fam.FamKind.gamma.twopar = true ∧
    (2 : ℝ) ∈ Fam.FamKind.invGauss.dom :=
  ⟨by show 0 < 4; norm_num, ⟨by norm_num, by norm_num⟩, rfl, by show (0 : ℝ) < 2; norm_num⟩

/-- **C118.** Responses outside the range of the family have probability zero: proportions of counts for the binomial family, counts
for the Poisson family, positive numbers for the Gamma and inverse Gaussian families. -/
theorem family_support {fam : Fam.FamKind} {mu s : ℝ} (ho : fam.ok) (hm : mu ∈ fam.dom) (hs : 0 < s) :
    ∀ᵐ y ∂(law fam mu s), y ∈ fam.obs := by
  cases fam with
  | binomial n =>
    rw [binomial_law ho hm, Measure.ae_sum_iff]
    intro k
    by_cases hk : k ≤ n
    · refine Measure.ae_smul_measure ?_ _
      rw [ae_dirac_eq]
      exact ⟨ho, k, hk, rfl⟩
    · rw [binC, if_neg hk, ENNReal.ofReal_zero, zero_smul]
      simp
  | gaussian => exact Eventually.of_forall fun y => trivial
  | gamma =>
    rw [gamma_law hs hm]
    unfold gammaMeasure
    rw [ae_withDensity_iff (f := gammaPDF (1 / s) (1 / (s * mu))) (measurable_gammaPDFReal _ _).ennreal_ofReal]
    have h0 : ∀ᵐ y ∂(volume : Measure ℝ), y ≠ 0 := by simp [ae_iff]
    filter_upwards [h0] with y hy hd
    by_contra hn
    have hlt : y < 0 := lt_of_le_of_ne (not_lt.1 hn) hy
    refine hd ?_
    simp [gammaPDF, gammaPDFReal, not_le.2 hlt]
  | invGauss =>
    have hme : Measurable fun y => toENN (Fl.exp (Fam.FamKind.invGauss.lp y mu s)) := by
      have e : (fun y => toENN (Fl.exp (Fam.FamKind.invGauss.lp y mu s))) = fun y => ENNReal.ofReal (Fam.invgaussPdf y (mu / (1 / s)) (1 / s)) := by
        funext y
        simp only [Fam.FamKind.lp]
        refine enn_log ?_
        unfold Fam.invgaussPdf
        split_ifs
        · positivity
        · exact le_refl _
      rw [e]
      unfold Fam.invgaussPdf
      exact (Measurable.ite measurableSet_Ioi (by fun_prop) measurable_const).ennreal_ofReal
    unfold law
    rw [ae_withDensity_iff hme]
    refine Eventually.of_forall fun y hd => ?_
    by_contra hn
    have hn' : ¬ 0 < y := hn
    refine hd ?_
    simp only [Fam.FamKind.lp, Fam.invgaussPdf, if_neg hn', Fl.log_zero]
    show ENNReal.ofReal 0 = 0
    simp
  | poisson =>
    rw [poisson_law hm, Measure.ae_sum_iff]
    intro k
    refine Measure.ae_smul_measure ?_ _
    rw [ae_dirac_eq]
    exact ⟨k, rfl⟩

theorem deriv_unique {f : Fl → Fl} {d d' x : ℝ} (h : HasFlDeriv f (fin d) x) (h' : HasFlDeriv f (fin d') x) : d = d' := by
  obtain ⟨F, a, ha, hF, hFd⟩ := h
  obtain ⟨G, b, hb, hG, hGd⟩ := h'
  rw [fin_inj] at ha hb
  rw [ha, hb]
  refine hFd.unique (hGd.congr_of_eventuallyEq ?_)
  filter_upwards [hF, hG] with z h1 h2
  rw [h1] at h2
  exact (fin_inj.1 h2)

/-- **C118.** If the response follows the family, the derivative of its log-likelihood in the linear predictor has mean zero, and the
mean of its square is the Fisher weight of `PIRLS_pdat_weights` divided by the scale. -/
theorem fisher_information {fam : Fam.FamKind} {lk : Fam.LinkKind} {mu s eta : ℝ} (ho : fam.ok) (hmu : lk.fi (fin eta) = fin mu)
    (hm : mu ∈ fam.dom) (hs : 0 < s) (h2 : fam.twopar = true ∨ s = 1) (sc : ℝ → ℝ)
    (hsc : ∀ y ∈ fam.obs, HasFlDeriv (Fam.lpEta fam lk y s) (fin (sc y)) eta) (y0 : ℝ) :
    ∃ w, (Fam.fisherZW fam lk (fin y0) (fin mu) (fin eta)).2 = fin w ∧ 0 < w ∧ ∫ y, sc y ∂(law fam mu s) = 0 ∧
      Integrable (fun y => sc y ^ 2) (law fam mu s) ∧ ∫ y, sc y ^ 2 ∂(law fam mu s) = w / s := by
  have hmu' := hmu
  rw [Fam.fi_eq, fin_inj] at hmu'
  have hm' : lk.fiR eta ∈ fam.dom := by rw [hmu']; exact hm
  have h := family_mom ho hm hs h2
  have := h.prob
  have hd := Fam.d1_pos (Fam.fi_mem lk eta)
  have hV := Fam.V_pos ho hm
  rw [hmu'] at hd
  have hae : ∀ᵐ y ∂(law fam mu s), sc y = (y - mu) / (lk.d1R mu * fam.VR mu) / s := by
    filter_upwards [family_support ho hm hs] with y hy
    refine deriv_unique (hsc y hy) ⟨_, _, rfl, (Fam.eta_dom_nhds hm').mono fun e he => Fam.lpEta_eq hy hs he, ?_⟩
    rw [← hmu']
    exact Fam.lEta_deriv hy hs hm' h2
  have hfe := Fam.fisher_eq (lk := lk) (y := y0) ho hm'
  rw [hmu, hmu'] at hfe
  refine ⟨_, congrArg Prod.snd hfe, by positivity, ?_, ?_, ?_⟩
  · rw [integral_congr_ae hae, integral_div, integral_div, integral_sub h.int (integrable_const _), h.mean]
    simp
  · have hae2 : (fun y => sc y ^ 2) =ᵐ[law fam mu s] fun y => (1 / (lk.d1R mu * fam.VR mu * s) ^ 2) * (y - mu) ^ 2 := by
      filter_upwards [hae] with y hy
      rw [hy]
      field_simp
    exact (integrable_congr hae2).2 (h.dev_int.const_mul _)
  · have hae2 : (fun y => sc y ^ 2) =ᵐ[law fam mu s] fun y => (1 / (lk.d1R mu * fam.VR mu * s) ^ 2) * (y - mu) ^ 2 := by
      filter_upwards [hae] with y hy
      rw [hy]
      field_simp
    rw [integral_congr_ae hae2, integral_const_mul, h.dev]
    field_simp

example : ∃ sc : ℝ → ℝ, ∀ y ∈ Fam.FamKind.poisson.obs, HasFlDeriv (Fam.lpEta .poisson .log y 1) (fin (sc y)) 0 := by
  have hm : Fam.LinkKind.log.fiR 0 ∈ Fam.FamKind.poisson.dom := Fam.fi_mem .log 0
  exact ⟨_, fun y hy => ⟨_, _, rfl, (Fam.eta_dom_nhds hm).mono fun e he => Fam.lpEta_eq hy one_pos he,
    Fam.lEta_deriv hy one_pos hm (Or.inr rfl)⟩⟩

/-- **C118.** If the response follows the family, the mean of the Newton weight is the Fisher weight. -/
theorem newton_mean {fam : Fam.FamKind} {lk : Fam.LinkKind} {mu s eta : ℝ} (ho : fam.ok) (hmu : lk.fi (fin eta) = fin mu)
    (hm : mu ∈ fam.dom) (hs : 0 < s) (h2 : fam.twopar = true ∨ s = 1) (y0 : ℝ) :
    ∃ wF : ℝ, (Fam.fisherZW fam lk (fin y0) (lk.fi (fin eta)) (fin eta)).2 = fin wF ∧
      ∃ wN : ℝ → ℝ, (∀ y, (Fam.newtonZW fam lk (fin y) (lk.fi (fin eta)) (fin eta)).2 = fin (wN y)) ∧ ∫ y, wN y ∂(law fam mu s) = wF := by
  have h := family_mom ho hm hs h2
  have := h.prob
  exact Fam.fisher_is_expected_newton ho hmu hm (law fam mu s) h.int h.mean y0

/-- **C118.** If the response follows the family, its squared Pearson residual has mean equal to the scale parameter. -/
theorem pearson_mean {fam : Fam.FamKind} {mu s : ℝ} (ho : fam.ok) (hm : mu ∈ fam.dom) (hs : 0 < s) (h2 : fam.twopar = true ∨ s = 1)
    (pr : ℝ → ℝ) (hpr : ∀ y, Fl.pow (fin y - fin mu) 2 / fam.V (fin mu) = fin (pr y)) :
    Integrable pr (law fam mu s) ∧ ∫ y, pr y ∂(law fam mu s) = s := by
  have h := family_mom ho hm hs h2
  have hV := Fam.V_pos ho hm
  have e : pr = fun y => (y - mu) ^ 2 / fam.VR mu := by
    funext y
    have := hpr y
    rw [Fam.V_eq ho, fin_sub, pow_fin, fin_div hV.ne', fin_inj] at this
    exact this.symm
  rw [e]
  refine ⟨h.dev_int.div_const _, ?_⟩
  rw [integral_div, h.dev]
  field_simp

example : ∃ pr : ℝ → ℝ, ∀ y, Fl.pow (fin y - fin 2) 2 / Fam.FamKind.gamma.V (fin 2) = fin (pr y) :=
  ⟨_, fun y => by
    rw [Fam.V_eq (fam := .gamma) trivial, fin_sub, pow_fin, fin_div (by simp [Fam.FamKind.VR])]⟩

/-! ### Scaled t -/

theorem exp_lp {m : ℝ} (hm : 0 ≤ m) (y mu th0 th1 : ℝ) : Real.exp (ScT.lp m y mu th0 th1) = td (ScT.nu m th1) (ScT.phi th0) mu y := by
  have hv := ScT.nu_pos hm th1
  have hp := ScT.phi_pos th0
  have hG : 0 < Gamma (ScT.nu m th1 / 2) := Gamma_pos_of_pos (by positivity)
  have hG2 : 0 < Gamma ((ScT.nu m th1 + 1) / 2) := Gamma_pos_of_pos (by positivity)
  have ha : 0 < 1 + ((y - mu) / ScT.phi th0) ^ 2 / ScT.nu m th1 := by positivity
  have hs := sqrt_pos.2 (show 0 < π * ScT.nu m th1 by positivity)
  unfold ScT.lp td gammaln
  rw [rpow_def_of_pos ha]
  have e : ∀ a b c e : ℝ, -1 * (-a + b + c + e) = a - (b + c) + -e := fun a b c e => by ring
  rw [e, Real.exp_add, Real.exp_sub, Real.exp_add, Real.exp_log hG, Real.exp_log hG2, Real.exp_log (by positivity)]
  congr 2
  ring

theorem lawT_eq {m : ℝ} (hm : 0 ≤ m) (mu th0 th1 : ℝ) :
    lawT m mu th0 th1 = volume.withDensity fun y => ENNReal.ofReal (td (ScT.nu m th1) (ScT.phi th0) mu y) := by
  unfold lawT
  simp only [exp_lp hm]

theorem td_meas (v p m : ℝ) : Measurable (td v p m) := by
  unfold td
  fun_prop

theorem lawT_int {m : ℝ} (hm : 0 ≤ m) (mu th0 th1 : ℝ) (g : ℝ → ℝ) :
    (Integrable (fun y => td (ScT.nu m th1) (ScT.phi th0) mu y * g y) → Integrable g (lawT m mu th0 th1)) ∧
      ∫ y, g y ∂(lawT m mu th0 th1) = ∫ y, td (ScT.nu m th1) (ScT.phi th0) mu y * g y := by
  have hnn : ∀ y, 0 ≤ td (ScT.nu m th1) (ScT.phi th0) mu y := fun y => (td_pos (ScT.nu_pos hm th1) (ScT.phi_pos th0)).le
  have hmm := (td_meas (ScT.nu m th1) (ScT.phi th0) mu).ennreal_ofReal
  have hlt : ∀ᵐ y ∂(volume : Measure ℝ), ENNReal.ofReal (td (ScT.nu m th1) (ScT.phi th0) mu y) < ⊤ :=
    Eventually.of_forall fun y => ENNReal.ofReal_lt_top
  rw [lawT_eq hm]
  constructor
  · intro h
    rw [integrable_withDensity_iff_integrable_smul' hmm hlt]
    simpa only [ENNReal.toReal_ofReal (hnn _), smul_eq_mul] using h
  · rw [integral_withDensity_eq_integral_toReal_smul hmm hlt]
    simp only [ENNReal.toReal_ofReal (hnn _), smul_eq_mul]

/-- **C118.** The exponential of the log density of the scaled t family is a probability density; if `min_df` is at least two (three by
default), its mean is `mu` and its variance is the value of `V`. -/
theorem scaledT_law_partial {m : ℝ} (hm : 0 ≤ m) (mu th0 th1 : ℝ) :
    IsProbabilityMeasure (lawT m mu th0 th1) ∧ (2 ≤ m → Integrable id (lawT m mu th0 th1) ∧ ∫ y, y ∂(lawT m mu th0 th1) = mu ∧
      MemLp id 2 (lawT m mu th0 th1) ∧ Var[id; lawT m mu th0 th1] = stV m th0 th1) := by
  have hv := ScT.nu_pos hm th1
  have hp := ScT.phi_pos th0
  obtain ⟨t0, t1⟩ := td_total (m := mu) hv hp
  have hprob : IsProbabilityMeasure (lawT m mu th0 th1) := by
    constructor
    rw [lawT_eq hm, withDensity_apply _ MeasurableSet.univ, Measure.restrict_univ,
      ← ofReal_integral_eq_lintegral_ofReal t0 (Eventually.of_forall fun y => (td_pos hv hp).le), t1, ENNReal.ofReal_one]
  refine ⟨hprob, fun h2 => ?_⟩
  have hv2 : 2 < ScT.nu m th1 := by
    unfold ScT.nu
    have := Real.exp_pos th1
    linarith
  set v := ScT.nu m th1 with hvd
  set p := ScT.phi th0 with hpd
  obtain ⟨f0, f1⟩ := td_first (m := mu) (by linarith : 1 < v) hp
  obtain ⟨s0, s1⟩ := td_second (m := mu) hv2 hp
  have hsq := (sqrt_pos.2 hv).ne'
  have hy : ∀ y, y = mu + p * √v * tz v p mu y := by
    intro y
    unfold tz
    field_simp
    ring
  have hmom : Mom (lawT m mu th0 th1) mu (stV m th0 th1) := by
    have e1 : ∀ y, td v p mu y * y = mu * td v p mu y + p * √v * (td v p mu y * tz v p mu y) := by
      intro y
      nth_rewrite 2 [hy y]
      ring
    have e2 : ∀ y, td v p mu y * y ^ 2 = (mu ^ 2 * td v p mu y + 2 * mu * (p * √v) * (td v p mu y * tz v p mu y)) + (p * √v) ^ 2 * (td v p mu y * tz v p mu y ^ 2) := by
      intro y
      nth_rewrite 2 [hy y]
      ring
    have i1 : Integrable fun y => td v p mu y * y := by
      simp only [e1]
      exact (t0.const_mul _).add (f0.const_mul _)
    have ia : Integrable fun y => mu ^ 2 * td v p mu y + 2 * mu * (p * √v) * (td v p mu y * tz v p mu y) := (t0.const_mul _).add (f0.const_mul _)
    have i2 : Integrable fun y => td v p mu y * y ^ 2 := by
      simp only [e2]
      exact ia.add (s0.const_mul _)
    refine ⟨hprob, (lawT_int hm mu th0 th1 _).1 i1, ?_, (lawT_int hm mu th0 th1 _).1 i2, ?_⟩
    · rw [(lawT_int hm mu th0 th1 _).2]
      simp only [← hvd, ← hpd, e1]
      rw [integral_add (t0.const_mul _) (f0.const_mul _), integral_const_mul, integral_const_mul, t1, f1]
      ring
    · rw [(lawT_int hm mu th0 th1 _).2]
      simp only [← hvd, ← hpd, e2]
      rw [integral_add ia (s0.const_mul _), integral_add (t0.const_mul _) (f0.const_mul _), integral_const_mul, integral_const_mul, integral_const_mul,
        t1, f1, s1, mul_pow, sq_sqrt hv.le]
      unfold stV
      rw [← hvd, ← hpd]
      ring
  exact ⟨hmom.int, hmom.mean, hmom.memLp, hmom.var⟩

example : (0 : ℝ) ≤ 3 ∧ (2 : ℝ) ≤ 3 := by norm_num

/-- **C118.** With a smaller `min_df`, accepted by the constructor, `V` can be negative, hence not a variance. -/
theorem scaledT_variance_wrong : ∃ m th0 th1 : ℝ, 0 ≤ m ∧ stV m th0 th1 < 0 ∧ ∀ mu, Var[id; lawT m mu th0 th1] ≠ stV m th0 th1 := by
  have hneg : stV 0 0 0 < 0 := by
    unfold stV ScT.phi ScT.nu
    norm_num
  exact ⟨0, 0, 0, le_refl _, hneg, fun mu h => absurd (variance_nonneg id (lawT 0 mu 0 0)) (by rw [h]; linarith)⟩

/-- **C118.** If the response follows the scaled t family, the derivative of the deviance has mean zero, the mean of its second derivative
is `Ed2Ddmu`, and the mean of the squared derivative of the log-likelihood (minus half the derivative of the deviance) is half of it. -/
theorem scaledT_curvature {m : ℝ} (hm : 0 ≤ m) (mu th0 th1 : ℝ) :
    Integrable (fun y => ScT.dDdmu m y mu th0 th1) (lawT m mu th0 th1) ∧ ∫ y, ScT.dDdmu m y mu th0 th1 ∂(lawT m mu th0 th1) = 0 ∧
      Integrable (fun y => ScT.d2Ddmu m y mu th0 th1) (lawT m mu th0 th1) ∧ ∫ y, ScT.d2Ddmu m y mu th0 th1 ∂(lawT m mu th0 th1) = stEd2 m th0 th1 ∧
      ∫ y, (-(1 / 2) * ScT.dDdmu m y mu th0 th1) ^ 2 ∂(lawT m mu th0 th1) = stEd2 m th0 th1 / 2 := by
  have hv := ScT.nu_pos hm th1
  have hp := ScT.phi_pos th0
  have hI := lawT_int hm mu th0 th1
  set v := ScT.nu m th1 with hvd
  set p := ScT.phi th0 with hpd
  have hsq := (sqrt_pos.2 hv).ne'
  have hs2 : √v ^ 2 = v := sq_sqrt hv.le
  have hy : ∀ y, y - mu = p * √v * tz v p mu y := by
    intro y
    unfold tz
    field_simp
  have hpos : ∀ y, 0 < 1 + tz v p mu y ^ 2 := fun y => by positivity
  have e1 : ∀ y, ScT.dDdmu m y mu th0 th1 = -(2 * (v + 1) / (p * √v)) * (tz v p mu y / (1 + tz v p mu y ^ 2)) := by
    intro y
    have h0 := (hpos y).ne'
    simp only [ScT.dDdmu, ← hvd, ← hpd]
    rw [tz_sq hv, hy y]
    field_simp
    rw [hs2]
  have e2 : ∀ y, ScT.d2Ddmu m y mu th0 th1 = 2 * (v + 1) / (v * p ^ 2) * (1 / (1 + tz v p mu y ^ 2)) - 4 * (v + 1) / (v * p ^ 2) * (tz v p mu y ^ 2 / (1 + tz v p mu y ^ 2) ^ 2) := by
    intro y
    have h0 := (hpos y).ne'
    simp only [ScT.d2Ddmu, ← hvd, ← hpd]
    rw [tz_sq hv, hy y]
    field_simp
    rw [hs2]
    field_simp
    ring
  have o := td_change (v := v) (p := p) (m := mu) hv hp (g := fun t => t / (1 + t ^ 2)) (by
    have h := student_odd_integrable (q := (v + 1) / 2 + 1) (by linarith)
    refine h.congr (Eventually.of_forall fun t => ?_)
    have h0 : 0 < 1 + t ^ 2 := by positivity
    show t * (1 + t ^ 2) ^ (-((v + 1) / 2 + 1)) = t / (1 + t ^ 2) * (1 + t ^ 2) ^ (-((v + 1) / 2))
    rw [neg_add, rpow_add h0, rpow_neg h0.le 1, rpow_one]
    ring)
  have o2 : ∫ t : ℝ, t / (1 + t ^ 2) * (1 + t ^ 2) ^ (-((v + 1) / 2)) = 0 := by
    rw [← student_odd ((v + 1) / 2 + 1)]
    refine integral_congr_ae (Eventually.of_forall fun t => ?_)
    have h0 : 0 < 1 + t ^ 2 := by positivity
    show t / (1 + t ^ 2) * (1 + t ^ 2) ^ (-((v + 1) / 2)) = t * (1 + t ^ 2) ^ (-((v + 1) / 2 + 1))
    rw [neg_add, rpow_add h0, rpow_neg h0.le 1, rpow_one]
    ring
  obtain ⟨a0, a1⟩ := td_inv (m := mu) hv hp
  obtain ⟨b0, b1⟩ := td_inv2 (m := mu) hv hp
  refine ⟨(hI _).1 ?_, ?_, (hI _).1 ?_, ?_, ?_⟩
  · simp only [e1]
    refine (o.1.const_mul (-(2 * (v + 1) / (p * √v)))).congr (Eventually.of_forall fun y => ?_)
    show _ * (_ * _) = _ * (_ * _)
    ring
  · rw [(hI _).2]
    simp only [e1]
    rw [show (fun y => td v p mu y * (-(2 * (v + 1) / (p * √v)) * (tz v p mu y / (1 + tz v p mu y ^ 2)))) =
      fun y => -(2 * (v + 1) / (p * √v)) * (td v p mu y * (tz v p mu y / (1 + tz v p mu y ^ 2))) from funext fun y => by ring]
    rw [integral_const_mul, o.2, o2]
    ring
  · simp only [e2]
    refine ((a0.const_mul (2 * (v + 1) / (v * p ^ 2))).sub (b0.const_mul (4 * (v + 1) / (v * p ^ 2)))).congr (Eventually.of_forall fun y => ?_)
    simp only [Pi.sub_apply]
    ring
  · rw [(hI _).2]
    simp only [e2]
    rw [show (fun y => td v p mu y * (2 * (v + 1) / (v * p ^ 2) * (1 / (1 + tz v p mu y ^ 2)) - 4 * (v + 1) / (v * p ^ 2) * (tz v p mu y ^ 2 / (1 + tz v p mu y ^ 2) ^ 2))) =
      fun y => 2 * (v + 1) / (v * p ^ 2) * (td v p mu y * (1 / (1 + tz v p mu y ^ 2))) - 4 * (v + 1) / (v * p ^ 2) * (td v p mu y * (tz v p mu y ^ 2 / (1 + tz v p mu y ^ 2) ^ 2))
      from funext fun y => by ring]
    rw [integral_sub (a0.const_mul _) (b0.const_mul _), integral_const_mul, integral_const_mul, a1, b1]
    unfold stEd2
    rw [← hvd, ← hpd]
    field_simp
    ring
  · rw [(hI _).2]
    simp only [e1]
    rw [show (fun y => td v p mu y * (-(1 / 2) * (-(2 * (v + 1) / (p * √v)) * (tz v p mu y / (1 + tz v p mu y ^ 2)))) ^ 2) =
      fun y => (v + 1) ^ 2 / (v * p ^ 2) * (td v p mu y * (tz v p mu y ^ 2 / (1 + tz v p mu y ^ 2) ^ 2)) from funext fun y => by
        have h0 := (hpos y).ne'
        field_simp
        rw [hs2]]
    rw [integral_const_mul, b1]
    unfold stEd2
    rw [← hvd, ← hpd]
    field_simp

example : ScT.nu 3 0 = 4 ∧ stEd2 3 0 0 = 10 / 7 := by
  unfold stEd2 ScT.phi ScT.nu
  norm_num

/-- **C118.** Fisher weights of the scaled t family (`PIRLS_pdat_weights` with `Ed2Ddmu`): if the response follows the family, their mean is
the mean of the Newton weights. -/
theorem scaledT_weights {m : ℝ} (hm : 0 ≤ m) (lk : Fam.LinkKind) (th0 th1 eta mu : ℝ) (hmu : lk.fi (fin eta) = fin mu) :
    ∃ wF wN : ℝ → ℝ, (∀ y, (ScT.extZW lk (.fin (ScT.dDdmu m y mu th0 th1)) (.fin (stEd2 m th0 th1)) (.fin mu) (.fin eta)).2 = fin (wF y)) ∧
      (∀ y, (ScT.extZW lk (.fin (ScT.dDdmu m y mu th0 th1)) (.fin (ScT.d2Ddmu m y mu th0 th1)) (.fin mu) (.fin eta)).2 = fin (wN y)) ∧
      Integrable wF (lawT m mu th0 th1) ∧ Integrable wN (lawT m mu th0 th1) ∧ ∫ y, wF y ∂(lawT m mu th0 th1) = ∫ y, wN y ∂(lawT m mu th0 th1) ∧
      0 < ∫ y, wF y ∂(lawT m mu th0 th1) := by
  rw [Fam.fi_eq, fin_inj] at hmu
  have hd := Fam.fi_mem lk eta
  rw [hmu] at hd
  have h1 := Fam.d1_pos hd
  have hv := ScT.nu_pos hm th1
  have hp := ScT.phi_pos th0
  have hz : ∀ D1 D2 : ℝ, (ScT.extZW lk (.fin D1) (.fin D2) (.fin mu) (.fin eta)).2 = fin (0.5 * (D2 / lk.d1R mu ^ 2 - D1 * lk.d2R mu / lk.d1R mu ^ 3)) := by
    intro D1 D2
    simp only [ScT.extZW]
    rw [Fam.d1_eq hd, Fam.d2_eq hd, Fl.pow_fin, Fl.pow_fin, Fl.fin_div (by positivity), Fl.fin_mul, Fl.fin_div (by positivity)]
    simp only [Fl.fin_sub, Fl.fin_mul]
  obtain ⟨i1, j1, i2, j2, -⟩ := scaledT_curvature hm mu th0 th1
  have := (scaledT_law_partial hm mu th0 th1).1
  have hi1 : Integrable (fun y => ScT.dDdmu m y mu th0 th1 * lk.d2R mu / lk.d1R mu ^ 3) (lawT m mu th0 th1) := (i1.mul_const _).div_const _
  have hi2 : Integrable (fun y => ScT.d2Ddmu m y mu th0 th1 / lk.d1R mu ^ 2) (lawT m mu th0 th1) := i2.div_const _
  have e : ∫ y, (0.5 * (stEd2 m th0 th1 / lk.d1R mu ^ 2 - ScT.dDdmu m y mu th0 th1 * lk.d2R mu / lk.d1R mu ^ 3)) ∂(lawT m mu th0 th1) =
      0.5 * (stEd2 m th0 th1 / lk.d1R mu ^ 2) := by
    rw [integral_const_mul, integral_sub (integrable_const _) hi1, integral_div, integral_div, integral_mul_const, j1]
    simp
  refine ⟨fun y => 0.5 * (stEd2 m th0 th1 / lk.d1R mu ^ 2 - ScT.dDdmu m y mu th0 th1 * lk.d2R mu / lk.d1R mu ^ 3),
    fun y => 0.5 * (ScT.d2Ddmu m y mu th0 th1 / lk.d1R mu ^ 2 - ScT.dDdmu m y mu th0 th1 * lk.d2R mu / lk.d1R mu ^ 3),
    fun y => hz _ _, fun y => hz _ _, ((integrable_const _).sub hi1).const_mul _, (hi2.sub hi1).const_mul _, ?_, ?_⟩
  · rw [e, integral_const_mul, integral_sub hi2 hi1, integral_div, integral_div, integral_mul_const, j1, j2]
    ring
  · rw [e]
    unfold stEd2
    positivity

/-! ### Distribution functions and simulation -/

/-- The measure with log density `GAUMLSS.lp` (statements only). -/
noncomputable def lawGau (mu sigma : ℝ) : Measure ℝ := volume.withDensity fun y => ENNReal.ofReal (Real.exp (Lss.gauLp y mu sigma))

/-- The measure on the positive numbers with log density `GAMMALS.lp` (statements only). -/
noncomputable def lawGam (mu scale : ℝ) : Measure ℝ := (volume.restrict (Set.Ioi 0)).withDensity fun y => ENNReal.ofReal (Real.exp (Lss.gamLp y mu scale))

theorem lawGau_eq {mu sigma : ℝ} (hs : 0 < sigma) : lawGau mu sigma = gaussianReal mu (Real.toNNReal (sigma ^ 2)) := by
  have hv : Real.toNNReal (sigma ^ 2) ≠ 0 := by
    rw [Ne, Real.toNNReal_eq_zero, not_le]
    positivity
  rw [gaussianReal_of_var_ne_zero _ hv]
  unfold lawGau Lss.gauLp Fam.normPdf
  congr 1
  funext y
  rw [Real.exp_log (gaussianPDFReal_pos _ _ _ hv)]
  rfl

theorem normRvs_eq {mu sigma : ℝ} (hs : 0 < sigma) : normRvs mu sigma = gaussianReal mu (Real.toNNReal (sigma ^ 2)) := by
  unfold normRvs
  have e : (fun z : ℝ => mu + sigma * z) = (mu + ·) ∘ (sigma * ·) := rfl
  rw [e, ← Measure.map_map (by fun_prop) (by fun_prop), gaussianReal_map_const_mul, gaussianReal_map_const_add]
  congr 1
  · ring
  · apply NNReal.eq
    simp [Real.coe_toNNReal _ (sq_nonneg sigma)]

/-- **C118.** Gaussian location-scale family: simulated entries follow the law with log density `lp`, and the exponential of `lcp` is the
distribution function of that law. -/
theorem gau_rvs {mu sigma : ℝ} (hs : 0 < sigma) :
    gauRvs mu sigma = lawGau mu sigma ∧ IsProbabilityMeasure (lawGau mu sigma) ∧ ∀ y, Real.exp (gauLcp y mu sigma) = (lawGau mu sigma).real (Set.Iic y) := by
  have h1 : gauRvs mu sigma = lawGau mu sigma := (normRvs_eq hs).trans (lawGau_eq hs).symm
  refine ⟨h1, by rw [lawGau_eq hs]; infer_instance, fun y => ?_⟩
  have hpre : (fun z : ℝ => mu + sigma * z) ⁻¹' Set.Iic y = Set.Iic ((y - mu) / sigma) := by
    ext z
    rw [Set.mem_preimage, Set.mem_Iic, Set.mem_Iic, le_div_iff₀ hs]
    constructor <;> intro h <;> linarith
  have h2 : (lawGau mu sigma).real (Set.Iic y) = (gaussianReal 0 1).real (Set.Iic ((y - mu) / sigma)) := by
    rw [← h1]
    unfold gauRvs normRvs Measure.real
    rw [Measure.map_apply (by fun_prop) measurableSet_Iic, hpre]
  unfold gauLcp normLogcdf
  rw [Real.exp_log, h2]
  have hpos : 0 < (gaussianReal 0 1) (Set.Iic ((y - mu) / sigma)) := by
    rw [pos_iff_ne_zero]
    intro h0
    have := (gaussianReal_absolutelyContinuous' 0 one_ne_zero) h0
    rw [Real.volume_Iic] at this
    exact ENNReal.top_ne_zero this
  exact ENNReal.toReal_pos hpos.ne' (measure_ne_top _ _)

example : (0 : ℝ) < 1 / 2 := by norm_num

theorem lawGam_eq {mu s : ℝ} (hs : 0 < s) (hm : 0 < mu) : lawGam mu s = gammaMeasure (1 / s) (1 / (s * mu)) := by
  have he : (1 / (1 / (1 / s / mu))) = 1 / (s * mu) := by field_simp
  have ha : 0 < 1 / s := by positivity
  have hr : 0 < 1 / (s * mu) := by positivity
  ext S hS
  unfold lawGam gammaMeasure
  rw [withDensity_apply _ hS, withDensity_apply _ hS, Measure.restrict_restrict hS]
  have hsplit : ∫⁻ y in S, gammaPDF (1 / s) (1 / (s * mu)) y = ∫⁻ y in S ∩ Set.Ioi 0, gammaPDF (1 / s) (1 / (s * mu)) y := by
    rw [← lintegral_inter_add_sdiff (gammaPDF (1 / s) (1 / (s * mu))) S measurableSet_Ioi]
    have : ∫⁻ y in S \ Set.Ioi 0, gammaPDF (1 / s) (1 / (s * mu)) y = 0 := by
      refine le_antisymm ?_ zero_le
      refine (lintegral_mono_set (t := Set.Iic 0) fun y hy => not_lt.1 hy.2).trans ?_
      rw [setLIntegral_congr (Iio_ae_eq_Iic (μ := volume)).symm, lintegral_gammaPDF_of_nonpos le_rfl]
    rw [this, add_zero]
  rw [hsplit]
  refine setLIntegral_congr_fun (hS.inter measurableSet_Ioi) fun y hy => ?_
  have hy' : 0 < y := hy.2
  show ENNReal.ofReal (Real.exp (Lss.gamLp y mu s)) = _
  simp only [Lss.gamLp, Fam.gammaPdf, he]
  rw [Real.exp_log (gammaPDFReal_pos ha hr hy')]
  rfl

theorem gamma_scale {a c : ℝ} (ha : 0 < a) (hc : 0 < c) : gammaRvs a c = gammaMeasure a (1 / c) := by
  have hr : 0 < 1 / c := by positivity
  have h1 := isProbabilityMeasure_gammaMeasure ha one_pos
  have h2 := isProbabilityMeasure_gammaMeasure ha hr
  have hm : AEMeasurable (fun g : ℝ => c * g) (gammaMeasure a 1) := by fun_prop
  have hp : IsProbabilityMeasure (gammaRvs a c) := Measure.isProbabilityMeasure_map hm
  have key : ∀ u, |u| < 1 / c → u * c < 1 := fun u hu => by
    have := (abs_lt.1 hu).2
    rwa [lt_div_iff₀ hc] at this
  have e : ∀ u x : ℝ, u * (c * x) = u * c * x := fun u x => by ring
  refine Ftest.mgf_ext (μ := gammaRvs a c) (ν := gammaMeasure a (1 / c)) hr ?_ ?_ ?_
  · intro u hu
    unfold gammaRvs
    rw [integrable_map_measure (by fun_prop) hm]
    refine (Ftest.gamma_mgf ha one_pos (key u hu)).1.congr (Eventually.of_forall fun x => ?_)
    show Real.exp (u * c * x) = Real.exp (u * (c * x))
    rw [e]
  · intro u hu
    exact (Ftest.gamma_mgf ha hr (abs_lt.1 hu).2).1
  · intro u hu
    unfold gammaRvs
    rw [integral_map hm (by fun_prop)]
    simp only [e]
    rw [(Ftest.gamma_mgf ha one_pos (key u hu)).2, (Ftest.gamma_mgf ha hr (abs_lt.1 hu).2).2]
    congr 1
    have h3 : 1 - u * c ≠ 0 := by linarith [key u hu]
    have h4 : 1 / c - u ≠ 0 := by linarith [(abs_lt.1 hu).2]
    rw [div_eq_div_iff h3 h4]
    field_simp

/-- **C118.** Gamma location-scale family: simulated entries follow the law with log density `lp`, whose mean is `mu` and whose variance is
`scale * mu ** 2`, and for positive responses the exponential of `lcp` is the distribution function of that law. -/
theorem gam_rvs {mu scale : ℝ} (hm : 0 < mu) (hs : 0 < scale) :
    gamRvs mu scale = lawGam mu scale ∧ IsProbabilityMeasure (lawGam mu scale) ∧ ∫ y, y ∂(lawGam mu scale) = mu ∧
      Var[id; lawGam mu scale] = scale * mu ^ 2 ∧ ∀ y, 0 < y → Real.exp (gamLcp y mu scale) = (lawGam mu scale).real (Set.Iic y) := by
  have ha : 0 < 1 / scale := by positivity
  have hc : 0 < 1 / (1 / scale / mu) := by positivity
  have he : 1 / (1 / (1 / scale / mu)) = 1 / (scale * mu) := by field_simp
  have h1 : gamRvs mu scale = lawGam mu scale := by
    rw [lawGam_eq hs hm, ← he]
    exact gamma_scale ha hc
  have hmom := family_mom (fam := .gamma) trivial (show mu ∈ Fam.FamKind.gamma.dom from hm) hs (Or.inl rfl)
  rw [gamma_law hs hm, ← lawGam_eq hs hm] at hmom
  refine ⟨h1, hmom.prob, hmom.mean, hmom.var, fun y hy => ?_⟩
  set c := 1 / (1 / scale / mu) with hcd
  have hpre : (fun g : ℝ => c * g) ⁻¹' Set.Iic y = Set.Iic (y / c) := by
    ext z
    rw [Set.mem_preimage, Set.mem_Iic, Set.mem_Iic, le_div_iff₀ hc]
    constructor <;> intro h <;> linarith
  have h2 : (lawGam mu scale).real (Set.Iic y) = (gammaMeasure (1 / scale) 1).real (Set.Iic (y / c)) := by
    rw [← h1]
    show (gammaRvs (1 / scale) c).real (Set.Iic y) = _
    unfold gammaRvs Measure.real
    rw [Measure.map_apply (by fun_prop) measurableSet_Iic, hpre]
  show Real.exp (gammaLogcdf y (1 / scale) c) = _
  unfold gammaLogcdf
  rw [Real.exp_log, h2]
  have := isProbabilityMeasure_gammaMeasure ha one_pos
  have hyc : 0 < y / c := by positivity
  refine ENNReal.toReal_pos ?_ (measure_ne_top _ _)
  intro h0
  have h3 : (gammaMeasure (1 / scale) 1) (Set.Ioc 0 (y / c)) = 0 := measure_mono_null (fun z hz => hz.2) h0
  unfold gammaMeasure at h3
  rw [withDensity_apply _ measurableSet_Ioc, lintegral_eq_zero_iff (f := gammaPDF (1 / scale) 1) (measurable_gammaPDFReal _ _).ennreal_ofReal] at h3
  have h4 : ∀ᵐ z ∂(volume.restrict (Set.Ioc 0 (y / c))), False := by
    filter_upwards [h3, ae_restrict_mem measurableSet_Ioc] with z hz hz'
    have := gammaPDFReal_pos ha one_pos hz'.1
    exact absurd (ENNReal.ofReal_eq_zero.1 hz) (not_le.2 this)
  rw [eventually_false_iff_eq_bot, ae_eq_bot, Measure.restrict_eq_zero, Real.volume_Ioc, sub_zero, ENNReal.ofReal_eq_zero] at h4
  linarith

example : (0 : ℝ) < 2 ∧ (0 : ℝ) < 1 / 3 := by norm_num

/-- **C118.** Multinomial family: the probabilities handed to `choice` are accepted, and category `k` is drawn with probability `exp(lp)`. -/
theorem mn_rvs {K : ℕ} {mus : Fin K → ℝ} (h : ∀ i, 0 < mus i) :
    ∃ P, mnRvs mus = some P ∧ IsProbabilityMeasure P ∧ (∀ k ≤ K, P.real {k} = Real.exp (Lss.mnLp k mus)) ∧ P (Set.Ioi K) = 0 := by
  classical
  obtain ⟨hp, hsum⟩ := Lss.mn_probs h
  set p : List ℝ := (List.range (K + 1)).map fun k => Real.exp (Lss.mnLp k mus) with hpd
  have hget : ∀ k, p.getD k 0 = if k ≤ K then Real.exp (Lss.mnLp k mus) else 0 := by
    intro k
    rw [hpd, List.getD_eq_getElem?_getD, List.getElem?_map]
    by_cases hk : k ≤ K
    · rw [List.getElem?_range (Nat.lt_succ_of_le hk), if_pos hk]
      rfl
    · rw [List.getElem?_eq_none (by rw [List.length_range]; omega), if_neg hk]
      rfl
  have hs : p.sum = 1 := by
    rw [← hsum]
    rfl
  have hc : mnRvs mus = some (Measure.sum fun k : ℕ => ENNReal.ofReal (p.getD k 0) • Measure.dirac k) := by
    unfold mnRvs choice
    refine if_pos ⟨fun x hx => ?_, hs⟩
    obtain ⟨k, -, rfl⟩ := List.mem_map.1 hx
    exact (Real.exp_pos _).le
  have hpt : ∀ k, (Measure.sum fun k : ℕ => ENNReal.ofReal (p.getD k 0) • Measure.dirac k) {k} = ENNReal.ofReal (p.getD k 0) := by
    intro k
    rw [Measure.sum_apply _ (measurableSet_singleton k), tsum_eq_single k]
    · simp
    · intro j hj
      simp [hj]
  refine ⟨_, hc, ⟨?_⟩, fun k hk => ?_, ?_⟩
  · rw [Measure.sum_apply _ MeasurableSet.univ]
    simp only [Measure.smul_apply, measure_univ, smul_eq_mul, mul_one, hget]
    rw [tsum_eq_sum (s := Finset.range (K + 1))]
    · rw [← ENNReal.ofReal_sum_of_nonneg, ← ENNReal.ofReal_one, ← hsum]
      · congr 1
        refine Finset.sum_congr rfl fun k hk => ?_
        rw [if_pos (Nat.lt_succ_iff.1 (Finset.mem_range.1 hk))]
        rfl
      · intro k _
        split_ifs
        · exact (Real.exp_pos _).le
        · exact le_refl _
    · intro k hk
      rw [if_neg (fun h => hk (Finset.mem_range.2 (Nat.lt_succ_of_le h))), ENNReal.ofReal_zero]
  · rw [Measure.real, hpt, hget, if_pos hk, ENNReal.toReal_ofReal (Real.exp_pos _).le]
  · rw [Measure.sum_apply _ measurableSet_Ioi, ENNReal.tsum_eq_zero]
    intro k
    by_cases hk : k ≤ K
    · rw [Measure.smul_apply, Measure.dirac_apply' _ measurableSet_Ioi, Set.indicator_of_notMem (by simpa using hk), smul_zero]
    · rw [hget, if_neg hk, ENNReal.ofReal_zero, zero_smul]
      rfl

example : ∀ i : Fin 2, 0 < (fun i : Fin 2 => (i : ℝ) + 1) i := fun i => by positivity

open Matrix in
/-- **C118.** Multivariate Gaussian family: a simulated row has the density `exp(llk)` of one row, up to the constant that `llk` leaves out,
and the residual transform of a simulated row is standard normal. -/
theorem mg_rvs {d : ℕ} (θ : ℕ → ℝ) (mean : Fin d → ℝ) {A : Matrix (Fin d) (Fin d) ℝ} (hA : A * Aᵀ = mgCov θ) :
    mvnRvs mean A = volume.withDensity (fun y => ENNReal.ofReal (Real.exp (MGauss.llk (of fun _ : Fin 1 => y - mean) θ) / √(2 * π) ^ d)) ∧
      (mvnRvs mean A).map (fun y => MGauss.resid (of fun _ : Fin 1 => y - mean) θ 0) = Measure.pi fun _ : Fin d => gaussianReal 0 1 := by
  refine ⟨mg_density θ mean hA, ?_⟩
  obtain ⟨-, -, hdet, -, -⟩ := MGauss.factor_spec (m := d) θ
  have hRd : IsUnit (MGauss.getR d θ).det := by rw [hdet]; exact (Real.exp_pos _).ne'.isUnit
  have hR : (MGauss.getR d θ)⁻¹ * ((MGauss.getR d θ)⁻¹)ᵀ = mgCov θ := by
    rw [mgCov, Matrix.mul_inv_rev, transpose_nonsing_inv]
  have hcont : ∀ B : Matrix (Fin d) (Fin d) ℝ, Continuous fun z : Fin d → ℝ => B *ᵥ z := fun B => (Continuous.matrix_mulVec continuous_const continuous_id)
  have e : (fun y => MGauss.resid (of fun _ : Fin 1 => y - mean) θ 0) = fun y => MGauss.getR d θ *ᵥ (y - mean) := by
    funext y p
    unfold MGauss.resid
    rw [mul_apply, mulVec, dotProduct]
    refine Finset.sum_congr rfl fun q _ => ?_
    rw [mul_comm, transpose_apply]
    rfl
  rw [mg_density θ mean hA, ← mg_density θ mean hR, e]
  unfold mvnRvs
  have m1 : Measurable fun y : Fin d → ℝ => MGauss.getR d θ *ᵥ (y - mean) := ((hcont _).comp (continuous_id.sub continuous_const)).measurable
  have m2 : Measurable fun z : Fin d → ℝ => mean + (MGauss.getR d θ)⁻¹ *ᵥ z := (continuous_const.add (hcont _)).measurable
  rw [Measure.map_map m1 m2]
  have e2 : ((fun y => MGauss.getR d θ *ᵥ (y - mean)) ∘ fun z => mean + (MGauss.getR d θ)⁻¹ *ᵥ z) = id := by
    funext z
    show MGauss.getR d θ *ᵥ (mean + (MGauss.getR d θ)⁻¹ *ᵥ z - mean) = z
    rw [add_sub_cancel_left, mulVec_mulVec, mul_nonsing_inv _ hRd, one_mulVec]
  rw [e2, Measure.map_id]

open Matrix in
example (d : ℕ) (θ : ℕ → ℝ) : ∃ A : Matrix (Fin d) (Fin d) ℝ, A * Aᵀ = mgCov θ :=
  ⟨(MGauss.getR d θ)⁻¹, by rw [mgCov, Matrix.mul_inv_rev, transpose_nonsing_inv]⟩

/-- **C118.** Rows are simulated with distinct seeds, `seed`, `seed + 1`, ...: with a seed no two rows share one; without, none has one. -/
theorem mg_seeds (n : ℕ) : (∀ seed, (mgSeeds seed n).length = n) ∧ (∀ a, ∀ i, i < n → (mgSeeds (some a) n)[i]? = some (some (a + i))) ∧
    (∀ x ∈ mgSeeds none n, x = none) := by
  induction n with
  | zero => exact ⟨fun _ => rfl, fun a i hi => absurd hi (Nat.not_lt_zero _), by intro x hx; simp [mgSeeds] at hx⟩
  | succ n ih =>
    obtain ⟨h1, h2, h3⟩ := ih
    refine ⟨fun seed => by simp [mgSeeds, h1], fun a i hi => ?_, fun x hx => ?_⟩
    · cases i with
      | zero => simp [mgSeeds]
      | succ i =>
        simp only [mgSeeds, List.getElem?_cons_succ, Option.map_some]
        rw [h2 (a + 1) i (by omega)]
        congr 2
        push_cast
        ring
    · simp only [mgSeeds, List.mem_cons, Option.map_none] at hx
      rcases hx with rfl | hx
      · rfl
      · exact h3 x hx

end Verif.Dens
