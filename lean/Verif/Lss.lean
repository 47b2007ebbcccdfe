import Verif.LssModel
import Verif.FamLemmas
import Mathlib.MeasureTheory.Integral.Bochner.ContinuousLinearMap
import Mathlib.MeasureTheory.Measure.Lebesgue.Basic
import Mathlib.Probability.CDF

/-!
# Location-scale families (C19, C52, C60)
-/

namespace Verif.Lss
open Verif Filter Topology MeasureTheory

/-! ### Gaussian -/

theorem gauLp_eq {sigma : ℝ} (hs : 0 < sigma) (y mu : ℝ) :
    gauLp y mu sigma = -Real.log (Real.sqrt (2 * Real.pi)) - Real.log sigma
      - (y - mu) ^ 2 / (2 * sigma ^ 2) := by
  have hpi := Real.pi_pos
  unfold gauLp Fam.normPdf
  rw [ProbabilityTheory.gaussianPDFReal_def]
  simp only [Real.coe_toNNReal _ (sq_nonneg sigma)]
  have e : Real.sqrt (2 * Real.pi * sigma ^ 2) = Real.sqrt (2 * Real.pi) * sigma := by
    rw [Real.sqrt_mul (by positivity), Real.sqrt_sq hs.le]
  rw [e, Real.log_mul (by positivity) (by positivity), Real.log_exp, Real.log_inv,
    Real.log_mul (by positivity) hs.ne']
  ring

/-- **C19.** Gaussian location-scale family: derivatives in mean and standard deviation. -/
theorem gau_first {sigma : ℝ} (hs : 0 < sigma) (y mu : ℝ) :
    0 < Fam.normPdf y mu sigma ∧
    HasDerivAt (fun m => gauLp y m sigma) (gauD1mu y mu sigma) mu ∧
    HasDerivAt (fun s => gauLp y mu s) (gauD1sigma y mu sigma) sigma := by
  refine ⟨ProbabilityTheory.gaussianPDFReal_pos _ _ _ (by simpa using hs.ne'), ?_, ?_⟩
  · have e : (fun m => gauLp y m sigma) = fun m => -Real.log (Real.sqrt (2 * Real.pi))
        - Real.log sigma - (y - m) ^ 2 / (2 * sigma ^ 2) := by
      funext m; exact gauLp_eq hs y m
    rw [e]
    have h := (((hasDerivAt_id mu).const_sub y).pow 2).div_const (2 * sigma ^ 2)
    refine (h.const_sub _).congr_deriv ?_
    simp only [gauD1mu, id]
    field_simp
    norm_num
    ring
  · have h1 := (hasDerivAt_id sigma).log hs.ne'
    have h2 : HasDerivAt (fun s : ℝ => 2 * s ^ 2) (2 * (2 * sigma)) sigma := by
      refine ((hasDerivAt_pow 2 sigma).const_mul 2).congr_deriv ?_
      simp
    have h3 := (hasDerivAt_const sigma ((y - mu) ^ 2)).div h2 (by positivity)
    have h := (h1.const_sub (-Real.log (Real.sqrt (2 * Real.pi)))).sub h3
    have he : (fun s => gauLp y mu s) =ᶠ[𝓝 sigma] fun s =>
        -Real.log (Real.sqrt (2 * Real.pi)) - Real.log s - (y - mu) ^ 2 / (2 * s ^ 2) := by
      filter_upwards [isOpen_Ioi.mem_nhds (show sigma ∈ Set.Ioi (0 : ℝ) from hs)] with s hs'
      exact gauLp_eq hs' y mu
    refine (HasDerivAt.congr_of_eventuallyEq h he).congr_deriv ?_
    simp only [gauD1sigma, id]
    field_simp
    ring

theorem gau_sq {sigma : ℝ} (mu : ℝ) :
    Integrable (fun y => (y - mu) ^ 2)
      (ProbabilityTheory.gaussianReal mu (Real.toNNReal (sigma ^ 2))) ∧
    ∫ y, (y - mu) ^ 2 ∂(ProbabilityTheory.gaussianReal mu (Real.toNNReal (sigma ^ 2)))
      = sigma ^ 2 := by
  have hL : MemLp (fun y : ℝ => y) 2
      (ProbabilityTheory.gaussianReal mu (Real.toNNReal (sigma ^ 2))) :=
    ProbabilityTheory.memLp_id_gaussianReal 2
  have hL2 := hL.sub (memLp_const mu)
  refine ⟨hL2.integrable_sq, ?_⟩
  have hv := ProbabilityTheory.variance_fun_id_gaussianReal (μ := mu) (v := Real.toNNReal (sigma ^ 2))
  rw [ProbabilityTheory.variance_eq_integral (by fun_prop)] at hv
  simp only [ProbabilityTheory.integral_id_gaussianReal] at hv
  rw [hv, Real.coe_toNNReal _ (sq_nonneg sigma)]

/-- **C60.** Gaussian: each reported second derivative is the expectation under the model of the
true one (the pure derivative in the mean is even exact). -/
theorem gau_second {sigma : ℝ} (hs : 0 < sigma) (mu : ℝ) :
    ∃ tmu tsig tmix : ℝ → ℝ,
      (∀ y, HasDerivAt (fun m => gauD1mu y m sigma) (tmu y) mu) ∧
      (∀ y, HasDerivAt (fun s => gauD1sigma y mu s) (tsig y) sigma) ∧
      (∀ y, HasDerivAt (fun s => gauD1mu y mu s) (tmix y) sigma) ∧
      ∀ y,
      (tmu y = gauD2mu y mu sigma) ∧
      (∫ z, tsig z ∂(ProbabilityTheory.gaussianReal mu (Real.toNNReal (sigma ^ 2)))
        = gauD2sigma y mu sigma) ∧
      (∫ z, tmix z ∂(ProbabilityTheory.gaussianReal mu (Real.toNNReal (sigma ^ 2)))
        = gauD2m y mu sigma) := by
  refine ⟨fun _ => -(1 / sigma ^ 2), fun y => -3 * (y - mu) ^ 2 / sigma ^ 4 + 1 / sigma ^ 2,
    fun y => -2 / sigma ^ 3 * (y - mu), fun y => ?_, fun y => ?_, fun y => ?_, fun y => ⟨rfl, ?_, ?_⟩⟩
  · refine ((((hasDerivAt_id mu).const_sub y)).const_mul (1 / sigma ^ 2)).congr_deriv ?_
    ring
  · have h := ((hasDerivAt_pow 2 sigma).const_sub ((y - mu) ^ 2)).div (hasDerivAt_pow 3 sigma)
      (by positivity)
    refine h.congr_deriv ?_
    norm_num
    field_simp
    ring
  · have h := ((hasDerivAt_const sigma (1 : ℝ)).div (hasDerivAt_pow 2 sigma)
      (by positivity)).mul_const (y - mu)
    refine h.congr_deriv ?_
    field_simp
    norm_num
    ring
  · obtain ⟨hi, he⟩ := gau_sq (sigma := sigma) mu
    rw [integral_add ((hi.const_mul (-3)).div_const _) (integrable_const _), integral_div,
      integral_const_mul, he]
    simp only [integral_const, probReal_univ, smul_eq_mul, one_mul, gauD2sigma]
    field_simp
    norm_num
  · have hi : Integrable (fun y : ℝ => y)
        (ProbabilityTheory.gaussianReal mu (Real.toNNReal (sigma ^ 2))) :=
      (ProbabilityTheory.memLp_id_gaussianReal 1).integrable le_rfl
    rw [integral_const_mul, integral_sub hi (integrable_const _),
      ProbabilityTheory.integral_id_gaussianReal]
    simp [gauD2m]

/-- The reported second derivatives are not the second derivatives of the log density themselves:
at `y = mu + 1`, `sigma = 1` the true second derivative in `sigma` is `-2` and so is the reported,
but at `y = mu` it is `1`. -/
theorem gau_second_not_exact :
    ¬ ∀ y mu sigma : ℝ, 0 < sigma →
      HasDerivAt (fun s => gauD1sigma y mu s) (gauD2sigma y mu sigma) sigma := by
  intro h
  have h1 := h 0 0 1 one_pos
  have h2 : HasDerivAt (fun s : ℝ => gauD1sigma 0 0 s) 1 1 := by
    have h := ((hasDerivAt_pow 2 (1 : ℝ)).const_sub (((0 : ℝ) - 0) ^ 2)).div
      (hasDerivAt_pow 3 (1 : ℝ)) (by norm_num)
    refine h.congr_deriv ?_
    norm_num
  have := h1.unique h2
  norm_num [gauD2sigma] at this

/-- **C19.** The standardised residual has mean zero and unit variance under the model. -/
theorem gau_resid {sigma : ℝ} (hs : 0 < sigma) (mu : ℝ) :
    (ProbabilityTheory.gaussianReal mu (Real.toNNReal (sigma ^ 2))).map
      (fun y => gauResid y mu sigma) = ProbabilityTheory.gaussianReal 0 1 := by
  have e : (fun y => gauResid y mu sigma) = (fun x : ℝ => x / sigma) ∘ fun y => y - mu := rfl
  rw [e, ← Measure.map_map (by fun_prop) (by fun_prop), ProbabilityTheory.gaussianReal_map_sub_const,
    ProbabilityTheory.gaussianReal_map_div_const]
  congr 1
  · simp
  · ext
    simp only [NNReal.coe_div, Real.coe_toNNReal _ (sq_nonneg sigma), NNReal.coe_one]
    exact div_self (by positivity)

example : (0 : ℝ) < 1 / 2 ∧ gauD1sigma 3 1 (1 / 2) ≠ 0 := by
  refine ⟨by norm_num, ?_⟩
  norm_num [gauD1sigma]

/-! ### Gamma -/

theorem gamLp_eq {mu s y : ℝ} (hs : 0 < s) (hm : 0 < mu) (hy : 0 < y) :
    gamLp y mu s = (1 / s) * Real.log (1 / s) - gammaln (1 / s) + (1 / s - 1) * Real.log y
      - (1 / s) * Real.log mu - (1 / s) * (y / mu) := by
  have h := Fam.lp_eq (fam := .gamma) (show y ∈ Fam.FamKind.gamma.obs from hy) hs
    (show mu ∈ Fam.FamKind.gamma.dom from hm)
  simp only [Fam.FamKind.lp, Fam.FamKind.lR, Fam.FamKind.cR] at h
  have hp : 0 < Fam.gammaPdf y (1 / s) (1 / (1 / s / mu)) :=
    ProbabilityTheory.gammaPDFReal_pos (by positivity) (by positivity) hy
  rw [Fl.log_fin hp, Fl.fin_inj] at h
  simp only [gamLp]
  rw [h]
  unfold gammaln
  field_simp
  ring

/-- **C19.** Gamma location-scale family: derivatives in mean and scale. -/
theorem gam_first {mu s y : ℝ} (hs : 0 < s) (hm : 0 < mu) (hy : 0 < y) :
    0 < Fam.gammaPdf y (1 / s) (1 / (1 / s / mu)) ∧
    HasDerivAt (fun m => gamLp y m s) (gamD1mu y mu s) mu ∧
    HasDerivAt (fun t => gamLp y mu t) (gamD1scale y mu s) s := by
  refine ⟨ProbabilityTheory.gammaPDFReal_pos (by positivity) (by positivity) hy, ?_, ?_⟩
  · have he : (fun m => gamLp y m s) =ᶠ[𝓝 mu] fun m => (1 / s) * Real.log (1 / s) - gammaln (1 / s)
        + (1 / s - 1) * Real.log y - (1 / s) * Real.log m - (1 / s) * (y / m) := by
      filter_upwards [isOpen_Ioi.mem_nhds (show mu ∈ Set.Ioi (0 : ℝ) from hm)] with m hm'
      exact gamLp_eq hs hm' hy
    have h1 := ((Real.hasDerivAt_log hm.ne').const_mul (1 / s)).const_sub
      ((1 / s) * Real.log (1 / s) - gammaln (1 / s) + (1 / s - 1) * Real.log y)
    have h2 := ((hasDerivAt_const mu y).div (hasDerivAt_id mu) hm.ne').const_mul (1 / s)
    refine ((h1.sub h2).congr_of_eventuallyEq he).congr_deriv ?_
    simp only [gamD1mu, id]
    field_simp
    ring
  · have he : (fun t => gamLp y mu t) =ᶠ[𝓝 s] (fun a : ℝ => a * Real.log a - gammaln a
        + (a - 1) * Real.log y - a * Real.log mu - a * (y / mu)) ∘ fun t => 1 / t := by
      filter_upwards [isOpen_Ioi.mem_nhds (show s ∈ Set.Ioi (0 : ℝ) from hs)] with t ht
      exact gamLp_eq ht hm hy
    have ha : (0 : ℝ) < 1 / s := by positivity
    have hd : HasDerivAt (fun t : ℝ => 1 / t) (-1 / s ^ 2) s := by
      refine ((hasDerivAt_const s (1 : ℝ)).div (hasDerivAt_id s) hs.ne').congr_deriv ?_
      simp
    have h1 : HasDerivAt (fun a : ℝ => a * Real.log a - gammaln a
        + (a - 1) * Real.log y - a * Real.log mu - a * (y / mu))
        (Real.log (1 / s) + 1 - digamma (1 / s) + Real.log y - Real.log mu - y / mu) (1 / s) := by
      have := (((((hasDerivAt_id (1 / s)).mul (Real.hasDerivAt_log ha.ne')).sub
        (gammaln_hasDeriv ha)).add (((hasDerivAt_id (1 / s)).sub_const 1).mul_const (Real.log y))).sub
        ((hasDerivAt_id (1 / s)).mul_const (Real.log mu))).sub
        ((hasDerivAt_id (1 / s)).mul_const (y / mu))
      refine this.congr_deriv ?_
      simp only [id]
      field_simp
    refine ((h1.comp s hd).congr_of_eventuallyEq he).congr_deriv ?_
    rw [Real.log_div one_ne_zero hs.ne', Real.log_one]
    simp only [gamD1scale]
    ring

example : (0 : ℝ) < 1 / 2 ∧ (0 : ℝ) < 2 ∧ (0 : ℝ) < 3 ∧ gamD1mu 3 2 (1 / 2) ≠ 0 := by
  refine ⟨by norm_num, by norm_num, by norm_num, ?_⟩
  norm_num [gamD1mu]

/-! ### Multinomial -/

theorem norm_pos {K : ℕ} {mus : Fin K → ℝ} (h : ∀ i, 0 < mus i) : 0 < norm mus := by
  have : 0 ≤ ∑ i, mus i := Finset.sum_nonneg fun i _ => (h i).le
  unfold norm; linarith

theorem mnProb_zero {K : ℕ} {mus : Fin K → ℝ} (h : ∀ i, 0 < mus i) :
    mnProb mus 0 = 1 / norm mus := by
  have : ∀ pi : Fin K, ¬ (0 = pi.val + 1) := fun pi => by omega
  simp only [mnProb, mnLp, this, if_false, Finset.sum_const_zero, add_zero]
  rw [Real.exp_neg, Real.exp_log (norm_pos h), one_div]

theorem mnProb_succ {K : ℕ} {mus : Fin K → ℝ} (h : ∀ i, 0 < mus i) (i : Fin K) :
    mnProb mus (i.val + 1) = mus i / norm mus := by
  have e : (∑ pi : Fin K, if i.val + 1 = pi.val + 1 then Real.log (mus pi) else 0)
      = Real.log (mus i) := by
    have : ∀ pi : Fin K, (i.val + 1 = pi.val + 1) = (i = pi) := fun pi => by
      simp [Fin.ext_iff]
    simp only [this, Finset.sum_ite_eq, Finset.mem_univ, if_true]
  simp only [mnProb, mnLp, e]
  rw [Real.exp_add, Real.exp_neg, Real.exp_log (norm_pos h), Real.exp_log (h i)]
  field_simp

/-- **C19.** Multinomial class probabilities are positive and sum to one. -/
theorem mn_probs {K : ℕ} {mus : Fin K → ℝ} (h : ∀ i, 0 < mus i) :
    (∀ k, 0 < mnProb mus k) ∧ ∑ k ∈ Finset.range (K + 1), mnProb mus k = 1 := by
  refine ⟨fun k => Real.exp_pos _, ?_⟩
  rw [Finset.sum_range_succ', mnProb_zero h, Finset.sum_range (fun k => mnProb mus (k + 1))]
  simp only [mnProb_succ h]
  rw [← Finset.sum_div, ← add_div]
  exact div_self (norm_pos h).ne'

/-- Means as a function of the linear predictors (`LOG` links, 3002). -/
noncomputable def muOf {K : ℕ} (eta : Fin K → ℝ) : Fin K → ℝ := fun i => Real.exp (eta i)

theorem mu_upd {K : ℕ} (eta : Fin K → ℝ) (j i : Fin K) (t : ℝ) :
    muOf (Function.update eta j t) i = if i = j then Real.exp t else muOf eta i := by
  unfold muOf
  by_cases h : i = j
  · subst h; simp
  · simp [h]

theorem norm_upd {K : ℕ} (eta : Fin K → ℝ) (j : Fin K) :
    HasDerivAt (fun t => norm (muOf (Function.update eta j t))) (muOf eta j) (eta j) := by
  have h : HasDerivAt (fun t => ∑ i, muOf (Function.update eta j t) i)
      (∑ i, if i = j then Real.exp (eta j) else 0) (eta j) := by
    refine HasDerivAt.fun_sum fun i _ => ?_
    by_cases hij : i = j
    · simp only [mu_upd, hij, if_true]; exact Real.hasDerivAt_exp _
    · simp only [mu_upd, hij, if_false]; exact hasDerivAt_const _ _
  refine (h.add_const 1).congr_deriv ?_
  simp [muOf]

theorem muOf_pos {K : ℕ} (eta : Fin K → ℝ) (i : Fin K) : 0 < muOf eta i := Real.exp_pos _

theorem upd_self {K : ℕ} (eta : Fin K → ℝ) (j : Fin K) : Function.update eta j (eta j) = eta :=
  Function.update_eq_self j eta

/-- **C19.** Multinomial family: `d1` is the derivative of the log probability in the linear
predictor. -/
theorem mn_first {K : ℕ} (y : ℕ) (eta : Fin K → ℝ) (j : Fin K) :
    ∃ d, mnD1 y (muOf eta) j.val = some d ∧
      HasDerivAt (fun t => mnLp y (muOf (Function.update eta j t))) d (eta j) := by
  refine ⟨-(muOf eta j / norm (muOf eta)) + if y = j.val + 1 then 1 else 0, by simp [mnD1], ?_⟩
  have h1 := (norm_upd eta j).log (by rw [upd_self]; exact (norm_pos (muOf_pos eta)).ne')
  have h2 : HasDerivAt (fun t => ∑ pi : Fin K, if y = pi.val + 1 then
      Real.log (muOf (Function.update eta j t) pi) else 0)
      (∑ pi : Fin K, if pi = j then (if y = j.val + 1 then 1 else 0) else 0) (eta j) := by
    refine HasDerivAt.fun_sum fun pi _ => ?_
    by_cases hpj : pi = j
    · subst hpj
      simp only [mu_upd, if_true, Real.log_exp]
      by_cases hy : y = pi.val + 1
      · simp only [hy, if_true]; exact hasDerivAt_id _
      · simp only [hy, if_false]; exact hasDerivAt_const _ _
    · simp only [mu_upd, hpj, if_false]; exact hasDerivAt_const _ _
  refine (h1.neg.add h2).congr_deriv ?_
  rw [upd_self]
  simp

/-- **C60.** Multinomial family: `d2` is the derivative of `d1` in the same predictor (exactly). -/
theorem mn_second {K : ℕ} (y : ℕ) (eta : Fin K → ℝ) (j : Fin K) :
    ∃ (d1 : ℝ → ℝ) (d2 : ℝ), (∀ t, mnD1 y (muOf (Function.update eta j t)) j.val = some (d1 t)) ∧
      mnD2 (muOf eta) j.val = some d2 ∧ HasDerivAt d1 d2 (eta j) := by
  refine ⟨fun t => -(muOf (Function.update eta j t) j / norm (muOf (Function.update eta j t))) +
    if y = j.val + 1 then 1 else 0, _, fun t => by simp [mnD1], by simp [mnD2]; rfl, ?_⟩
  have hn := norm_pos (muOf_pos eta)
  have hm : HasDerivAt (fun t => muOf (Function.update eta j t) j) (muOf eta j) (eta j) := by
    simp only [mu_upd, if_true]; exact Real.hasDerivAt_exp _
  have h := (hm.div (norm_upd eta j) (by rw [upd_self]; exact hn.ne')).neg.add_const
    (if y = j.val + 1 then (1 : ℝ) else 0)
  refine h.congr_deriv ?_
  rw [upd_self]
  field_simp
  ring

theorem dpairs_mem {K i j : ℕ} : (i, j) ∈ dpairs K ↔ i < j ∧ j < K := by
  simp only [dpairs, List.mem_flatMap, List.mem_range, List.mem_map, List.mem_range'_1, Prod.mk.injEq]
  constructor
  · rintro ⟨a, ha, b, hb, rfl, rfl⟩; omega
  · rintro ⟨h1, h2⟩; exact ⟨i, by omega, j, by omega, rfl, rfl⟩

/-- **C60.** Multinomial family: every mixed derivative index denotes a pair of different predictors
`i < j`, and `d2m` is the mixed second derivative (exactly). -/
theorem mn_mixed {K : ℕ} (y : ℕ) (eta : Fin K → ℝ) (index : ℕ) (hi : index < (dpairs K).length) :
    ∃ (i j : Fin K) (d1 : ℝ → ℝ) (d : ℝ), i < j ∧ (dpairs K)[index]? = some (i.val, j.val) ∧
      (∀ t, mnD1 y (muOf (Function.update eta j t)) i.val = some (d1 t)) ∧
      mnD2m (muOf eta) index = some d ∧ HasDerivAt d1 d (eta j) := by
  obtain ⟨a, b, hab⟩ : ∃ a b, (dpairs K)[index]? = some (a, b) :=
    ⟨_, _, List.getElem?_eq_getElem hi⟩
  have hmem : (a, b) ∈ dpairs K := List.mem_of_getElem? hab
  rw [dpairs_mem] at hmem
  set i : Fin K := ⟨a, by omega⟩
  set j : Fin K := ⟨b, hmem.2⟩
  have hij : i ≠ j := by intro h; have := congrArg Fin.val h; simp only [i, j] at this; omega
  refine ⟨i, j, fun t => -(muOf (Function.update eta j t) i / norm (muOf (Function.update eta j t))) +
    if y = i.val + 1 then 1 else 0, _, hmem.1, hab, fun t => by simp [mnD1],
    by simp only [mnD2m, hab]; rw [dif_pos ⟨by omega, hmem.2⟩], ?_⟩
  have hn := norm_pos (muOf_pos eta)
  have hm : HasDerivAt (fun t => muOf (Function.update eta j t) i) 0 (eta j) := by
    simp only [mu_upd, hij, if_false]; exact hasDerivAt_const _ _
  have h := (hm.div (norm_upd eta j) (by rw [upd_self]; exact hn.ne')).neg.add_const
    (if y = i.val + 1 then (1 : ℝ) else 0)
  refine h.congr_deriv ?_
  rw [upd_self]
  simp only [i, j]
  field_simp
  ring

/-- **C60.** The mixed derivative indices enumerate every pair exactly once. -/
theorem dpairs_complete (K : ℕ) : (dpairs K).Nodup ∧ ∀ i j, (i, j) ∈ dpairs K ↔ i < j ∧ j < K := by
  refine ⟨?_, fun i j => dpairs_mem⟩
  unfold dpairs
  rw [List.nodup_flatMap]
  constructor
  · intro i _
    exact (List.nodup_range' (s := i + 1)).map fun a b h => by simpa using h
  · refine List.Pairwise.imp ?_ (List.nodup_range (n := K))
    intro a b hab
    simp only [Function.onFun, List.disjoint_left, List.mem_map]
    rintro x ⟨c, _, rfl⟩ ⟨d, _, hd⟩
    exact hab (by simpa using (congrArg Prod.fst hd).symm)

example : dpairs 3 = [(0, 1), (0, 2), (1, 2)] := by decide

/-! ### Quantile residuals (C52) -/

/-- Cumulative sum of the first `c` means. -/
noncomputable def cum {K : ℕ} (mus : Fin K → ℝ) (c : ℕ) : ℝ :=
  ∑ pi : Fin K, if c > pi.val then mus pi else 0

theorem cum_pos {K : ℕ} {mus : Fin K → ℝ} (h : ∀ i, 0 < mus i) {c : ℕ} (hc : 0 < c) (hK : 0 < K) :
    0 < cum mus c := by
  refine Finset.sum_pos' (fun i _ => ?_) ⟨⟨0, hK⟩, Finset.mem_univ _, ?_⟩
  · split_ifs
    · exact (h i).le
    · exact le_rfl
  · rw [if_pos hc]; exact h _

theorem exp_lcp {K : ℕ} {mus : Fin K → ℝ} (h : ∀ i, 0 < mus i) {c : ℕ} (hc : 0 < c) (hK : 0 < K) :
    Real.exp (mnLcp c mus) = cum mus c / norm mus := by
  have hp := cum_pos h hc hK
  simp only [mnLcp, hc, gt_iff_lt, if_true, Nat.pos_iff_ne_zero.1 hc, if_false]
  rw [Real.exp_sub, Real.exp_log (norm_pos h)]
  congr 1
  exact Real.exp_log hp

theorem exp_lcp_zero {K : ℕ} (mus : Fin K → ℝ) : Real.exp (mnLcp 0 mus) = 1 := by
  simp [mnLcp]

theorem comp_get {K yi : ℕ} (h0 : 0 < yi) (h : yi ≤ K) : (comp K).getD yi 0 = K + 1 - yi := by
  obtain ⟨m, rfl⟩ : ∃ m, yi = m + 1 := ⟨yi - 1, by omega⟩
  simp only [comp, List.getD_cons_succ]
  rw [List.getD_eq_getElem?_getD, List.getElem?_reverse (by simp; omega)]
  simp only [List.length_range']
  rw [List.getElem?_range' (by omega)]
  simp
  omega

/-- The fold over the class order assigns class `y` its own bounds (classes occur once). -/
theorem fold_assign {α : Type} (L : List ℕ) (g : ℕ → ℕ) (f : ℕ → α) (y : ℕ) (init : α)
    (hL : L.Nodup) (hg : ∀ a ∈ L, ∀ b ∈ L, g a = g b → a = b) :
    (∀ a ∈ L, g a = y → L.foldl (fun iv yi => if y = g yi then f yi else iv) init = f a) ∧
    ((∀ a ∈ L, g a ≠ y) → L.foldl (fun iv yi => if y = g yi then f yi else iv) init = init) := by
  induction L generalizing init with
  | nil => simp
  | cons b L ih =>
    rw [List.nodup_cons] at hL
    have hg' : ∀ a ∈ L, ∀ b ∈ L, g a = g b → a = b := fun a ha c hc =>
      hg a (List.mem_cons_of_mem _ ha) c (List.mem_cons_of_mem _ hc)
    simp only [List.foldl_cons]
    constructor
    · intro a ha hga
      rcases List.mem_cons.1 ha with rfl | ha'
      · rw [if_pos hga.symm]
        refine (ih (f a) hL.2 hg').2 fun c hc hgc => ?_
        have := hg a (List.mem_cons_self) c (List.mem_cons_of_mem _ hc) (by rw [hga, hgc])
        subst this; exact hL.1 hc
      · exact (ih _ hL.2 hg').1 a ha' hga
    · intro hn
      rw [if_neg (fun h => hn b (List.mem_cons_self) h.symm)]
      exact (ih init hL.2 hg').2 fun a ha => hn a (List.mem_cons_of_mem _ ha)

/-- The interval of each class. -/
theorem mnInterval_eq {K : ℕ} {mus : Fin K → ℝ} (h : ∀ i, 0 < mus i) (hK : 0 < K) {y : ℕ}
    (hy : y ≤ K) :
    mnInterval y mus = if y = 0 then (cum mus K / norm mus, 1)
      else (cum mus (y - 1) / norm mus, cum mus y / norm mus) := by
  have hlen : (comp K).length - 1 = K := by simp [comp]
  have h0 : (comp K).getD 0 0 = 0 := by simp [comp]
  have hval : ∀ a, a < K → (comp K).getD a 0 = if a = 0 then 0 else K + 1 - a := by
    intro a ha
    by_cases ha0 : a = 0
    · subst ha0; rw [if_pos rfl]; exact h0
    · rw [if_neg ha0, comp_get (by omega) (by omega)]
  have hg : ∀ a ∈ List.range K, ∀ b ∈ List.range K, (comp K).getD a 0 = (comp K).getD b 0 →
      a = b := by
    intro a ha b hb hab
    rw [List.mem_range] at ha hb
    rw [hval a ha, hval b hb] at hab
    split_ifs at hab <;> omega
  have F := fold_assign (List.range K) (fun yi => (comp K).getD yi 0)
    (fun yi => (Real.exp (mnLcp ((comp K).getD (yi + 1) 0) mus),
      Real.exp (mnLcp ((comp K).getD yi 0) mus))) y ((0 : ℝ), (0 : ℝ)) List.nodup_range hg
  simp only [mnInterval, hlen]
  by_cases hy0 : y = 0
  · subst hy0
    rw [F.1 0 (List.mem_range.2 hK) h0]
    simp only [if_true, h0, exp_lcp_zero]
    rw [if_neg (by omega), comp_get (by omega) (by omega), exp_lcp h (by omega) hK]
    simp
  by_cases hy1 : y = 1
  · subst hy1
    rw [F.2 (fun a ha => by
      rw [List.mem_range] at ha
      rw [hval a ha]; split_ifs <;> omega)]
    simp only [if_true, if_neg hy0]
    rw [exp_lcp h (by omega) hK]
    simp [cum]
  · have ha : K + 1 - y < K := by omega
    rw [F.1 (K + 1 - y) (List.mem_range.2 ha) (by rw [hval _ ha, if_neg (by omega)]; omega)]
    rw [if_neg hy1, if_neg hy0, comp_get (by omega) (by omega), comp_get (by omega) (by omega)]
    have e1 : K + 1 - (K + 1 - y + 1) = y - 1 := by omega
    have e2 : K + 1 - (K + 1 - y) = y := by omega
    rw [e1, e2, exp_lcp h (by omega) hK, exp_lcp h (by omega) hK]

theorem cum_succ {K : ℕ} (mus : Fin K → ℝ) (i : Fin K) :
    cum mus (i.val + 1) = cum mus i.val + mus i := by
  have : mus i = ∑ pi : Fin K, if pi = i then mus pi else 0 := by simp
  rw [this]
  unfold cum
  rw [← Finset.sum_add_distrib]
  refine Finset.sum_congr rfl fun pi _ => ?_
  by_cases h1 : pi = i
  · subst h1; simp
  · have h2 : pi.val ≠ i.val := fun h => h1 (Fin.ext h)
    by_cases h3 : i.val > pi.val
    · rw [if_pos (by omega), if_pos h3, if_neg h1, add_zero]
    · rw [if_neg (by omega), if_neg h3, if_neg h1, add_zero]

theorem cum_all {K : ℕ} (mus : Fin K → ℝ) : cum mus K + 1 = norm mus := by
  unfold cum norm
  congr 1
  exact Finset.sum_congr rfl fun i _ => if_pos i.isLt

theorem cum_zero {K : ℕ} (mus : Fin K → ℝ) : cum mus 0 = 0 := by simp [cum]

theorem cum_mono {K : ℕ} {mus : Fin K → ℝ} (h : ∀ i, 0 < mus i) {a b : ℕ} (hab : a ≤ b) :
    cum mus a ≤ cum mus b := by
  refine Finset.sum_le_sum fun i _ => ?_
  by_cases h1 : a > i.val
  · rw [if_pos h1, if_pos (by omega)]
  · rw [if_neg h1]; split_ifs
    · exact (h i).le
    · exact le_rfl

/-- **C52.** The interval of a class has the class probability as length and lies in `[0, 1]`. -/
theorem interval_length {K : ℕ} {mus : Fin K → ℝ} (h : ∀ i, 0 < mus i) (hK : 0 < K) {y : ℕ}
    (hy : y ≤ K) :
    (mnInterval y mus).2 - (mnInterval y mus).1 = mnProb mus y ∧
      0 ≤ (mnInterval y mus).1 ∧ (mnInterval y mus).2 ≤ 1 := by
  have hn := norm_pos h
  rw [mnInterval_eq h hK hy]
  by_cases hy0 : y = 0
  · subst hy0
    simp only [if_true]
    refine ⟨?_, div_nonneg (by rw [← cum_zero mus]; exact cum_mono h (by omega)) hn.le, le_rfl⟩
    rw [mnProb_zero h, ← cum_all mus]
    have : cum mus K + 1 ≠ 0 := by rw [cum_all]; exact hn.ne'
    field_simp
    ring
  · simp only [if_neg hy0]
    obtain ⟨m, rfl⟩ : ∃ m, y = m + 1 := ⟨y - 1, by omega⟩
    have hm : m < K := by omega
    simp only [Nat.add_sub_cancel]
    refine ⟨?_, div_nonneg (by rw [← cum_zero mus]; exact cum_mono h (by omega)) hn.le, ?_⟩
    · have := mnProb_succ h ⟨m, hm⟩
      have hc := cum_succ mus ⟨m, hm⟩
      simp only at this hc
      rw [this, hc]
      field_simp
      ring
    · rw [div_le_one hn]
      have := cum_mono h hy (mus := mus)
      have := cum_all mus
      linarith

/-- **C52.** The intervals of different classes do not overlap: the class order is
`1 < 2 < ... < K < 0`, each interval starts where the previous one ends, the first at 0, the last
ending at 1. -/
theorem intervals_partition {K : ℕ} {mus : Fin K → ℝ} (h : ∀ i, 0 < mus i) (hK : 0 < K) :
    (mnInterval 1 mus).1 = 0 ∧
    (∀ c, 1 ≤ c → c < K → (mnInterval (c + 1) mus).1 = (mnInterval c mus).2) ∧
    (mnInterval 0 mus).1 = (mnInterval K mus).2 ∧ (mnInterval 0 mus).2 = 1 := by
  refine ⟨?_, fun c h1 h2 => ?_, ?_, ?_⟩
  · rw [mnInterval_eq h hK (by omega)]; simp [cum_zero]
  · rw [mnInterval_eq h hK (by omega), mnInterval_eq h hK (by omega)]
    rw [if_neg (by omega), if_neg (by omega)]; simp
  · rw [mnInterval_eq h hK (by omega), mnInterval_eq h hK le_rfl, if_pos rfl, if_neg (by omega)]
  · rw [mnInterval_eq h hK (by omega), if_pos rfl]

/-- Probability that a uniform draw on `(lo, lo + p)` is at most `t`, times `p`. -/
theorem vol_piece {lo p t : ℝ} (hp : 0 < p) :
    p * volume.real {u : ℝ | u ∈ Set.Ioo 0 1 ∧ lo + p * u ≤ t} =
      max 0 (min (lo + p) t - lo) := by
  have e : {u : ℝ | u ∈ Set.Ioo 0 1 ∧ lo + p * u ≤ t} = Set.Ioo 0 1 ∩ Set.Iic ((t - lo) / p) := by
    ext u
    simp only [Set.mem_ofPred_eq, Set.mem_inter_iff, Set.mem_Iic]
    rw [le_div_iff₀ hp]
    constructor
    · rintro ⟨h1, h2⟩; exact ⟨h1, by linarith⟩
    · rintro ⟨h1, h2⟩; exact ⟨h1, by linarith⟩
  rw [e]
  have hv : volume (Set.Ioo (0 : ℝ) 1 ∩ Set.Iic ((t - lo) / p)) =
      ENNReal.ofReal (min 1 ((t - lo) / p)) := by
    rcases le_or_gt 1 ((t - lo) / p) with h1 | h1
    · have : Set.Ioo (0 : ℝ) 1 ∩ Set.Iic ((t - lo) / p) = Set.Ioo 0 1 := by
        rw [Set.inter_eq_left]; intro u hu; exact (hu.2.le.trans h1)
      rw [this, Real.volume_Ioo, min_eq_left h1, sub_zero]
    · have : Set.Ioo (0 : ℝ) 1 ∩ Set.Iic ((t - lo) / p) = Set.Ioc 0 ((t - lo) / p) := by
        ext u
        simp only [Set.mem_inter_iff, Set.mem_Ioo, Set.mem_Iic, Set.mem_Ioc]
        constructor
        · rintro ⟨⟨a, b⟩, c⟩; exact ⟨a, c⟩
        · rintro ⟨a, c⟩; exact ⟨⟨a, by linarith⟩, c⟩
      rw [this, Real.volume_Ioc, min_eq_right h1.le, sub_zero]
  rw [measureReal_def, hv, ENNReal.toReal_ofReal']
  rw [mul_max_of_nonneg _ _ hp.le, mul_min_of_nonneg _ _ hp.le]
  have e2 : p * ((t - lo) / p) = t - lo := by field_simp
  rw [e2, mul_one, mul_zero, max_comm]
  congr 1
  rw [min_sub_sub_right (lo + p) t lo |>.symm]
  simp

theorem piece_telescope {a b t : ℝ} (hab : a ≤ b) :
    max 0 (min b t - a) = (max 0 (min b t) - max 0 (min a t)) ∨ a < 0 := by
  by_cases ha : a < 0
  · exact Or.inr ha
  left
  push Not at ha
  rcases le_total b t with h1 | h1
  · rw [min_eq_left h1, min_eq_left (hab.trans h1), max_eq_right (by linarith),
      max_eq_right (by linarith), max_eq_right ha]
  · rw [min_eq_right h1]
    rcases le_total a t with h2 | h2
    · rw [min_eq_left h2, max_eq_right (by linarith), max_eq_right (by linarith), max_eq_right ha]
    · rw [min_eq_right h2, max_eq_left (by linarith), sub_self]

/-- **C52.** If the class is drawn with the model's probabilities and the uniform residual is drawn
uniformly from the interval of that class, the uniform residual is uniform on `[0, 1]`. -/
theorem residual_uniform {K : ℕ} {mus : Fin K → ℝ} (h : ∀ i, 0 < mus i) (hK : 0 < K) {t : ℝ}
    (ht : t ∈ Set.Icc (0 : ℝ) 1) :
    ∑ y ∈ Finset.range (K + 1), mnProb mus y *
      volume.real {u : ℝ | u ∈ Set.Ioo 0 1 ∧ mnURes y mus u ≤ t} = t := by
  have hn := norm_pos h
  have key : ∀ y, y ≤ K → mnProb mus y *
      volume.real {u : ℝ | u ∈ Set.Ioo 0 1 ∧ mnURes y mus u ≤ t} =
        max 0 (min (mnInterval y mus).2 t) - max 0 (min (mnInterval y mus).1 t) := by
    intro y hy
    obtain ⟨hl, h0, _⟩ := interval_length h hK hy
    unfold mnURes
    rw [hl]
    rw [vol_piece ((mn_probs h).1 y)]
    have : (mnInterval y mus).1 + mnProb mus y = (mnInterval y mus).2 := by linarith
    rw [this]
    refine (piece_telescope (t := t) ?_).resolve_right (not_lt.2 h0)
    have := (mn_probs h).1 y
    linarith
  rw [Finset.sum_range_succ']
  rw [key 0 (by omega)]
  rw [Finset.sum_congr rfl fun y hy => key (y + 1) (by rw [Finset.mem_range] at hy; omega)]
  set G : ℕ → ℝ := fun c => max 0 (min (cum mus c / norm mus) t) with hG
  have e1 : ∀ y ∈ Finset.range K, max 0 (min (mnInterval (y + 1) mus).2 t) -
      max 0 (min (mnInterval (y + 1) mus).1 t) = G (y + 1) - G y := by
    intro y hy
    rw [Finset.mem_range] at hy
    rw [mnInterval_eq h hK (by omega), if_neg (by omega)]
    simp [hG]
  rw [Finset.sum_congr rfl e1, Finset.sum_range_sub, mnInterval_eq h hK (by omega), if_pos rfl]
  simp only [hG, cum_zero, zero_div]
  rw [min_eq_right ht.2, max_eq_right ht.1, min_eq_left ht.1, max_self]
  ring

/-- **C52.** The residual, obtained by the normal quantile function, is standard normal under the
model.  `ppf` is any function with the defining property of the quantile function. -/
theorem residual_normal {K : ℕ} {mus : Fin K → ℝ} (h : ∀ i, 0 < mus i) (hK : 0 < K)
    (ppf : ℝ → ℝ) (hppf : ∀ u ∈ Set.Ioo (0 : ℝ) 1, ∀ x,
      ppf u ≤ x ↔ u ≤ ProbabilityTheory.cdf (ProbabilityTheory.gaussianReal 0 1) x) (x : ℝ) :
    ∑ y ∈ Finset.range (K + 1), mnProb mus y *
      volume.real {u : ℝ | u ∈ Set.Ioo 0 1 ∧ ppf (mnURes y mus u) ≤ x} =
        ProbabilityTheory.cdf (ProbabilityTheory.gaussianReal 0 1) x := by
  have ht : ProbabilityTheory.cdf (ProbabilityTheory.gaussianReal 0 1) x ∈ Set.Icc (0 : ℝ) 1 :=
    ⟨ProbabilityTheory.cdf_nonneg _ _, ProbabilityTheory.cdf_le_one _ _⟩
  conv_rhs => rw [← residual_uniform h hK ht]
  refine Finset.sum_congr rfl fun y hy => ?_
  rw [Finset.mem_range] at hy
  congr 2
  ext u
  simp only [Set.mem_ofPred_eq, and_congr_right_iff]
  intro hu
  apply hppf
  obtain ⟨hl, h0, h1⟩ := interval_length h hK (show y ≤ K by omega)
  have hp := (mn_probs h).1 y
  unfold mnURes
  rw [hl]
  refine ⟨?_, ?_⟩
  · have := mul_pos hp hu.1; linarith
  · have := mul_lt_mul_of_pos_left hu.2 hp
    linarith

example : (∀ i, 0 < (![1, 2] : Fin 2 → ℝ) i) ∧ mnProb ![1, 2] 2 = 1 / 2 := by
  have h : ∀ i, 0 < (![1, 2] : Fin 2 → ℝ) i := by intro i; fin_cases i <;> norm_num
  refine ⟨h, ?_⟩
  have := mnProb_succ h 1
  simp only [Fin.val_one] at this
  rw [this]
  norm_num [norm, Fin.sum_univ_two]

end Verif.Lss
