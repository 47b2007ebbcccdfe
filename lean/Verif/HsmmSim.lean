import Verif.HsmmSimModel
import Verif.HsmmPred
import Mathlib.Probability.Distributions.Gaussian.Real
import Mathlib.Probability.Distributions.Exponential

/-!
# Simulated noise of event models (C104)
-/

namespace Verif.HSim

open Verif.Hsmm MeasureTheory ProbabilityTheory Real

/-! ### Densities -/

/-- C104, Gaussian noise. A drawn number plus the mean has the density that the likelihood uses. -/
theorem gaussian_noise (s pred u x : ℝ) (hs : 0 < s) :
    (gaussianReal 0 1).map (fun z => pred + draw .gaussian s u x z) = volume.withDensity fun y => ENNReal.ofReal (exp (ld .gaussian y pred s)) := by
  have h1 : (gaussianReal 0 1).map (fun z => pred + draw .gaussian s u x z) = gaussianReal pred s.toNNReal := by
    have : (fun z => pred + draw .gaussian s u x z) = (fun x => pred + x) ∘ fun z => √s * z := rfl
    rw [this, ← Measure.map_map (by fun_prop) (by fun_prop), gaussianReal_map_const_mul, gaussianReal_map_const_add]
    congr 1
    · ring
    · ext
      simp [Real.sq_sqrt hs.le, hs.le]
  rw [h1, gaussianReal_of_var_ne_zero _ (by simpa using hs)]
  congr 1
  funext y
  unfold gaussianPDF
  congr 1
  rw [gaussianPDFReal, ld, Real.coe_toNNReal s hs.le]
  rw [sub_sub, ← Real.log_mul (by positivity) (by positivity), Real.exp_sub, Real.exp_log (by positivity), ← Real.sqrt_mul (by positivity), div_eq_inv_mul]
  rw [← div_eq_inv_mul, ← div_eq_inv_mul]
  congr 2
  field_simp
  rw [Real.sq_sqrt hs.le]

/-- C104, exponential noise, likelihood: up to a constant the likelihood of event models is that of a normal distribution with variance `scale / 2`. -/
theorem exponential_kernel (s pred y : ℝ) (hs : 0 < s) :
    exp (ld .exponential y pred s) = √(π / s) * gaussianPDFReal pred (s / 2).toNNReal y := by
  rw [gaussianPDFReal, ld, Real.coe_toNNReal _ (by positivity)]
  rw [Real.exp_sub, Real.exp_log hs, show 2 * π * (s / 2) = π * s by ring, show 2 * (s / 2) = s by ring, div_eq_inv_mul, ← mul_assoc]
  congr 1
  rw [Real.sqrt_div pi_pos.le, Real.sqrt_mul pi_pos.le]
  have h1 := (Real.sqrt_pos.2 pi_pos).ne'
  have h2 := (Real.sqrt_pos.2 hs).ne'
  field_simp
  rw [Real.sq_sqrt hs.le]

/-- Total mass of what the likelihood of event models with exponential noise uses as density of an observation. -/
theorem exponential_total (s pred : ℝ) (hs : 0 < s) : ∫ y, exp (ld .exponential y pred s) = √(π / s) := by
  simp_rw [exponential_kernel s pred _ hs]
  rw [integral_const_mul, integral_gaussianPDFReal_eq_one, mul_one]
  simpa using hs

/-- C104 fails for exponential noise: what the likelihood uses as density of an observation does not integrate to one, unless the scale is `pi`. -/
theorem exponential_total_wrong (s pred : ℝ) (hs : 0 < s) (hne : s ≠ π) : ∫ y, exp (ld .exponential y pred s) ≠ 1 := by
  rw [exponential_total s pred hs]
  intro h
  rw [Real.sqrt_eq_one, div_eq_one_iff_eq hs.ne'] at h
  exact hne h.symm

/-- Law of the numbers behind a draw: uniform on `[0, 1)`, standard exponential, independent. -/
noncomputable def law : Measure (ℝ × ℝ) := (volume.restrict (Set.Ico 0 1)).prod (expMeasure 1)

theorem exp_integral (s : ℝ) (g : ℝ → ℝ) (hg : ∀ x > 0, g x = s * x) (h0 : g 0 = 0) : ∫ x, g x ∂(expMeasure 1) = s := by
  unfold expMeasure gammaMeasure
  rw [integral_withDensity_eq_integral_toReal_smul (by exact (measurable_gammaPDFReal 1 1).ennreal_ofReal) (by
    filter_upwards with x
    exact ENNReal.ofReal_lt_top)]
  have h : ∀ x : ℝ, (gammaPDF 1 1 x).toReal • g x = s * (Set.Ioi (0 : ℝ)).indicator (fun x => x ^ ((2 : ℝ) - 1) * exp (-(1 * x))) x := by
    intro x
    rw [gammaPDF, ENNReal.toReal_ofReal (gammaPDFReal_nonneg one_pos one_pos x), smul_eq_mul, gammaPDFReal]
    by_cases hx : 0 < x
    · rw [Set.indicator_of_mem (by exact hx), if_pos hx.le, hg x hx]
      norm_num
      ring
    · rw [Set.indicator_of_notMem (by simpa using hx)]
      rcases (not_lt.1 hx).lt_or_eq with h | h
      · rw [if_neg (by linarith), zero_mul, mul_zero]
      · rw [h, h0, mul_zero, mul_zero]
  simp_rw [h]
  rw [integral_const_mul, integral_indicator measurableSet_Ioi, Real.integral_rpow_mul_exp_neg_mul_Ioi (by norm_num) one_pos]
  have : Real.Gamma 2 = 1 := by
    have := Real.Gamma_nat_eq_factorial 1
    rw [show ((1 : ℕ) : ℝ) + 1 = 2 by norm_num] at this
    rw [this]
    norm_num
  rw [this]
  norm_num

theorem flip_sq (u : ℝ) : flip u ^ 2 = 1 := by
  unfold flip
  split_ifs <;> norm_num

/-- C104, exponential noise, simulation: drawn numbers have second moment `scale`. -/
theorem exponential_second (s : ℝ) (hs : 0 < s) (z : ℝ) : ∫ w, (draw .exponential s w.1 w.2 z) ^ 2 ∂law = s := by
  have : IsProbabilityMeasure (expMeasure 1) := isProbabilityMeasure_expMeasure one_pos
  have h : ∀ w : ℝ × ℝ, (draw .exponential s w.1 w.2 z) ^ 2 = (fun x => √(s * x) ^ 2) w.2 := by
    intro w
    unfold draw
    rw [mul_pow, flip_sq, one_mul]
  simp_rw [h]
  unfold law
  rw [integral_fun_snd (fun x => √(s * x) ^ 2), exp_integral s]
  · simp
  · intro x hx
    exact Real.sq_sqrt (by positivity)
  · simp

/-- C104, exponential noise: the stored cumulative probability is the probability that the square of simulated noise is at most the squared residual. -/
theorem exponential_square (s pred y z : ℝ) (hs : 0 < s) (hy : y ≠ pred) :
    exp (lcp .exponential y pred s) = law.real {w | (draw .exponential s w.1 w.2 z) ^ 2 ≤ (y - pred) ^ 2} := by
  have : IsProbabilityMeasure (expMeasure 1) := isProbabilityMeasure_expMeasure one_pos
  have hp : 0 < (y - pred) ^ 2 := by
    have := sub_ne_zero.2 hy
    positivity
  have h : {w : ℝ × ℝ | (draw .exponential s w.1 w.2 z) ^ 2 ≤ (y - pred) ^ 2} = Set.univ ×ˢ Set.Iic ((y - pred) ^ 2 / s) := by
    ext w
    simp only [Set.mem_setOf_eq, Set.mem_prod, Set.mem_univ, true_and, Set.mem_Iic, draw, mul_pow, flip_sq, one_mul]
    rw [le_div_iff₀ hs]
    rcases le_total 0 w.2 with hw | hw
    · rw [Real.sq_sqrt (by positivity), mul_comm]
    · rw [Real.sqrt_eq_zero_of_nonpos (mul_nonpos_of_nonneg_of_nonpos hs.le hw)]
      have : w.2 * s ≤ 0 := mul_nonpos_of_nonpos_of_nonneg hw hs.le
      constructor <;> intro _ <;> nlinarith
  rw [h, law, measureReal_prod_prod, ← cdf_eq_real (expMeasure 1), cdf_expMeasure_eq one_pos, if_pos (by positivity), lcp, Real.exp_log]
  · simp
  · rw [sub_pos, Real.exp_lt_one_iff]
    have : 0 < (y - pred) ^ 2 / s := by positivity
    linarith

/-- C104 fails for exponential noise: the distribution behind the likelihood, its kernel divided by its total mass, has variance `scale / 2`,
simulated noise twice as much. -/
theorem exponential_variance_wrong (s pred z : ℝ) (hs : 0 < s) :
    ∫ y, (y - pred) ^ 2 * (exp (ld .exponential y pred s) / ∫ y', exp (ld .exponential y' pred s)) = s / 2 ∧
    ∫ w, (draw .exponential s w.1 w.2 z) ^ 2 ∂law = 2 * (s / 2) := by
  refine ⟨?_, by rw [exponential_second s hs]; ring⟩
  rw [exponential_total s pred hs]
  have hp : √(π / s) ≠ 0 := (Real.sqrt_pos.2 (by positivity)).ne'
  have h : ∀ y, (y - pred) ^ 2 * (exp (ld .exponential y pred s) / √(π / s)) = gaussianPDFReal pred (s / 2).toNNReal y • (y - pred) ^ 2 := by
    intro y
    rw [exponential_kernel s pred y hs, mul_div_cancel_left₀ _ hp, smul_eq_mul, mul_comm]
  simp_rw [h]
  rw [← integral_gaussianReal_eq_integral_smul (by simpa using hs)]
  have hv := variance_fun_id_gaussianReal (μ := pred) (v := (s / 2).toNNReal)
  rw [variance_eq_integral (by fun_prop)] at hv
  rw [integral_id_gaussianReal] at hv
  rw [hv, Real.coe_toNNReal _ (by positivity)]

/-- C104, Gaussian noise. The cumulative probability stored for the residuals is that of the density. -/
theorem gaussian_cdf (s pred y : ℝ) (hs : 0 < s) :
    exp (lcp .gaussian y pred s) = (volume.withDensity fun y => ENNReal.ofReal (exp (ld .gaussian y pred s))).real (Set.Iic y) := by
  rw [← gaussian_noise s pred 0 0 hs, map_measureReal_apply (by unfold draw; fun_prop) measurableSet_Iic]
  have hq : 0 < √s := Real.sqrt_pos.2 hs
  have h : (fun z => pred + draw .gaussian s 0 0 z) ⁻¹' Set.Iic y = Set.Iic ((y - pred) / √s) := by
    ext z
    simp only [Set.mem_preimage, Set.mem_Iic, draw]
    rw [le_div_iff₀ hq]
    constructor <;> intro h <;> linarith
  rw [h, lcp, cdf_eq_real, Real.exp_log]
  rw [measureReal_def, ENNReal.toReal_pos_iff]
  refine ⟨?_, measure_lt_top _ _⟩
  rw [pos_iff_ne_zero]
  intro h0
  have := (gaussianReal_absolutelyContinuous' 0 (v := 1) one_ne_zero) h0
  simp at this

/-- C104 fails for exponential noise: the cumulative probability stored for the residuals is not monotone, so it is that of no distribution. -/
theorem exponential_cdf_wrong (s pred : ℝ) (hs : 0 < s) (μ : Measure ℝ) [IsProbabilityMeasure μ] :
    ¬ ∀ y ≠ pred, exp (lcp .exponential y pred s) = μ.real (Set.Iic y) := by
  intro h
  have hp : ∀ d : ℝ, d ≠ 0 → exp (lcp .exponential (pred + d) pred s) = 1 - exp (-(d ^ 2 / s)) := by
    intro d hd
    rw [lcp, Real.exp_log, add_sub_cancel_left]
    rw [add_sub_cancel_left, sub_pos, Real.exp_lt_one_iff]
    have : 0 < d ^ 2 / s := by positivity
    linarith
  have h1 := h (pred + -2) (by simp)
  have h2 := h (pred + -1) (by simp)
  rw [hp _ (by norm_num)] at h1 h2
  have hm : μ.real (Set.Iic (pred + -2)) ≤ μ.real (Set.Iic (pred + -1)) := measureReal_mono (Set.Iic_subset_Iic.2 (by linarith))
  rw [← h1, ← h2] at hm
  have : exp (-((-2) ^ 2 / s)) < exp (-((-1) ^ 2 / s)) := by
    rw [Real.exp_lt_exp, neg_lt_neg_iff, div_lt_div_iff_of_pos_right hs]
    norm_num
  linarith

example : (gaussianReal 0 1).map (fun z => 3 + draw .gaussian 2 0 0 z) = volume.withDensity fun y => ENNReal.ofReal (exp (ld .gaussian y 3 2)) :=
  gaussian_noise 2 3 0 0 two_pos

example : ∫ y, exp (ld .exponential y 3 1) ≠ 1 := exponential_total_wrong 1 3 one_pos (by linarith [pi_gt_three])

/-! ### Seeds -/

/-- C104. Different states or signals get different seeds. -/
theorem seeds_distinct (seed M j k j' k' : ℕ) (hk : k < M) (hk' : k' < M) (h : seedOf seed M j k = seedOf seed M j' k') : j = j' ∧ k = k' := by
  have h : j * M + k = j' * M + k' := by
    unfold seedOf at h
    omega
  have hj : j = j' := by
    have e1 : (j * M + k) / M = j := by rw [mul_comm, Nat.mul_add_div (by omega), Nat.div_eq_of_lt hk, add_zero]
    have e2 : (j' * M + k') / M = j' := by rw [mul_comm, Nat.mul_add_div (by omega), Nat.div_eq_of_lt hk', add_zero]
    rw [← e1, h, e2]
  subst hj
  omega

/-- C104. Different time points and samples use different numbers of a stream. -/
theorem draws_distinct (n t i t' i' : ℕ) (hi : i < n) (hi' : i' < n) (h : t * n + i = t' * n + i') : t = t' ∧ i = i' := by
  have := seeds_distinct 0 n t i t' i' hi hi' (by unfold seedOf; omega)
  exact this

example : seedOf 0 3 1 2 ≠ seedOf 0 3 2 1 := by decide

/-- One flat that whose drawn duration is one or two, with probability one half each. -/
noncomputable def longShort : Tables ℝ where
  n_T := 2
  D := 3
  n_S := 1
  event_width := 1
  starts_with_first := true
  ends_with_last := false
  ends_in_last := false
  hmp := true
  tvdtpi := false
  bs2 := fun _ _ => 1
  bs3 := fun _ _ _ => 1
  ds2 := fun _ _ => 1 / 2
  ds3 := fun _ _ _ => 1 / 2
  T2 := fun _ _ => 1
  T3 := fun _ _ _ => 1
  pi := fun _ => 1

/-- C104 fails: states (hsmm.py 1765) and the signs of the noise of the first state and signal (883) are drawn from the same numbers. In this
event model, with one sample, the noise at the second time point is positive exactly if the longer duration was drawn. -/
theorem sign_states_wrong (gen expo norm : ℕ → ℕ → ℝ) (hu : ∀ a i, gen a i ∈ Set.Ico (0 : ℝ) 1) (hx : ∀ a i, 0 < expo a i) (s : ℝ) (hs : 0 < s) (seed M : ℕ) :
    0 < noise .exponential gen expo norm s seed M 1 0 1 0 0 ↔ (HPred.initial longShort (gen seed) 0).dur = 2 := by
  have hp : HPred.pick 2 (fun _ => (1 / 2 : ℝ)) (gen seed 1) = if gen seed 1 ≥ 1 / 2 then 1 else 0 := by
    have h2 := (hu seed 1).2
    have h1 := (hu seed 1).1
    unfold HPred.pick
    rw [Finset.range_add_one, Finset.range_one]
    rw [Finset.filter_insert, Finset.filter_singleton]
    simp only [Finset.sum_range_succ, Finset.sum_range_zero]
    norm_num
    rw [if_neg (by linarith)]
    split_ifs <;> simp_all
  have hd : (HPred.initial longShort (gen seed) 0).dur = (HPred.pick 2 (fun _ => (1 / 2 : ℝ)) (gen seed 1) : ℤ) + 1 := rfl
  rw [hd, hp]
  have hn : noise .exponential gen expo norm s seed M 1 0 1 0 0 = flip (gen seed 1) * √(s * expo seed 1) := by
    unfold noise seedOf draw
    simp
  have hpos : 0 < √(s * expo seed 1) := Real.sqrt_pos.2 (mul_pos hs (hx _ _))
  rw [hn]
  unfold flip
  split_ifs with h
  · simp [hpos]
  · simp

example : ∃ gen expo : ℕ → ℕ → ℝ, (∀ a i, gen a i ∈ Set.Ico (0 : ℝ) 1) ∧ (∀ a i, 0 < expo a i) :=
  ⟨fun _ _ => 0, fun _ _ => 1, fun _ _ => by simp, fun _ _ => one_pos⟩

end Verif.HSim
