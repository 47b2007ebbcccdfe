import Verif.DensModel
import Verif.DensIg
import Verif.DensT
import Verif.Fam
import Verif.FtestLemmas
import Mathlib.Probability.Distributions.Poisson.Basic
import Mathlib.Analysis.SpecialFunctions.Bernstein
import Mathlib.Probability.Moments.Variance

/-!
# Lemmas for C118
-/

namespace Verif.Dens
open Verif Fl MeasureTheory ProbabilityTheory Real
open scoped ENNReal

theorem hasSum_of {f g : ℕ → ℝ} {a b : ℝ} (h : HasSum f a) (e : ∀ k, g k = f k) (eb : b = a) : HasSum g b := by
  rw [eb, funext e]
  exact h

theorem enn_log {d : ℝ} (hd : 0 ≤ d) : toENN (Fl.exp (Fl.log (fin d))) = ENNReal.ofReal d := by
  rcases hd.lt_or_eq with h | h
  · rw [log_fin h, exp_fin, Real.exp_log h]
    rfl
  · rw [← h, Fl.log_zero, ENNReal.ofReal_zero]
    show ENNReal.ofReal 0 = 0
    simp

/-- Probability law with given mean and variance. -/
structure Mom (P : Measure ℝ) (m v : ℝ) : Prop where
  prob : IsProbabilityMeasure P
  int : Integrable (fun y => y) P
  mean : ∫ y, y ∂P = m
  sq : Integrable (fun y => y ^ 2) P
  second : ∫ y, y ^ 2 ∂P = v + m ^ 2

theorem Mom.memLp {P : Measure ℝ} {m v : ℝ} (h : Mom P m v) : MemLp id 2 P := by
  rw [memLp_two_iff_integrable_sq (by fun_prop)]
  exact h.sq

theorem Mom.var {P : Measure ℝ} {m v : ℝ} (h : Mom P m v) : Var[id; P] = v := by
  have := h.prob
  rw [variance_eq_sub h.memLp]
  show ∫ y, y ^ 2 ∂P - (∫ y, y ∂P) ^ 2 = v
  rw [h.mean, h.second]
  ring

theorem Mom.dev {P : Measure ℝ} {m v : ℝ} (h : Mom P m v) : ∫ y, (y - m) ^ 2 ∂P = v := by
  have := h.prob
  have e : ∀ y : ℝ, (y - m) ^ 2 = y ^ 2 - 2 * m * y + m ^ 2 := fun y => by ring
  simp only [e]
  have i1 : Integrable (fun y => y ^ 2 - 2 * m * y) P := h.sq.sub (h.int.const_mul _)
  rw [integral_add i1 (integrable_const _), integral_sub h.sq (h.int.const_mul _), integral_const_mul, h.mean, h.second]
  simp
  ring

theorem Mom.dev_int {P : Measure ℝ} {m v : ℝ} (h : Mom P m v) : Integrable (fun y => (y - m) ^ 2) P := by
  have := h.prob
  have e : ∀ y : ℝ, (y - m) ^ 2 = y ^ 2 - 2 * m * y + m ^ 2 := fun y => by ring
  simp only [e]
  exact (h.sq.sub (h.int.const_mul _)).add (integrable_const _)

theorem Mom.of_var {P : Measure ℝ} {m v : ℝ} [IsProbabilityMeasure P] (hl : MemLp id 2 P) (hm : ∫ y, y ∂P = m) (hv : Var[id; P] = v) : Mom P m v := by
  have hi : Integrable (fun y : ℝ => y) P := hl.integrable (by norm_num)
  have hs : Integrable (fun y : ℝ => y ^ 2) P := (memLp_two_iff_integrable_sq (by fun_prop)).1 hl
  refine ⟨inferInstance, hi, hm, hs, ?_⟩
  rw [variance_eq_sub hl] at hv
  have hv' : ∫ y, y ^ 2 ∂P - (∫ y, y ∂P) ^ 2 = v := hv
  rw [hm] at hv'
  linarith

/-! ### Discrete laws -/

theorem count_density {c x : ℕ → ℝ} {f : ℝ → ℝ≥0∞} (hx : Function.Injective x) (hf : ∀ k, f (x k) = ENNReal.ofReal (c k))
    (h0 : ∀ y, y ∉ Set.range x → f y = 0) :
    (Measure.count : Measure ℝ).withDensity f = Measure.sum fun k => ENNReal.ofReal (c k) • Measure.dirac (x k) := by
  classical
  ext s hs
  rw [withDensity_apply _ hs, ← lintegral_indicator hs, lintegral_count, Measure.sum_apply _ hs]
  have hsup : Function.support (s.indicator f) ⊆ Set.range x := by
    intro y hy
    by_contra hn
    refine hy ?_
    rw [Set.indicator_apply]
    split_ifs
    · exact h0 y hn
    · rfl
  rw [← hx.tsum_eq hsup]
  refine tsum_congr fun k => ?_
  rw [Measure.smul_apply, Measure.dirac_apply' _ hs, smul_eq_mul, Set.indicator_apply, Set.indicator_apply]
  by_cases h : x k ∈ s
  · rw [if_pos h, if_pos h, hf]
    simp
  · rw [if_neg h, if_neg h, mul_zero]

theorem sum_mom {c x : ℕ → ℝ} {m v : ℝ} (hc : ∀ k, 0 ≤ c k) (h0 : HasSum c 1) (h1 : HasSum (fun k => c k * x k) m) (hx : ∀ k, 0 ≤ x k)
    (h2 : HasSum (fun k => c k * x k ^ 2) (v + m ^ 2)) :
    Mom (Measure.sum fun k => ENNReal.ofReal (c k) • Measure.dirac (x k)) m v := by
  have hp : IsProbabilityMeasure (Measure.sum fun k => ENNReal.ofReal (c k) • Measure.dirac (x k)) := by
    constructor
    rw [Measure.sum_apply _ MeasurableSet.univ]
    simp only [Measure.smul_apply, measure_univ, smul_eq_mul, mul_one]
    rw [← ENNReal.ofReal_tsum_of_nonneg hc h0.summable, h0.tsum_eq, ENNReal.ofReal_one]
  have key : ∀ g : ℝ → ℝ, (∀ k, 0 ≤ g (x k)) → Measurable g → ∀ r, HasSum (fun k => c k * g (x k)) r →
      Integrable g (Measure.sum fun k => ENNReal.ofReal (c k) • Measure.dirac (x k)) ∧
        ∫ y, g y ∂(Measure.sum fun k => ENNReal.ofReal (c k) • Measure.dirac (x k)) = r := by
    intro g hg hm r hr
    have hnn : ∀ k, 0 ≤ c k * g (x k) := fun k => mul_nonneg (hc k) (hg k)
    have hl : ∫⁻ y, ENNReal.ofReal (g y) ∂(Measure.sum fun k => ENNReal.ofReal (c k) • Measure.dirac (x k)) = ENNReal.ofReal r := by
      rw [lintegral_sum_measure]
      simp only [lintegral_smul_measure, lintegral_dirac, smul_eq_mul]
      rw [← hr.tsum_eq, ENNReal.ofReal_tsum_of_nonneg hnn hr.summable]
      exact tsum_congr fun k => (ENNReal.ofReal_mul (hc k)).symm
    have hae : 0 ≤ᵐ[Measure.sum fun k => ENNReal.ofReal (c k) • Measure.dirac (x k)] g := by
      rw [Filter.EventuallyLE, Measure.ae_sum_iff]
      intro k
      refine Measure.ae_smul_measure ?_ _
      rw [ae_dirac_eq]
      exact hg k
    have hms := hm.aestronglyMeasurable (μ := Measure.sum fun k => ENNReal.ofReal (c k) • Measure.dirac (x k))
    refine ⟨⟨hms, ?_⟩, ?_⟩
    · rw [hasFiniteIntegral_iff_ofReal hae, hl]
      exact ENNReal.ofReal_lt_top
    · rw [integral_eq_lintegral_of_nonneg_ae hae hms, hl, ENNReal.toReal_ofReal (hr.tsum_eq ▸ tsum_nonneg hnn)]
  obtain ⟨a1, a2⟩ := key (fun y => y) hx measurable_id _ h1
  obtain ⟨b1, b2⟩ := key (fun y => y ^ 2) (fun k => sq_nonneg _) (by fun_prop) _ h2
  exact ⟨hp, a1, a2, b1, b2⟩

/-! ### Continuous laws -/

theorem dens_mom {d : ℝ → ℝ} {S : Set ℝ} (hS : MeasurableSet S) {m v : ℝ} (hm : Measurable d) (hd : ∀ y, 0 ≤ d y) (hz : ∀ y, y ∉ S → d y = 0)
    (i0 : IntegrableOn d S) (h0 : ∫ y in S, d y = 1)
    (i1 : IntegrableOn (fun y => y * d y) S) (h1 : ∫ y in S, y * d y = m)
    (i2 : IntegrableOn (fun y => y ^ 2 * d y) S) (h2 : ∫ y in S, y ^ 2 * d y = v + m ^ 2) :
    Mom (volume.withDensity fun y => ENNReal.ofReal (d y)) m v := by
  have ind : ∀ g : ℝ → ℝ, (fun y => d y • g y) = S.indicator fun y => g y * d y := by
    intro g
    funext y
    by_cases h : y ∈ S
    · rw [Set.indicator_of_mem h, smul_eq_mul, mul_comm]
    · rw [Set.indicator_of_notMem h, hz y h, zero_smul]
  have key : ∀ g : ℝ → ℝ, ∀ r, IntegrableOn (fun y => g y * d y) S → ∫ y in S, g y * d y = r →
      Integrable g (volume.withDensity fun y => ENNReal.ofReal (d y)) ∧ ∫ y, g y ∂(volume.withDensity fun y => ENNReal.ofReal (d y)) = r := by
    intro g r hi he
    have hmm : Measurable fun y => ENNReal.ofReal (d y) := hm.ennreal_ofReal
    have hlt : ∀ᵐ y ∂(volume : Measure ℝ), ENNReal.ofReal (d y) < ⊤ := Filter.Eventually.of_forall fun y => ENNReal.ofReal_lt_top
    constructor
    · rw [integrable_withDensity_iff_integrable_smul' hmm hlt]
      simp only [ENNReal.toReal_ofReal (hd _)]
      rw [ind g, integrable_indicator_iff hS]
      exact hi
    · rw [integral_withDensity_eq_integral_toReal_smul hmm hlt]
      simp only [ENNReal.toReal_ofReal (hd _)]
      rw [ind g, integral_indicator hS]
      exact he
  have hp : IsProbabilityMeasure (volume.withDensity fun y => ENNReal.ofReal (d y)) := by
    constructor
    rw [withDensity_apply _ MeasurableSet.univ, Measure.restrict_univ]
    have e : ∀ y, ENNReal.ofReal (d y) = S.indicator (fun y => ENNReal.ofReal (d y)) y := by
      intro y
      by_cases h : y ∈ S
      · rw [Set.indicator_of_mem h]
      · rw [Set.indicator_of_notMem h, hz y h, ENNReal.ofReal_zero]
    rw [lintegral_congr e, lintegral_indicator hS, ← ofReal_integral_eq_lintegral_ofReal i0 (Filter.Eventually.of_forall hd), h0, ENNReal.ofReal_one]
  obtain ⟨a1, a2⟩ := key (fun y => y) _ i1 h1
  obtain ⟨b1, b2⟩ := key (fun y => y ^ 2) _ i2 h2
  exact ⟨hp, a1, a2, b1, b2⟩

/-! ### The exponential families -/

theorem gaussian_law {mu s : ℝ} (hs : 0 < s) : law .gaussian mu s = gaussianReal mu (Real.toNNReal s) := by
  have hv : Real.toNNReal s ≠ 0 := by simpa using hs
  rw [gaussianReal_of_var_ne_zero _ hv]
  unfold law base
  congr 1
  funext y
  simp only [Fam.FamKind.lp, Fam.normPdf, Real.sq_sqrt hs.le]
  rw [enn_log (gaussianPDFReal_nonneg _ _ _)]
  rfl

theorem gamma_law {mu s : ℝ} (hs : 0 < s) (hm : 0 < mu) : law .gamma mu s = gammaMeasure (1 / s) (1 / (s * mu)) := by
  unfold law base gammaMeasure
  congr 1
  funext y
  simp only [Fam.FamKind.lp, Fam.gammaPdf]
  have he : (1 / (1 / (1 / s / mu))) = 1 / (s * mu) := by field_simp
  rw [he, enn_log (gammaPDFReal_nonneg (by positivity) (by positivity) _)]
  rfl

theorem invgauss_pdf {mu s y : ℝ} (hs : 0 < s) (hm : 0 < mu) (hy : 0 < y) : Fam.invgaussPdf y (mu / (1 / s)) (1 / s) = igd (1 / s) mu y := by
  unfold Fam.invgaussPdf igd
  rw [if_pos hy, aI_sq (by positivity) hm hy]
  have e1 : y / (1 / s) = y * s := by field_simp
  have e2 : mu / (1 / s) = mu * s := by field_simp
  rw [e1, e2]
  have e3 : √(2 * π * (y * s) ^ 3) = √(2 * π) * (y * √y) * (s * √s) := by
    rw [sqrt_mul (by positivity) ((y * s) ^ 3), mul_pow, sqrt_mul (by positivity) (s ^ 3)]
    have : ∀ x : ℝ, 0 < x → √(x ^ 3) = x * √x := by
      intro x hx
      rw [pow_succ, sqrt_mul (by positivity), sqrt_sq hx.le]
    rw [this y hy, this s hs]
    ring
  have e4 : √(1 / s) = 1 / √s := by rw [sqrt_div zero_le_one, sqrt_one]
  rw [e3, e4]
  have e5 : -((y * s - mu * s) ^ 2 / (2 * (y * s) * (mu * s) ^ 2)) = -(1 / 2) * (1 / s * (y / mu ^ 2 - 2 / mu + 1 / y)) := by
    field_simp
    ring
  rw [e5]
  have := (sqrt_pos.2 hy).ne'
  have := (sqrt_pos.2 hs).ne'
  have := two_pi.ne'
  field_simp

theorem invgauss_mom {mu s : ℝ} (hs : 0 < s) (hm : 0 < mu) : Mom (law .invGauss mu s) mu (s * mu ^ 3) := by
  have hl : (0 : ℝ) < 1 / s := by positivity
  have hnn : ∀ y, 0 ≤ Fam.invgaussPdf y (mu / (1 / s)) (1 / s) := by
    intro y
    unfold Fam.invgaussPdf
    split_ifs with h
    · positivity
    · exact le_refl _
  have e : law .invGauss mu s = volume.withDensity fun y => ENNReal.ofReal (Fam.invgaussPdf y (mu / (1 / s)) (1 / s)) := by
    unfold law base
    congr 1
    funext y
    simp only [Fam.FamKind.lp]
    rw [enn_log (hnn y)]
  rw [e]
  have c : ∀ y ∈ Set.Ioi (0 : ℝ), igd (1 / s) mu y = Fam.invgaussPdf y (mu / (1 / s)) (1 / s) := fun y hy => (invgauss_pdf hs hm hy).symm
  have cc : ∀ g : ℝ → ℝ, ∀ y ∈ Set.Ioi (0 : ℝ), g y * igd (1 / s) mu y = g y * Fam.invgaussPdf y (mu / (1 / s)) (1 / s) := fun g y hy => by rw [c y hy]
  have t := ig_total hl hm
  have m1 := ig_mean hl hm
  have m2 := ig_second hl hm
  refine dens_mom measurableSet_Ioi ?_ hnn ?_ (t.1.congr_fun c measurableSet_Ioi) ((setIntegral_congr_fun measurableSet_Ioi c).symm.trans t.2)
    (m1.1.congr_fun (cc fun y => y) measurableSet_Ioi) ((setIntegral_congr_fun measurableSet_Ioi (cc fun y => y)).symm.trans m1.2)
    (m2.1.congr_fun (cc fun y => y ^ 2) measurableSet_Ioi) ((setIntegral_congr_fun measurableSet_Ioi (cc fun y => y ^ 2)).symm.trans (m2.2.trans ?_))
  · unfold Fam.invgaussPdf
    refine Measurable.ite measurableSet_Ioi (by fun_prop) measurable_const
  · intro y hy
    unfold Fam.invgaussPdf
    exact if_neg hy
  · field_simp
    ring

theorem poisson_sums {l : ℝ} :
    HasSum (fun k : ℕ => Real.exp (-l) * l ^ k / (Nat.factorial k)) 1 ∧
    HasSum (fun k : ℕ => Real.exp (-l) * l ^ k / (Nat.factorial k) * k) l ∧
    HasSum (fun k : ℕ => Real.exp (-l) * l ^ k / (Nat.factorial k) * (k : ℝ) ^ 2) (l + l ^ 2) := by
  have h0 : HasSum (fun k : ℕ => Real.exp (-l) * l ^ k / (Nat.factorial k)) 1 := by
    have h := (NormedSpace.expSeries_div_hasSum_exp l).mul_left (Real.exp (-l))
    rw [← Real.exp_eq_exp_ℝ, ← Real.exp_add, neg_add_cancel, Real.exp_zero] at h
    refine h.congr_fun fun k => ?_
    ring
  have step : ∀ k : ℕ, Real.exp (-l) * l ^ (k + 1) / (Nat.factorial (k + 1)) * ((k + 1 : ℕ) : ℝ) = l * (Real.exp (-l) * l ^ k / (Nat.factorial k)) := by
    intro k
    rw [Nat.factorial_succ]
    have : (Nat.factorial k : ℝ) ≠ 0 := by positivity
    push_cast
    field_simp
    ring
  have h1 : HasSum (fun k : ℕ => Real.exp (-l) * l ^ k / (Nat.factorial k) * k) l := by
    rw [← hasSum_nat_add_iff' 1]
    simp only [Finset.range_one, Finset.sum_singleton, Nat.cast_zero, mul_zero, sub_zero, step]
    simpa using h0.mul_left l
  refine ⟨h0, h1, ?_⟩
  rw [← hasSum_nat_add_iff' 1]
  have step2 : ∀ k : ℕ, Real.exp (-l) * l ^ (k + 1) / (Nat.factorial (k + 1)) * ((k + 1 : ℕ) : ℝ) ^ 2 =
      l * (Real.exp (-l) * l ^ k / (Nat.factorial k) * k) + l * (Real.exp (-l) * l ^ k / (Nat.factorial k)) := by
    intro k
    rw [pow_two, ← mul_assoc, step]
    push_cast
    ring
  simp only [Finset.range_one, Finset.sum_singleton, step2]
  refine hasSum_of ((h1.mul_left l).add (h0.mul_left l)) (fun k => rfl) ?_
  push_cast
  ring

theorem poisson_law {mu : ℝ} (hm : 0 < mu) (s : ℝ) :
    law .poisson mu s = Measure.sum fun k : ℕ => ENNReal.ofReal (Real.exp (-mu) * mu ^ k / (Nat.factorial k)) • Measure.dirac (k : ℝ) := by
  refine count_density Nat.cast_injective (fun k => ?_) fun y hy => ?_
  · simp only [Fam.FamKind.lp, Fam.poissonPmf, Fam.floor_cast, if_true]
    rw [enn_log (by positivity)]
  · simp only [Fam.FamKind.lp, Fam.poissonPmf]
    rw [if_neg fun h => hy ⟨_, h⟩, Fl.log_zero]
    show ENNReal.ofReal 0 = 0
    simp

theorem poisson_mom {mu : ℝ} (hm : 0 < mu) (s : ℝ) : Mom (law .poisson mu s) mu mu := by
  rw [poisson_law hm]
  obtain ⟨h0, h1, h2⟩ := poisson_sums (l := mu)
  exact sum_mom (fun k => by positivity) h0 h1 (fun k => Nat.cast_nonneg k) h2

theorem bern_sums (n : ℕ) (p : ℝ) :
    (∑ k ∈ Finset.range (n + 1), (n.choose k : ℝ) * p ^ k * (1 - p) ^ (n - k) = 1) ∧
    (∑ k ∈ Finset.range (n + 1), (n.choose k : ℝ) * p ^ k * (1 - p) ^ (n - k) * k = n * p) ∧
    (∑ k ∈ Finset.range (n + 1), (n.choose k : ℝ) * p ^ k * (1 - p) ^ (n - k) * (k : ℝ) ^ 2 = n * (n - 1) * p ^ 2 + n * p) := by
  have e : ∀ k, (bernsteinPolynomial ℝ n k).eval p = (n.choose k : ℝ) * p ^ k * (1 - p) ^ (n - k) := by
    intro k
    simp [bernsteinPolynomial]
  have h0 := congrArg (Polynomial.eval p) (bernsteinPolynomial.sum ℝ n)
  have h1 := congrArg (Polynomial.eval p) (bernsteinPolynomial.sum_smul ℝ n)
  have h2 := congrArg (Polynomial.eval p) (bernsteinPolynomial.sum_mul_smul ℝ n)
  rw [Polynomial.eval_finsetSum] at h0 h1 h2
  simp only [Polynomial.eval_mul, Polynomial.eval_natCast, Polynomial.eval_X, Polynomial.eval_pow, Polynomial.eval_one, nsmul_eq_mul, e] at h0 h1 h2
  have h1' : ∑ k ∈ Finset.range (n + 1), (n.choose k : ℝ) * p ^ k * (1 - p) ^ (n - k) * k = n * p := by
    rw [← h1]
    exact Finset.sum_congr rfl fun k _ => mul_comm _ _
  refine ⟨h0, h1', ?_⟩
  have hc : ((n * (n - 1) : ℕ) : ℝ) = (n : ℝ) * (n - 1) := by
    cases n with
    | zero => simp
    | succ n => push_cast; simp
  rw [hc] at h2
  rw [← h2, ← h1', ← Finset.sum_add_distrib]
  refine Finset.sum_congr rfl fun k _ => ?_
  have hk : ((k * (k - 1) : ℕ) : ℝ) = (k : ℝ) * (k - 1) := by
    cases k with
    | zero => simp
    | succ k => push_cast; simp
  rw [hk]
  ring

noncomputable def binC (n : ℕ) (p : ℝ) (k : ℕ) : ℝ := if k ≤ n then (n.choose k : ℝ) * p ^ k * (1 - p) ^ (n - k) else 0

theorem binomial_law {n : ℕ} (hn : 0 < n) {mu : ℝ} (hm : mu ∈ Set.Ioo (0 : ℝ) 1) (s : ℝ) :
    law (.binomial n) mu s = Measure.sum fun k : ℕ => ENNReal.ofReal (binC n mu k) • Measure.dirac ((k : ℝ) / n) := by
  have hn' : (n : ℝ) ≠ 0 := Nat.cast_ne_zero.2 (ne_of_gt hn)
  have h1 : 0 < 1 - mu := by linarith [hm.2]
  have h0 : 0 < mu := hm.1
  refine count_density (x := fun k : ℕ => (k : ℝ) / n) (fun a b h => ?_) (fun k => ?_) fun y hy => ?_
  · have h' : (a : ℝ) / n = b / n := h
    rw [div_left_inj' hn'] at h'
    exact Nat.cast_injective h'
  · have hkk : (k : ℝ) / n * n = k := by field_simp
    simp only [Fam.FamKind.lp, Fam.binomPmf, hkk, Fam.floor_cast, true_and, binC]
    refine enn_log ?_
    split_ifs
    · positivity
    · exact le_refl _
  · simp only [Fam.FamKind.lp, Fam.binomPmf]
    rw [if_neg fun h => hy ⟨⌊y * n⌋₊, by
      show (⌊y * n⌋₊ : ℝ) / n = y
      rw [h.1]
      field_simp⟩, Fl.log_zero]
    show ENNReal.ofReal 0 = 0
    simp

theorem binomial_mom {n : ℕ} (hn : 0 < n) {mu : ℝ} (hm : mu ∈ Set.Ioo (0 : ℝ) 1) (s : ℝ) :
    Mom (law (.binomial n) mu s) mu (mu * (1 - mu) / n) := by
  have hn' : (n : ℝ) ≠ 0 := Nat.cast_ne_zero.2 (ne_of_gt hn)
  have h1 : 0 < 1 - mu := by linarith [hm.2]
  have h0 : 0 < mu := hm.1
  obtain ⟨s0, s1, s2⟩ := bern_sums n mu
  have hs : ∀ g : ℕ → ℝ, HasSum (fun k => binC n mu k * g k) (∑ k ∈ Finset.range (n + 1), (n.choose k : ℝ) * mu ^ k * (1 - mu) ^ (n - k) * g k) := by
    intro g
    have h : HasSum (fun k => binC n mu k * g k) (∑ k ∈ Finset.range (n + 1), binC n mu k * g k) := hasSum_sum_of_ne_finset_zero fun k hk => by
      rw [Finset.mem_range, not_lt] at hk
      rw [binC, if_neg (by omega), zero_mul]
    refine hasSum_of h (fun k => rfl) ?_
    refine Finset.sum_congr rfl fun k hk => ?_
    rw [Finset.mem_range] at hk
    rw [binC, if_pos (by omega)]
  rw [binomial_law hn hm]
  refine sum_mom (fun k => ?_) ?_ ?_ (fun k => by positivity) ?_
  · unfold binC
    split_ifs
    · positivity
    · exact le_refl _
  · have := hs fun _ => 1
    simp only [mul_one] at this
    rwa [s0] at this
  · have := (hs fun k => (k : ℝ)).div_const (n : ℝ)
    rw [s1] at this
    refine hasSum_of this (fun k => ?_) ?_
    · ring
    · field_simp
  · have := (hs fun k => (k : ℝ) ^ 2).div_const ((n : ℝ) ^ 2)
    rw [s2] at this
    refine hasSum_of this (fun k => ?_) ?_
    · rw [div_pow]
      ring
    · field_simp
      ring

theorem family_mom {fam : Fam.FamKind} {mu s : ℝ} (ho : fam.ok) (hm : mu ∈ fam.dom) (hs : 0 < s) (h2 : fam.twopar = true ∨ s = 1) :
    Mom (law fam mu s) mu (s * fam.VR mu) := by
  cases fam with
  | binomial n =>
    have h2' : s = 1 := by simpa [Fam.FamKind.twopar] using h2
    rw [h2', one_mul]
    exact binomial_mom ho hm 1
  | gaussian =>
    rw [gaussian_law hs]
    refine Mom.of_var (memLp_id_gaussianReal 2) integral_id_gaussianReal ?_
    rw [variance_id_gaussianReal]
    simp [Fam.FamKind.VR, hs.le]
  | gamma =>
    have hm' : 0 < mu := hm
    rw [gamma_law hs hm]
    have := isProbabilityMeasure_gammaMeasure (a := 1 / s) (r := 1 / (s * mu)) (by positivity) (by positivity)
    refine Mom.of_var (Ftest.gamma_memLp (by positivity) (by positivity)) ?_ ?_
    · rw [Ftest.gamma_mean (by positivity) (by positivity)]
      field_simp
    · rw [Ftest.gamma_variance (by positivity) (by positivity)]
      simp only [Fam.FamKind.VR]
      field_simp
  | invGauss => exact invgauss_mom hs hm
  | poisson =>
    have h2' : s = 1 := by simpa [Fam.FamKind.twopar] using h2
    rw [h2', one_mul]
    exact poisson_mom hm 1

end Verif.Dens
