import Verif.QfWave
import Mathlib.MeasureTheory.Measure.CharacteristicFunction.Basic
import Mathlib.MeasureTheory.Integral.DominatedConvergence

/-!
# The trapezoidal rule for the inversion of a characteristic function (for C115)
-/

namespace Verif.Qf

open Real Finset Filter Topology MeasureTheory

variable {μ : Measure ℝ} [IsProbabilityMeasure μ]

theorem wave_continuous (N : ℕ) : Continuous (wave N) := by unfold wave; fun_prop

theorem square_measurable : Measurable square := by
  unfold square
  refine Measurable.const_mul ?_ _
  have : (fun θ : ℝ => ((SignType.sign (sin (θ / 2)) : SignType) : ℝ))
      = fun θ => if 0 < sin (θ / 2) then (1 : ℝ) else if sin (θ / 2) < 0 then -1 else 0 := by
    funext θ
    rcases lt_trichotomy (sin (θ / 2)) 0 with h | h | h
    · rw [sign_neg h, if_neg h.not_gt, if_pos h]; simp
    · rw [h]; simp
    · rw [sign_pos h, if_pos h]; simp
  rw [this]
  have hs : Measurable fun θ : ℝ => sin (θ / 2) := by fun_prop
  exact Measurable.ite (hs measurableSet_Ioi) measurable_const (Measurable.ite (hs measurableSet_Iio) measurable_const measurable_const)

theorem sin_integrable (t c : ℝ) : Integrable (fun x => sin (t * (x - c))) μ := by
  refine Integrable.of_bound (C := 1) (by fun_prop) (Filter.Eventually.of_forall fun x => ?_)
  rw [Real.norm_eq_abs]
  exact abs_sin_le_one _

/-- The imaginary part of a characteristic function as an integral. -/
theorem im_charFun (t c : ℝ) : ∫ x, sin (t * (x - c)) ∂μ = (charFun μ t * Complex.exp (-(t * c : ℝ) * Complex.I)).im := by
  rw [charFun_apply_real, ← integral_mul_const]
  have hi : Integrable (fun x : ℝ => Complex.exp (t * x * Complex.I) * Complex.exp (-(t * c : ℝ) * Complex.I)) μ := by
    refine Integrable.of_bound (C := 1) (by fun_prop) (Filter.Eventually.of_forall fun x => ?_)
    rw [norm_mul, show (t : ℂ) * x * Complex.I = ((t * x : ℝ) : ℂ) * Complex.I by push_cast; ring,
      show -((t * c : ℝ) : ℂ) * Complex.I = ((-(t * c) : ℝ) : ℂ) * Complex.I by push_cast; ring, Complex.norm_exp_ofReal_mul_I,
      Complex.norm_exp_ofReal_mul_I]
    norm_num
  have := integral_im hi
  rw [show (∫ x, Complex.exp (t * x * Complex.I) * Complex.exp (-(t * c : ℝ) * Complex.I) ∂μ).im
    = RCLike.im (∫ x, Complex.exp (t * x * Complex.I) * Complex.exp (-(t * c : ℝ) * Complex.I) ∂μ) from rfl, ← this]
  refine integral_congr_ae (Filter.Eventually.of_forall fun x => ?_)
  dsimp only
  rw [← Complex.exp_add, show (t : ℂ) * x * Complex.I + -((t * c : ℝ) : ℂ) * Complex.I = ((t * (x - c) : ℝ) : ℂ) * Complex.I by push_cast; ring]
  exact (Complex.exp_ofReal_mul_I_im _).symm

/-- The sums of the rule converge to the integral of a square wave. -/
theorem trap_tendsto (c Δ : ℝ) :
    Tendsto (fun N => ∑ k ∈ Finset.range N, (∫ x, sin (((k : ℝ) + 1 / 2) * Δ * (x - c)) ∂μ) / (π * ((k : ℝ) + 1 / 2))) atTop
      (𝓝 (∫ x, square (Δ * (x - c)) / π ∂μ)) := by
  have he : ∀ N, ∑ k ∈ Finset.range N, (∫ x, sin (((k : ℝ) + 1 / 2) * Δ * (x - c)) ∂μ) / (π * ((k : ℝ) + 1 / 2))
      = ∫ x, wave N (Δ * (x - c)) / π ∂μ := by
    intro N
    unfold wave
    simp_rw [Finset.sum_div]
    rw [integral_finset_sum]
    · refine Finset.sum_congr rfl fun k _ => ?_
      rw [← integral_div]
      refine integral_congr_ae (Filter.Eventually.of_forall fun x => ?_)
      dsimp only
      rw [div_div, mul_comm π, ← mul_assoc]
    · intro k _
      have := ((sin_integrable (μ := μ) (((k : ℝ) + 1 / 2) * Δ) c).div_const ((k : ℝ) + 1 / 2)).div_const π
      simpa only [mul_assoc] using this
  simp_rw [he]
  obtain ⟨B, hB⟩ := wave_bdd
  refine tendsto_integral_of_dominated_convergence (fun _ => B / π) ?_ (integrable_const _) ?_ ?_
  · intro N
    have := wave_continuous N
    exact (by fun_prop : Continuous fun x : ℝ => wave N (Δ * (x - c)) / π).aestronglyMeasurable
  · intro N
    refine Filter.Eventually.of_forall fun x => ?_
    rw [Real.norm_eq_abs, abs_div, abs_of_pos pi_pos]
    exact div_le_div_of_nonneg_right (hB _ _) pi_pos.le
  · exact Filter.Eventually.of_forall fun x => (wave_tendsto _).div_const _

/-- The limit differs from the distribution function by less than a tail probability. -/
theorem trap_error (c : ℝ) {Δ p : ℝ} (hΔ : 0 < Δ) (hp : p = 2 * π / Δ) (hc : μ {c} = 0) :
    -μ.real (Set.Iic (c - p)) ≤ 1 / 2 - ∫ x, square (Δ * (x - c)) / π ∂μ - μ.real (Set.Iio c) ∧
      1 / 2 - ∫ x, square (Δ * (x - c)) / π ∂μ - μ.real (Set.Iio c) ≤ μ.real (Set.Ici (c + p)) := by
  have hp0 : 0 < p := by rw [hp]; positivity
  have hsq : Integrable (fun x => square (Δ * (x - c)) / π) μ := by
    refine Integrable.of_bound (C := 1 / 2) ?_ (Filter.Eventually.of_forall fun x => ?_)
    · have := square_measurable
      exact (by fun_prop : Measurable fun x : ℝ => square (Δ * (x - c)) / π).aestronglyMeasurable
    · rw [Real.norm_eq_abs, abs_div, abs_of_pos pi_pos, div_le_iff₀ pi_pos]
      linarith [square_abs (Δ * (x - c))]
  have hhalf : ∀ x, |square (Δ * (x - c)) / π| ≤ 1 / 2 := by
    intro x
    rw [abs_div, abs_of_pos pi_pos, div_le_iff₀ pi_pos]
    linarith [square_abs (Δ * (x - c))]
  have hne : ∀ᵐ x ∂μ, x ≠ c := by
    rw [ae_iff]
    simpa using hc
  have hpos : ∀ x, c < x → x < c + p → square (Δ * (x - c)) / π = 1 / 2 := by
    intro x h1 h2
    rw [square_of_pos (mul_pos hΔ (by linarith))]
    · field_simp
    · have : Δ * p = 2 * π := by rw [hp]; field_simp
      nlinarith
  have hneg : ∀ x, x < c → c - p < x → square (Δ * (x - c)) / π = -(1 / 2) := by
    intro x h1 h2
    have h := square_of_pos (θ := Δ * (c - x)) (mul_pos hΔ (by linarith)) (by
      have : Δ * p = 2 * π := by rw [hp]; field_simp
      nlinarith)
    rw [show Δ * (x - c) = -(Δ * (c - x)) by ring, square_neg, h]
    field_simp
  have hI : 1 / 2 - ∫ x, square (Δ * (x - c)) / π ∂μ = ∫ x, (1 / 2 - square (Δ * (x - c)) / π) ∂μ := by
    rw [integral_sub (integrable_const _) hsq]
    simp
  have hind : ∀ {s : Set ℝ}, MeasurableSet s → ∫ x, s.indicator (fun _ => (1 : ℝ)) x ∂μ = μ.real s := by
    intro s hs
    rw [integral_indicator hs]
    simp
  have hii : ∀ {s : Set ℝ}, MeasurableSet s → Integrable (fun x => s.indicator (fun _ => (1 : ℝ)) x) μ := by
    intro s hs
    exact (integrable_const (1 : ℝ)).indicator hs
  rw [hI]
  have hint : Integrable (fun x => 1 / 2 - square (Δ * (x - c)) / π) μ := (integrable_const _).sub hsq
  constructor
  · have : ∫ x, ((Set.Iio c).indicator (fun _ => (1 : ℝ)) x - (Set.Iic (c - p)).indicator (fun _ => (1 : ℝ)) x) ∂μ
        ≤ ∫ x, (1 / 2 - square (Δ * (x - c)) / π) ∂μ := by
      refine integral_mono_ae ((hii measurableSet_Iio).sub (hii measurableSet_Iic)) hint ?_
      filter_upwards [hne] with x hx
      have hb := abs_le.1 (hhalf x)
      by_cases h1 : x < c
      · rw [Set.indicator_of_mem (by exact h1)]
        by_cases h2 : x ≤ c - p
        · rw [Set.indicator_of_mem (by exact h2)]
          linarith
        · rw [Set.indicator_of_notMem (by exact h2), hneg x h1 (not_le.1 h2)]
          norm_num
      · rw [Set.indicator_of_notMem (by exact h1), Set.indicator_of_notMem (by simp; linarith)]
        linarith
    rw [integral_sub (hii measurableSet_Iio) (hii measurableSet_Iic), hind measurableSet_Iio, hind measurableSet_Iic] at this
    linarith
  · have : ∫ x, (1 / 2 - square (Δ * (x - c)) / π) ∂μ
        ≤ ∫ x, ((Set.Iio c).indicator (fun _ => (1 : ℝ)) x + (Set.Ici (c + p)).indicator (fun _ => (1 : ℝ)) x) ∂μ := by
      refine integral_mono_ae hint ((hii measurableSet_Iio).add (hii measurableSet_Ici)) ?_
      filter_upwards [hne] with x hx
      have hb := abs_le.1 (hhalf x)
      by_cases h1 : x < c
      · rw [Set.indicator_of_mem (by exact h1), Set.indicator_of_notMem (by simp; linarith)]
        linarith
      · rw [Set.indicator_of_notMem (by exact h1)]
        by_cases h2 : c + p ≤ x
        · rw [Set.indicator_of_mem (by exact h2)]
          linarith
        · rw [Set.indicator_of_notMem (by exact h2), hpos x (lt_of_le_of_ne (not_lt.1 h1) (Ne.symm hx)) (not_le.1 h2)]
          norm_num
    rw [integral_add (hii measurableSet_Iio) (hii measurableSet_Ici), hind measurableSet_Iio, hind measurableSet_Ici] at this
    linarith

end Verif.Qf
