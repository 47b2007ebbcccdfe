import Verif.ScaledT
import Mathlib.MeasureTheory.Integral.Gamma
import Mathlib.MeasureTheory.Integral.Prod
import Mathlib.MeasureTheory.Measure.Haar.NormedSpace
import Mathlib.Analysis.SpecialFunctions.Gaussian.GaussianIntegral

/-!
# Integrals of powers of `1 + t ^ 2` (for the moments of the scaled t density, C118)
-/

namespace Verif.Dens

open Real MeasureTheory Filter Topology
open scoped ENNReal

/-- Gamma integral with nonnegative integrand. -/
theorem lgamma {q b : ℝ} (hq : 0 < q) (hb : 0 < b) :
    ∫⁻ x in Set.Ioi 0, ENNReal.ofReal (x ^ (q - 1) * exp (-b * x)) = ENNReal.ofReal (b ^ (-q) * Gamma q) := by
  have hi : IntegrableOn (fun x : ℝ => x ^ (q - 1) * exp (-b * x)) (Set.Ioi 0) := by
    have := integrableOn_rpow_mul_exp_neg_mul_rpow (p := 1) (s := q - 1) (b := b) (by linarith) one_pos hb
    simpa only [rpow_one] using this
  have he := integral_rpow_mul_exp_neg_mul_rpow (p := 1) (q := q - 1) (b := b) one_pos (by linarith) hb
  simp only [rpow_one, sub_add_cancel, div_one, mul_one] at he
  rw [← he, ofReal_integral_eq_lintegral_ofReal hi]
  filter_upwards [self_mem_ae_restrict measurableSet_Ioi] with x hx
  have hx' : (0 : ℝ) < x := hx
  positivity

theorem lgauss {u b : ℝ} (hu : -1 < u) (hb : 0 < b) :
    ∫⁻ t in Set.Ioi 0, ENNReal.ofReal (t ^ u * exp (-b * t ^ 2)) = ENNReal.ofReal (b ^ (-((u + 1) / 2)) * (1 / 2) * Gamma ((u + 1) / 2)) := by
  have hi : IntegrableOn (fun x : ℝ => x ^ u * exp (-b * x ^ 2)) (Set.Ioi 0) := integrableOn_rpow_mul_exp_neg_mul_sq hb hu
  have he := integral_rpow_mul_exp_neg_mul_rpow (p := 2) (q := u) (b := b) two_pos hu hb
  simp only [rpow_two] at he
  rw [← neg_div, ← he, ofReal_integral_eq_lintegral_ofReal hi]
  filter_upwards [self_mem_ae_restrict measurableSet_Ioi] with x hx
  have hx' : (0 : ℝ) < x := hx
  positivity

/-- `∫ t ^ u / (1 + t ^ 2) ^ q` over the positive numbers. -/
theorem lstudent {u q : ℝ} (hu : -1 < u) (hq : (u + 1) / 2 < q) :
    ∫⁻ t in Set.Ioi 0, ENNReal.ofReal (t ^ u * (1 + t ^ 2) ^ (-q)) =
      ENNReal.ofReal (Gamma ((u + 1) / 2) * Gamma (q - (u + 1) / 2) / (2 * Gamma q)) := by
  have hq0 : 0 < q := by linarith
  have hG : 0 < Gamma q := Gamma_pos_of_pos hq0
  have hG1 : 0 < Gamma ((u + 1) / 2) := Gamma_pos_of_pos (by linarith)
  have hG2 : 0 < Gamma (q - (u + 1) / 2) := Gamma_pos_of_pos (by linarith)
  have key : ENNReal.ofReal (Gamma q) * ∫⁻ t in Set.Ioi 0, ENNReal.ofReal (t ^ u * (1 + t ^ 2) ^ (-q)) =
      ENNReal.ofReal (1 / 2 * Gamma ((u + 1) / 2) * Gamma (q - (u + 1) / 2)) := by
    calc ENNReal.ofReal (Gamma q) * ∫⁻ t in Set.Ioi 0, ENNReal.ofReal (t ^ u * (1 + t ^ 2) ^ (-q))
        = ∫⁻ t in Set.Ioi (0 : ℝ), ∫⁻ x in Set.Ioi (0 : ℝ), ENNReal.ofReal (t ^ u * (x ^ (q - 1) * exp (-(1 + t ^ 2) * x))) := by
          rw [← lintegral_const_mul' _ _ ENNReal.ofReal_ne_top]
          refine setLIntegral_congr_fun measurableSet_Ioi fun t ht => ?_
          have ht' : (0 : ℝ) < t := ht
          have e : ∀ x, ENNReal.ofReal (t ^ u * (x ^ (q - 1) * exp (-(1 + t ^ 2) * x))) = ENNReal.ofReal (t ^ u) * ENNReal.ofReal (x ^ (q - 1) * exp (-(1 + t ^ 2) * x)) :=
            fun x => ENNReal.ofReal_mul (by positivity)
          simp only [e]
          rw [lintegral_const_mul' _ _ ENNReal.ofReal_ne_top, lgamma hq0 (by positivity : (0 : ℝ) < 1 + t ^ 2), ← ENNReal.ofReal_mul hG.le, ← ENNReal.ofReal_mul (by positivity)]
          congr 1
          ring
      _ = ∫⁻ x in Set.Ioi (0 : ℝ), ∫⁻ t in Set.Ioi (0 : ℝ), ENNReal.ofReal (t ^ u * (x ^ (q - 1) * exp (-(1 + t ^ 2) * x))) := by
          refine lintegral_lintegral_swap ?_
          refine Measurable.aemeasurable ?_
          unfold Function.uncurry
          fun_prop
      _ = ∫⁻ x in Set.Ioi (0 : ℝ), ENNReal.ofReal (1 / 2 * Gamma ((u + 1) / 2)) * ENNReal.ofReal (x ^ (q - (u + 1) / 2 - 1) * exp (-1 * x)) := by
          refine setLIntegral_congr_fun measurableSet_Ioi fun x hx => ?_
          have hx' : (0 : ℝ) < x := hx
          have e : ∀ t, ENNReal.ofReal (t ^ u * (x ^ (q - 1) * exp (-(1 + t ^ 2) * x))) = ENNReal.ofReal (x ^ (q - 1) * exp (-1 * x)) * ENNReal.ofReal (t ^ u * exp (-x * t ^ 2)) := by
            intro t
            rw [← ENNReal.ofReal_mul (by positivity)]
            congr 1
            rw [show -(1 + t ^ 2) * x = -1 * x + -x * t ^ 2 by ring, exp_add]
            ring
          simp only [e]
          rw [lintegral_const_mul' _ _ ENNReal.ofReal_ne_top, lgauss hu hx', ← ENNReal.ofReal_mul (by positivity), ← ENNReal.ofReal_mul (by positivity)]
          congr 1
          rw [show q - (u + 1) / 2 - 1 = (q - 1) + -((u + 1) / 2) by ring, rpow_add hx']
          ring
      _ = _ := by
          rw [lintegral_const_mul' _ _ ENNReal.ofReal_ne_top, lgamma (by linarith) one_pos, ← ENNReal.ofReal_mul (by positivity)]
          rw [one_rpow, one_mul]
  have hG' : ENNReal.ofReal (Gamma q) ≠ 0 := by
    rw [ENNReal.ofReal_ne_zero_iff]
    exact hG
  rw [← ENNReal.mul_right_inj hG' ENNReal.ofReal_ne_top, key, ← ENNReal.ofReal_mul hG.le]
  congr 1
  field_simp

theorem student_half {u q : ℝ} (hu : -1 < u) (hq : (u + 1) / 2 < q) :
    IntegrableOn (fun t : ℝ => t ^ u * (1 + t ^ 2) ^ (-q)) (Set.Ioi 0) ∧
      ∫ t in Set.Ioi 0, t ^ u * (1 + t ^ 2) ^ (-q) = Gamma ((u + 1) / 2) * Gamma (q - (u + 1) / 2) / (2 * Gamma q) := by
  have hq0 : 0 < q := by linarith
  have hG : 0 < Gamma q := Gamma_pos_of_pos hq0
  have hG1 : 0 < Gamma ((u + 1) / 2) := Gamma_pos_of_pos (by linarith)
  have hG2 : 0 < Gamma (q - (u + 1) / 2) := Gamma_pos_of_pos (by linarith)
  have hm : AEStronglyMeasurable (fun t : ℝ => t ^ u * (1 + t ^ 2) ^ (-q)) (volume.restrict (Set.Ioi 0)) := by
    refine Measurable.aestronglyMeasurable ?_
    fun_prop
  have hn : 0 ≤ᵐ[volume.restrict (Set.Ioi 0)] fun t : ℝ => t ^ u * (1 + t ^ 2) ^ (-q) := by
    filter_upwards [self_mem_ae_restrict measurableSet_Ioi] with x hx
    have hx' : (0 : ℝ) < x := hx
    positivity
  have h := lstudent hu hq
  refine ⟨⟨hm, ?_⟩, ?_⟩
  · rw [hasFiniteIntegral_iff_ofReal hn, h]
    exact ENNReal.ofReal_lt_top
  · rw [integral_eq_lintegral_of_nonneg_ae hn hm, h, ENNReal.toReal_ofReal (by positivity)]

theorem integrable_abs {f : ℝ → ℝ} (hf : IntegrableOn f (Set.Ioi 0)) : Integrable fun t => f |t| := by
  have hf' : IntegrableOn (fun x => f |x|) (Set.Ioi 0) := hf.congr_fun (fun x hx => by
    rw [abs_of_pos (show (0 : ℝ) < x from hx)]) measurableSet_Ioi
  have int_Iic : IntegrableOn (fun x ↦ f |x|) (Set.Iic 0) := by
    rw [← Measure.map_neg_eq_self (volume : Measure ℝ)]
    let m : MeasurableEmbedding fun x : ℝ => -x := (Homeomorph.neg ℝ).measurableEmbedding
    rw [m.integrableOn_map_iff]
    simp_rw [Function.comp_def, abs_neg, Set.neg_preimage, Set.neg_Iic, neg_zero]
    exact Iff.mpr integrableOn_Ici_iff_integrableOn_Ioi hf'
  rw [← integrableOn_univ, ← Set.Iic_union_Ioi (a := (0 : ℝ))]
  exact int_Iic.union hf'

/-- Even powers over all real numbers. -/
theorem student_even (k : ℕ) {q : ℝ} (hq : (k : ℝ) + 1 / 2 < q) :
    Integrable (fun t : ℝ => (t ^ 2) ^ k * (1 + t ^ 2) ^ (-q)) ∧
      ∫ t : ℝ, (t ^ 2) ^ k * (1 + t ^ 2) ^ (-q) = Gamma (k + 1 / 2) * Gamma (q - (k + 1 / 2)) / Gamma q := by
  have hk : (0 : ℝ) ≤ k := Nat.cast_nonneg k
  have e2 : ((2 * k : ℝ) + 1) / 2 = k + 1 / 2 := by ring
  obtain ⟨hi, he⟩ := student_half (u := 2 * k) (q := q) (by linarith) (by rw [e2]; exact hq)
  rw [e2] at he
  have e1 : ∀ t ∈ Set.Ioi (0 : ℝ), t ^ (2 * k : ℝ) * (1 + t ^ 2) ^ (-q) = (t ^ 2) ^ k * (1 + t ^ 2) ^ (-q) := by
    intro t _
    congr 1
    rw [← pow_mul, ← rpow_natCast]
    congr 1
    push_cast
    ring
  have hi' := hi.congr_fun e1 measurableSet_Ioi
  have ha : ∀ t : ℝ, (|t| ^ 2) ^ k * (1 + |t| ^ 2) ^ (-q) = (t ^ 2) ^ k * (1 + t ^ 2) ^ (-q) := fun t => by rw [sq_abs]
  constructor
  · have := integrable_abs hi'
    simpa only [ha] using this
  · have := integral_comp_abs (f := fun t : ℝ => (t ^ 2) ^ k * (1 + t ^ 2) ^ (-q))
    simp only [ha] at this
    rw [this, ← setIntegral_congr_fun measurableSet_Ioi e1, he]
    have : Gamma q ≠ 0 := (Gamma_pos_of_pos (by linarith)).ne'
    field_simp

theorem student_odd (q : ℝ) : ∫ t : ℝ, t * (1 + t ^ 2) ^ (-q) = 0 := by
  have h := integral_neg_eq_self (fun t : ℝ => t * (1 + t ^ 2) ^ (-q)) volume
  simp only [neg_sq, neg_mul, integral_neg] at h
  linarith

theorem student_odd_integrable {q : ℝ} (hq : 1 < q) : Integrable fun t : ℝ => t * (1 + t ^ 2) ^ (-q) := by
  obtain ⟨hi, -⟩ := student_half (u := 1) (q := q) (by norm_num) (by norm_num; exact hq)
  simp only [rpow_one] at hi
  have := integrable_abs hi
  refine this.mono (Measurable.aestronglyMeasurable (by fun_prop)) (Eventually.of_forall fun t => ?_)
  simp only [sq_abs, norm_mul, Real.norm_eq_abs, abs_abs]
  exact le_refl _

/-! ### The scaled t density -/

noncomputable def td (v p m y : ℝ) : ℝ :=
  Gamma ((v + 1) / 2) / (Gamma (v / 2) * (p * √(π * v))) * (1 + ((y - m) / p) ^ 2 / v) ^ (-((v + 1) / 2))

/-- Standardised residual. -/
noncomputable def tz (v p m y : ℝ) : ℝ := (y - m) / (p * √v)

theorem tz_sq {v p : ℝ} (hv : 0 < v) (m y : ℝ) : ((y - m) / p) ^ 2 / v = tz v p m y ^ 2 := by
  unfold tz
  rw [div_pow, div_pow, mul_pow, sq_sqrt hv.le, div_div]

theorem change {v p m : ℝ} (hv : 0 < v) (hp : 0 < p) {h : ℝ → ℝ} (hi : Integrable h) :
    Integrable (fun y => h (tz v p m y)) ∧ ∫ y, h (tz v p m y) = p * √v * ∫ t, h t := by
  have hc : 0 < p * √v := mul_pos hp (sqrt_pos.2 hv)
  constructor
  · exact (hi.comp_div hc.ne').comp_sub_right m
  · have e1 := integral_sub_right_eq_self (μ := volume) (fun y => h (y / (p * √v))) m
    have e2 := Measure.integral_comp_div h (p * √v)
    rw [abs_of_pos hc, smul_eq_mul] at e2
    exact e1.trans e2

theorem td_change {v p m : ℝ} (hv : 0 < v) (hp : 0 < p) {g : ℝ → ℝ} (hi : Integrable fun t => g t * (1 + t ^ 2) ^ (-((v + 1) / 2))) :
    Integrable (fun y => td v p m y * g (tz v p m y)) ∧ ∫ y, td v p m y * g (tz v p m y) =
      Gamma ((v + 1) / 2) / (Gamma (v / 2) * √π) * ∫ t, g t * (1 + t ^ 2) ^ (-((v + 1) / 2)) := by
  obtain ⟨h1, h2⟩ := change (m := m) hv hp hi
  have e : ∀ y, td v p m y * g (tz v p m y) = Gamma ((v + 1) / 2) / (Gamma (v / 2) * (p * √(π * v))) *
      (g (tz v p m y) * (1 + tz v p m y ^ 2) ^ (-((v + 1) / 2))) := by
    intro y
    unfold td
    rw [tz_sq hv]
    ring
  simp only [e]
  refine ⟨h1.const_mul _, ?_⟩
  rw [integral_const_mul, h2, sqrt_mul pi_pos.le]
  have hs := (sqrt_pos.2 hv).ne'
  have hs2 := (sqrt_pos.2 pi_pos).ne'
  have hG : Gamma (v / 2) ≠ 0 := (Gamma_pos_of_pos (by positivity)).ne'
  field_simp

/-- Mixed moments: even powers of the residual divided by powers of `1 + t ^ 2`. -/
theorem td_moment {v p m : ℝ} (hv : 0 < v) (hp : 0 < p) (k j : ℕ) (hk : (k : ℝ) < v / 2 + j) :
    Integrable (fun y => td v p m y * ((tz v p m y ^ 2) ^ k / (1 + tz v p m y ^ 2) ^ j)) ∧
      ∫ y, td v p m y * ((tz v p m y ^ 2) ^ k / (1 + tz v p m y ^ 2) ^ j) =
        Gamma ((v + 1) / 2) / (Gamma (v / 2) * √π) * (Gamma (k + 1 / 2) * Gamma (v / 2 + j - k) / Gamma ((v + 1) / 2 + j)) := by
  obtain ⟨h1, h2⟩ := student_even k (q := (v + 1) / 2 + j) (by linarith)
  have e : ∀ t : ℝ, (t ^ 2) ^ k / (1 + t ^ 2) ^ j * (1 + t ^ 2) ^ (-((v + 1) / 2)) = (t ^ 2) ^ k * (1 + t ^ 2) ^ (-((v + 1) / 2 + j)) := by
    intro t
    have h0 : 0 < 1 + t ^ 2 := by positivity
    rw [neg_add, rpow_add h0, rpow_neg h0.le (j : ℝ), rpow_natCast]
    ring
  obtain ⟨h3, h4⟩ := td_change (m := m) hv hp (g := fun t => (t ^ 2) ^ k / (1 + t ^ 2) ^ j) (by simpa only [e] using h1)
  refine ⟨h3, h4.trans ?_⟩
  simp only [e]
  rw [h2]
  congr 4
  ring

theorem td_total {v p m : ℝ} (hv : 0 < v) (hp : 0 < p) : Integrable (td v p m) ∧ ∫ y, td v p m y = 1 := by
  obtain ⟨h1, h2⟩ := td_moment (m := m) hv hp 0 0 (by simp; positivity)
  simp only [pow_zero, div_one, mul_one, Nat.cast_zero, add_zero, zero_add, sub_zero] at h1 h2
  refine ⟨h1, h2.trans ?_⟩
  rw [Gamma_one_half_eq]
  have hs2 := (sqrt_pos.2 pi_pos).ne'
  have hG : Gamma (v / 2) ≠ 0 := (Gamma_pos_of_pos (by positivity)).ne'
  have hG : Gamma ((v + 1) / 2) ≠ 0 := (Gamma_pos_of_pos (by positivity)).ne'
  field_simp

theorem gamma_three_half : Gamma (1 + 1 / 2) = √π / 2 := by
  rw [add_comm, Gamma_add_one (by norm_num), Gamma_one_half_eq]
  ring

theorem td_second {v p m : ℝ} (hv : 2 < v) (hp : 0 < p) :
    Integrable (fun y => td v p m y * tz v p m y ^ 2) ∧ ∫ y, td v p m y * tz v p m y ^ 2 = 1 / (v - 2) := by
  obtain ⟨h1, h2⟩ := td_moment (m := m) (by linarith : 0 < v) hp 1 0 (by simp; linarith)
  simp only [pow_zero, div_one, pow_one, Nat.cast_zero, Nat.cast_one, add_zero] at h1 h2
  refine ⟨h1, h2.trans ?_⟩
  rw [gamma_three_half]
  have hs2 := (sqrt_pos.2 pi_pos).ne'
  have hG : Gamma (v / 2 - 1) ≠ 0 := (Gamma_pos_of_pos (by linarith)).ne'
  have hG : Gamma ((v + 1) / 2) ≠ 0 := (Gamma_pos_of_pos (by linarith)).ne'
  have e : Gamma (v / 2) = (v / 2 - 1) * Gamma (v / 2 - 1) := by
    rw [← Gamma_add_one (by linarith)]
    congr 1
    ring
  have : v - 2 ≠ 0 := by linarith
  rw [e, show v / 2 - 1 = (v - 2) / 2 by ring] at *
  field_simp

theorem td_inv {v p m : ℝ} (hv : 0 < v) (hp : 0 < p) :
    Integrable (fun y => td v p m y * (1 / (1 + tz v p m y ^ 2))) ∧ ∫ y, td v p m y * (1 / (1 + tz v p m y ^ 2)) = v / (v + 1) := by
  obtain ⟨h1, h2⟩ := td_moment (m := m) hv hp 0 1 (by simp; positivity)
  simp only [pow_zero, pow_one, Nat.cast_zero, Nat.cast_one, zero_add, sub_zero] at h1 h2
  refine ⟨h1, h2.trans ?_⟩
  rw [Gamma_one_half_eq, Gamma_add_one (by positivity), Gamma_add_one (by positivity)]
  have hs2 := (sqrt_pos.2 pi_pos).ne'
  have hG : Gamma (v / 2) ≠ 0 := (Gamma_pos_of_pos (by positivity)).ne'
  have hG : Gamma ((v + 1) / 2) ≠ 0 := (Gamma_pos_of_pos (by positivity)).ne'
  field_simp

theorem td_inv2 {v p m : ℝ} (hv : 0 < v) (hp : 0 < p) :
    Integrable (fun y => td v p m y * (tz v p m y ^ 2 / (1 + tz v p m y ^ 2) ^ 2)) ∧
      ∫ y, td v p m y * (tz v p m y ^ 2 / (1 + tz v p m y ^ 2) ^ 2) = v / ((v + 1) * (v + 3)) := by
  obtain ⟨h1, h2⟩ := td_moment (m := m) hv hp 1 2 (by simp; linarith)
  simp only [pow_one, Nat.cast_one, Nat.cast_ofNat] at h1 h2
  refine ⟨h1, h2.trans ?_⟩
  rw [gamma_three_half, show v / 2 + 2 - 1 = v / 2 + 1 by ring, show (v + 1) / 2 + 2 = (v + 1) / 2 + 1 + 1 by ring, Gamma_add_one (by positivity),
    Gamma_add_one (by positivity), Gamma_add_one (by positivity)]
  have hs2 := (sqrt_pos.2 pi_pos).ne'
  have hG : Gamma (v / 2) ≠ 0 := (Gamma_pos_of_pos (by positivity)).ne'
  have hG : Gamma ((v + 1) / 2) ≠ 0 := (Gamma_pos_of_pos (by positivity)).ne'
  field_simp
  ring

theorem td_first {v p m : ℝ} (hv : 1 < v) (hp : 0 < p) :
    Integrable (fun y => td v p m y * tz v p m y) ∧ ∫ y, td v p m y * tz v p m y = 0 := by
  obtain ⟨h1, h2⟩ := td_change (v := v) (m := m) (by linarith) hp (g := fun t => t) (student_odd_integrable (by linarith))
  refine ⟨h1, h2.trans ?_⟩
  rw [student_odd, mul_zero]

theorem td_pos {v p m y : ℝ} (hv : 0 < v) (hp : 0 < p) : 0 < td v p m y := by
  unfold td
  have hG : 0 < Gamma (v / 2) := Gamma_pos_of_pos (by positivity)
  have hG : 0 < Gamma ((v + 1) / 2) := Gamma_pos_of_pos (by positivity)
  have : 0 < 1 + ((y - m) / p) ^ 2 / v := by positivity
  have := sqrt_pos.2 (show 0 < π * v by positivity)
  positivity

end Verif.Dens
