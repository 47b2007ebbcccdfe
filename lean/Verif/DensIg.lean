import Verif.FamLemmas
import Mathlib.MeasureTheory.Integral.IntegralEqImproper
import Mathlib.Analysis.SpecialFunctions.Gaussian.GaussianIntegral
import Mathlib.Analysis.SpecialFunctions.Sqrt
import Mathlib.MeasureTheory.Integral.IntervalIntegral.FundThmCalculus

/-!
# Moments of the inverse Gaussian density (for C118)
-/

namespace Verif.Dens

open Real MeasureTheory Filter Topology

/-- Fundamental theorem of calculus on the positive numbers. -/
theorem ftc_pos {F f : ℝ → ℝ} {l0 l1 : ℝ} (hd : ∀ x, 0 < x → HasDerivAt F (f x) x) (hn : ∀ x, 0 < x → 0 ≤ f x)
    (h0 : Tendsto F (𝓝[>] 0) (𝓝 l0)) (h1 : Tendsto F atTop (𝓝 l1)) :
    IntegrableOn f (Set.Ioi 0) ∧ ∫ x in Set.Ioi 0, f x = l1 - l0 := by
  classical
  have hc : ContinuousWithinAt (Function.update F 0 l0) (Set.Ici 0) 0 := by
    rw [continuousWithinAt_update_same, Set.Ici_sdiff_left]
    exact h0
  have hd' : ∀ x ∈ Set.Ioi (0 : ℝ), HasDerivAt (Function.update F 0 l0) (f x) x := by
    intro x hx
    have hx' : (0 : ℝ) < x := hx
    refine (hd x hx').congr_of_eventuallyEq ?_
    filter_upwards [lt_mem_nhds hx'] with z hz
    exact Function.update_of_ne (ne_of_gt hz) _ _
  have h1' : Tendsto (Function.update F 0 l0) atTop (𝓝 l1) := by
    refine h1.congr' ?_
    filter_upwards [eventually_gt_atTop 0] with z hz
    exact (Function.update_of_ne (ne_of_gt hz) _ _).symm
  refine ⟨integrableOn_Ioi_deriv_of_nonneg hc hd' (fun x hx => hn x hx) h1', ?_⟩
  rw [integral_Ioi_of_hasDerivAt_of_nonneg hc hd' (fun x hx => hn x hx) h1', Function.update_self]

/-- Integral of `exp (-t ^ 2 / 2)` from zero. -/
noncomputable def erfc (z : ℝ) : ℝ := ∫ t in (0 : ℝ)..z, exp (-(1 / 2) * t ^ 2)

theorem erfc_deriv (z : ℝ) : HasDerivAt erfc (exp (-(1 / 2) * z ^ 2)) z := by
  have hc : Continuous fun t : ℝ => exp (-(1 / 2) * t ^ 2) := by fun_prop
  exact (hc.integral_hasStrictDerivAt 0 z).hasDerivAt

theorem erfc_neg (z : ℝ) : erfc (-z) = -erfc z := by
  unfold erfc
  have h := intervalIntegral.integral_comp_neg (f := fun t : ℝ => exp (-(1 / 2) * t ^ 2)) (a := 0) (b := z)
  simp only [neg_sq, neg_zero] at h
  rw [h, intervalIntegral.integral_symm]

theorem erfc_top : Tendsto erfc atTop (𝓝 (√(2 * π) / 2)) := by
  have hi : Integrable fun t : ℝ => exp (-(1 / 2) * t ^ 2) := integrable_exp_neg_mul_sq (by norm_num)
  have h := intervalIntegral_tendsto_integral_Ioi 0 hi.integrableOn (tendsto_id (α := ℝ) (x := atTop))
  rw [integral_gaussian_Ioi] at h
  have e : √(π / (1 / 2)) / 2 = √(2 * π) / 2 := by
    congr 2
    ring
  rw [e] at h
  exact h

theorem erfc_bot : Tendsto erfc atBot (𝓝 (-(√(2 * π) / 2))) := by
  have h : Tendsto (fun z => -erfc (-z)) atBot (𝓝 (-(√(2 * π) / 2))) := (erfc_top.comp tendsto_neg_atBot_atTop).neg
  refine h.congr fun z => ?_
  rw [erfc_neg, neg_neg]

section Ig

variable {l m : ℝ}

noncomputable def aI (l m x : ℝ) : ℝ := √l * (√x / m - (√x)⁻¹)
noncomputable def bI (l m x : ℝ) : ℝ := √l * (√x / m + (√x)⁻¹)

/-- Inverse Gaussian density, mean `m`, shape `l`. -/
noncomputable def igd (l m x : ℝ) : ℝ := √l / √(2 * π) / (x * √x) * exp (-(1 / 2) * aI l m x ^ 2)

theorem sqrt_deriv {x : ℝ} (hx : 0 < x) : HasDerivAt (fun x => √x) (1 / (2 * √x)) x := hasDerivAt_sqrt hx.ne'

theorem sqrt_inv_deriv {x : ℝ} (hx : 0 < x) : HasDerivAt (fun x => (√x)⁻¹) (-(1 / (2 * x * √x))) x := by
  have h := (sqrt_deriv hx).inv (sqrt_pos.2 hx).ne'
  refine h.congr_deriv ?_
  rw [sq_sqrt hx.le]
  have := (sqrt_pos.2 hx).ne'
  field_simp

theorem aI_deriv {x : ℝ} (hx : 0 < x) : HasDerivAt (aI l m) (√l * (1 / (2 * √x) / m + 1 / (2 * x * √x))) x := by
  have h := (((sqrt_deriv hx).div_const m).sub (sqrt_inv_deriv hx)).const_mul (√l)
  refine h.congr_deriv ?_
  ring

theorem bI_deriv {x : ℝ} (hx : 0 < x) : HasDerivAt (bI l m) (√l * (1 / (2 * √x) / m - 1 / (2 * x * √x))) x := by
  have h := (((sqrt_deriv hx).div_const m).add (sqrt_inv_deriv hx)).const_mul (√l)
  refine h.congr_deriv ?_
  ring

theorem aI_sq {x : ℝ} (hl : 0 < l) (hm : 0 < m) (hx : 0 < x) : aI l m x ^ 2 = l * (x / m ^ 2 - 2 / m + 1 / x) := by
  unfold aI
  have e : √x ^ 2 = x := sq_sqrt hx.le
  have e2 : √l ^ 2 = l := sq_sqrt hl.le
  have hq := (sqrt_pos.2 hx).ne'
  rw [mul_pow, e2]
  congr 1
  field_simp
  rw [e]
  field_simp
  ring

theorem bI_sq {x : ℝ} (hl : 0 < l) (hm : 0 < m) (hx : 0 < x) : bI l m x ^ 2 = aI l m x ^ 2 + 4 * l / m := by
  unfold bI aI
  have e2 : √l ^ 2 = l := sq_sqrt hl.le
  have hq := (sqrt_pos.2 hx).ne'
  rw [mul_pow, mul_pow, e2]
  field_simp
  ring

theorem sqrt_zero_right : Tendsto (fun x : ℝ => √x) (𝓝[>] 0) (𝓝[>] 0) := by
  refine tendsto_nhdsWithin_iff.2 ⟨?_, ?_⟩
  · have : Tendsto (fun x : ℝ => √x) (𝓝 0) (𝓝 √0) := continuous_sqrt.tendsto 0
    rw [sqrt_zero] at this
    exact this.mono_left nhdsWithin_le_nhds
  · filter_upwards [self_mem_nhdsWithin] with x hx
    exact sqrt_pos.2 hx

theorem sqrt_top : Tendsto (fun x : ℝ => √x) atTop atTop := tendsto_sqrt_atTop

theorem aI_top (hl : 0 < l) (hm : 0 < m) : Tendsto (aI l m) atTop atTop := by
  refine Tendsto.const_mul_atTop (sqrt_pos.2 hl) ?_
  have h1 : Tendsto (fun x : ℝ => √x / m) atTop atTop := sqrt_top.atTop_div_const hm
  have h2 : Tendsto (fun x : ℝ => -(√x)⁻¹) atTop (𝓝 (-0)) := (tendsto_inv_atTop_zero.comp sqrt_top).neg
  exact h1.atTop_add h2

theorem bI_top (hl : 0 < l) (hm : 0 < m) : Tendsto (bI l m) atTop atTop := by
  refine Tendsto.const_mul_atTop (sqrt_pos.2 hl) ?_
  have h1 : Tendsto (fun x : ℝ => √x / m) atTop atTop := sqrt_top.atTop_div_const hm
  have h2 : Tendsto (fun x : ℝ => (√x)⁻¹) atTop (𝓝 0) := tendsto_inv_atTop_zero.comp sqrt_top
  exact h1.atTop_add h2

theorem inv_zero_right : Tendsto (fun x : ℝ => (√x)⁻¹) (𝓝[>] 0) atTop := tendsto_inv_nhdsGT_zero.comp sqrt_zero_right

theorem sqrt_div_zero : Tendsto (fun x : ℝ => √x / m) (𝓝[>] 0) (𝓝 0) := by
  have := (tendsto_nhdsWithin_iff.1 sqrt_zero_right).1.div_const m
  rwa [zero_div] at this

theorem bI_zero (hl : 0 < l) : Tendsto (bI l m) (𝓝[>] 0) atTop := by
  refine Tendsto.const_mul_atTop (sqrt_pos.2 hl) ?_
  exact sqrt_div_zero.add_atTop inv_zero_right

theorem aI_zero (hl : 0 < l) : Tendsto (aI l m) (𝓝[>] 0) atBot := by
  refine Tendsto.const_mul_atBot (sqrt_pos.2 hl) ?_
  exact sqrt_div_zero.add_atBot (tendsto_neg_atTop_atBot.comp inv_zero_right)

theorem igd_nonneg {x : ℝ} (hx : 0 < x) : 0 ≤ igd l m x := by unfold igd; positivity

/-- The two antiderivatives. -/
noncomputable def fA (l m x : ℝ) : ℝ := erfc (aI l m x)
noncomputable def fB (l m x : ℝ) : ℝ := exp (2 * l / m) * erfc (bI l m x)

theorem fA_deriv {x : ℝ} (hx : 0 < x) : HasDerivAt (fA l m) (exp (-(1 / 2) * aI l m x ^ 2) * (√l * (1 / (2 * √x) / m + 1 / (2 * x * √x)))) x :=
  (erfc_deriv _).comp x (aI_deriv hx)

theorem fB_deriv {x : ℝ} (hl : 0 < l) (hm : 0 < m) (hx : 0 < x) :
    HasDerivAt (fB l m) (exp (-(1 / 2) * aI l m x ^ 2) * (√l * (1 / (2 * √x) / m - 1 / (2 * x * √x)))) x := by
  have h := ((erfc_deriv _).comp x (bI_deriv (l := l) (m := m) hx)).const_mul (exp (2 * l / m))
  refine h.congr_deriv ?_
  rw [bI_sq hl hm hx, ← mul_assoc, ← exp_add]
  congr 2
  ring

theorem fA_top (hl : 0 < l) (hm : 0 < m) : Tendsto (fA l m) atTop (𝓝 (√(2 * π) / 2)) := erfc_top.comp (aI_top hl hm)
theorem fA_zero (hl : 0 < l) : Tendsto (fA l m) (𝓝[>] 0) (𝓝 (-(√(2 * π) / 2))) := erfc_bot.comp (aI_zero hl)
theorem fB_top (hl : 0 < l) (hm : 0 < m) : Tendsto (fB l m) atTop (𝓝 (exp (2 * l / m) * (√(2 * π) / 2))) := (erfc_top.comp (bI_top hl hm)).const_mul _
theorem fB_zero (hl : 0 < l) : Tendsto (fB l m) (𝓝[>] 0) (𝓝 (exp (2 * l / m) * (√(2 * π) / 2))) := (erfc_top.comp (bI_zero hl)).const_mul _

theorem two_pi : 0 < √(2 * π) := sqrt_pos.2 (by positivity)

theorem ig_total (hl : 0 < l) (hm : 0 < m) : IntegrableOn (igd l m) (Set.Ioi 0) ∧ ∫ x in Set.Ioi 0, igd l m x = 1 := by
  have h := ftc_pos (F := fun x => (√(2 * π))⁻¹ * (fA l m x - fB l m x)) (f := igd l m) (fun x hx => by
      refine (((fA_deriv hx).sub (fB_deriv hl hm hx)).const_mul _).congr_deriv ?_
      unfold igd
      have := two_pi.ne'
      have := (sqrt_pos.2 hx).ne'
      field_simp
      ring) (fun x hx => igd_nonneg hx) (((fA_zero hl).sub (fB_zero hl)).const_mul _) (((fA_top hl hm).sub (fB_top hl hm)).const_mul _)
  refine ⟨h.1, h.2.trans ?_⟩
  have := two_pi.ne'
  field_simp
  ring

theorem ig_mean (hl : 0 < l) (hm : 0 < m) :
    IntegrableOn (fun x => x * igd l m x) (Set.Ioi 0) ∧ ∫ x in Set.Ioi 0, x * igd l m x = m := by
  have h := ftc_pos (F := fun x => m * (√(2 * π))⁻¹ * (fA l m x + fB l m x)) (f := fun x => x * igd l m x) (fun x hx => by
      refine (((fA_deriv hx).add (fB_deriv hl hm hx)).const_mul _).congr_deriv ?_
      unfold igd
      have := two_pi.ne'
      have := (sqrt_pos.2 hx).ne'
      field_simp
      ring) (fun x hx => mul_nonneg hx.le (igd_nonneg hx)) (((fA_zero hl).add (fB_zero hl)).const_mul _)
    (((fA_top hl hm).add (fB_top hl hm)).const_mul _)
  refine ⟨h.1, h.2.trans ?_⟩
  have := two_pi.ne'
  field_simp
  ring

noncomputable def fC (l m x : ℝ) : ℝ := √x * exp (-(1 / 2) * aI l m x ^ 2)

theorem fC_zero : Tendsto (fC l m) (𝓝[>] 0) (𝓝 0) := by
  have h := (tendsto_nhdsWithin_iff.1 sqrt_zero_right).1
  refine tendsto_of_tendsto_of_tendsto_of_le_of_le tendsto_const_nhds h (fun x => by unfold fC; positivity) fun x => ?_
  unfold fC
  refine mul_le_of_le_one_right (sqrt_nonneg x) ?_
  rw [exp_le_one_iff]
  have := sq_nonneg (aI l m x)
  linarith

theorem fC_top (hl : 0 < l) (hm : 0 < m) : Tendsto (fC l m) atTop (𝓝 0) := by
  have hr : 0 < l / (2 * m ^ 2) := by positivity
  have h1 : Tendsto (fun x : ℝ => x ^ (1 / 2 : ℝ) * exp (-(l / (2 * m ^ 2)) * x)) atTop (𝓝 0) := tendsto_rpow_mul_exp_neg_mul_atTop_nhds_zero _ _ hr
  have h2 := h1.const_mul (exp (l / m))
  rw [mul_zero] at h2
  refine tendsto_of_tendsto_of_tendsto_of_le_of_le' tendsto_const_nhds h2 (Eventually.of_forall fun x => by unfold fC; positivity) ?_
  filter_upwards [eventually_gt_atTop 0] with x hx
  unfold fC
  rw [aI_sq hl hm hx, ← sqrt_eq_rpow, mul_left_comm (exp (l / m)), ← exp_add]
  refine mul_le_mul_of_nonneg_left (exp_le_exp.2 ?_) (sqrt_nonneg x)
  have : 0 ≤ l / (2 * x) := by positivity
  have e : -(1 / 2) * (l * (x / m ^ 2 - 2 / m + 1 / x)) = l / m + -(l / (2 * m ^ 2)) * x - l / (2 * x) := by
    field_simp
    ring
  rw [e]
  linarith

theorem fC_deriv {x : ℝ} (hl : 0 < l) (hm : 0 < m) (hx : 0 < x) :
    HasDerivAt (fC l m) (exp (-(1 / 2) * aI l m x ^ 2) * (1 / (2 * √x) - √x * (l / 2) * (1 / m ^ 2 - 1 / x ^ 2))) x := by
  have ha : HasDerivAt (fun z => aI l m z ^ 2) (l * (1 / m ^ 2 - 1 / x ^ 2)) x := by
    have h1 : HasDerivAt (fun z : ℝ => l * (z / m ^ 2 - 2 / m + 1 / z)) (l * (1 / m ^ 2 - 1 / x ^ 2)) x := by
      have h2 : HasDerivAt (fun z : ℝ => 1 / z) (-(1 / x ^ 2)) x := by
        have := hasDerivAt_inv hx.ne'
        simp only [one_div]
        exact this
      have := ((((hasDerivAt_id x).div_const (m ^ 2)).sub_const (2 / m)).add h2).const_mul l
      refine this.congr_deriv ?_
      ring
    refine h1.congr_of_eventuallyEq ?_
    filter_upwards [lt_mem_nhds hx] with z hz
    exact aI_sq hl hm hz
  have he : HasDerivAt (fun z => exp (-(1 / 2) * aI l m z ^ 2)) (exp (-(1 / 2) * aI l m x ^ 2) * (-(1 / 2) * (l * (1 / m ^ 2 - 1 / x ^ 2)))) x :=
    (ha.const_mul (-(1 / 2))).exp
  refine ((sqrt_deriv hx).mul he).congr_deriv ?_
  ring

theorem ig_second (hl : 0 < l) (hm : 0 < m) :
    IntegrableOn (fun x => x ^ 2 * igd l m x) (Set.Ioi 0) ∧ ∫ x in Set.Ioi 0, x ^ 2 * igd l m x = m ^ 2 + m ^ 3 / l := by
  have h := ftc_pos (F := fun x => m ^ 2 / l * (√(2 * π))⁻¹ * (m * (fA l m x + fB l m x) + l * (fA l m x - fB l m x) - 2 * √l * fC l m x))
    (f := fun x => x ^ 2 * igd l m x) (fun x hx => by
      refine ((((((fA_deriv hx).add (fB_deriv hl hm hx)).const_mul m).add (((fA_deriv hx).sub (fB_deriv hl hm hx)).const_mul l)).sub
        ((fC_deriv hl hm hx).const_mul (2 * √l))).const_mul _).congr_deriv ?_
      unfold igd
      have := two_pi.ne'
      have hq := (sqrt_pos.2 hx).ne'
      have e : √x ^ 2 = x := sq_sqrt hx.le
      field_simp
      rw [e]
      field_simp
      ring) (fun x hx => mul_nonneg (sq_nonneg x) (igd_nonneg hx))
    (((((fA_zero hl).add (fB_zero hl)).const_mul m).add (((fA_zero hl).sub (fB_zero hl)).const_mul l)).sub (fC_zero.const_mul (2 * √l)) |>.const_mul _)
    (((((fA_top hl hm).add (fB_top hl hm)).const_mul m).add (((fA_top hl hm).sub (fB_top hl hm)).const_mul l)).sub
      ((fC_top hl hm).const_mul (2 * √l)) |>.const_mul _)
  refine ⟨h.1, h.2.trans ?_⟩
  have := two_pi.ne'
  field_simp
  ring

end Ig

end Verif.Dens
