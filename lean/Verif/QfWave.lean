import Mathlib.Analysis.Real.Pi.Leibniz
import Mathlib.Analysis.Calculus.Deriv.MeanValue
import Mathlib.Analysis.SpecialFunctions.Trigonometric.Deriv
import Mathlib.Analysis.Real.Pi.Bounds
import Mathlib.Data.Sign.Basic

/-!
# The series of sines at half-integer frequencies (for C115)
-/

namespace Verif.Qf

open Real Finset Filter Topology

/-- `∑_{k < N} sin ((k + 1/2) θ) / (k + 1/2)`. -/
noncomputable def wave (N : ℕ) (θ : ℝ) : ℝ := ∑ k ∈ Finset.range N, sin (((k : ℝ) + 1 / 2) * θ) / ((k : ℝ) + 1 / 2)

theorem wave_deriv (N : ℕ) (θ : ℝ) : HasDerivAt (wave N) (∑ k ∈ Finset.range N, cos (((k : ℝ) + 1 / 2) * θ)) θ := by
  unfold wave
  refine HasDerivAt.fun_sum fun k _ => ?_
  have hk : (k : ℝ) + 1 / 2 ≠ 0 := by positivity
  have h := ((hasDerivAt_id θ).const_mul ((k : ℝ) + 1 / 2)).sin.div_const ((k : ℝ) + 1 / 2)
  refine h.congr_deriv ?_
  simp only [id, mul_one]
  field_simp

theorem cos_sum (N : ℕ) (θ : ℝ) : (∑ k ∈ Finset.range N, cos (((k : ℝ) + 1 / 2) * θ)) * (2 * sin (θ / 2)) = sin (N * θ) := by
  induction N with
  | zero => simp
  | succ N ih =>
    rw [Finset.sum_range_succ, add_mul, ih]
    have h1 : sin ((N + 1 : ℕ) * θ) = sin (((N : ℝ) + 1 / 2) * θ + θ / 2) := by
      congr 1; push_cast; ring
    have h2 : sin (N * θ) = sin (((N : ℝ) + 1 / 2) * θ - θ / 2) := by
      congr 1; ring
    rw [h1, h2, sin_add, sin_sub]
    ring

/-- The corrected partial sum, whose derivative is small. -/
noncomputable def corr (N : ℕ) (θ : ℝ) : ℝ := wave N θ + cos (N * θ) / (2 * N * sin (θ / 2))

theorem corr_deriv {N : ℕ} (hN : 0 < N) {θ : ℝ} (h : sin (θ / 2) ≠ 0) :
    HasDerivAt (corr N) (-(cos (N * θ) * cos (θ / 2)) / (4 * N * sin (θ / 2) ^ 2)) θ := by
  have hN' : (N : ℝ) ≠ 0 := by positivity
  have h1 : HasDerivAt (fun x : ℝ => cos (N * x)) (-sin (N * θ) * N) θ := by
    have := ((hasDerivAt_id θ).const_mul (N : ℝ)).cos
    simpa using this
  have h2 : HasDerivAt (fun x : ℝ => 2 * (N : ℝ) * sin (x / 2)) (2 * N * (cos (θ / 2) * (1 / 2))) θ := by
    have := (((hasDerivAt_id θ).div_const 2).sin).const_mul (2 * (N : ℝ))
    simpa using this
  have h3 := (wave_deriv N θ).add (h1.div h2 (by positivity))
  refine h3.congr_deriv ?_
  have hc := cos_sum N θ
  rw [show (∑ k ∈ Finset.range N, cos (((k : ℝ) + 1 / 2) * θ)) = sin (N * θ) / (2 * sin (θ / 2)) by
    rw [← hc]
    exact (mul_div_cancel_right₀ _ (mul_ne_zero two_ne_zero h)).symm]
  rw [div_add_div _ _ (by positivity) (by positivity), div_eq_div_iff (by positivity) (by positivity)]
  ring

/-- `sin (t / 2)` on `(0, π]`. -/
theorem sin_half {t : ℝ} (h0 : 0 < t) (h1 : t ≤ π) : t / π ≤ sin (t / 2) := by
  have := Real.mul_le_sin (x := t / 2) (by linarith) (by linarith)
  calc t / π = 2 / π * (t / 2) := by ring
    _ ≤ _ := this

theorem corr_deriv_le {N : ℕ} (hN : 0 < N) {t : ℝ} (h0 : 0 < t) (h1 : t ≤ π) :
    |(-(cos (N * t) * cos (t / 2)) / (4 * N * sin (t / 2) ^ 2))| ≤ π ^ 2 / (4 * N) / t ^ 2 := by
  have hN' : (0 : ℝ) < N := by exact_mod_cast hN
  have hs := sin_half h0 h1
  have hp : 0 < t / π := div_pos h0 pi_pos
  have hs0 : 0 < sin (t / 2) := lt_of_lt_of_le hp hs
  rw [abs_div, abs_neg, abs_mul, abs_of_pos (by positivity : 0 < 4 * N * sin (t / 2) ^ 2)]
  have hn : |cos (N * t)| * |cos (t / 2)| ≤ 1 := by
    have a := abs_cos_le_one (N * t)
    have b := abs_cos_le_one (t / 2)
    nlinarith [abs_nonneg (cos (N * t)), abs_nonneg (cos (t / 2))]
  have hd : 4 * N * (t / π) ^ 2 ≤ 4 * N * sin (t / 2) ^ 2 := by
    have := pow_le_pow_left₀ hp.le hs 2
    nlinarith
  calc |cos (N * t)| * |cos (t / 2)| / (4 * N * sin (t / 2) ^ 2) ≤ 1 / (4 * N * (t / π) ^ 2) :=
        div_le_div₀ zero_le_one hn (by positivity) hd
    _ = π ^ 2 / (4 * N) / t ^ 2 := by field_simp

theorem corr_diff {N : ℕ} (hN : 0 < N) {θ : ℝ} (h0 : 0 < θ) (h1 : θ ≤ π) : |corr N θ - corr N π| ≤ π ^ 2 / (4 * N) / θ := by
  have hN' : (0 : ℝ) < N := by exact_mod_cast hN
  have hder : ∀ t ∈ Set.Icc θ π, HasDerivAt (corr N) (-(cos (N * t) * cos (t / 2)) / (4 * N * sin (t / 2) ^ 2)) t := by
    intro t ht
    have htp : 0 < t := lt_of_lt_of_le h0 ht.1
    exact corr_deriv hN (lt_of_lt_of_le (div_pos htp pi_pos) (sin_half htp ht.2)).ne'
  have hinv : ∀ t ∈ Set.Icc θ π, HasDerivAt (fun t : ℝ => π ^ 2 / (4 * N) * t⁻¹) (π ^ 2 / (4 * N) * (-(t ^ 2)⁻¹)) t := by
    intro t ht
    have htp : 0 < t := lt_of_lt_of_le h0 ht.1
    exact (hasDerivAt_inv htp.ne').const_mul _
  have hK : (0 : ℝ) ≤ π ^ 2 / (4 * N) := by positivity
  have hup : AntitoneOn (fun t : ℝ => corr N t + π ^ 2 / (4 * N) * t⁻¹) (Set.Icc θ π) := by
    refine antitoneOn_of_deriv_nonpos (convex_Icc _ _) ?_ ?_ ?_
    · exact fun t ht => ((hder t ht).add (hinv t ht)).continuousAt.continuousWithinAt
    · intro t ht
      rw [interior_Icc] at ht
      exact ((hder t ⟨ht.1.le, ht.2.le⟩).add (hinv t ⟨ht.1.le, ht.2.le⟩)).differentiableAt.differentiableWithinAt
    · intro t ht
      rw [interior_Icc] at ht
      have hd := ((hder t ⟨ht.1.le, ht.2.le⟩).add (hinv t ⟨ht.1.le, ht.2.le⟩)).deriv
      have hb := corr_deriv_le hN (lt_trans h0 ht.1) ht.2.le
      have := (abs_le.1 hb).2
      have e : (fun t : ℝ => corr N t + π ^ 2 / (4 * N) * t⁻¹) = (corr N + fun t : ℝ => π ^ 2 / (4 * N) * t⁻¹) := rfl
      rw [e, hd]
      rw [div_eq_mul_inv (π ^ 2 / (4 * (N : ℝ)))] at this
      linarith
  have hlo : MonotoneOn (fun t : ℝ => corr N t - π ^ 2 / (4 * N) * t⁻¹) (Set.Icc θ π) := by
    refine monotoneOn_of_deriv_nonneg (convex_Icc _ _) ?_ ?_ ?_
    · exact fun t ht => ((hder t ht).sub (hinv t ht)).continuousAt.continuousWithinAt
    · intro t ht
      rw [interior_Icc] at ht
      exact ((hder t ⟨ht.1.le, ht.2.le⟩).sub (hinv t ⟨ht.1.le, ht.2.le⟩)).differentiableAt.differentiableWithinAt
    · intro t ht
      rw [interior_Icc] at ht
      have hd := ((hder t ⟨ht.1.le, ht.2.le⟩).sub (hinv t ⟨ht.1.le, ht.2.le⟩)).deriv
      have hb := corr_deriv_le hN (lt_trans h0 ht.1) ht.2.le
      have := (abs_le.1 hb).1
      have e : (fun t : ℝ => corr N t - π ^ 2 / (4 * N) * t⁻¹) = (corr N - fun t : ℝ => π ^ 2 / (4 * N) * t⁻¹) := rfl
      rw [e, hd]
      rw [div_eq_mul_inv (π ^ 2 / (4 * (N : ℝ)))] at this
      linarith
  have a := hup (Set.left_mem_Icc.2 h1) (Set.right_mem_Icc.2 h1) h1
  have b := hlo (Set.left_mem_Icc.2 h1) (Set.right_mem_Icc.2 h1) h1
  dsimp only at a b
  have hpi : 0 ≤ π ^ 2 / (4 * N) * π⁻¹ := mul_nonneg hK (by positivity)
  rw [div_eq_mul_inv (π ^ 2 / (4 * (N : ℝ))), abs_le]
  constructor <;> linarith

/-- The partial sums on `(0, π]` against their value at `π`. -/
theorem wave_diff {N : ℕ} (hN : 0 < N) {θ : ℝ} (h0 : 0 < θ) (h1 : θ ≤ π) : |wave N θ - wave N π| ≤ 6 / (N * θ) := by
  have hN' : (0 : ℝ) < N := by exact_mod_cast hN
  have hd := corr_diff hN h0 h1
  have hs := sin_half h0 h1
  have hp : 0 < θ / π := div_pos h0 pi_pos
  have hs0 : 0 < sin (θ / 2) := lt_of_lt_of_le hp hs
  have e1 : |cos (N * θ) / (2 * N * sin (θ / 2))| ≤ π / (2 * N * θ) := by
    rw [abs_div, abs_of_pos (by positivity : 0 < 2 * N * sin (θ / 2))]
    calc _ ≤ 1 / (2 * N * (θ / π)) := div_le_div₀ zero_le_one (abs_cos_le_one _) (by positivity) (by nlinarith)
      _ = π / (2 * N * θ) := by field_simp
  have e2 : |cos (N * π) / (2 * N * sin (π / 2))| ≤ π / (2 * N * θ) := by
    rw [abs_div, sin_pi_div_two, mul_one, abs_of_pos (by positivity : (0 : ℝ) < 2 * N)]
    calc _ ≤ 1 / (2 * N : ℝ) := div_le_div_of_nonneg_right (abs_cos_le_one _) (by positivity)
      _ = π / (2 * N * π) := by field_simp
      _ ≤ _ := div_le_div_of_nonneg_left pi_pos.le (by positivity) (by nlinarith)
  have ht : wave N θ - wave N π = (corr N θ - corr N π) - cos (N * θ) / (2 * N * sin (θ / 2)) + cos (N * π) / (2 * N * sin (π / 2)) := by
    unfold corr; ring
  rw [ht]
  have hb : π ^ 2 / (4 * N) / θ + π / (2 * N * θ) + π / (2 * N * θ) ≤ 6 / (N * θ) := by
    have : π ^ 2 / (4 * N) / θ + π / (2 * N * θ) + π / (2 * N * θ) = (π ^ 2 / 4 + π) / (N * θ) := by field_simp; ring
    rw [this]
    refine div_le_div_of_nonneg_right ?_ (by positivity)
    have := pi_lt_d2
    have := pi_gt_three
    nlinarith
  have := abs_add_le ((corr N θ - corr N π) - cos (N * θ) / (2 * N * sin (θ / 2))) (cos (N * π) / (2 * N * sin (π / 2)))
  have := abs_sub (corr N θ - corr N π) (cos (N * θ) / (2 * N * sin (θ / 2)))
  linarith

theorem wave_pi : Tendsto (fun N => wave N π) atTop (𝓝 (π / 2)) := by
  have h := Real.tendsto_sum_pi_div_four.const_mul 2
  rw [show 2 * (π / 4) = π / 2 by ring] at h
  refine h.congr fun N => ?_
  unfold wave
  rw [Finset.mul_sum]
  refine Finset.sum_congr rfl fun k _ => ?_
  have hs : sin (((k : ℝ) + 1 / 2) * π) = (-1) ^ k := by
    rw [show ((k : ℝ) + 1 / 2) * π = π / 2 + k * π by ring, sin_add_nat_mul_pi, sin_pi_div_two, mul_one]
  rw [hs]
  field_simp

theorem wave_tendsto_pos {θ : ℝ} (h0 : 0 < θ) (h1 : θ ≤ π) : Tendsto (fun N => wave N θ) atTop (𝓝 (π / 2)) := by
  have hz : Tendsto (fun N : ℕ => wave N θ - wave N π) atTop (𝓝 0) := by
    refine squeeze_zero_norm' (a := fun N : ℕ => 6 / θ * (1 / (N : ℝ))) ?_ ?_
    · filter_upwards [eventually_gt_atTop 0] with N hN
      rw [Real.norm_eq_abs]
      refine (wave_diff hN h0 h1).trans (le_of_eq ?_)
      field_simp
    · have := tendsto_one_div_atTop_nhds_zero_nat.const_mul (6 / θ)
      simpa using this
  have := hz.add wave_pi
  simpa using this

theorem wave_neg (N : ℕ) (θ : ℝ) : wave N (-θ) = -wave N θ := by
  unfold wave
  rw [← Finset.sum_neg_distrib]
  refine Finset.sum_congr rfl fun k _ => ?_
  rw [mul_neg, sin_neg, neg_div]

theorem wave_add (N : ℕ) (θ : ℝ) (m : ℤ) : wave N (θ + m * (2 * π)) = (-1) ^ m * wave N θ := by
  unfold wave
  rw [Finset.mul_sum]
  refine Finset.sum_congr rfl fun k _ => ?_
  have : sin (((k : ℝ) + 1 / 2) * (θ + m * (2 * π))) = (-1) ^ m * sin (((k : ℝ) + 1 / 2) * θ) := by
    rw [show ((k : ℝ) + 1 / 2) * (θ + m * (2 * π)) = ((k : ℝ) + 1 / 2) * θ + ((2 * (k : ℤ) + 1) * m : ℤ) * π by push_cast; ring,
      sin_add_int_mul_pi]
    congr 1
    rw [zpow_mul]
    congr 1
    rw [zpow_add₀ (by norm_num), zpow_mul]
    norm_num
  rw [this, mul_div_assoc]

/-- The square wave of period `4 π` to which the partial sums converge. -/
noncomputable def square (θ : ℝ) : ℝ := π / 2 * SignType.sign (sin (θ / 2))

theorem square_add (θ : ℝ) (m : ℤ) : square (θ + m * (2 * π)) = (-1) ^ m * square θ := by
  unfold square
  rw [show (θ + m * (2 * π)) / 2 = θ / 2 + m * π by ring, sin_add_int_mul_pi]
  rcases Int.even_or_odd m with h | h
  · rw [h.neg_one_zpow, one_mul, one_mul]
  · rw [h.neg_one_zpow]
    simp [Left.sign_neg]

theorem square_of_pos {θ : ℝ} (h0 : 0 < θ) (h1 : θ < 2 * π) : square θ = π / 2 := by
  unfold square
  rw [sign_pos (sin_pos_of_pos_of_lt_pi (by linarith) (by linarith))]
  simp

theorem square_neg (θ : ℝ) : square (-θ) = -square θ := by
  unfold square
  rw [neg_div, sin_neg, Left.sign_neg]
  simp

theorem square_abs (θ : ℝ) : |square θ| ≤ π / 2 := by
  unfold square
  rcases lt_trichotomy (sin (θ / 2)) 0 with h | h | h
  · rw [sign_neg h, abs_mul, abs_of_pos (by positivity : 0 < π / 2)]; norm_num
  · rw [h, sign_zero]; simp; positivity
  · rw [sign_pos h, abs_mul, abs_of_pos (by positivity : 0 < π / 2)]; norm_num

/-- A bound on the partial sums that holds everywhere. -/
noncomputable def waveB (B : ℝ) : ℝ := B + 6

theorem wave_bdd_pos {B : ℝ} (hB : ∀ N, |wave N π| ≤ B) (N : ℕ) {θ : ℝ} (h0 : 0 ≤ θ) (h1 : θ ≤ π) : |wave N θ| ≤ B + 6 := by
  have hB0 : 0 ≤ B := (abs_nonneg _).trans (hB 0)
  rcases Nat.eq_zero_or_pos N with rfl | hN
  · unfold wave
    simp
    linarith
  have hN' : (0 : ℝ) < N := by exact_mod_cast hN
  by_cases hs : (N : ℝ) * θ ≤ 1
  · have : |wave N θ| ≤ ∑ k ∈ Finset.range N, θ := by
      refine (Finset.abs_sum_le_sum_abs _ _).trans (Finset.sum_le_sum fun k _ => ?_)
      have hk : (0 : ℝ) < (k : ℝ) + 1 / 2 := by positivity
      rw [abs_div, abs_of_pos hk, div_le_iff₀ hk]
      have := abs_sin_le_abs (x := ((k : ℝ) + 1 / 2) * θ)
      rw [abs_of_nonneg (a := ((k : ℝ) + 1 / 2) * θ) (by positivity)] at this
      linarith
    rw [Finset.sum_const, Finset.card_range, nsmul_eq_mul] at this
    linarith
  · push Not at hs
    have hθ : 0 < θ := by
      rcases h0.lt_or_eq with h | h
      · exact h
      · rw [← h] at hs; simp at hs; linarith
    have hd := wave_diff hN hθ h1
    have h6 : 6 / (N * θ) ≤ 6 := by
      rw [div_le_iff₀ (by positivity)]
      nlinarith
    have hb := hB N
    have : |wave N θ| ≤ |wave N θ - wave N π| + |wave N π| := by
      have := abs_add_le (wave N θ - wave N π) (wave N π)
      simpa using this
    linarith

theorem exists_reduce (θ : ℝ) : ∃ (m : ℤ) (t : ℝ), θ = t + m * (2 * π) ∧ -π < t ∧ t ≤ π := by
  have hp : (0 : ℝ) < 2 * π := by positivity
  have h := (toIocMod_mem_Ioc hp (-π) θ)
  refine ⟨toIocDiv hp (-π) θ, toIocMod hp (-π) θ, ?_, h.1, by linarith [h.2]⟩
  have := toIocMod_add_toIocDiv_zsmul hp (-π) θ
  rw [zsmul_eq_mul] at this
  exact this.symm

theorem neg_one_zpow_abs (m : ℤ) (x : ℝ) : |(-1) ^ m * x| = |x| := by
  rw [abs_mul, abs_zpow]; simp

/-- The partial sums are bounded by one constant. -/
theorem wave_bdd : ∃ B : ℝ, ∀ N θ, |wave N θ| ≤ B := by
  obtain ⟨B, hB⟩ : ∃ B, ∀ N, |wave N π| ≤ B := by
    obtain ⟨B, hB⟩ := (Metric.isBounded_range_of_tendsto _ wave_pi).exists_norm_le
    exact ⟨B, fun N => hB _ ⟨N, rfl⟩⟩
  refine ⟨B + 6, fun N θ => ?_⟩
  obtain ⟨m, t, rfl, h0, h1⟩ := exists_reduce θ
  rw [wave_add, neg_one_zpow_abs]
  rcases le_total 0 t with h | h
  · exact wave_bdd_pos hB N h h1
  · have := wave_bdd_pos hB N (θ := -t) (by linarith) (by linarith)
    rwa [wave_neg, abs_neg] at this

theorem wave_tendsto (θ : ℝ) : Tendsto (fun N => wave N θ) atTop (𝓝 (square θ)) := by
  obtain ⟨m, t, rfl, h0, h1⟩ := exists_reduce θ
  rw [square_add]
  simp_rw [wave_add]
  refine Tendsto.const_mul _ ?_
  rcases lt_trichotomy t 0 with h | h | h
  · have a := wave_tendsto_pos (θ := -t) (by linarith) (by linarith)
    have b := square_of_pos (θ := -t) (by linarith) (by linarith)
    rw [square_neg] at b
    have c := a.neg
    simp_rw [wave_neg, neg_neg] at c
    rwa [show square t = -(π / 2) by linarith]
  · subst h
    have e : square 0 = 0 := by unfold square; simp
    rw [e]
    have : (fun N => wave N 0) = fun _ => 0 := by funext N; unfold wave; simp
    rw [this]
    exact tendsto_const_nhds
  · rw [square_of_pos h (by linarith [pi_pos])]
    exact wave_tendsto_pos h h1

end Verif.Qf
