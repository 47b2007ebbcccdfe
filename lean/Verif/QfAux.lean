import Verif.Qf

/-!
# Auxiliary integrations of the distribution function (property C115)
-/

namespace Verif.Qf
open Real

theorem exp1_mul {a b : ℝ} (ha : a ≤ 0) (hb : b ≤ 0) : |exp1 (a + b) - exp1 a * exp1 b| ≤ exp (-50) := by
  by_cases h : a + b < -50
  · have h1 : exp1 (a + b) = 0 := if_pos h
    have h2 : ∀ x, 0 ≤ exp1 x ∧ exp1 x ≤ exp x := fun x => by
      unfold exp1
      split_ifs
      · exact ⟨le_rfl, (exp_pos _).le⟩
      · exact ⟨(exp_pos _).le, le_rfl⟩
    rw [h1, zero_sub, abs_neg, abs_of_nonneg (mul_nonneg (h2 a).1 (h2 b).1)]
    calc exp1 a * exp1 b ≤ exp a * exp b := mul_le_mul (h2 a).2 (h2 b).2 (h2 b).1 (exp_pos _).le
      _ = exp (a + b) := (exp_add _ _).symm
      _ ≤ exp (-50) := exp_le_exp.2 h.le
  · have e : exp1 (a + b) = exp (a + b) := if_neg h
    have e1 : exp1 a = exp a := if_neg (by linarith)
    have e2 : exp1 b = exp b := if_neg (by linarith)
    rw [e, e1, e2, exp_add, sub_self, abs_zero]
    exact (exp_pos _).le

theorem sum3_nonpos {cs : Comps} (hn : ∀ p ∈ cs, 0 ≤ p.2) {v : ℝ} (hv : 0 ≤ v) (u : ℝ) : sum3 cs v u ≤ 0 := by
  unfold sum3
  have h : 0 ≤ (cs.map fun p : ℝ × ℤ => 1 / 4 * (p.2 : ℝ) * log1 ((2 * p.1 * u) ^ 2) true).sum := by
    refine List.sum_nonneg fun x hx => ?_
    obtain ⟨p, hp, rfl⟩ := List.mem_map.1 hx
    have h1 : (0 : ℝ) ≤ (p.2 : ℝ) := by exact_mod_cast hn p hp
    have h2 : 0 ≤ log1 ((2 * p.1 * u) ^ 2) true := by
      show 0 ≤ log (1 + (2 * p.1 * u) ^ 2)
      exact log_nonneg (by nlinarith [sq_nonneg (2 * p.1 * u)])
    positivity
  have : 0 ≤ v * u ^ 2 := by positivity
  linarith

/-- **C115.** An auxiliary integration is the complement of the main one: with `v` the variance so far and `t` the variance of the
convergence factor, the auxiliary sum and the main sum with variance `v + t`, over the same nodes, add up to the main sum with variance
`v`.  The difference is due to the values below `exp(-50)` that `exp1` replaces by zero. -/
theorem auxiliary_complement {cs : Comps} (hn : ∀ p ∈ cs, 0 ≤ p.2) {v t : ℝ} (hv : 0 ≤ v) (ht : 0 ≤ t) (c : ℝ) (n : ℕ) {Δ : ℝ} (hΔ : 0 < Δ) :
    |(integrate cs v c n Δ (some t)).1 + (integrate cs (v + t) c n Δ none).1 - (integrate cs v c n Δ none).1| ≤ (n + 1) * exp (-50) := by
  unfold integrate
  dsimp only
  rw [list_range_sum, list_range_sum, list_range_sum, ← Finset.sum_add_distrib, ← Finset.sum_sub_distrib]
  refine (Finset.abs_sum_le_sum_abs _ _).trans ?_
  have : ∀ k ∈ Finset.range (n + 1), |sin (1 / 2 * sum1 cs c (((k : ℝ) + 1 / 2) * Δ)) * factor cs v Δ (some t) k +
      sin (1 / 2 * sum1 cs c (((k : ℝ) + 1 / 2) * Δ)) * factor cs (v + t) Δ none k -
      sin (1 / 2 * sum1 cs c (((k : ℝ) + 1 / 2) * Δ)) * factor cs v Δ none k| ≤ exp (-50) := by
    intro k _
    have hk : (0 : ℝ) < (k : ℝ) + 1 / 2 := by positivity
    have ha := sum3_nonpos hn hv (((k : ℝ) + 1 / 2) * Δ)
    have hb : -(1 / 2) * t * (((k : ℝ) + 1 / 2) * Δ) ^ 2 ≤ 0 := by
      have : 0 ≤ t * (((k : ℝ) + 1 / 2) * Δ) ^ 2 := by positivity
      linarith
    have hs : sum3 cs (v + t) (((k : ℝ) + 1 / 2) * Δ) =
        sum3 cs v (((k : ℝ) + 1 / 2) * Δ) + -(1 / 2) * t * (((k : ℝ) + 1 / 2) * Δ) ^ 2 := by
      unfold sum3
      ring
    unfold factor
    dsimp only
    rw [hs]
    generalize sum3 cs v (((k : ℝ) + 1 / 2) * Δ) = a at ha ⊢
    generalize -(1 / 2) * t * (((k : ℝ) + 1 / 2) * Δ) ^ 2 = b at hb ⊢
    generalize 1 / 2 * sum1 cs c (((k : ℝ) + 1 / 2) * Δ) = y
    have e : sin y * (Δ / π * exp1 a / (((k : ℝ) + 1 / 2) * Δ) * (1 - exp1 b)) + sin y * (Δ / π * exp1 (a + b) / (((k : ℝ) + 1 / 2) * Δ)) -
        sin y * (Δ / π * exp1 a / (((k : ℝ) + 1 / 2) * Δ)) = sin y * (exp1 (a + b) - exp1 a * exp1 b) / (π * ((k : ℝ) + 1 / 2)) := by
      field_simp
      ring
    rw [e, abs_div, abs_mul, abs_of_pos (by positivity : 0 < π * ((k : ℝ) + 1 / 2)), div_le_iff₀ (by positivity)]
    have h1 := abs_sin_le_one y
    have h2 := exp1_mul ha hb
    have h3 : (1 : ℝ) ≤ π * ((k : ℝ) + 1 / 2) := by
      have := pi_gt_three
      have hk0 : (0 : ℝ) ≤ k := by positivity
      nlinarith
    have h4 := exp_pos (-50 : ℝ)
    have h5 : |sin y| * |exp1 (a + b) - exp1 a * exp1 b| ≤ 1 * exp (-50) := mul_le_mul h1 h2 (abs_nonneg _) zero_le_one
    nlinarith
  refine (Finset.sum_le_sum this).trans ?_
  rw [Finset.sum_const, Finset.card_range, nsmul_eq_mul]
  push_cast
  exact le_rfl

example : |(integrate [(1, 2), (1 / 2, 1)] 0 3 40 (1 / 10) (some (1 / 100))).1 + (integrate [(1, 2), (1 / 2, 1)] (0 + 1 / 100) 3 40 (1 / 10) none).1 -
    (integrate [(1, 2), (1 / 2, 1)] 0 3 40 (1 / 10) none).1| ≤ ((40 : ℕ) + 1) * exp (-50) :=
  auxiliary_complement (by simp) le_rfl (by norm_num) 3 40 (by norm_num)

end Verif.Qf
