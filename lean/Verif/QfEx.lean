import Verif.Qf
import Mathlib.Analysis.Complex.ExponentialBounds
import Mathlib.Analysis.Real.Pi.Bounds

/-!
# A run of `qf` that meets the hypotheses of the theorems of C115

The difference of two squared standard normal variables, as in the test for an estimated scale with few degrees of freedom, at
zero, with required accuracy 1.5.
-/

namespace Verif.Qf

open Real

/-- Two chi-square variables with one degree of freedom and weights 1 and -1. -/
def cs0 : Comps := [(1, 1), (-1, 1)]

theorem trunc_le (u : ℝ) (h : exp 1 < (1 + (2 * u) ^ 2) ^ 2) : truncation cs0 u 0 0 ≤ 3 / 4 := by
  have hp : 0 < 1 + (2 * u) ^ 2 := by positivity
  have hl : 1 < 2 * log (1 + (2 * u) ^ 2) := by
    have := Real.log_lt_log (exp_pos 1) h
    rw [log_exp, log_pow] at this
    exact_mod_cast this
  have hx1 : xsq u 1 = (2 * u) ^ 2 := by unfold xsq; ring
  have hx2 : xsq u (-1) = (2 * u) ^ 2 := by unfold xsq; ring
  have hy : ∀ y, 1 < y → 5 / 2 * (exp1 (-(1 / 4) * y) / π) ≤ 3 / 4 := by
    intro y hy
    have h1 : exp1 (-(1 / 4) * y) ≤ exp (-(1 / 4)) := by
      unfold exp1
      split_ifs
      · exact (exp_pos _).le
      · exact exp_le_exp.2 (by linarith)
    have h2 : exp (-(1 / 4) : ℝ) ≤ 4 / 5 := by
      rw [exp_neg, inv_le_comm₀ (exp_pos _) (by norm_num)]
      have := add_one_le_exp (1 / 4 : ℝ)
      norm_num at this ⊢
      linarith
    have h3 := Real.pi_gt_three
    rw [mul_div_assoc', div_le_iff₀ (by linarith)]
    nlinarith
  unfold truncation
  by_cases hb : 1 < (2 * u) ^ 2
  · simp only [cs0, hx1, hx2, hb, List.filter, decide_true, not_true, decide_false, List.map_nil, List.sum_nil, List.map_cons, List.sum_cons, log1, if_true]
    have h3 : (2 * ((0 + 0) * u ^ 2) + 0 + (((1 : ℤ) : ℝ) * log (1 + (2 * u) ^ 2) + (((1 : ℤ) : ℝ) * log (1 + (2 * u) ^ 2) + 0))) = 2 * log (1 + (2 * u) ^ 2) := by
      push_cast; ring
    rw [h3, if_pos hl]
    have := hy _ hl
    split_ifs <;> linarith
  · simp only [cs0, hx1, hx2, hb, List.filter, decide_true, not_false_eq_true, decide_false, List.map_nil, List.sum_nil, List.map_cons, List.sum_cons, log1, if_true]
    have h3 : (2 * ((0 + 0) * u ^ 2) + (((1 : ℤ) : ℝ) * log (1 + (2 * u) ^ 2) + (((1 : ℤ) : ℝ) * log (1 + (2 * u) ^ 2) + 0)) + 0) = 2 * log (1 + (2 * u) ^ 2) := by
      push_cast; ring
    rw [h3, if_pos hl]
    have := hy _ hl
    split_ifs <;> linarith

theorem trunc_one (u : ℝ) (hb : ¬ 1 < (2 * u) ^ 2) (h : (1 + (2 * u) ^ 2) ^ 2 ≤ exp 1) : truncation cs0 u 0 0 = 1 := by
  have hp : 0 < 1 + (2 * u) ^ 2 := by positivity
  have hl : ¬ 1 < 2 * log (1 + (2 * u) ^ 2) := by
    have := Real.log_le_log (by positivity) h
    rw [log_exp, log_pow] at this
    push_cast at this
    linarith
  have hx1 : xsq u 1 = (2 * u) ^ 2 := by unfold xsq; ring
  have hx2 : xsq u (-1) = (2 * u) ^ 2 := by unfold xsq; ring
  unfold truncation
  simp only [cs0, hx1, hx2, hb, List.filter, decide_true, not_false_eq_true, decide_false, List.map_nil, List.sum_nil, List.map_cons, List.sum_cons, log1, if_true]
  have h3 : (2 * ((0 + 0) * u ^ 2) + (((1 : ℤ) : ℝ) * log (1 + (2 * u) ^ 2) + (((1 : ℤ) : ℝ) * log (1 + (2 * u) ^ 2) + 0)) + 0) = 2 * log (1 + (2 * u) ^ 2) := by
    push_cast; ring
  rw [h3, if_neg hl]
  have hy : (1 / 2 * ((0 + 0) * u ^ 2)) ≤ exp1 (-(1 / 4) * (2 * log (1 + (2 * u) ^ 2))) / π := by
    have : 0 ≤ exp1 (-(1 / 4) * (2 * log (1 + (2 * u) ^ 2))) := by unfold exp1; split_ifs <;> positivity
    have h0 : (1 / 2 * ((0 + 0) * u ^ 2)) = 0 := by ring
    rw [h0]
    exact div_nonneg this Real.pi_pos.le
  rw [if_pos hy]
  simp

/-- The bound on the tail probability for these weights. -/
theorem errbd_eq (u : ℝ) (h : |2 * u| < 1) (hh : (2 * u) ^ 2 ≤ 9 / 10) :
    errbd cs0 0 u = exp (-((2 * u) ^ 2 / (1 - (2 * u) ^ 2))) / √(1 - (2 * u) ^ 2) := by
  obtain ⟨h1, h2⟩ := abs_lt.1 h
  have hp1 : 0 < 1 - 2 * u := by linarith
  have hp2 : 0 < 1 + 2 * u := by linarith
  have hq : 0 < 1 - (2 * u) ^ 2 := by nlinarith
  have key : -(1 / 2) * (u * (u * 0) + (cs0.map fun p : ℝ × ℤ => (p.2 : ℝ) * ((2 * u * p.1) ^ 2 / (1 - 2 * u * p.1) + log1 (-(2 * u * p.1)) false)).sum)
      = -((2 * u) ^ 2 / (1 - (2 * u) ^ 2)) + -(1 / 2) * log (1 - (2 * u) ^ 2) := by
    have hl : log (1 - (2 * u) ^ 2) = log (1 - 2 * u) + log (1 + 2 * u) := by
      rw [← log_mul hp1.ne' hp2.ne']; congr 1; ring
    rw [hl]
    simp only [cs0, List.map_cons, List.map_nil, List.sum_cons, List.sum_nil, log1, Bool.false_eq_true, if_false]
    have e1 : 1 + -(2 * u * 1) = 1 - 2 * u := by ring
    have e2 : 1 + -(2 * u * -1) = 1 + 2 * u := by ring
    have e3 : 1 - 2 * u * 1 = 1 - 2 * u := by ring
    have e4 : 1 - 2 * u * -1 = 1 + 2 * u := by ring
    rw [e1, e2, e3, e4]
    have e5 : (2 * u) ^ 2 / (1 - (2 * u) ^ 2) = 1 / 2 * ((2 * u * 1) ^ 2 / (1 - 2 * u) + (2 * u * -1) ^ 2 / (1 + 2 * u)) := by
      have : 1 - (2 * u) ^ 2 = (1 - 2 * u) * (1 + 2 * u) := by ring
      rw [this]
      field_simp
      ring
    rw [e5]
    push_cast
    ring
  unfold errbd
  rw [key]
  have hb : ¬ (-((2 * u) ^ 2 / (1 - (2 * u) ^ 2)) + -(1 / 2) * log (1 - (2 * u) ^ 2) < -50) := by
    have h3 : (2 * u) ^ 2 / (1 - (2 * u) ^ 2) ≤ 9 := by
      rw [div_le_iff₀ hq]; linarith
    have h4 : log (1 - (2 * u) ^ 2) ≤ 0 := log_nonpos hq.le (by nlinarith [sq_nonneg (2 * u)])
    linarith
  unfold exp1
  rw [if_neg hb, exp_add, sqrt_eq_rpow, rpow_def_of_pos hq, div_eq_mul_inv (exp _), ← exp_neg (log _ * _)]
  congr 2
  ring

theorem cutoff_eq (u : ℝ) (h : |2 * u| < 1) : cutoff cs0 0 u = 2 * (2 * u) / (1 - (2 * u) ^ 2) := by
  obtain ⟨h1, h2⟩ := abs_lt.1 h
  have hp1 : 0 < 1 - 2 * u := by linarith
  have hp2 : 0 < 1 + 2 * u := by linarith
  unfold cutoff
  simp only [cs0, List.map_cons, List.map_nil, List.sum_cons, List.sum_nil]
  have e3 : 1 - 2 * u * 1 = 1 - 2 * u := by ring
  have e4 : 1 - 2 * u * -1 = 1 + 2 * u := by ring
  have : 1 - (2 * u) ^ 2 = (1 - 2 * u) * (1 + 2 * u) := by ring
  rw [e3, e4, this, eq_div_iff (by positivity)]
  have i1 : 1 * (1 : ℝ) / (1 - 2 * u) * (1 - 2 * u) = 1 := by rw [mul_one]; exact div_mul_cancel₀ _ hp1.ne'
  have i2 : -1 * (1 : ℝ) / (1 + 2 * u) * (1 + 2 * u) = -1 := by rw [mul_one]; exact div_mul_cancel₀ _ hp2.ne'
  push_cast
  linear_combination (1 + 2 * u) * i1 + (1 - 2 * u) * i2

/-- Small enough. -/
theorem errbd_small {u x a : ℝ} (hx : (2 * u) ^ 2 = x) (hx1 : x ≤ 9 / 10) (ha : x / (1 - x) = a) (h0 : 0 ≤ a)
    (h : 1 ≤ (3 / 4 * (1 + a + a ^ 2 / 2)) ^ 2 * (1 - x)) : ¬ 3 / 4 < errbd cs0 0 u := by
  have hu : |2 * u| < 1 := by rw [← sq_lt_one_iff_abs_lt_one]; linarith
  rw [errbd_eq u hu (by linarith), hx, ha, not_lt, div_le_iff₀ (Real.sqrt_pos.2 (by linarith)), exp_neg,
    inv_le_iff_one_le_mul₀ (exp_pos _)]
  have hq := quadratic_le_exp_of_nonneg h0
  have h1 : 1 ≤ 3 / 4 * (1 + a + a ^ 2 / 2) * √(1 - x) := by
    have : (3 / 4 * (1 + a + a ^ 2 / 2)) ^ 2 * (1 - x) = (3 / 4 * (1 + a + a ^ 2 / 2) * √(1 - x)) ^ 2 := by
      rw [mul_pow _ (√(1 - x)), Real.sq_sqrt (by linarith)]
    rw [this] at h
    exact (one_le_sq_iff₀ (by positivity)).1 h
  have h2 := Real.sqrt_nonneg (1 - x)
  nlinarith

/-- Not small enough. -/
theorem errbd_large {u x a : ℝ} (hx : (2 * u) ^ 2 = x) (hx1 : x ≤ 9 / 10) (ha : x / (1 - x) = a) (ha8 : a ≤ 8)
    (h : (3 / 4) ^ 2 * (1 - x) < ((1 - a / 8) ^ 8) ^ 2) : 3 / 4 < errbd cs0 0 u := by
  have hu : |2 * u| < 1 := by rw [← sq_lt_one_iff_abs_lt_one]; linarith
  rw [errbd_eq u hu (by linarith), hx, ha, lt_div_iff₀ (Real.sqrt_pos.2 (by linarith))]
  have hq := one_sub_div_pow_le_exp_neg (n := 8) (t := a) (by exact_mod_cast ha8)
  push_cast at hq
  refine lt_of_lt_of_le ?_ hq
  have h3 : (3 / 4 * √(1 - x)) ^ 2 < ((1 - a / 8) ^ 8) ^ 2 := by
    rw [mul_pow, Real.sq_sqrt (by linarith)]; exact h
  exact lt_of_pow_lt_pow_left₀ 2 (by positivity) h3

theorem ctff_up (b : ℕ) : ctff cs0 0 (3 / 4) (-1) 1 0 (b + 6) ((9 / 4)) = some ((((45 / 64)), ((3465 / 1952))), b) := by
  have hcut : ∀ x c : ℝ, |x| < 1 → 2 * x = c * (1 - x ^ 2) → ∀ u, 2 * u = x → cutoff cs0 0 u = c := by
    intro x c hx hc u hu
    rw [cutoff_eq u (by rw [hu]; exact hx), hu, hc, mul_div_cancel_right₀]
    have := (sq_lt_one_iff_abs_lt_one x).2 hx
    linarith
  have e0 : ¬ 3 / 4 < errbd cs0 0 ((9 / 22)) := errbd_small (x := 81 / 121) (a := 81 / 40) (by norm_num) (by norm_num) (by norm_num) (by norm_num) (by norm_num)
  have k0 : cutoff cs0 0 ((9 / 22)) = ((99 / 20)) := hcut ((9 / 11)) _ (by rw [abs_lt]; constructor <;> norm_num) (by norm_num) _ (by norm_num)
  have u0 : ((9 / 4)) / (1 + ((9 / 4)) * 2) = (((9 / 22)) : ℝ) := by norm_num
  have e1 : ¬ 3 / 4 < errbd cs0 0 ((9 / 26)) := errbd_small (x := 81 / 169) (a := 81 / 88) (by norm_num) (by norm_num) (by norm_num) (by norm_num) (by norm_num)
  have k1 : cutoff cs0 0 ((9 / 26)) = ((117 / 44)) := hcut ((9 / 13)) _ (by rw [abs_lt]; constructor <;> norm_num) (by norm_num) _ (by norm_num)
  have u1 : ((9 / 8)) / (1 + ((9 / 8)) * 2) = (((9 / 26)) : ℝ) := by norm_num
  have e2 : 3 / 4 < errbd cs0 0 ((9 / 34)) := errbd_large (x := 81 / 289) (a := 81 / 208) (by norm_num) (by norm_num) (by norm_num) (by norm_num) (by norm_num)
  have k2 : cutoff cs0 0 ((9 / 34)) = ((153 / 104)) := hcut ((9 / 17)) _ (by rw [abs_lt]; constructor <;> norm_num) (by norm_num) _ (by norm_num)
  have u2 : ((9 / 16)) / (1 + ((9 / 16)) * 2) = (((9 / 34)) : ℝ) := by norm_num
  have e3 : ¬ 3 / 4 < errbd cs0 0 ((27 / 86)) := errbd_small (x := 729 / 1849) (a := 729 / 1120) (by norm_num) (by norm_num) (by norm_num) (by norm_num) (by norm_num)
  have k3 : cutoff cs0 0 ((27 / 86)) = ((1161 / 560)) := hcut ((27 / 43)) _ (by rw [abs_lt]; constructor <;> norm_num) (by norm_num) _ (by norm_num)
  have u3 : ((27 / 32)) / (1 + ((27 / 32)) * 2) = (((27 / 86)) : ℝ) := by norm_num
  have e4 : ¬ 3 / 4 < errbd cs0 0 ((45 / 154)) := errbd_small (x := 2025 / 5929) (a := 2025 / 3904) (by norm_num) (by norm_num) (by norm_num) (by norm_num) (by norm_num)
  have k4 : cutoff cs0 0 ((45 / 154)) = ((3465 / 1952)) := hcut ((45 / 77)) _ (by rw [abs_lt]; constructor <;> norm_num) (by norm_num) _ (by norm_num)
  have u4 : ((45 / 64)) / (1 + ((45 / 64)) * 2) = (((45 / 154)) : ℝ) := by norm_num
  have e5 : 3 / 4 < errbd cs0 0 ((81 / 290)) := errbd_large (x := 6561 / 21025) (a := 6561 / 14464) (by norm_num) (by norm_num) (by norm_num) (by norm_num) (by norm_num)
  have k5 : cutoff cs0 0 ((81 / 290)) = ((11745 / 7232)) := hcut ((81 / 145)) _ (by rw [abs_lt]; constructor <;> norm_num) (by norm_num) _ (by norm_num)
  have u5 : ((81 / 128)) / (1 + ((81 / 128)) * 2) = (((81 / 290)) : ℝ) := by norm_num
  unfold ctff
  have hrb : (2 : ℝ) * (if (0 : ℝ) < ((9 / 4)) then 1 else -1) = 2 := by
    rw [if_pos (by norm_num)]; norm_num
  dsimp only
  rw [hrb]
  have s1 : ctff1 cs0 0 (3 / 4) 2 (b + 6) 0 0 ((9 / 4)) = some ((0, 0, ((9 / 4)), ((99 / 20))), b + 5) := by
    rw [ctff1, u0, if_neg e0, k0]
  rw [s1]
  dsimp only
  rw [ctff2, if_pos (by norm_num)]
  dsimp only
  rw [show (0 + ((9 / 4))) / 2 = (((9 / 8)) : ℝ) by norm_num, u1, if_neg e1, k1]
  rw [ctff2, if_pos (by norm_num)]
  dsimp only
  rw [show (0 + ((9 / 8))) / 2 = (((9 / 16)) : ℝ) by norm_num, u2, if_pos e2, k2]
  rw [ctff2, if_pos (by norm_num)]
  dsimp only
  rw [show (((9 / 16)) + ((9 / 8))) / 2 = (((27 / 32)) : ℝ) by norm_num, u3, if_neg e3, k3]
  rw [ctff2, if_pos (by norm_num)]
  dsimp only
  rw [show (((9 / 16)) + ((27 / 32))) / 2 = (((45 / 64)) : ℝ) by norm_num, u4, if_neg e4, k4]
  rw [ctff2, if_pos (by norm_num)]
  dsimp only
  rw [show (((9 / 16)) + ((45 / 64))) / 2 = (((81 / 128)) : ℝ) by norm_num, u5, if_pos e5, k5]
  cases b with
  | zero => rw [ctff2, if_neg (by norm_num)]
  | succ b => rw [ctff2, if_neg (by norm_num)]

theorem ctff_down (b : ℕ) : ctff cs0 0 (3 / 4) (-1) 1 0 (b + 6) (-(9 / 4)) = some (((-(45 / 64)), (-(3465 / 1952))), b) := by
  have hcut : ∀ x c : ℝ, |x| < 1 → 2 * x = c * (1 - x ^ 2) → ∀ u, 2 * u = x → cutoff cs0 0 u = c := by
    intro x c hx hc u hu
    rw [cutoff_eq u (by rw [hu]; exact hx), hu, hc, mul_div_cancel_right₀]
    have := (sq_lt_one_iff_abs_lt_one x).2 hx
    linarith
  have e0 : ¬ 3 / 4 < errbd cs0 0 (-(9 / 22)) := errbd_small (x := 81 / 121) (a := 81 / 40) (by norm_num) (by norm_num) (by norm_num) (by norm_num) (by norm_num)
  have k0 : cutoff cs0 0 (-(9 / 22)) = (-(99 / 20)) := hcut (-(9 / 11)) _ (by rw [abs_lt]; constructor <;> norm_num) (by norm_num) _ (by norm_num)
  have u0 : (-(9 / 4)) / (1 + (-(9 / 4)) * (-2)) = ((-(9 / 22)) : ℝ) := by norm_num
  have e1 : ¬ 3 / 4 < errbd cs0 0 (-(9 / 26)) := errbd_small (x := 81 / 169) (a := 81 / 88) (by norm_num) (by norm_num) (by norm_num) (by norm_num) (by norm_num)
  have k1 : cutoff cs0 0 (-(9 / 26)) = (-(117 / 44)) := hcut (-(9 / 13)) _ (by rw [abs_lt]; constructor <;> norm_num) (by norm_num) _ (by norm_num)
  have u1 : (-(9 / 8)) / (1 + (-(9 / 8)) * (-2)) = ((-(9 / 26)) : ℝ) := by norm_num
  have e2 : 3 / 4 < errbd cs0 0 (-(9 / 34)) := errbd_large (x := 81 / 289) (a := 81 / 208) (by norm_num) (by norm_num) (by norm_num) (by norm_num) (by norm_num)
  have k2 : cutoff cs0 0 (-(9 / 34)) = (-(153 / 104)) := hcut (-(9 / 17)) _ (by rw [abs_lt]; constructor <;> norm_num) (by norm_num) _ (by norm_num)
  have u2 : (-(9 / 16)) / (1 + (-(9 / 16)) * (-2)) = ((-(9 / 34)) : ℝ) := by norm_num
  have e3 : ¬ 3 / 4 < errbd cs0 0 (-(27 / 86)) := errbd_small (x := 729 / 1849) (a := 729 / 1120) (by norm_num) (by norm_num) (by norm_num) (by norm_num) (by norm_num)
  have k3 : cutoff cs0 0 (-(27 / 86)) = (-(1161 / 560)) := hcut (-(27 / 43)) _ (by rw [abs_lt]; constructor <;> norm_num) (by norm_num) _ (by norm_num)
  have u3 : (-(27 / 32)) / (1 + (-(27 / 32)) * (-2)) = ((-(27 / 86)) : ℝ) := by norm_num
  have e4 : ¬ 3 / 4 < errbd cs0 0 (-(45 / 154)) := errbd_small (x := 2025 / 5929) (a := 2025 / 3904) (by norm_num) (by norm_num) (by norm_num) (by norm_num) (by norm_num)
  have k4 : cutoff cs0 0 (-(45 / 154)) = (-(3465 / 1952)) := hcut (-(45 / 77)) _ (by rw [abs_lt]; constructor <;> norm_num) (by norm_num) _ (by norm_num)
  have u4 : (-(45 / 64)) / (1 + (-(45 / 64)) * (-2)) = ((-(45 / 154)) : ℝ) := by norm_num
  have e5 : 3 / 4 < errbd cs0 0 (-(81 / 290)) := errbd_large (x := 6561 / 21025) (a := 6561 / 14464) (by norm_num) (by norm_num) (by norm_num) (by norm_num) (by norm_num)
  have k5 : cutoff cs0 0 (-(81 / 290)) = (-(11745 / 7232)) := hcut (-(81 / 145)) _ (by rw [abs_lt]; constructor <;> norm_num) (by norm_num) _ (by norm_num)
  have u5 : (-(81 / 128)) / (1 + (-(81 / 128)) * (-2)) = ((-(81 / 290)) : ℝ) := by norm_num
  unfold ctff
  have hrb : (2 : ℝ) * (if (0 : ℝ) < (-(9 / 4)) then 1 else -1) = -2 := by
    rw [if_neg (by norm_num)]; norm_num
  dsimp only
  rw [hrb]
  have s1 : ctff1 cs0 0 (3 / 4) (-2) (b + 6) 0 0 (-(9 / 4)) = some ((0, 0, (-(9 / 4)), (-(99 / 20))), b + 5) := by
    rw [ctff1, u0, if_neg e0, k0]
  rw [s1]
  dsimp only
  rw [ctff2, if_pos (by norm_num)]
  dsimp only
  rw [show (0 + (-(9 / 4))) / 2 = ((-(9 / 8)) : ℝ) by norm_num, u1, if_neg e1, k1]
  rw [ctff2, if_pos (by norm_num)]
  dsimp only
  rw [show (0 + (-(9 / 8))) / 2 = ((-(9 / 16)) : ℝ) by norm_num, u2, if_pos e2, k2]
  rw [ctff2, if_pos (by norm_num)]
  dsimp only
  rw [show ((-(9 / 16)) + (-(9 / 8))) / 2 = ((-(27 / 32)) : ℝ) by norm_num, u3, if_neg e3, k3]
  rw [ctff2, if_pos (by norm_num)]
  dsimp only
  rw [show ((-(9 / 16)) + (-(27 / 32))) / 2 = ((-(45 / 64)) : ℝ) by norm_num, u4, if_neg e4, k4]
  rw [ctff2, if_pos (by norm_num)]
  dsimp only
  rw [show ((-(9 / 16)) + (-(45 / 64))) / 2 = ((-(81 / 128)) : ℝ) by norm_num, u5, if_pos e5, k5]
  cases b with
  | zero => rw [ctff2, if_neg (by norm_num)]
  | succ b => rw [ctff2, if_neg (by norm_num)]

theorem findu_run (b : ℕ) : findu cs0 0 (3 / 4) (b + 7) 8 = some (5 / 12, b) := by
  have he := Real.exp_one_gt_d9
  have he' := Real.exp_one_lt_d9
  have t0 : ¬ 3 / 4 < truncation cs0 2 0 0 := not_lt.2 (trunc_le _ (by norm_num; linarith))
  have t1 : truncation cs0 (1 / 2) 0 0 ≤ 3 / 4 := trunc_le _ (by norm_num; linarith)
  have t2 : ¬ truncation cs0 (1 / 8) 0 0 ≤ 3 / 4 := by rw [trunc_one _ (by norm_num) (by norm_num; linarith)]; norm_num
  have t3 : ¬ truncation cs0 (1 / 4) 0 0 ≤ 3 / 4 := by rw [trunc_one _ (by norm_num) (by norm_num; linarith)]; norm_num
  have t4 : ¬ truncation cs0 (5 / 14) 0 0 ≤ 3 / 4 := by rw [trunc_one _ (by norm_num) (by norm_num; linarith)]; norm_num
  have t5 : truncation cs0 (5 / 12) 0 0 ≤ 3 / 4 := trunc_le _ (by norm_num; linarith)
  have t6 : ¬ truncation cs0 (25 / 66) 0 0 ≤ 3 / 4 := by rw [trunc_one _ (by norm_num) (by norm_num; linarith)]; norm_num
  unfold findu
  dsimp only
  rw [show (8 / 4 : ℝ) = 2 by norm_num, if_neg t0]
  have r1 : reduce cs0 0 (3 / 4) (b + 6) 2 = some (1 / 2, b + 4) := by
    rw [reduce, show (2 / 4 : ℝ) = 1 / 2 by norm_num, if_pos t1, reduce, show (1 / 2 / 4 : ℝ) = 1 / 8 by norm_num, if_neg t2]
  rw [r1]
  dsimp only
  rw [refine, show (1 / 2 / 2 : ℝ) = 1 / 4 by norm_num, if_neg t3, refine, show (1 / 2 / (7 / 5) : ℝ) = 5 / 14 by norm_num, if_neg t4, refine,
    show (1 / 2 / (6 / 5) : ℝ) = 5 / 12 by norm_num, if_pos t5, refine, show (5 / 12 / (11 / 10) : ℝ) = 25 / 66 by norm_num, if_neg t6, refine]

/-- The run: no fault, no auxiliary integration, no convergence factor, value one half. -/
theorem run : qf cs0 0 0 (3 / 2) 50 = ⟨1 / 2, 0, 0, 0⟩ := by
  have hex : extremes cs0 = (1, -1) := by
    unfold extremes cs0
    simp
  have hvar : var cs0 0 = 4 := by
    unfold var cs0
    norm_num
  have hmean : mean cs0 = 0 := by
    unfold mean cs0
    norm_num
  have hsd : √(4 : ℝ) = 2 := by
    rw [show (4 : ℝ) = 2 ^ 2 by norm_num]; exact Real.sqrt_sq (by norm_num)
  unfold qf
  rw [if_neg (by unfold cs0; simp), hvar, if_neg (by norm_num), hex]
  dsimp only
  rw [if_neg (by norm_num), hsd]
  generalize (if (1 : ℝ) < - -1 then - -1 else (1 : ℝ)) = almx
  rw [show (0 : ℝ) ^ 2 = 0 by norm_num, show (1 / 2 * (3 / 2) : ℝ) = 3 / 4 by norm_num, show (16 / 2 : ℝ) = 8 by norm_num,
    show (50 : ℤ).toNat = 43 + 7 from rfl, findu_run]
  dsimp only
  have hfs : factorStep cs0 0 (3 / 2) 0 almx 2 43 (5 / 12) = some ((0, 0, 5 / 12), 43) := by
    unfold factorStep
    rw [if_neg (by simp)]
  rw [hfs]
  dsimp only
  rw [hmean, show (9 / 2 / 2 : ℝ) = 9 / 4 by norm_num, range]
  have h1 := ctff_up 37
  have h2 := ctff_down 31
  simp only [show (37 + 6 : ℕ) = 43 from rfl] at h1
  simp only [show (31 + 6 : ℕ) = 37 from rfl] at h2
  rw [h1]
  dsimp only
  rw [if_neg (by norm_num), h2]
  dsimp only
  rw [if_neg (by norm_num)]
  have hp := Real.pi_gt_three
  have hxnt : (5 / 12 : ℝ) / (2 * π / max (3465 / 1952 - 0) (0 - -(3465 / 1952))) < 1 / 2 := by
    rw [show max ((3465 / 1952 : ℝ) - 0) (0 - -(3465 / 1952)) = 3465 / 1952 by norm_num, div_div_eq_mul_div, div_lt_iff₀ (by positivity)]
    linarith
  have hxnt0 : 0 ≤ (5 / 12 : ℝ) / (2 * π / max (3465 / 1952 - 0) (0 - -(3465 / 1952))) := by positivity
  have hs : 1 ≤ 3 / √(3 / 4 : ℝ) := by
    have h1 : √(3 / 4 : ℝ) ≤ 1 := by rw [Real.sqrt_le_left (by norm_num)]; norm_num
    have h2 : 0 < √(3 / 4 : ℝ) := Real.sqrt_pos.2 (by norm_num)
    rw [le_div_iff₀ h2]
    linarith
  rw [if_neg (by linarith)]
  generalize (2 * π / max ((3465 / 1952 : ℝ) - 0) (0 - -(3465 / 1952))) = intv at hxnt hxnt0 ⊢
  unfold finish
  rw [if_neg (by push_cast; linarith)]
  dsimp only
  have hfl : ⌊5 / 12 / intv + 1 / 2⌋₊ = 0 := Nat.floor_eq_zero.2 (by linarith)
  rw [hfl]
  have hI : (integrate cs0 0 0 0 intv none).1 = 0 := by
    unfold integrate
    have : sum1 cs0 0 ((((0 : ℕ) : ℝ) + 1 / 2) * intv) = 0 := by
      unfold sum1 cs0
      simp
    simp only [zero_add, List.range_one, List.map_cons, List.map_nil, List.sum_cons, List.sum_nil, this]
    simp
  rw [hI, if_neg]
  · norm_num
  · rintro ⟨q, hq, h⟩
    simp only [List.mem_cons, List.not_mem_nil, or_false] at hq
    rcases hq with rfl | rfl | rfl | rfl <;> linarith

example : |(1 / 2 : ℝ) - (Wald.chi [1, -1]).real (Set.Iio 0)| ≤ 3 / 2 + 51 * exp (-50) := by
  have he : 4 * exp (-50) ≤ (3 / 2 : ℝ) := by linarith [exp_small]
  have h := accuracy_chi_partial (cs := cs0) (c := 0) (lim := 50) he (by norm_num) (by rw [run]) (by rw [run]) (by rw [run])
  rw [run] at h
  norm_num [show spread cs0 = [1, -1] from rfl, show Int.toNat 50 = 50 from rfl] at h ⊢
  exact h

end Verif.Qf
