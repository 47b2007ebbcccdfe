import Verif.QfModel
import Mathlib.Analysis.Calculus.Deriv.MeanValue
import Mathlib.Analysis.SpecialFunctions.Pow.Deriv
import Mathlib.Analysis.Convex.SpecificFunctions.Basic
import Mathlib.Algebra.Order.BigOperators.Group.List
import Mathlib.Analysis.Real.Pi.Bounds
import Mathlib.Analysis.MeanInequalities
import Mathlib.Analysis.Complex.ExponentialBounds

/-!
# The bound on the truncation error (for C115)
-/

namespace Verif.Qf

open Real

/-- Sums of decreasing functions against the decrease of a primitive. -/
theorem tail_le {g H h : ℝ → ℝ} {U : ℝ} (hH : ∀ t, U ≤ t → HasDerivAt H (-h t) t) (hg : ∀ t, U ≤ t → g t ≤ h t)
    (anti : ∀ s t, U ≤ s → s ≤ t → g t ≤ g s) {Δ : ℝ} (hΔ : 0 < Δ) {a : ℝ} (ha : U ≤ a) (n : ℕ) :
    ∑ i ∈ Finset.range n, Δ * g (a + ((i : ℝ) + 1) * Δ) ≤ H a - H (a + n * Δ) := by
  induction n with
  | zero => simp
  | succ n ih =>
    rw [Finset.sum_range_succ]
    have hlt : a + n * Δ < a + ((n : ℝ) + 1) * Δ := by nlinarith
    have hn : (0 : ℝ) ≤ n * Δ := by positivity
    obtain ⟨ξ, hξ, he⟩ := exists_hasDerivAt_eq_slope H (fun t => -h t) hlt
      (fun t ht => (hH t (by linarith [ht.1])).continuousAt.continuousWithinAt) (fun t ht => hH t (by linarith [ht.1]))
    have hd : a + ((n : ℝ) + 1) * Δ - (a + n * Δ) = Δ := by ring
    rw [hd, eq_div_iff hΔ.ne'] at he
    have h1 := hg ξ (by linarith [hξ.1])
    have h2 := anti ξ (a + ((n : ℝ) + 1) * Δ) (by linarith [hξ.1]) hξ.2.le
    have h3 : Δ * g (a + ((n : ℝ) + 1) * Δ) ≤ Δ * h ξ := mul_le_mul_of_nonneg_left (h2.trans h1) hΔ.le
    push_cast
    nlinarith

theorem tail_le' {g H h : ℝ → ℝ} {U : ℝ} (hH : ∀ t, U ≤ t → HasDerivAt H (-h t) t) (hg : ∀ t, U ≤ t → g t ≤ h t)
    (g0 : ∀ t, U ≤ t → 0 ≤ g t) (H0 : ∀ t, U ≤ t → 0 ≤ H t)
    (anti : ∀ s t, U ≤ s → s ≤ t → g t ≤ g s) {Δ : ℝ} (hΔ : 0 < Δ) {a : ℝ} (ha : U ≤ a) (n : ℕ) :
    ∑ i ∈ Finset.range n, Δ * g (a + ((i : ℝ) + 1) * Δ) ≤ H U := by
  have h1 := tail_le hH hg anti hΔ ha n
  have h2 := H0 (a + n * Δ) (by
    have : (0 : ℝ) ≤ n * Δ := by positivity
    linarith)
  have h3 : H a ≤ H U := by
    rcases ha.lt_or_eq with hlt | heq
    · obtain ⟨ξ, hξ, he⟩ := exists_hasDerivAt_eq_slope H (fun t => -h t) hlt
        (fun t ht => (hH t ht.1).continuousAt.continuousWithinAt) (fun t ht => hH t ht.1.le)
      have hp : 0 < a - U := by linarith
      rw [eq_div_iff hp.ne'] at he
      have := (g0 ξ hξ.1.le).trans (hg ξ hξ.1.le)
      nlinarith
    · rw [heq]
  linarith

/-- Minus four times the logarithm of the modulus of the characteristic function. -/
noncomputable def pot (cs : Comps) (v t : ℝ) : ℝ := 2 * (v * t ^ 2) + (cs.map fun p : ℝ × ℤ => (p.2 : ℝ) * log (1 + xsq t p.1)).sum

theorem sum3_eq (cs : Comps) (v t : ℝ) : sum3 cs v t = -(1 / 4) * pot cs v t := by
  unfold sum3 pot log1 xsq
  rw [mul_add, ← List.sum_map_mul_left]
  have : (cs.map fun p : ℝ × ℤ => -(1 / 4) * ((p.2 : ℝ) * log (1 + (2 * t * p.1) ^ 2))).sum
      = -(cs.map fun p : ℝ × ℤ => 1 / 4 * (p.2 : ℝ) * log (1 + (2 * p.1 * t) ^ 2)).sum := by
    induction cs with
    | nil => simp
    | cons q l ih =>
      simp only [List.map_cons, List.sum_cons, ih]
      rw [show 2 * t * q.1 = 2 * q.1 * t by ring]
      ring
  rw [this]
  simp only [if_true]
  ring

theorem xsq_nonneg (t a : ℝ) : 0 ≤ xsq t a := sq_nonneg _

theorem xsq_scale {U : ℝ} (hU : U ≠ 0) (t a : ℝ) : xsq t a = xsq U a * (t / U) ^ 2 := by
  unfold xsq; field_simp

theorem xsq_mono {s t : ℝ} (h0 : 0 ≤ s) (h : s ≤ t) (a : ℝ) : xsq s a ≤ xsq t a := by
  unfold xsq
  rw [mul_pow, mul_pow (2 * t)]
  have : (2 * s) ^ 2 ≤ (2 * t) ^ 2 := pow_le_pow_left₀ (by linarith) (by linarith) 2
  exact mul_le_mul_of_nonneg_right this (sq_nonneg _)

theorem filter_sum {α : Type} (l : List α) (P : α → Prop) [DecidablePred P] (f : α → ℝ) :
    ((l.filter fun p => decide (¬ P p)).map f).sum + ((l.filter fun p => decide (P p)).map f).sum = (l.map f).sum := by
  induction l with
  | nil => simp
  | cons a l ih =>
    simp only [List.filter_cons, List.map_cons, List.sum_cons]
    by_cases h : P a
    · simp only [h, not_true_eq_false, decide_false, decide_true, if_true, List.map_cons, List.sum_cons]
      simp only [Bool.false_eq_true, if_false]
      linarith
    · simp only [h, not_false_eq_true, decide_false, decide_true, if_true, List.map_cons, List.sum_cons]
      simp only [Bool.false_eq_true, if_false]
      linarith

section Bounds

variable {cs : Comps} (hn : ∀ p ∈ cs, 0 ≤ p.2) {v : ℝ} (hv : 0 ≤ v) {U : ℝ} (hU : 0 < U) {t : ℝ} (ht : U ≤ t)

include hn

theorem sum_le_sum' {f g : ℝ × ℤ → ℝ} (h : ∀ p ∈ cs, f p ≤ g p) :
    (cs.map fun p : ℝ × ℤ => (p.2 : ℝ) * f p).sum ≤ (cs.map fun p : ℝ × ℤ => (p.2 : ℝ) * g p).sum := by
  refine List.sum_le_sum fun p hp => ?_
  exact mul_le_mul_of_nonneg_left (h p hp) (by exact_mod_cast hn p hp)

include hv hU ht

theorem pot_mono : pot cs v U ≤ pot cs v t := by
  unfold pot
  have h1 : U ^ 2 ≤ t ^ 2 := pow_le_pow_left₀ hU.le ht 2
  have h2 := sum_le_sum' hn (f := fun p => log (1 + xsq U p.1)) (g := fun p => log (1 + xsq t p.1)) fun p _ =>
    log_le_log (by linarith [xsq_nonneg U p.1]) (by linarith [xsq_mono hU.le ht p.1])
  nlinarith

/-- Increase of the potential, normal part. -/
theorem pot_normal : 2 * v * (t ^ 2 - U ^ 2) ≤ pot cs v t - pot cs v U := by
  unfold pot
  have h2 := sum_le_sum' hn (f := fun p => log (1 + xsq U p.1)) (g := fun p => log (1 + xsq t p.1)) fun p _ =>
    log_le_log (by linarith [xsq_nonneg U p.1]) (by linarith [xsq_mono hU.le ht p.1])
  linarith

/-- Increase of the potential above the value without the `1 +` in the large terms. -/
theorem pot_big :
    2 * (v * U ^ 2) + ((cs.filter fun p => decide (¬ 1 < xsq U p.1)).map fun p : ℝ × ℤ => (p.2 : ℝ) * log (1 + xsq U p.1)).sum
      + ((cs.filter fun p => decide (1 < xsq U p.1)).map fun p : ℝ × ℤ => (p.2 : ℝ) * log (xsq U p.1)).sum
      + (((cs.filter fun p => decide (1 < xsq U p.1)).map fun p : ℝ × ℤ => p.2).sum : ℤ) * (2 * log (t / U)) ≤ pot cs v t := by
  have h1 : U ^ 2 ≤ t ^ 2 := pow_le_pow_left₀ hU.le ht 2
  have hρ : 0 < t / U := div_pos (lt_of_lt_of_le hU ht) hU
  unfold pot
  rw [← filter_sum cs (fun p => 1 < xsq U p.1)]
  have hs : ((cs.filter fun p => decide (¬ 1 < xsq U p.1)).map fun p : ℝ × ℤ => (p.2 : ℝ) * log (1 + xsq U p.1)).sum
      ≤ ((cs.filter fun p => decide (¬ 1 < xsq U p.1)).map fun p : ℝ × ℤ => (p.2 : ℝ) * log (1 + xsq t p.1)).sum := by
    refine List.sum_le_sum fun p hp => ?_
    refine mul_le_mul_of_nonneg_left ?_ (by exact_mod_cast hn p (List.mem_of_mem_filter hp))
    exact log_le_log (by linarith [xsq_nonneg U p.1]) (by linarith [xsq_mono hU.le ht p.1])
  have hb : ((cs.filter fun p => decide (1 < xsq U p.1)).map fun p : ℝ × ℤ => (p.2 : ℝ) * log (xsq U p.1)).sum
      + (((cs.filter fun p => decide (1 < xsq U p.1)).map fun p : ℝ × ℤ => p.2).sum : ℤ) * (2 * log (t / U))
      ≤ ((cs.filter fun p => decide (1 < xsq U p.1)).map fun p : ℝ × ℤ => (p.2 : ℝ) * log (1 + xsq t p.1)).sum := by
    have e : ((((cs.filter fun p => decide (1 < xsq U p.1)).map fun p : ℝ × ℤ => p.2).sum : ℤ) : ℝ) * (2 * log (t / U))
        = ((cs.filter fun p => decide (1 < xsq U p.1)).map fun p : ℝ × ℤ => (p.2 : ℝ) * (2 * log (t / U))).sum := by
      rw [List.sum_map_mul_right]
      congr 1
      generalize (cs.filter fun p => decide (1 < xsq U p.1)) = l
      induction l with
      | nil => simp
      | cons q l ih => simp [ih]
    rw [e, ← List.sum_map_add]
    refine List.sum_le_sum fun p hp => ?_
    rw [← mul_add]
    refine mul_le_mul_of_nonneg_left ?_ (by exact_mod_cast hn p (List.mem_of_mem_filter hp))
    have hx : 1 < xsq U p.1 := by simpa using List.of_mem_filter hp
    have : log (xsq U p.1) + 2 * log (t / U) = log (xsq t p.1) := by
      rw [xsq_scale hU.ne' t p.1, log_mul (by linarith) (by positivity), log_pow]
      push_cast; ring
    rw [this]
    refine log_le_log ?_ (by linarith)
    exact lt_of_lt_of_le (by linarith) (xsq_mono hU.le ht p.1)
  nlinarith

/-- Increase of the potential once it exceeds one. -/
theorem pot_one (h1 : 1 < pot cs v U) : 2 * log (t / U) - 4 * log (5 / 4) ≤ pot cs v t - pot cs v U := by
  have hr1 : 1 ≤ t / U := (one_le_div hU).2 ht
  obtain ⟨ρ, hρ⟩ : ∃ ρ, ρ = (t / U) ^ 2 := ⟨_, rfl⟩
  have hρ1 : 1 ≤ ρ := by rw [hρ]; exact one_le_pow₀ hr1
  have hlog : 2 * log (t / U) = log ρ := by rw [hρ, log_pow]; push_cast; ring
  rw [hlog]
  have hx : ∀ a, xsq t a = xsq U a * ρ := fun a => by rw [hρ]; exact xsq_scale hU.ne' t a
  have ht2 : t ^ 2 = U ^ 2 * ρ := by rw [hρ]; field_simp
  have hinc : ∀ p ∈ cs, log (1 + xsq U p.1) ≤ log (1 + xsq t p.1) := fun p _ =>
    log_le_log (by linarith [xsq_nonneg U p.1]) (by linarith [xsq_mono hU.le ht p.1])
  have hdiff : pot cs v t - pot cs v U
      = 2 * v * U ^ 2 * (ρ - 1) + (cs.map fun p : ℝ × ℤ => (p.2 : ℝ) * (log (1 + xsq t p.1) - log (1 + xsq U p.1))).sum := by
    unfold pot
    simp_rw [mul_sub]
    rw [ht2]
    have : (cs.map fun p : ℝ × ℤ => (p.2 : ℝ) * log (1 + xsq t p.1) - (p.2 : ℝ) * log (1 + xsq U p.1)).sum
        = (cs.map fun p : ℝ × ℤ => (p.2 : ℝ) * log (1 + xsq t p.1)).sum - (cs.map fun p : ℝ × ℤ => (p.2 : ℝ) * log (1 + xsq U p.1)).sum := by
      generalize cs = l
      induction l with
      | nil => simp
      | cons q l ih => simp only [List.map_cons, List.sum_cons, ih]; ring
    rw [this]
    ring
  have hnn : ∀ x ∈ (cs.map fun p : ℝ × ℤ => (p.2 : ℝ) * (log (1 + xsq t p.1) - log (1 + xsq U p.1))), 0 ≤ x := by
    intro x hx
    obtain ⟨p, hp, rfl⟩ := List.mem_map.1 hx
    exact mul_nonneg (by exact_mod_cast hn p hp) (by linarith [hinc p hp])
  have hvn : 0 ≤ 2 * v * U ^ 2 * (ρ - 1) := mul_nonneg (by positivity) (by linarith)
  have h54 : 4 / 5 ≤ 4 * log (5 / 4) := by
    have := Real.one_sub_inv_le_log_of_pos (show (0 : ℝ) < 5 / 4 by norm_num)
    norm_num at this ⊢
    linarith
  by_cases hb : ∃ p ∈ cs, 1 ≤ p.2 ∧ 7 / 10 ≤ xsq U p.1
  · obtain ⟨p, hp, hp1, hpx⟩ := hb
    have hs := List.single_le_sum hnn _ (List.mem_map.2 ⟨p, hp, rfl⟩)
    have hd : log ρ - 4 * log (5 / 4) ≤ log (1 + xsq t p.1) - log (1 + xsq U p.1) := by
      have e : log ρ - 4 * log (5 / 4) = log (ρ / (5 / 4) ^ 4) := by
        rw [log_div (x := ρ) (by positivity) (by positivity), log_pow]
        push_cast; ring
      have e2 : log (1 + xsq t p.1) - log (1 + xsq U p.1) = log ((1 + xsq t p.1) / (1 + xsq U p.1)) := by
        rw [log_div (by linarith [xsq_nonneg t p.1]) (by linarith [xsq_nonneg U p.1])]
      rw [e, e2]
      refine log_le_log (by positivity) ?_
      rw [div_le_div_iff₀ (by positivity) (by linarith), hx]
      nlinarith
    have hd0 : 0 ≤ log (1 + xsq t p.1) - log (1 + xsq U p.1) := by linarith [hinc p hp]
    have hp1' : (1 : ℝ) ≤ (p.2 : ℝ) := by exact_mod_cast hp1
    rw [hdiff]
    nlinarith
  · push Not at hb
    by_cases hr : log ρ < 4 / 7
    · have := List.sum_nonneg hnn
      rw [hdiff]
      linarith
    · push Not at hr
      obtain ⟨κ, hκ⟩ : ∃ κ, κ = 10 / 7 * log (1 + 7 / 10 * ρ) := ⟨_, rfl⟩
      have hk1 : log ρ + 3 / 7 ≤ κ := by
        have hamgm : (10 / 3 : ℝ) ^ (3 / 10 : ℝ) * ρ ^ (7 / 10 : ℝ) ≤ 3 / 10 * (10 / 3) + 7 / 10 * ρ :=
          Real.geom_mean_le_arith_mean2_weighted (by norm_num) (by norm_num) (by norm_num) (by linarith) (by norm_num)
        have hl := log_le_log (by positivity) hamgm
        rw [log_mul (by positivity) (by positivity), log_rpow (by norm_num), log_rpow (by linarith)] at hl
        have h10 : 1 ≤ log (10 / 3) := by
          rw [Real.le_log_iff_exp_le (by norm_num)]
          have := Real.exp_one_lt_d9
          linarith
        rw [hκ, show (1 : ℝ) + 7 / 10 * ρ = 3 / 10 * (10 / 3) + 7 / 10 * ρ by ring]
        linarith
      have hk2 : κ ≤ ρ := by
        have := Real.log_le_sub_one_of_pos (show 0 < 1 + 7 / 10 * ρ by linarith)
        rw [hκ]; linarith
      have hterm : ∀ p ∈ cs, (κ - 1) * ((p.2 : ℝ) * log (1 + xsq U p.1)) ≤ (p.2 : ℝ) * (log (1 + xsq t p.1) - log (1 + xsq U p.1)) := by
        intro p hp
        rcases (hn p hp).lt_or_eq with h | h
        · have hp1 : 1 ≤ p.2 := h
          have hxl := hb p hp hp1
          have hx0 := xsq_nonneg U p.1
          have hber : (1 + 7 / 10 * ρ) ^ (xsq U p.1 / (7 / 10)) ≤ 1 + xsq U p.1 / (7 / 10) * (7 / 10 * ρ) :=
            rpow_one_add_le_one_add_mul_self (by linarith) (by positivity) (by
              rw [div_le_one (by norm_num)]; exact hxl.le)
          have hl := log_le_log (rpow_pos_of_pos (by linarith) _) hber
          rw [log_rpow (by linarith)] at hl
          have e : 1 + xsq U p.1 / (7 / 10) * (7 / 10 * ρ) = 1 + xsq t p.1 := by rw [hx]; field_simp
          rw [e] at hl
          have hl2 : κ * xsq U p.1 ≤ log (1 + xsq t p.1) := by rw [hκ]; linarith
          have hl3 : log (1 + xsq U p.1) ≤ xsq U p.1 := by
            have := Real.log_le_sub_one_of_pos (show 0 < 1 + xsq U p.1 by linarith)
            linarith
          have hk0 : 0 ≤ κ := by linarith
          have : (κ - 1) * log (1 + xsq U p.1) ≤ log (1 + xsq t p.1) - log (1 + xsq U p.1) := by nlinarith
          have hp' : (0 : ℝ) ≤ (p.2 : ℝ) := by exact_mod_cast hn p hp
          nlinarith
        · rw [← h]; simp
      have hsum : (κ - 1) * (cs.map fun p : ℝ × ℤ => (p.2 : ℝ) * log (1 + xsq U p.1)).sum
          ≤ (cs.map fun p : ℝ × ℤ => (p.2 : ℝ) * (log (1 + xsq t p.1) - log (1 + xsq U p.1))).sum := by
        rw [← List.sum_map_mul_left]
        exact List.sum_le_sum hterm
      have hv2 : (κ - 1) * (2 * (v * U ^ 2)) ≤ 2 * v * U ^ 2 * (ρ - 1) := by
        have : 0 ≤ v * U ^ 2 := by positivity
        nlinarith
      have hall : (κ - 1) * pot cs v U ≤ pot cs v t - pot cs v U := by
        rw [hdiff]
        unfold pot
        linarith
      nlinarith

end Bounds

/-- Modulus of the characteristic function divided by `π t`. -/
noncomputable def dens (cs : Comps) (v t : ℝ) : ℝ := exp (-(1 / 4) * pot cs v t) / (π * t)

theorem exp1_le {x a : ℝ} (ha : exp (-50) ≤ a) (h : exp1 x ≤ a) : exp x ≤ a := by
  unfold exp1 at h
  split_ifs at h with hx
  · exact (exp_le_exp.2 hx.le).trans ha
  · exact h

/-- Power majorant. -/
theorem tail_power {cs : Comps} (hn : ∀ p ∈ cs, 0 ≤ p.2) {v : ℝ} (hv : 0 ≤ v) {U A q : ℝ} (hU : 0 < U) (hA : 0 ≤ A) (hq : 0 < q)
    (hb : ∀ t, U ≤ t → exp (-(1 / 4) * pot cs v t) ≤ A * (t / U) ^ (-q)) {Δ : ℝ} (hΔ : 0 < Δ) {a : ℝ} (ha : U ≤ a) (n : ℕ) :
    ∑ i ∈ Finset.range n, Δ * dens cs v (a + ((i : ℝ) + 1) * Δ) ≤ A / π / q := by
  have h := tail_le' (g := dens cs v) (H := fun t => A / π / q * (t / U) ^ (-q)) (h := fun t => A / (π * t) * (t / U) ^ (-q)) (U := U)
    ?_ ?_ ?_ ?_ ?_ hΔ ha n
  · rw [div_self hU.ne', one_rpow, mul_one] at h
    exact h
  · intro t ht
    have htp : 0 < t := lt_of_lt_of_le hU ht
    have hd : HasDerivAt (fun t : ℝ => (t / U) ^ (-q)) (1 / U * (-q) * (t / U) ^ (-q - 1)) t :=
      ((hasDerivAt_id t).div_const U).rpow_const (Or.inl (by simp only [id]; positivity))
    refine (hd.const_mul (A / π / q)).congr_deriv ?_
    rw [rpow_sub_one (by positivity)]
    field_simp
  · intro t ht
    have htp : 0 < t := lt_of_lt_of_le hU ht
    unfold dens
    rw [div_mul_eq_mul_div]
    exact div_le_div_of_nonneg_right (hb t ht) (by positivity)
  · intro t ht
    have htp : 0 < t := lt_of_lt_of_le hU ht
    unfold dens
    positivity
  · intro t ht
    have htp : 0 < t := lt_of_lt_of_le hU ht
    have : 0 ≤ (t / U) ^ (-q) := rpow_nonneg (by positivity) _
    have hp : 0 ≤ A / π / q := by positivity
    exact mul_nonneg hp this
  · intro s t hs hst
    have hsp : 0 < s := lt_of_lt_of_le hU hs
    unfold dens
    refine div_le_div₀ (exp_pos _).le (exp_le_exp.2 ?_) (by positivity) (by nlinarith [pi_pos])
    have := pot_mono hn hv hsp hst
    linarith

/-- Normal majorant. -/
theorem tail_normal {cs : Comps} (hn : ∀ p ∈ cs, 0 ≤ p.2) {v : ℝ} (hv : 0 < v) {U : ℝ} (hU : 0 < U)
    {Δ : ℝ} (hΔ : 0 < Δ) {a : ℝ} (ha : U ≤ a) (n : ℕ) :
    ∑ i ∈ Finset.range n, Δ * dens cs v (a + ((i : ℝ) + 1) * Δ) ≤ exp (-(1 / 4) * pot cs v U) / π / (v * U ^ 2) := by
  obtain ⟨A, hA⟩ : ∃ A, A = exp (-(1 / 4) * pot cs v U) / π / (v * U ^ 2) := ⟨_, rfl⟩
  have hA0 : 0 < A := by rw [hA]; positivity
  have h := tail_le' (g := dens cs v) (H := fun t => A * exp (-(1 / 2) * v * (t ^ 2 - U ^ 2)))
    (h := fun t => A * (v * t) * exp (-(1 / 2) * v * (t ^ 2 - U ^ 2))) (U := U) ?_ ?_ ?_ ?_ ?_ hΔ ha n
  · simp only [sub_self, mul_zero, exp_zero, mul_one] at h
    rw [← hA]
    exact h
  · intro t ht
    have hd : HasDerivAt (fun t : ℝ => -(1 / 2) * v * (t ^ 2 - U ^ 2)) (-(1 / 2) * v * (2 * t)) t := by
      have := ((hasDerivAt_pow 2 t).sub_const (U ^ 2)).const_mul (-(1 / 2) * v)
      simpa using this
    refine (hd.exp.const_mul A).congr_deriv ?_
    ring
  · intro t ht
    have htp : 0 < t := lt_of_lt_of_le hU ht
    unfold dens
    have hp := pot_normal hn hv.le hU ht
    have h1 : exp (-(1 / 4) * pot cs v t) ≤ exp (-(1 / 4) * pot cs v U) * exp (-(1 / 2) * v * (t ^ 2 - U ^ 2)) := by
      rw [← exp_add]
      exact exp_le_exp.2 (by linarith)
    have h2 : exp (-(1 / 4) * pot cs v U) = A * π * (v * U ^ 2) := by rw [hA]; field_simp
    rw [h2] at h1
    rw [div_le_iff₀ (by positivity)]
    refine h1.trans ?_
    have h3 : U ^ 2 ≤ t ^ 2 := pow_le_pow_left₀ hU.le ht 2
    have h4 : 0 < exp (-(1 / 2) * v * (t ^ 2 - U ^ 2)) := exp_pos _
    have : A * π * (v * U ^ 2) ≤ A * π * (v * t ^ 2) := mul_le_mul_of_nonneg_left (mul_le_mul_of_nonneg_left h3 hv.le) (by positivity)
    calc _ ≤ A * π * (v * t ^ 2) * exp (-(1 / 2) * v * (t ^ 2 - U ^ 2)) := mul_le_mul_of_nonneg_right this h4.le
      _ = _ := by ring
  · intro t ht
    have htp : 0 < t := lt_of_lt_of_le hU ht
    unfold dens
    positivity
  · intro t ht
    positivity
  · intro s t hs hst
    have hsp : 0 < s := lt_of_lt_of_le hU hs
    unfold dens
    refine div_le_div₀ (exp_pos _).le (exp_le_exp.2 ?_) (by positivity) (by nlinarith [pi_pos])
    have := pot_mono hn hv.le hsp hst
    linarith

/-- The bound of `truncation` is a bound on the terms left out. -/
theorem truncation_bound {cs : Comps} (hn : ∀ p ∈ cs, 0 ≤ p.2) {v : ℝ} (hv : 0 ≤ v) {U accx : ℝ} (hU : 0 < U) (ha0 : exp (-50) ≤ accx)
    (ha1 : accx < 1) (h : truncation cs U 0 v ≤ accx) {Δ : ℝ} (hΔ : 0 < Δ) {a : ℝ} (ha : U ≤ a) (n : ℕ) :
    ∑ i ∈ Finset.range n, Δ * dens cs v (a + ((i : ℝ) + 1) * Δ) ≤ accx := by
  have hpot : 2 * (v * U ^ 2) + ((cs.filter fun p => decide (¬ 1 < xsq U p.1)).map fun p : ℝ × ℤ => (p.2 : ℝ) * log (1 + xsq U p.1)).sum
      + ((cs.filter fun p => decide (1 < xsq U p.1)).map fun p : ℝ × ℤ => (p.2 : ℝ) * log (1 + xsq U p.1)).sum = pot cs v U := by
    unfold pot
    rw [← filter_sum cs (fun p => 1 < xsq U p.1)]
    ring
  -- the bound that uses `2.5`
  have case2 : 1 < pot cs v U → 5 / 2 * (exp1 (-(1 / 4) * pot cs v U) / π) ≤ accx →
      ∑ i ∈ Finset.range n, Δ * dens cs v (a + ((i : ℝ) + 1) * Δ) ≤ accx := by
    intro h1 h2
    have hb : ∀ t, U ≤ t → exp (-(1 / 4) * pot cs v t) ≤ exp (-(1 / 4) * pot cs v U) * (5 / 4) * (t / U) ^ (-(1 / 2 : ℝ)) := by
      intro t ht
      have htp : 0 < t / U := div_pos (lt_of_lt_of_le hU ht) hU
      have := pot_one hn hv hU ht h1
      rw [rpow_def_of_pos htp, show (5 / 4 : ℝ) = exp (log (5 / 4)) by rw [exp_log (by norm_num)], ← exp_add, ← exp_add]
      exact exp_le_exp.2 (by linarith)
    have := tail_power hn hv hU (by positivity) (by norm_num) hb hΔ ha n
    refine this.trans ?_
    have h3 : exp (-(1 / 4) * pot cs v U) ≤ accx * π * (2 / 5) := by
      refine exp1_le ?_ ?_
      · have := pi_gt_three
        nlinarith [exp_pos (-50 : ℝ)]
      · have hp := pi_pos
        rw [← mul_div_assoc, div_le_iff₀ hp] at h2
        linarith
    rw [div_div, div_le_iff₀ (by positivity)]
    linarith
  unfold truncation at h
  simp only [add_zero, log1, if_true] at h
  rw [hpot] at h
  have hs0 : 0 ≤ ((cs.filter fun p => decide (1 < xsq U p.1)).map fun p : ℝ × ℤ => p.2).sum := by
    refine List.sum_nonneg fun x hx => ?_
    obtain ⟨p, hp, rfl⟩ := List.mem_map.1 hx
    exact hn p (List.mem_of_mem_filter hp)
  have hbig := fun t (ht : U ≤ t) => pot_big hn hv hU ht
  generalize ((cs.filter fun p => decide (1 < xsq U p.1)).map fun p : ℝ × ℤ => p.2).sum = s at h hs0 hbig
  generalize 2 * (v * U ^ 2) + ((cs.filter fun p => decide (¬ 1 < xsq U p.1)).map fun p : ℝ × ℤ => (p.2 : ℝ) * log (1 + xsq U p.1)).sum
      + ((cs.filter fun p => decide (1 < xsq U p.1)).map fun p : ℝ × ℤ => (p.2 : ℝ) * log (xsq U p.1)).sum = prod2 at h hbig
  have hthree : (if s = 0 then 1 else exp1 (-(1 / 4) * prod2) / π * 2 / (s : ℝ)) ≤ accx ∨
      (if 1 < pot cs v U then 5 / 2 * (exp1 (-(1 / 4) * pot cs v U) / π) else 1) ≤ accx ∨
      (if 1 / 2 * (v * U ^ 2) ≤ exp1 (-(1 / 4) * pot cs v U) / π then 1
        else exp1 (-(1 / 4) * pot cs v U) / π / (1 / 2 * (v * U ^ 2))) ≤ accx := by
    generalize (if s = 0 then 1 else exp1 (-(1 / 4) * prod2) / π * 2 / (s : ℝ)) = E1 at h ⊢
    generalize (if 1 < pot cs v U then 5 / 2 * (exp1 (-(1 / 4) * pot cs v U) / π) else 1) = E2 at h ⊢
    generalize (if 1 / 2 * (v * U ^ 2) ≤ exp1 (-(1 / 4) * pot cs v U) / π then 1
        else exp1 (-(1 / 4) * pot cs v U) / π / (1 / 2 * (v * U ^ 2))) = E3 at h ⊢
    by_cases h12 : E2 < E1
    · simp only [if_pos h12] at h
      split_ifs at h
      · exact Or.inr (Or.inl h)
      · exact Or.inr (Or.inr h)
    · simp only [if_neg h12] at h
      split_ifs at h
      · exact Or.inl h
      · exact Or.inr (Or.inr h)
  have hp3 := pi_gt_three
  have he0 := exp_pos (-50 : ℝ)
  rcases hthree with h | h | h
  · by_cases hs : s = 0
    · rw [if_pos hs] at h; linarith
    rw [if_neg hs] at h
    have hs1 : (1 : ℝ) ≤ (s : ℝ) := by exact_mod_cast (by omega : 1 ≤ s)
    have hb : ∀ t, U ≤ t → exp (-(1 / 4) * pot cs v t) ≤ exp (-(1 / 4) * prod2) * (t / U) ^ (-((s : ℝ) / 2)) := by
      intro t ht
      have htp : 0 < t / U := div_pos (lt_of_lt_of_le hU ht) hU
      have := hbig t ht
      rw [rpow_def_of_pos htp, ← exp_add]
      exact exp_le_exp.2 (by linarith)
    refine (tail_power hn hv hU (exp_pos _).le (by linarith) hb hΔ ha n).trans ?_
    have h3 : exp (-(1 / 4) * prod2) ≤ accx * (s : ℝ) * π / 2 := by
      refine exp1_le ?_ ?_
      · have : accx ≤ accx * (s : ℝ) := le_mul_of_one_le_right (by linarith) hs1
        nlinarith
      · rw [div_le_iff₀ (by linarith), div_mul_eq_mul_div, div_le_iff₀ pi_pos] at h
        linarith
    rw [div_div, div_le_iff₀ (by positivity)]
    linarith
  · by_cases h1 : 1 < pot cs v U
    · rw [if_pos h1] at h
      exact case2 h1 h
    · rw [if_neg h1] at h; linarith
  · by_cases hx : 1 / 2 * (v * U ^ 2) ≤ exp1 (-(1 / 4) * pot cs v U) / π
    · rw [if_pos hx] at h; linarith
    rw [if_neg hx] at h
    push Not at hx
    by_cases hy : -(1 / 4) * pot cs v U < -50
    · refine case2 (by linarith) ?_
      unfold exp1
      rw [if_pos hy]
      simp
      linarith
    · have hex : exp1 (-(1 / 4) * pot cs v U) = exp (-(1 / 4) * pot cs v U) := by unfold exp1; rw [if_neg hy]
      rw [hex] at h hx
      have hvU : 0 < v * U ^ 2 := by
        have : 0 < exp (-(1 / 4) * pot cs v U) / π := by positivity
        linarith
      have hv' : 0 < v := by
        rcases hv.lt_or_eq with h | h
        · exact h
        · rw [← h] at hvU; simp at hvU
      refine (tail_normal hn hv' hU hΔ ha n).trans (le_trans ?_ h)
      exact div_le_div_of_nonneg_left (by positivity) (by linarith) (by linarith)

end Verif.Qf
