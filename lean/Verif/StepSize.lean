import Verif.StepSizeModel
import Mathlib.Topology.Algebra.Polynomial
import Mathlib.Analysis.Complex.ExponentialBounds
import Mathlib.Analysis.SpecialFunctions.Log.Basic
import Mathlib.Analysis.SpecificLimits.Basic
import Mathlib.LinearAlgebra.Matrix.PosDef
import Mathlib.Algebra.Order.Star.Real
import Mathlib.Topology.Instances.Matrix
import Mathlib.Topology.MetricSpace.ProperSpace.Real
import Mathlib.Algebra.Polynomial.Degree.Lemmas
import Mathlib.Analysis.Normed.Group.Constructions

/-!
# The initial step size (property C73)
-/

namespace Verif.StepSize

open Matrix Filter Topology Verif.Nuts

variable {p : ℕ}

/-! ## Helper lemmas -/

theorem search_some (ratio : ℝ → ℝ) (alpha : ℤ) (fuel : ℕ) (eps e : ℝ) (h : search ratio alpha fuel eps = some e) :
    ∃ k : ℕ, e = eps * ((2 : ℝ) ^ alpha) ^ k ∧ ratio e * alpha ≤ Real.log 2 * -1 * alpha ∧
      ∀ j < k, ratio (eps * ((2 : ℝ) ^ alpha) ^ j) * alpha > Real.log 2 * -1 * alpha := by
  induction fuel generalizing eps with
  | zero => simp [search] at h
  | succ n ih =>
    unfold search at h
    by_cases hc : ratio eps * alpha > Real.log 2 * -1 * alpha
    · rw [if_pos hc] at h
      obtain ⟨k, he, hs, hj⟩ := ih _ h
      refine ⟨k + 1, by rw [he, pow_succ']; ring, hs, ?_⟩
      intro j hlt
      cases j with
      | zero => simpa using hc
      | succ j =>
        have := hj j (by omega)
        rw [pow_succ']
        rwa [mul_assoc] at this
    · rw [if_neg hc] at h
      obtain rfl := Option.some.inj h
      exact ⟨0, by simp, not_lt.1 hc, by simp⟩

theorem search_ends (ratio : ℝ → ℝ) (alpha : ℤ) (k : ℕ) (eps : ℝ)
    (h : ratio (eps * ((2 : ℝ) ^ alpha) ^ k) * alpha ≤ Real.log 2 * -1 * alpha) :
    ∀ fuel, k < fuel → (search ratio alpha fuel eps).isSome := by
  induction k generalizing eps with
  | zero =>
    intro fuel hf
    obtain ⟨n, rfl⟩ := Nat.exists_eq_add_of_lt hf
    rw [pow_zero, mul_one] at h
    rw [Nat.zero_add]
    unfold search
    rw [if_neg (not_lt.2 h)]
    rfl
  | succ k ih =>
    intro fuel hf
    cases fuel with
    | zero => omega
    | succ n =>
      unfold search
      by_cases hc : ratio eps * alpha > Real.log 2 * -1 * alpha
      · rw [if_pos hc]
        refine ih _ ?_ n (by omega)
        rw [mul_assoc, ← pow_succ']
        exact h
      · rw [if_neg hc]; rfl

theorem log_half : Real.log (1 / 2) = -Real.log 2 := by
  rw [one_div, Real.log_inv]

theorem lp_eq (T : Target p) (state grad r : Fin p → ℝ) (L eps : ℝ) :
    lp T state grad r L eps =
      (T.llk (state + eps • (T.Minv *ᵥ (r + (1 / 2 * eps) • grad)))
        - energy T (r + (1 / 2 * eps) • grad
            + (1 / 2 * eps) • T.grad (state + eps • (T.Minv *ᵥ (r + (1 / 2 * eps) • grad)))))
        - (L - energy T r) := rfl

/-! ## C73 -/

/-- The joint log density of state and momentum gained by one leap of size `eps` from `(state, r)`, stated with the
target only. -/
noncomputable def gain (T : Target p) (state r : Fin p → ℝ) (eps : ℝ) : ℝ :=
  let half := r + (eps / 2) • T.grad state
  let s := state + eps • (T.Minv *ᵥ half)
  let r' := half + (eps / 2) • T.grad s
  (T.llk s - 1 / 2 * (r' ⬝ᵥ (T.Minv *ᵥ r'))) - (T.llk state - 1 / 2 * (r ⬝ᵥ (T.Minv *ᵥ r)))

theorem lp_gain (T : Target p) (state r : Fin p → ℝ) (eps : ℝ) :
    lp T state (T.grad state) r (T.llk state) eps = gain T state r eps := by
  rw [lp_eq]
  unfold gain energy
  rw [show (1 / 2 * eps) = eps / 2 by ring]

/-- **C73.** If a step size is returned, it is positive, is 1/10 times a power of two, and the acceptance probability
`exp gain` of one leap passes one half between it and its predecessor: either the start value is accepted with
probability above one half, then the returned value is the first doubled one which is not; or it is the first of the
halved ones (the start value included) for which it is at least one half. -/
theorem epsilon_crosses (T : Target p) (state r : Fin p → ℝ) (fuel : ℕ) (e : ℝ)
    (h : findEps T state (T.grad state) r (T.llk state) fuel = some e) :
    (1 / 2 < Real.exp (gain T state r (1 / 10)) ∧ ∃ k : ℕ, 0 < k ∧ e = 1 / 10 * 2 ^ k ∧
      Real.exp (gain T state r e) ≤ 1 / 2 ∧ ∀ j < k, 1 / 2 < Real.exp (gain T state r (1 / 10 * 2 ^ j))) ∨
    (Real.exp (gain T state r (1 / 10)) ≤ 1 / 2 ∧ ∃ k : ℕ, e = 1 / 10 / 2 ^ k ∧
      1 / 2 ≤ Real.exp (gain T state r e) ∧ ∀ j < k, Real.exp (gain T state r (1 / 10 / 2 ^ j)) < 1 / 2) := by
  have e1 : ∀ x : ℝ, 1 / 2 < Real.exp x ↔ -Real.log 2 < x := by
    intro x; rw [← log_half, Real.log_lt_iff_lt_exp (by norm_num)]
  have e2 : ∀ x : ℝ, 1 / 2 ≤ Real.exp x ↔ -Real.log 2 ≤ x := by
    intro x; rw [← log_half, Real.log_le_iff_le_exp (by norm_num)]
  have e3 : ∀ x : ℝ, Real.exp x ≤ 1 / 2 ↔ x ≤ -Real.log 2 := fun x => by rw [← not_lt, e1, not_lt]
  have e4 : ∀ x : ℝ, Real.exp x < 1 / 2 ↔ x < -Real.log 2 := fun x => by rw [← not_le, e2, not_le]
  simp only [e1, e2, e3, e4]
  unfold findEps at h
  simp only [lp_gain, log_half] at h
  have hfun : (lp T state (T.grad state) r (T.llk state)) = gain T state r := funext fun x => lp_gain T state r x
  rw [hfun] at h
  by_cases hc : gain T state r (1 / 10) > -Real.log 2
  · rw [if_pos hc] at h
    obtain ⟨k, he, hs, hj⟩ := search_some _ _ _ _ _ h
    norm_num at he hs hj
    left
    refine ⟨hc, k, ?_, he, by linarith, fun j hlt => ?_⟩
    · rcases Nat.eq_zero_or_pos k with rfl | hk
      · exfalso
        rw [he] at hs
        norm_num at hs hc
        linarith
      · exact hk
    · have := hj j hlt
      norm_num
      linarith
  · rw [if_neg hc] at h
    obtain ⟨k, he, hs, hj⟩ := search_some _ _ _ _ _ h
    norm_num at he hs hj
    right
    have hpow : ∀ j : ℕ, (1 : ℝ) / 10 * (1 / 2) ^ j = 1 / 10 / 2 ^ j := fun j => by
      rw [div_pow, one_pow]; ring
    refine ⟨not_lt.1 hc, k, by rw [he, hpow], by linarith, fun j hlt => ?_⟩
    have := hj j hlt
    rw [show (1 : ℝ) / 10 / 2 ^ j = 1 / 10 * (1 / 2) ^ j from (hpow j).symm]
    linarith

theorem epsilon_pos (T : Target p) (state r : Fin p → ℝ) (fuel : ℕ) (e : ℝ)
    (h : findEps T state (T.grad state) r (T.llk state) fuel = some e) : 0 < e := by
  rcases epsilon_crosses T state r fuel e h with ⟨_, k, _, he, _⟩ | ⟨_, k, he, _⟩ <;> rw [he] <;> positivity

theorem gain_zero (T : Target p) (state r : Fin p → ℝ) : gain T state r 0 = 0 := by
  unfold gain
  simp

theorem gain_continuous (T : Target p) (hl : Continuous T.llk) (hg : Continuous T.grad) (state r : Fin p → ℝ) :
    Continuous (gain T state r) := by
  have h1 : Continuous fun e : ℝ => r + (e / 2) • T.grad state := by fun_prop
  have h2 : Continuous fun e : ℝ => state + e • (T.Minv *ᵥ (r + (e / 2) • T.grad state)) :=
    continuous_const.add (continuous_id.smul (continuous_const.matrix_mulVec h1))
  have h3 : Continuous fun e : ℝ => r + (e / 2) • T.grad state
      + (e / 2) • T.grad (state + e • (T.Minv *ᵥ (r + (e / 2) • T.grad state))) :=
    h1.add ((continuous_id.div_const 2).smul (hg.comp h2))
  unfold gain
  exact ((hl.comp h2).sub (continuous_const.mul (h3.dotProduct (continuous_const.matrix_mulVec h3)))).sub
    continuous_const

/-- **C73.** For a continuously differentiable log density the search never hangs while halving: if the start value is
accepted with probability at most one half, a step size is returned. -/
theorem halving_ends (T : Target p) (hl : Continuous T.llk) (hg : Continuous T.grad) (state r : Fin p → ℝ)
    (h : Real.exp (gain T state r (1 / 10)) ≤ 1 / 2) :
    ∃ n, ∀ fuel, n < fuel → (findEps T state (T.grad state) r (T.llk state) fuel).isSome := by
  have hc : ¬ gain T state r (1 / 10) > Real.log (1 / 2) := by
    rw [gt_iff_lt, Real.log_lt_iff_lt_exp (by norm_num)]
    exact not_lt.2 h
  have hfun : (lp T state (T.grad state) r (T.llk state)) = gain T state r := funext fun x => lp_gain T state r x
  have ht : Tendsto (fun k : ℕ => gain T state r (1 / 10 * ((2 : ℝ) ^ (-1 : ℤ)) ^ k)) atTop (𝓝 0) := by
    rw [← gain_zero T state r]
    refine ((gain_continuous T hl hg state r).tendsto 0).comp ?_
    have := (tendsto_pow_atTop_nhds_zero_of_lt_one (r := (2 : ℝ) ^ (-1 : ℤ)) (by norm_num) (by norm_num)).const_mul (1 / 10)
    rwa [mul_zero] at this
  have hlt : ∀ᶠ k : ℕ in atTop, -Real.log 2 < gain T state r (1 / 10 * ((2 : ℝ) ^ (-1 : ℤ)) ^ k) :=
    ht.eventually (lt_mem_nhds (by have := Real.log_pos (one_lt_two); linarith))
  obtain ⟨k, hk⟩ := hlt.exists
  refine ⟨k, fun fuel hf => ?_⟩
  unfold findEps
  rw [hfun, if_neg hc]
  refine search_ends _ _ k _ ?_ fuel hf
  norm_num at hk ⊢
  linarith

theorem exists_coord (a b : Fin p → ℝ) (h : ¬ (a = 0 ∧ b = 0)) : ∃ i, ¬ (a i = 0 ∧ b i = 0) := by
  by_contra hn
  push Not at hn
  exact h ⟨funext fun i => (hn i).1, funext fun i => (hn i).2⟩

open Polynomial in
theorem path_unbounded (s a b : Fin p → ℝ) (h : ¬ (a = 0 ∧ b = 0)) (z : ℕ → ℝ) (hz : Tendsto z atTop atTop) :
    Tendsto (fun k => s + z k • (a + z k • b)) atTop (cocompact (Fin p → ℝ)) := by
  obtain ⟨i, hi⟩ := exists_coord a b h
  rw [← Metric.cobounded_eq_cocompact, ← tendsto_norm_atTop_iff_cobounded]
  have hdeg : 0 < (C (b i) * X ^ 2 + C (a i) * X + C (s i)).degree := by
    by_cases hb : b i = 0
    · have ha : a i ≠ 0 := fun ha => hi ⟨ha, hb⟩
      rw [hb, C_0, zero_mul, zero_add, degree_linear ha]
      norm_num
    · rw [degree_quadratic hb]
      norm_num
  have hp := Polynomial.tendsto_norm_atTop _ hdeg (tendsto_norm_atTop_atTop.comp hz)
  refine tendsto_atTop_mono (fun k => ?_) hp
  refine le_trans (le_of_eq ?_) (norm_le_pi_norm _ i)
  congr 1
  simp only [eval_add, eval_mul, eval_C, eval_pow, eval_X, Pi.add_apply, Pi.smul_apply, smul_eq_mul]
  ring

/-- **C73 (partial).** The search never hangs while doubling if the log density tends to minus infinity (a proper
posterior with decaying tails), the metric is positive semi-definite and the leap moves the state at all. Missing:
improper targets, see `flat_never_ends`. -/
theorem doubling_ends_partial (T : Target p) (hl : Tendsto T.llk (cocompact (Fin p → ℝ)) atBot) (hM : T.Minv.PosSemidef)
    (state r : Fin p → ℝ) (hmove : ¬ (T.Minv *ᵥ r = 0 ∧ T.Minv *ᵥ T.grad state = 0))
    (h : 1 / 2 < Real.exp (gain T state r (1 / 10))) :
    ∃ n, ∀ fuel, n < fuel → (findEps T state (T.grad state) r (T.llk state) fuel).isSome := by
  have hc : gain T state r (1 / 10) > Real.log (1 / 2) := by
    rw [gt_iff_lt, Real.log_lt_iff_lt_exp (by norm_num)]
    exact h
  have hfun : (lp T state (T.grad state) r (T.llk state)) = gain T state r := funext fun x => lp_gain T state r x
  set z : ℕ → ℝ := fun k => 1 / 10 * ((2 : ℝ) ^ (1 : ℤ)) ^ k with hzdef
  have hz : Tendsto z atTop atTop := by
    refine Tendsto.const_mul_atTop (by norm_num) ?_
    exact tendsto_pow_atTop_atTop_of_one_lt (by norm_num)
  have hmove' : ¬ (T.Minv *ᵥ r = 0 ∧ (1 / 2 : ℝ) • (T.Minv *ᵥ T.grad state) = 0) := by
    rintro ⟨h1, h2⟩
    exact hmove ⟨h1, (smul_eq_zero.1 h2).resolve_left (by norm_num)⟩
  have hpath := hl.comp (path_unbounded state _ _ hmove' z hz)
  obtain ⟨k, hk⟩ := (hpath.eventually (eventually_le_atBot
    (-Real.log 2 + (T.llk state - 1 / 2 * (r ⬝ᵥ (T.Minv *ᵥ r)))))).exists
  refine ⟨k, fun fuel hf => ?_⟩
  unfold findEps
  rw [hfun]
  simp only [lp_gain]
  rw [if_pos hc]
  refine search_ends _ _ k _ ?_ fuel hf
  have hg : gain T state r (z k) ≤ -Real.log 2 := by
    unfold gain
    simp only
    set half := r + (z k / 2) • T.grad state with hh
    have hs : state + z k • (T.Minv *ᵥ half)
        = state + z k • (T.Minv *ᵥ r + z k • ((1 / 2 : ℝ) • (T.Minv *ᵥ T.grad state))) := by
      rw [hh, mulVec_add, mulVec_smul, smul_smul (z k) (1 / 2 : ℝ), mul_one_div]
    rw [hs]
    have h0 := hM.dotProduct_mulVec_nonneg (half + (z k / 2) • T.grad
      (state + z k • (T.Minv *ᵥ r + z k • ((1 / 2 : ℝ) • (T.Minv *ᵥ T.grad state)))))
    rw [star_trivial] at h0
    simp only [Function.comp_apply] at hk
    linarith
  have hz' : z k = 1 / 10 * ((2 : ℝ) ^ (1 : ℤ)) ^ k := rfl
  rw [hz'] at hg
  norm_num at hg ⊢
  linarith

/-- **C73, disagreement.** For a flat target (for example a coefficient without data and without penalty) the doubling
never ends. -/
theorem flat_never_ends (state r : Fin p → ℝ) (M : Matrix (Fin p) (Fin p) ℝ) (fuel : ℕ) :
    findEps (⟨fun _ => 0, fun _ => 0, M⟩ : Target p) state 0 r 0 fuel = none := by
  have hg : ∀ e, lp (⟨fun _ => 0, fun _ => 0, M⟩ : Target p) state 0 r 0 e = 0 := by
    intro e
    rw [lp_eq]
    simp
  have hlog := Real.log_pos one_lt_two
  have hs : ∀ fuel e, search (lp (⟨fun _ => 0, fun _ => 0, M⟩ : Target p) state 0 r 0) 1 fuel e = none := by
    intro fuel
    induction fuel with
    | zero => intro e; rfl
    | succ n ih =>
      intro e
      unfold search
      rw [hg, if_pos (by norm_num; exact hlog), ih]
  unfold findEps
  rw [hg, log_half, if_pos (by linarith)]
  exact hs fuel _

/-- Hypotheses of `doubling_ends_partial`: a standard normal target. -/
example : ∃ n, ∀ fuel, n < fuel →
    (findEps (⟨fun s => -(1 / 2) * ‖s‖ ^ 2, fun s => -s, 1⟩ : Target 1) (fun _ => 0) (-(fun _ => 0))  (fun _ => 1)
      (-(1 / 2) * ‖(fun _ => 0 : Fin 1 → ℝ)‖ ^ 2) fuel).isSome := by
  refine doubling_ends_partial (⟨fun s => -(1 / 2) * ‖s‖ ^ 2, fun s => -s, 1⟩ : Target 1) ?_ PosSemidef.one
    (fun _ => 0) (fun _ => 1) ?_ ?_
  · refine Tendsto.const_mul_atTop_of_neg (by norm_num) ?_
    exact (tendsto_pow_atTop two_ne_zero).comp tendsto_norm_cocompact_atTop
  · intro h
    have := congrFun h.1 0
    simp at this
  · rw [← Real.log_lt_iff_lt_exp (by norm_num), log_half]
    have := Real.log_two_gt_d9
    unfold gain
    simp [Pi.norm_def, dotProduct]
    norm_num
    linarith

end Verif.StepSize
