import Verif.ScaledTModel
import Verif.Fam
import Mathlib.Tactic.FieldSimp
import Mathlib.Tactic.Positivity

/-!
# Scaled t family (C18, extended family part of C21, C59)
-/

namespace Verif.ScT
open Verif Filter Topology

theorem phi_pos (t : ℝ) : 0 < phi t := Real.exp_pos t
theorem phi_deriv (t : ℝ) : HasDerivAt phi (phi t) t := Real.hasDerivAt_exp t
theorem nu_deriv (m t : ℝ) : HasDerivAt (nu m) (nu m t - m) t := by
  exact HasDerivAt.congr_deriv (f := nu m) ((Real.hasDerivAt_exp t).add_const m) (by simp [nu])

/-- Everything is stated for degrees of freedom bounded below by a non-negative `min_df`
(the default is 3). -/
theorem nu_pos {m : ℝ} (hm : 0 ≤ m) (t : ℝ) : 0 < nu m t := by
  have := Real.exp_pos t
  unfold nu; linarith

theorem arg_pos {v r p : ℝ} (hv : 0 < v) : 0 < 1 + (r / p) ^ 2 / v := by positivity

/-- **C18.** The scaled t deviance is twice the gap to the saturated log-likelihood. -/
theorem deviance_gap {m : ℝ} (y mu th0 th1 : ℝ) :
    D m y mu th0 th1 = 2 * (lp m y y th0 th1 - lp m y mu th0 th1) := by
  unfold D lp
  have : (y - y) = 0 := sub_self y
  rw [this]
  simp
  ring

/-- **C18.** It is non-negative and zero exactly at the saturated fit. -/
theorem deviance_nonneg {m : ℝ} (hm : 0 ≤ m) (y mu th0 th1 : ℝ) :
    0 ≤ D m y mu th0 th1 ∧ (D m y mu th0 th1 = 0 ↔ mu = y) := by
  have hv := nu_pos hm th1
  have hp := phi_pos th0
  have h1 : 1 ≤ 1 + ((y - mu) / phi th0) ^ 2 / nu m th1 := by
    have : 0 ≤ ((y - mu) / phi th0) ^ 2 / nu m th1 := by positivity
    linarith
  refine ⟨mul_nonneg (by linarith) (Real.log_nonneg h1), fun h => ?_, fun h => by
    subst h; simp [D]⟩
  rcases mul_eq_zero.1 h with h | h
  · linarith
  · have h2 := Real.eq_one_of_pos_of_log_eq_zero (by linarith) h
    have h3 : ((y - mu) / phi th0) ^ 2 / nu m th1 = 0 := by linarith
    rcases div_eq_zero_iff.1 h3 with h4 | h4
    · have := pow_eq_zero_iff (two_ne_zero) |>.1 h4
      rcases div_eq_zero_iff.1 this with h5 | h5
      · linarith
      · exact absurd h5 hp.ne'
    · exact absurd h4 hv.ne'

theorem log_arg_deriv_mu {v p : ℝ} (hv : 0 < v) (hp : 0 < p) (y mu : ℝ) :
    HasDerivAt (fun x => Real.log (1 + ((y - x) / p) ^ 2 / v))
      (-2 * (y - mu) / (v * (p ^ 2 * (1 + ((y - mu) / p) ^ 2 / v)))) mu := by
  have h0 : HasDerivAt (fun x => (y - x) / p) (-1 / p) mu :=
    ((hasDerivAt_id mu).const_sub y).div_const p
  have h1 : HasDerivAt (fun x => 1 + ((y - x) / p) ^ 2 / v)
      ((2 * ((y - mu) / p) * (-1 / p)) / v) mu := by
    have := ((h0.pow 2).div_const v).const_add 1
    refine this.congr_deriv ?_
    simp
  have h := h1.log (arg_pos hv).ne'
  refine h.congr_deriv ?_
  have := arg_pos (r := y - mu) (p := p) hv
  field_simp

/-- **C18.** `dDdmu` is the derivative of the deviance in the mean. -/
theorem dDdmu_correct {m : ℝ} (hm : 0 ≤ m) (y mu th0 th1 : ℝ) :
    HasDerivAt (fun x => D m y x th0 th1) (dDdmu m y mu th0 th1) mu := by
  have h := (log_arg_deriv_mu (nu_pos hm th1) (phi_pos th0) y mu).const_mul (nu m th1 + 1)
  refine h.congr_deriv ?_
  simp only [dDdmu]
  ring

/-- **C18.** `d2Ddmu` is the second derivative of the deviance in the mean. -/
theorem d2Ddmu_correct {m : ℝ} (hm : 0 ≤ m) (y mu th0 th1 : ℝ) :
    HasDerivAt (fun x => dDdmu m y x th0 th1) (d2Ddmu m y mu th0 th1) mu := by
  have hv := nu_pos hm th1
  have hp := phi_pos th0
  simp only [dDdmu, d2Ddmu]
  generalize nu m th1 = v at hv
  generalize phi th0 = p at hp
  have h0 : HasDerivAt (fun x => y - x) (-1) mu := (hasDerivAt_id mu).const_sub y
  have h1 : HasDerivAt (fun x => v * (p ^ 2 * (1 + ((y - x) / p) ^ 2 / v)))
      (v * (p ^ 2 * ((2 * ((y - mu) / p) * (-1 / p)) / v))) mu := by
    have := (((((h0.div_const p).pow 2).div_const v).const_add 1).const_mul (p ^ 2)).const_mul v
    refine this.congr_deriv ?_
    simp
  have ha := arg_pos (r := y - mu) (p := p) hv
  have h := ((h0.const_mul (v + 1)).div h1 (by positivity)).const_mul (-2)
  refine h.congr_deriv ?_
  field_simp
  ring

/-- The log density in terms of the quantities used by the shape derivatives. -/
theorem lp_eq {m : ℝ} (hm : 0 ≤ m) (y mu th0 th1 : ℝ) :
    lp m y mu th0 th1 = gammaln ((nu m th1 + 1) / 2) - gammaln (nu m th1 / 2) - th0
      - Real.log Real.pi / 2 - Real.log (nu m th1) / 2
      - (nu m th1 + 1) / 2 * Real.log (a m y mu th0 th1) := by
  have hv := nu_pos hm th1
  have hpi := Real.pi_pos
  unfold lp a
  rw [Real.log_mul (phi_pos th0).ne' (by positivity), Real.log_sqrt (by positivity),
    Real.log_mul hpi.ne' hv.ne']
  have : Real.log (phi th0) = th0 := Real.log_exp th0
  rw [this]; ring

theorem a_pos {m : ℝ} (hm : 0 ≤ m) (y mu th0 th1 : ℝ) : 0 < a m y mu th0 th1 :=
  arg_pos (nu_pos hm th1)

theorem a_deriv0 {m : ℝ} (hm : 0 ≤ m) (y mu th0 th1 : ℝ) :
    HasDerivAt (fun t => a m y mu t th1) (-2 * ((y - mu) / phi th0) ^ 2 / nu m th1) th0 := by
  have hp := phi_pos th0
  have h := ((((hasDerivAt_const th0 (y - mu)).div (phi_deriv th0) hp.ne').pow 2).div_const
    (nu m th1)).const_add 1
  refine h.congr_deriv ?_
  have hv := nu_pos hm th1
  simp only [Pi.div_apply]
  norm_num
  field_simp

theorem a_deriv1 {m : ℝ} (hm : 0 ≤ m) (y mu th0 th1 : ℝ) :
    HasDerivAt (fun t => a m y mu th0 t)
      (-((y - mu) / phi th0) ^ 2 * (nu m th1 - m) / (nu m th1) ^ 2) th1 := by
  have hv := nu_pos hm th1
  have h := ((hasDerivAt_const th1 (((y - mu) / phi th0) ^ 2)).div (nu_deriv m th1) hv.ne').const_add 1
  refine h.congr_deriv ?_
  ring

theorem phi2_deriv (t : ℝ) : HasDerivAt (fun s => phi s ^ 2) (2 * phi t ^ 2) t := by
  refine ((phi_deriv t).pow 2).congr_deriv ?_
  simp; ring

/-- `nusig2a` is `nu phi² + (y - mu)²`. -/
theorem nusig2a_eq {m : ℝ} (hm : 0 ≤ m) (y mu th0 th1 : ℝ) :
    nusig2a m y mu th0 th1 = nu m th1 * phi th0 ^ 2 + (y - mu) ^ 2 := by
  have hv := nu_pos hm th1
  have hp := phi_pos th0
  unfold nusig2a a
  field_simp

theorem nusig2a_pos {m : ℝ} (hm : 0 ≤ m) (y mu th0 th1 : ℝ) : 0 < nusig2a m y mu th0 th1 := by
  have hv := nu_pos hm th1
  have hp := phi_pos th0
  rw [nusig2a_eq hm]; positivity

theorem nusig2a_deriv0 {m : ℝ} (hm : 0 ≤ m) (y mu th0 th1 : ℝ) :
    HasDerivAt (fun t => nusig2a m y mu t th1) (2 * nu m th1 * phi th0 ^ 2) th0 := by
  have h := ((phi2_deriv th0).const_mul (nu m th1)).add_const ((y - mu) ^ 2)
  have e : (fun t => nusig2a m y mu t th1) = fun t => nu m th1 * phi t ^ 2 + (y - mu) ^ 2 := by
    funext t; exact nusig2a_eq hm y mu t th1
  rw [e]
  refine h.congr_deriv ?_
  ring

theorem nusig2a_deriv1 {m : ℝ} (hm : 0 ≤ m) (y mu th0 th1 : ℝ) :
    HasDerivAt (fun t => nusig2a m y mu th0 t) ((nu m th1 - m) * phi th0 ^ 2) th1 := by
  have h := ((nu_deriv m th1).mul_const (phi th0 ^ 2)).add_const ((y - mu) ^ 2)
  have e : (fun t => nusig2a m y mu th0 t) = fun t => nu m t * phi th0 ^ 2 + (y - mu) ^ 2 := by
    funext t; exact nusig2a_eq hm y mu th0 t
  rw [e]; exact h

/-- `log a` derivative, log scale parameter. -/
theorem loga_deriv0 {m : ℝ} (hm : 0 ≤ m) (y mu th0 th1 : ℝ) :
    HasDerivAt (fun t => Real.log (a m y mu t th1)) (-2 * f1ymu m y mu th0 th1) th0 := by
  have ha := a_pos hm y mu th0 th1
  have hv := nu_pos hm th1
  have hp := phi_pos th0
  refine ((a_deriv0 hm y mu th0 th1).log ha.ne').congr_deriv ?_
  unfold f1ymu nusig2a
  field_simp

theorem loga_deriv1 {m : ℝ} (hm : 0 ≤ m) (y mu th0 th1 : ℝ) :
    HasDerivAt (fun t => Real.log (a m y mu th0 t))
      (-(nu m th1 - m) / nu m th1 * f1ymu m y mu th0 th1) th1 := by
  have ha := a_pos hm y mu th0 th1
  have hv := nu_pos hm th1
  have hp := phi_pos th0
  refine ((a_deriv1 hm y mu th0 th1).log ha.ne').congr_deriv ?_
  unfold f1ymu nusig2a
  field_simp

theorem fymu_eq (m y mu th0 th1 : ℝ) :
    fymu m y mu th0 th1 = (nu m th1 + 1) * f1ymu m y mu th0 th1 := by
  unfold fymu f1ymu; ring

theorem f1_deriv0 {m : ℝ} (hm : 0 ≤ m) (y mu th0 th1 : ℝ) :
    HasDerivAt (fun t => f1ymu m y mu t th1)
      (-2 * f1ymu m y mu th0 th1 * (1 - f1ymu m y mu th0 th1)) th0 := by
  have hW := nusig2a_pos hm y mu th0 th1
  have h := ((hasDerivAt_const th0 (y - mu)).div (nusig2a_deriv0 hm y mu th0 th1) hW.ne').mul_const
    (y - mu)
  refine h.congr_deriv ?_
  have e : nu m th1 * phi th0 ^ 2 = nusig2a m y mu th0 th1 - (y - mu) ^ 2 := by
    rw [nusig2a_eq hm]; ring
  unfold f1ymu
  field_simp
  linear_combination (-2) * (y - mu) ^ 2 * e

theorem f1_deriv1 {m : ℝ} (hm : 0 ≤ m) (y mu th0 th1 : ℝ) :
    HasDerivAt (fun t => f1ymu m y mu th0 t)
      (-(nu m th1 - m) / nu m th1 * f1ymu m y mu th0 th1 * (1 - f1ymu m y mu th0 th1)) th1 := by
  have hW := nusig2a_pos hm y mu th0 th1
  have hv := nu_pos hm th1
  have h := ((hasDerivAt_const th1 (y - mu)).div (nusig2a_deriv1 hm y mu th0 th1) hW.ne').mul_const
    (y - mu)
  refine h.congr_deriv ?_
  have e : nu m th1 * phi th0 ^ 2 = nusig2a m y mu th0 th1 - (y - mu) ^ 2 := by
    rw [nusig2a_eq hm]; ring
  unfold f1ymu
  field_simp
  linear_combination (-(nu m th1 - m)) * (y - mu) ^ 2 * e

theorem fymu_deriv0 {m : ℝ} (hm : 0 ≤ m) (y mu th0 th1 : ℝ) :
    HasDerivAt (fun t => fymu m y mu t th1) ((nu m th1 + 1) * (-2 * f1ymu m y mu th0 th1 *
      (1 - f1ymu m y mu th0 th1))) th0 := by
  have e : (fun t => fymu m y mu t th1) = fun t => (nu m th1 + 1) * f1ymu m y mu t th1 := by
    funext t; exact fymu_eq _ _ _ _ _
  rw [e]
  exact (f1_deriv0 hm y mu th0 th1).const_mul _

theorem fymu_deriv1 {m : ℝ} (hm : 0 ≤ m) (y mu th0 th1 : ℝ) :
    HasDerivAt (fun t => fymu m y mu th0 t) ((nu m th1 - m) * f1ymu m y mu th0 th1 +
      (nu m th1 + 1) * (-(nu m th1 - m) / nu m th1 * f1ymu m y mu th0 th1 *
        (1 - f1ymu m y mu th0 th1))) th1 := by
  have e : (fun t => fymu m y mu th0 t) = fun t => (nu m t + 1) * f1ymu m y mu th0 t := by
    funext t; exact fymu_eq _ _ _ _ _
  rw [e]
  exact ((nu_deriv m th1).add_const 1).mul (f1_deriv1 hm y mu th0 th1)

theorem sum_mul_card {n : ℕ} (f : Fin n → ℝ) (c : ℝ) : ∑ i, (f i + c) = (∑ i, f i) + n * c := by
  simp [Finset.sum_add_distrib]

/-- **C18.** First entry of `gradientLTheta`: the derivative of the log-likelihood in the log scale
parameter. -/
theorem gradTheta0_correct {n : ℕ} {m : ℝ} (hm : 0 ≤ m) (y mu : Fin n → ℝ) (th0 th1 : ℝ) :
    HasDerivAt (fun t => llk m y mu t th1) (grad0 m y mu th0 th1) th0 := by
  unfold llk grad0
  have e : (fun t => ∑ i, lp m (y i) (mu i) t th1) = fun t => ∑ i,
      (gammaln ((nu m th1 + 1) / 2) - gammaln (nu m th1 / 2) - t
      - Real.log Real.pi / 2 - Real.log (nu m th1) / 2
      - (nu m th1 + 1) / 2 * Real.log (a m (y i) (mu i) t th1)) := by
    funext t; exact Finset.sum_congr rfl fun i _ => lp_eq hm _ _ _ _
  rw [e]
  have h : HasDerivAt (fun t => ∑ i,
      (gammaln ((nu m th1 + 1) / 2) - gammaln (nu m th1 / 2) - t
      - Real.log Real.pi / 2 - Real.log (nu m th1) / 2
      - (nu m th1 + 1) / 2 * Real.log (a m (y i) (mu i) t th1)))
      (∑ i, (fymu m (y i) (mu i) th0 th1 + (-1))) th0 := by
    refine HasDerivAt.fun_sum fun i _ => ?_
    have h := (((((hasDerivAt_id th0).const_sub
      (gammaln ((nu m th1 + 1) / 2) - gammaln (nu m th1 / 2))).sub_const
        (Real.log Real.pi / 2)).sub_const (Real.log (nu m th1) / 2)).sub
        ((loga_deriv0 hm (y i) (mu i) th0 th1).const_mul ((nu m th1 + 1) / 2)))
    refine h.congr_deriv ?_
    rw [fymu_eq]; ring
  refine h.congr_deriv ?_
  rw [sum_mul_card, ← Finset.mul_sum]
  ring

/-- **C18.** Second entry of `gradientLTheta`: the derivative in the log of the excess degrees of
freedom. -/
theorem gradTheta1_correct {n : ℕ} {m : ℝ} (hm : 0 ≤ m) (y mu : Fin n → ℝ) (th0 th1 : ℝ) :
    HasDerivAt (fun t => llk m y mu th0 t) (grad1 m y mu th0 th1) th1 := by
  have hv := nu_pos hm th1
  unfold llk grad1
  have e : (fun t => ∑ i, lp m (y i) (mu i) th0 t) = fun t => ∑ i,
      (gammaln ((nu m t + 1) / 2) - gammaln (nu m t / 2) - th0
      - Real.log Real.pi / 2 - Real.log (nu m t) / 2
      - (nu m t + 1) / 2 * Real.log (a m (y i) (mu i) th0 t)) := by
    funext t; exact Finset.sum_congr rfl fun i _ => lp_eq hm _ _ _ _
  rw [e]
  have hg1 : HasDerivAt (fun t => gammaln ((nu m t + 1) / 2))
      (digamma ((nu m th1 + 1) / 2) * ((nu m th1 - m) / 2)) th1 :=
    HasDerivAt.comp (h₂ := gammaln) th1 (gammaln_hasDeriv (by positivity))
      (((nu_deriv m th1).add_const 1).div_const 2)
  have hg2 : HasDerivAt (fun t => gammaln (nu m t / 2))
      (digamma (nu m th1 / 2) * ((nu m th1 - m) / 2)) th1 :=
    HasDerivAt.comp (h₂ := gammaln) th1 (gammaln_hasDeriv (by positivity))
      ((nu_deriv m th1).div_const 2)
  have h : HasDerivAt (fun t => ∑ i,
      (gammaln ((nu m t + 1) / 2) - gammaln (nu m t / 2) - th0
      - Real.log Real.pi / 2 - Real.log (nu m t) / 2
      - (nu m t + 1) / 2 * Real.log (a m (y i) (mu i) th0 t)))
      (∑ i, (-0.5 * ((nu m th1 - m) * (Real.log (a m (y i) (mu i) th0 th1)
        - fymu m (y i) (mu i) th0 th1 / nu m th1)) +
        ((nu m th1 - m) * digamma ((nu m th1 + 1) / 2) / 2
          - (nu m th1 - m) * digamma (nu m th1 / 2) / 2
          - 0.5 * ((nu m th1 - m) / nu m th1)))) th1 := by
    refine HasDerivAt.fun_sum fun i _ => ?_
    have h := ((((hg1.sub hg2).sub_const th0).sub_const (Real.log Real.pi / 2)).sub
      (((nu_deriv m th1).log hv.ne').div_const 2)).sub
        ((((nu_deriv m th1).add_const 1).div_const 2).mul (loga_deriv1 hm (y i) (mu i) th0 th1))
    refine h.congr_deriv ?_
    rw [fymu_eq]
    field_simp
    ring
  refine h.congr_deriv ?_
  rw [sum_mul_card, ← Finset.mul_sum]
  ring

theorem grad1_deriv0 {n : ℕ} {m : ℝ} (hm : 0 ≤ m) (y mu : Fin n → ℝ) (th0 th1 : ℝ) :
    HasDerivAt (fun t => grad1 m y mu t th1) (hess01 m y mu th0 th1) th0 := by
  have hv := nu_pos hm th1
  unfold grad1 hess01
  have h : HasDerivAt (fun t => ∑ i, (nu m th1 - m) *
      (Real.log (a m (y i) (mu i) t th1) - fymu m (y i) (mu i) t th1 / nu m th1))
      (∑ i, (nu m th1 - m) * (-2 * f1ymu m (y i) (mu i) th0 th1 -
        ((nu m th1 + 1) * (-2 * f1ymu m (y i) (mu i) th0 th1 *
          (1 - f1ymu m (y i) (mu i) th0 th1))) / nu m th1)) th0 := by
    refine HasDerivAt.fun_sum fun i _ => ?_
    refine HasDerivAt.const_mul _ ((loga_deriv0 hm (y i) (mu i) th0 th1).sub (HasDerivAt.div_const ?_ _))
    exact fymu_deriv0 hm (y i) (mu i) th0 th1
  have h2 := (((h.const_mul (0.5 : ℝ)).sub_const (n * ((nu m th1 - m) * digamma ((nu m th1 + 1) / 2) / 2
      - (nu m th1 - m) * digamma (nu m th1 / 2) / 2
      - 0.5 * ((nu m th1 - m) / nu m th1)))).const_mul (-1 : ℝ))
  refine h2.congr_deriv ?_
  congr 2
  refine Finset.sum_congr rfl fun i _ => ?_
  rw [fymu_eq]
  have hp := phi_pos th0
  have ha := a_pos hm (y i) (mu i) th0 th1
  have e : (y i - mu i) * ((y i - mu i) / (phi th0 ^ 2 * a m (y i) (mu i) th0 th1)) =
      nu m th1 * f1ymu m (y i) (mu i) th0 th1 := by
    unfold f1ymu nusig2a; field_simp
  rw [e]
  field_simp
  ring

/-- **C18.** `hessianLTheta` is the (symmetric) matrix of second derivatives of the log-likelihood
in the shape parameters: each entry is the derivative of the corresponding entry of the gradient. -/
theorem hessTheta_correct {n : ℕ} {m : ℝ} (hm : 0 ≤ m) (y mu : Fin n → ℝ) (th0 th1 : ℝ) :
    HasDerivAt (fun t => grad0 m y mu t th1) (hess00 m y mu th0 th1) th0 ∧
    HasDerivAt (fun t => grad0 m y mu th0 t) (hess01 m y mu th0 th1) th1 ∧
    HasDerivAt (fun t => grad1 m y mu t th1) (hess01 m y mu th0 th1) th0 ∧
    HasDerivAt (fun t => grad1 m y mu th0 t) (hess11 m y mu th0 th1) th1 := by
  have hv := nu_pos hm th1
  refine ⟨?_, ?_, grad1_deriv0 hm y mu th0 th1, ?_⟩
  · unfold grad0 hess00
    have h : HasDerivAt (fun t => ∑ i, -2 * fymu m (y i) (mu i) t th1)
        (∑ i, -2 * ((nu m th1 + 1) * (-2 * f1ymu m (y i) (mu i) th0 th1 *
          (1 - f1ymu m (y i) (mu i) th0 th1)))) th0 := by
      exact HasDerivAt.fun_sum fun i _ => HasDerivAt.const_mul _ (fymu_deriv0 hm _ _ th0 th1)
    refine (((h.const_mul (0.5 : ℝ)).add_const (n : ℝ)).const_mul (-1 : ℝ)).congr_deriv ?_
    congr 2
    refine Finset.sum_congr rfl fun i _ => ?_
    rw [fymu_eq]; ring
  · unfold grad0 hess01
    have h : HasDerivAt (fun t => ∑ i, -2 * fymu m (y i) (mu i) th0 t)
        (∑ i, -2 * ((nu m th1 - m) * f1ymu m (y i) (mu i) th0 th1 + (nu m th1 + 1) *
          (-(nu m th1 - m) / nu m th1 * f1ymu m (y i) (mu i) th0 th1 *
          (1 - f1ymu m (y i) (mu i) th0 th1)))) th1 := by
      exact HasDerivAt.fun_sum fun i _ => HasDerivAt.const_mul _ (fymu_deriv1 hm _ _ th0 th1)
    refine (((h.const_mul (0.5 : ℝ)).add_const (n : ℝ)).const_mul (-1 : ℝ)).congr_deriv ?_
    congr 2
    refine Finset.sum_congr rfl fun i _ => ?_
    rw [fymu_eq]
    have hp := phi_pos th0
    have ha := a_pos hm (y i) (mu i) th0 th1
    have e : (y i - mu i) * ((y i - mu i) / (phi th0 ^ 2 * a m (y i) (mu i) th0 th1)) =
        nu m th1 * f1ymu m (y i) (mu i) th0 th1 := by
      unfold f1ymu nusig2a; field_simp
    rw [e]
    field_simp
    ring
  · unfold grad1 hess11
    have hd1 : HasDerivAt (fun t => digamma ((nu m t + 1) / 2))
        (trigamma ((nu m th1 + 1) / 2) * ((nu m th1 - m) / 2)) th1 :=
      HasDerivAt.comp (h₂ := digamma) th1 (digamma_hasDeriv (by positivity))
        (((nu_deriv m th1).add_const 1).div_const 2)
    have hd2 : HasDerivAt (fun t => digamma (nu m t / 2))
        (trigamma (nu m th1 / 2) * ((nu m th1 - m) / 2)) th1 :=
      HasDerivAt.comp (h₂ := digamma) th1 (digamma_hasDeriv (by positivity))
        ((nu_deriv m th1).div_const 2)
    have he : HasDerivAt (fun t => nu m t - m) (nu m th1 - m) th1 := (nu_deriv m th1).sub_const m
    have h : HasDerivAt (fun t => ∑ i, (nu m t - m) *
        (Real.log (a m (y i) (mu i) th0 t) - fymu m (y i) (mu i) th0 t / nu m t))
        (∑ i, ((nu m th1 - m) * (Real.log (a m (y i) (mu i) th0 th1) -
            fymu m (y i) (mu i) th0 th1 / nu m th1) + (nu m th1 - m) *
          (-(nu m th1 - m) / nu m th1 * f1ymu m (y i) (mu i) th0 th1 -
            (((nu m th1 - m) * f1ymu m (y i) (mu i) th0 th1 + (nu m th1 + 1) *
              (-(nu m th1 - m) / nu m th1 * f1ymu m (y i) (mu i) th0 th1 *
                (1 - f1ymu m (y i) (mu i) th0 th1))) * nu m th1 -
              fymu m (y i) (mu i) th0 th1 * (nu m th1 - m)) / (nu m th1) ^ 2))) th1 := by
      refine HasDerivAt.fun_sum fun i _ => he.mul ?_
      refine (loga_deriv1 hm (y i) (mu i) th0 th1).sub (HasDerivAt.div
        (fymu_deriv1 hm (y i) (mu i) th0 th1) (nu_deriv m th1) hv.ne')
    have h2 := ((((he.mul hd1).div_const 2).sub ((he.mul hd2).div_const 2)).sub
      ((he.div (nu_deriv m th1) hv.ne').const_mul (0.5 : ℝ))).const_mul (n : ℝ)
    refine (((h.const_mul (0.5 : ℝ)).sub h2).const_mul (-1 : ℝ)).congr_deriv ?_
    congr 2
    · congr 1
      refine Finset.sum_congr rfl fun i _ => ?_
      have hW := nusig2a_pos hm (y i) (mu i) th0 th1
      have e : ∀ c : ℝ, (nu m th1 - m) / nu m th1 * (y i - mu i) ^ 2 * c /
          nusig2a m (y i) (mu i) th0 th1 =
          (nu m th1 - m) / nu m th1 * c * f1ymu m (y i) (mu i) th0 th1 := by
        intro c; unfold f1ymu; ring
      rw [e, fymu_eq]
      field_simp
      ring
    · congr 1
      field_simp
      ring

example : ∃ (y mu : Fin 2 → ℝ), y ≠ mu ∧ (0 : ℝ) ≤ 3 ∧
    HasDerivAt (fun t => llk 3 y mu 0 t) (grad1 3 y mu 0 1) 1 :=
  ⟨![1, 2], ![0, 2], by intro h; have := congrFun h 0; simp at this, by norm_num,
    gradTheta1_correct (by norm_num) _ _ _ _⟩

/-! ### Working data of extended families (C21) -/

/-- Log-likelihood of one observation as a function of its linear predictor. -/
noncomputable def lpEta (lk : Fam.LinkKind) (m y th0 th1 : ℝ) (eta : Fl) : Fl :=
  match lk.fi eta with
  | .fin mu => .fin (lp m y mu th0 th1)
  | _ => .nan

theorem lp_deriv_mu {m : ℝ} (hm : 0 ≤ m) (y mu th0 th1 : ℝ) :
    HasDerivAt (fun x => lp m y x th0 th1) (-(1 / 2) * dDdmu m y mu th0 th1) mu := by
  have e : (fun x => lp m y x th0 th1) = fun x => lp m y y th0 th1 - (1 / 2) * D m y x th0 th1 := by
    funext x; rw [deviance_gap]; ring
  rw [e]
  refine (((dDdmu_correct hm y mu th0 th1).const_mul (1 / 2)).const_sub _).congr_deriv ?_
  ring

theorem lEta_deriv {m : ℝ} (hm : 0 ≤ m) (lk : Fam.LinkKind) (y th0 th1 eta : ℝ) :
    HasDerivAt (fun e => lp m y (lk.fiR e) th0 th1)
      (-(1 / 2) * (dDdmu m y (lk.fiR eta) th0 th1 / lk.d1R (lk.fiR eta))) eta := by
  have := HasDerivAt.comp (h₂ := fun x => lp m y x th0 th1) eta
    (lp_deriv_mu hm y (lk.fiR eta) th0 th1) (Fam.fiR_deriv lk eta)
  refine this.congr_deriv ?_
  ring

/-- **C21, extended families.** The Newton weight of an extended family is minus the second
derivative of the log-likelihood in the linear predictor; when it is non-zero, the pseudo-response
is finite and weight times (pseudo-response minus predictor) is the first derivative; when it is
zero the row is flagged invalid. -/
theorem ext_newton_weights {m : ℝ} (hm : 0 ≤ m) (lk : Fam.LinkKind) (y th0 th1 eta : ℝ) :
    ∃ (mu w : ℝ) (z : Fl) (d1 : ℝ → ℝ), lk.fi (.fin eta) = .fin mu ∧
      extZW lk (.fin (dDdmu m y mu th0 th1)) (.fin (d2Ddmu m y mu th0 th1)) (.fin mu) (.fin eta)
        = (z, .fin w) ∧
      (∀ e, HasFlDeriv (lpEta lk m y th0 th1) (.fin (d1 e)) e) ∧
      HasDerivAt d1 (-w) eta ∧
      (w ≠ 0 → ∃ z', z = .fin z' ∧ w * (z' - eta) = d1 eta) ∧
      (w = 0 → Fam.invalid (z, .fin w)) := by
  set mu := lk.fiR eta with hmu
  have hd := Fam.fi_mem lk eta
  rw [← hmu] at hd
  have h1 := Fam.d1_pos hd
  set D1 := dDdmu m y mu th0 th1 with hD1
  set D2 := d2Ddmu m y mu th0 th1 with hD2
  set w : ℝ := 0.5 * (D2 / lk.d1R mu ^ 2 - D1 * lk.d2R mu / lk.d1R mu ^ 3) with hw
  have hz : extZW lk (.fin D1) (.fin D2) (.fin mu) (.fin eta) =
      (.fin eta - ((.fin 1 / .fin (2 * w)) * .fin (D1 / lk.d1R mu)), .fin w) := by
    simp only [extZW]
    rw [Fam.d1_eq hd, Fam.d2_eq hd, Fl.pow_fin, Fl.pow_fin, Fl.fin_div (by positivity), Fl.fin_mul,
      Fl.fin_div (by positivity), Fl.fin_div h1.ne']
    simp only [Fl.fin_sub, Fl.fin_mul]
    rw [hw]
  refine ⟨mu, w, _, fun e => -(1 / 2) * (dDdmu m y (lk.fiR e) th0 th1 / lk.d1R (lk.fiR e)),
    Fam.fi_eq lk eta, hz, fun e => ?_, ?_, fun hw0 => ?_, fun hw0 => ?_⟩
  · refine ⟨_, _, rfl, Eventually.of_forall fun e' => ?_, lEta_deriv hm lk y th0 th1 e⟩
    simp only [lpEta, Fam.fi_eq]
  · have hmd := Fam.fiR_deriv lk eta
    have ha := HasDerivAt.comp (h₂ := fun x => dDdmu m y x th0 th1) eta
      (d2Ddmu_correct hm y (lk.fiR eta) th0 th1) hmd
    have hb := HasDerivAt.comp (h₂ := lk.d1R) eta (Fam.d1R_deriv (Fam.fi_mem lk eta)) hmd
    have := (ha.div hb (by rw [Function.comp_apply, ← hmu]; exact h1.ne')).const_mul (-(1 / 2 : ℝ))
    refine this.congr_deriv ?_
    simp only [Function.comp_apply, ← hmu, ← hD1, ← hD2, hw]
    field_simp
    ring
  · rw [Fl.fin_div (by positivity), Fl.fin_mul, Fl.fin_sub]
    refine ⟨_, rfl, ?_⟩
    dsimp only
    rw [← hmu, ← hD1]
    field_simp
    ring
  · rintro ⟨hf, -⟩
    rw [hw0] at hf
    have e : (Fl.fin 1 / Fl.fin (2 * 0)) = Fl.pinf := by
      show Fl.div _ _ = _
      simp [Fl.div, Fl.infSign]
    rw [e] at hf
    have : ∀ r : ℝ, ¬ (Fl.fin eta - Fl.pinf * Fl.fin r).IsFin := by
      intro r
      have e1 : Fl.pinf * Fl.fin r = Fl.infSign r := rfl
      rw [e1]
      unfold Fl.infSign
      split_ifs <;> exact id
    exact this _ hf

/-- **C21, extended families.** The same for the Fisher weights, which replace the second derivative
of the deviance by any value `e2` (its expectation): whenever the weight is non-zero the working
residual still reproduces the score. -/
theorem ext_fisher_score {m : ℝ} (hm : 0 ≤ m) (lk : Fam.LinkKind) (y th0 th1 eta e2 : ℝ) :
    ∃ (mu w : ℝ) (z : Fl), lk.fi (.fin eta) = .fin mu ∧
      extZW lk (.fin (dDdmu m y mu th0 th1)) (.fin e2) (.fin mu) (.fin eta) = (z, .fin w) ∧
      (w ≠ 0 → ∃ z', z = .fin z' ∧
        HasFlDeriv (lpEta lk m y th0 th1) (.fin (w * (z' - eta))) eta) := by
  set mu := lk.fiR eta with hmu
  have hd := Fam.fi_mem lk eta
  rw [← hmu] at hd
  have h1 := Fam.d1_pos hd
  set D1 := dDdmu m y mu th0 th1 with hD1
  set w : ℝ := 0.5 * (e2 / lk.d1R mu ^ 2 - D1 * lk.d2R mu / lk.d1R mu ^ 3) with hw
  have hz : extZW lk (.fin D1) (.fin e2) (.fin mu) (.fin eta) =
      (.fin eta - ((.fin 1 / .fin (2 * w)) * .fin (D1 / lk.d1R mu)), .fin w) := by
    simp only [extZW]
    rw [Fam.d1_eq hd, Fam.d2_eq hd, Fl.pow_fin, Fl.pow_fin, Fl.fin_div (by positivity), Fl.fin_mul,
      Fl.fin_div (by positivity), Fl.fin_div h1.ne']
    simp only [Fl.fin_sub, Fl.fin_mul]
    rw [hw]
  refine ⟨mu, w, _, Fam.fi_eq lk eta, hz, fun hw0 => ?_⟩
  rw [Fl.fin_div (by positivity), Fl.fin_mul, Fl.fin_sub]
  refine ⟨_, rfl, _, _, rfl, Eventually.of_forall fun e' => by simp only [lpEta, Fam.fi_eq],
    (lEta_deriv hm lk y th0 th1 eta).congr_deriv ?_⟩
  rw [← hmu, ← hD1]
  field_simp
  ring

example : (0 : ℝ) ≤ 3 ∧ d2Ddmu 3 2 2 0 0 ≠ 0 := by
  refine ⟨by norm_num, ?_⟩
  have h0 : nu 3 0 = 4 := by norm_num [nu]
  have h1 : phi 0 = 1 := by simp [phi]
  simp only [d2Ddmu, h0, h1]
  norm_num

/-! ### Gradient of extended families in `GAMLSSGSMMFamily` (C59) -/

theorem llkCoef_grad {N p : ℕ} {m : ℝ} (hm : 0 ≤ m) (lk : Fam.LinkKind) (y : Fin N → ℝ)
    (X : Fin N → Fin p → ℝ) (th0 th1 : ℝ) (coef : Fin p → ℝ) :
    HasFlGrad (llkCoef lk m y X th0 th1)
      (fun j => -(1 / 2) * ∑ i, dDdmu m (y i) (lk.fiR (Fam.linpred X coef i)) th0 th1 /
        lk.d1R (lk.fiR (Fam.linpred X coef i)) * X i j) coef := by
  refine ⟨fun c => ∑ i, lp m (y i) (lk.fiR (Fam.linpred X c i)) th0 th1,
    Eventually.of_forall fun c => ?_, ?_⟩
  · unfold llkCoef
    rw [← Fl.sum_fin]
    congr 1
    funext i
    rw [Fam.fi_eq]
  · have hd : HasFDerivAt (fun c => ∑ i, lp m (y i) (lk.fiR (Fam.linpred X c i)) th0 th1)
        (∑ i, (-(1 / 2) * (dDdmu m (y i) (lk.fiR (Fam.linpred X coef i)) th0 th1 /
          lk.d1R (lk.fiR (Fam.linpred X coef i)))) •
            (∑ j, X i j • ContinuousLinearMap.proj (R := ℝ) (φ := fun _ : Fin p => ℝ) j)) coef := by
      refine HasFDerivAt.fun_sum fun i _ => ?_
      exact HasDerivAt.comp_hasFDerivAt (h₂ := fun e => lp m (y i) (lk.fiR e) th0 th1) coef
        (lEta_deriv hm lk (y i) th0 th1 (Fam.linpred X coef i)) (Fam.linpred_fderiv X coef i)
    refine hd.congr_fderiv ?_
    ext v
    simp only [_root_.sum_apply, _root_.smul_apply, ContinuousLinearMap.proj_apply, smul_eq_mul,
      Finset.sum_mul, Finset.mul_sum]
    rw [Finset.sum_comm]
    refine Finset.sum_congr rfl fun j _ => Finset.sum_congr rfl fun i _ => by ring

/-- The claim C59: the gradient reported for an extended family is the gradient of the reported
log-likelihood. -/
def ExtGradientCorrect : Prop :=
  ∀ (N p : ℕ) (lk : Fam.LinkKind) (m : ℝ) (y : Fin N → ℝ) (X : Fin N → Fin p → ℝ) (th0 th1 : ℝ)
    (coef : Fin p → ℝ), 0 ≤ m →
    ∃ g : Fin p → ℝ, (∀ j, gradCoef lk m y X th0 th1 coef j = .fin (g j)) ∧
      HasFlGrad (llkCoef lk m y X th0 th1) g coef

/-- **C59 (partial).** With the identity link (the default of the scaled t family) the reported
gradient in the coefficients is the gradient of the log-likelihood.  Missing: other links. -/
theorem ext_gradient_partial {N p : ℕ} {m : ℝ} (hm : 0 ≤ m) (y : Fin N → ℝ)
    (X : Fin N → Fin p → ℝ) (th0 th1 : ℝ) (coef : Fin p → ℝ) :
    ∃ g : Fin p → ℝ, (∀ j, gradCoef .identity m y X th0 th1 coef j = .fin (g j)) ∧
      HasFlGrad (llkCoef .identity m y X th0 th1) g coef := by
  refine ⟨_, fun j => ?_, llkCoef_grad hm .identity y X th0 th1 coef⟩
  unfold gradCoef
  have e : ∀ r : ℝ, Fl.fin r / Fl.fin 1 = Fl.fin (r / 1) := fun r => Fl.fin_div one_ne_zero
  simp only [Fam.LinkKind.fi, Fam.LinkKind.dy1, Fam.LinkKind.fiR, Fam.LinkKind.d1R, e, Fl.fin_mul]
  rw [Fl.sum_fin, Fl.fin_mul]
  norm_num

theorem flGrad_unique {p : ℕ} {f : (Fin p → ℝ) → Fl} {g g' c : Fin p → ℝ} (h : HasFlGrad f g c)
    (h' : HasFlGrad f g' c) : g = g' := by
  obtain ⟨F, hF, hd⟩ := h
  obtain ⟨F', hF', hd'⟩ := h'
  have he : F' =ᶠ[𝓝 c] F := by
    filter_upwards [hF, hF'] with x h1 h2
    rw [h1] at h2
    exact (Fl.fin_inj.1 h2).symm
  have hu := hd'.unique (hd.congr_of_eventuallyEq he)
  funext j
  have := congrArg (fun L : (Fin p → ℝ) →L[ℝ] ℝ => L (Pi.single j 1)) hu
  simp only [_root_.sum_apply, _root_.smul_apply, ContinuousLinearMap.proj_apply, smul_eq_mul,
    Pi.single_apply, mul_ite, mul_one, mul_zero, Finset.sum_ite_eq', Finset.mem_univ, if_true] at this
  exact this.symm

/-- **C59 fails**: with a log link the link derivative is evaluated at the deviance derivative
instead of the mean.  One observation `2`, mean `1`: the reported gradient is `-2`, the true one
`1` (the wrong sign). -/
theorem ext_gradient_wrong : ¬ ExtGradientCorrect := by
  intro h
  obtain ⟨g, hg, hgrad⟩ := h 1 1 .log 3 ![2] (fun _ _ => 1) 0 0 ![0] (by norm_num)
  have hu := flGrad_unique hgrad (llkCoef_grad (by norm_num) .log ![2] (fun _ _ => 1) 0 0 ![0])
  have h0 : nu 3 0 = 4 := by norm_num [nu]
  have h1 : phi 0 = 1 := by simp [phi]
  have hl : Fam.linpred (fun (_ : Fin 1) (_ : Fin 1) => (1 : ℝ)) ![0] 0 = 0 := by
    simp [Fam.linpred]
  have hd : dDdmu 3 2 1 0 0 = -2 := by
    simp only [dDdmu, h0, h1]; norm_num
  have e1 : g 0 = 1 := by
    rw [hu]
    simp [hl, Fam.LinkKind.fiR, Fam.LinkKind.d1R, hd]
  have e2 : gradCoef .log 3 ![2] (fun _ _ => 1) 0 0 ![0] (0 : Fin 1) = .fin (-2) := by
    unfold gradCoef
    simp only [Fl.sum]
    have hl' : Fam.linpred (fun (_ : Fin 1) (_ : Fin 1) => (1 : ℝ)) ![0] (Fin.last 0) = 0 := hl
    have hy : (![2] : Fin 1 → ℝ) (Fin.last 0) = 2 := rfl
    simp only [hl', hy, Fam.LinkKind.fi, Fl.exp_fin, Real.exp_zero, hd, Fam.LinkKind.dy1]
    rw [Fl.fin_div (by norm_num), Fl.fin_div (by norm_num)]
    simp only [Fl.fin_mul, Fl.fin_add]
    norm_num
  rw [hg 0, Fl.fin_inj, e1] at e2
  norm_num at e2

end Verif.ScT
