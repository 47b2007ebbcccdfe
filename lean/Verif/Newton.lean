import Verif.NewtonModel
import Mathlib.LinearAlgebra.Matrix.PosDef
import Mathlib.Analysis.Matrix.PosDef
import Mathlib.Algebra.Order.Star.Real
import Mathlib.Analysis.Calculus.Deriv.Basic
import Mathlib.Analysis.Calculus.Deriv.Comp
import Mathlib.Analysis.Calculus.Deriv.Add
import Mathlib.Analysis.Calculus.Deriv.Mul
import Mathlib.Analysis.Calculus.Deriv.Pow
import Mathlib.Analysis.Normed.Module.FiniteDimension
import Mathlib.Tactic.Linarith
import Mathlib.Tactic.Positivity
import Mathlib.Tactic.LinearCombination
import Mathlib.Tactic.FinCases
import Mathlib.LinearAlgebra.Matrix.Notation

/-!
# The Newton step of location, scale and shape models (property C33)
-/

namespace Verif.Newton

open Matrix

variable {n : ℕ}

theorem permM_mul_transpose (Pr : Equiv.Perm (Fin n)) : permM Pr * (permM Pr)ᵀ = 1 := by
  ext i j
  simp only [mul_apply, permM, transpose_apply, one_apply]
  rw [Finset.sum_eq_single (Pr.symm i)]
  · simp
  · intro b _ hb
    rw [if_neg, zero_mul]
    rintro rfl
    simp at hb
  · intro h; exact absurd (Finset.mem_univ _) h

theorem permM_transpose_mul (Pr : Equiv.Perm (Fin n)) : (permM Pr)ᵀ * permM Pr = 1 :=
  mul_eq_one_comm.1 (permM_mul_transpose Pr)

theorem dgr_pos (nH : Matrix (Fin n) (Fin n) ℝ) (h : ∀ i, nH i i ≠ 0) (i : Fin n) : 0 < dgr nH i :=
  Real.rpow_pos_of_pos (abs_pos.2 (h i)) _

theorem dgr_sq (nH : Matrix (Fin n) (Fin n) ℝ) (h : ∀ i, nH i i ≠ 0) (i : Fin n) :
    (1 / dgr nH i) * (1 / dgr nH i) = |nH i i| := by
  have hp := abs_pos.2 (h i)
  unfold dgr
  rw [one_div, ← Real.rpow_neg hp.le, ← Real.rpow_add hp]
  norm_num

theorem diag_inv (nH : Matrix (Fin n) (Fin n) ℝ) (h : ∀ i, nH i i ≠ 0) :
    diagonal (fun i => 1 / dgr nH i) * diagonal (dgr nH) = 1 := by
  rw [diagonal_mul_diagonal, ← diagonal_one]
  congr 1
  funext i
  exact one_div_mul_cancel (dgr_pos nH h i).ne'

theorem diag_inv' (nH : Matrix (Fin n) (Fin n) ℝ) (h : ∀ i, nH i i ≠ 0) :
    diagonal (dgr nH) * diagonal (fun i => 1 / dgr nH i) = 1 := mul_eq_one_comm.1 (diag_inv nH h)

/-- What the loop returns. -/
theorem ridge_spec (chol) (hc : CholSpec (n := n) chol) (M : Matrix (Fin n) (Fin n) ℝ) :
    ∀ (fuel : ℕ) (eps : ℝ) (r), 0 ≤ eps → ridge chol M fuel eps = some r →
      eps ≤ r.2.2 ∧ permM r.2.1 * (M + r.2.2 • 1) * (permM r.2.1)ᵀ = r.1 * r.1ᵀ ∧ IsUnit r.1.det ∧
      ((chol (M + eps • 1)).isSome → r.2.2 = eps) := by
  intro fuel
  induction fuel with
  | zero => intro eps r _ h; simp [ridge] at h
  | succ fuel ih =>
    intro eps r he h
    rw [ridge] at h
    cases hch : chol (M + eps • 1) with
    | none =>
      rw [hch] at h
      dsimp only at h
      have hne : eps ≤ nextEps eps := by
        unfold nextEps
        split_ifs with h0
        · rw [h0]; norm_num
        · linarith
      obtain ⟨h1, h2, h3, -⟩ := ih _ r (he.trans hne) h
      exact ⟨hne.trans h1, h2, h3, by simp⟩
    | some x =>
      rw [hch] at h
      simp only [Option.some.injEq] at h
      subst h
      obtain ⟨h1, h2⟩ := hc.sound _ _ _ hch
      exact ⟨le_rfl, h1, h2, fun _ => rfl⟩

/-- Strictly positive quadratic form. -/
def PD (A : Matrix (Fin n) (Fin n) ℝ) : Prop := ∀ x, x ≠ 0 → 0 < x ⬝ᵥ A *ᵥ x

theorem scaled_symm (nH : Matrix (Fin n) (Fin n) ℝ) (h : nH.IsSymm) : (scaled nH).IsSymm := by
  unfold scaled IsSymm
  rw [transpose_mul, transpose_mul, diagonal_transpose, h.eq, Matrix.mul_assoc]

theorem scaled_pd (nH : Matrix (Fin n) (Fin n) ℝ) (h : ∀ i, nH i i ≠ 0) (hp : PD nH) : PD (scaled nH) := by
  intro x hx
  have h1 : x ⬝ᵥ scaled nH *ᵥ x = (diagonal (dgr nH) *ᵥ x) ⬝ᵥ nH *ᵥ (diagonal (dgr nH) *ᵥ x) := by
    unfold scaled
    rw [← mulVec_mulVec, ← mulVec_mulVec, dotProduct_mulVec, ← mulVec_transpose, diagonal_transpose]
  rw [h1]
  refine hp _ fun h0 => hx ?_
  have h2 : diagonal (fun i => 1 / dgr nH i) *ᵥ (diagonal (dgr nH) *ᵥ x) = x := by
    rw [mulVec_mulVec, diag_inv nH h, one_mulVec]
  rw [← h2, h0, mulVec_zero]

/-- A symmetric matrix plus a large enough ridge is positive definite. -/
theorem pd_ridge (M : Matrix (Fin n) (Fin n) ℝ) (e : ℝ) (he : ∑ i, ∑ j, |M i j| < e) : PD (M + e • 1) := by
  intro x hx
  have hxx : 0 < x ⬝ᵥ x := by
    obtain ⟨i, hi⟩ := Function.ne_iff.1 hx
    have : 0 < x i * x i := by
      have : x i ≠ 0 := hi
      exact mul_self_pos.2 this
    calc (0 : ℝ) < x i * x i := this
      _ ≤ ∑ j, x j * x j := Finset.single_le_sum (f := fun j => x j * x j)
          (fun j _ => mul_self_nonneg _) (Finset.mem_univ i)
  have h1 : x ⬝ᵥ (M + e • (1 : Matrix (Fin n) (Fin n) ℝ)) *ᵥ x = x ⬝ᵥ M *ᵥ x + e * (x ⬝ᵥ x) := by
    rw [add_mulVec, smul_mulVec, one_mulVec, dotProduct_add, dotProduct_smul, smul_eq_mul]
  have hle : ∀ i, x i * x i ≤ x ⬝ᵥ x := fun i =>
    Finset.single_le_sum (f := fun j => x j * x j) (fun j _ => mul_self_nonneg _) (Finset.mem_univ i)
  have h2 : -((∑ i, ∑ j, |M i j|) * (x ⬝ᵥ x)) ≤ x ⬝ᵥ M *ᵥ x := by
    rw [show x ⬝ᵥ M *ᵥ x = ∑ i, ∑ j, x i * (M i j * x j) by
      simp only [dotProduct, mulVec, Finset.mul_sum], Finset.sum_mul, ← Finset.sum_neg_distrib]
    refine Finset.sum_le_sum fun i _ => ?_
    rw [Finset.sum_mul, ← Finset.sum_neg_distrib]
    refine Finset.sum_le_sum fun j _ => ?_
    have h3 : |x i * x j| ≤ x ⬝ᵥ x := by
      rw [abs_le]
      constructor <;> nlinarith [hle i, hle j, sq_nonneg (x i - x j), sq_nonneg (x i + x j)]
    have h4 := neg_abs_le (x i * (M i j * x j))
    have h5 : |x i * (M i j * x j)| = |M i j| * |x i * x j| := by
      rw [show x i * (M i j * x j) = M i j * (x i * x j) by ring, abs_mul]
    rw [h5] at h4
    have := mul_le_mul_of_nonneg_left h3 (abs_nonneg (M i j))
    linarith
  rw [h1]
  nlinarith

/-- **C33.** The loop that adds a ridge ends. -/
theorem ridge_terminates (chol) (hc : CholSpec (n := n) chol) (M : Matrix (Fin n) (Fin n) ℝ)
    (hM : M.IsSymm) : ∃ fuel r, ridge chol M fuel 0 = some r := by
  have hsym : ∀ e : ℝ, (M + e • (1 : Matrix (Fin n) (Fin n) ℝ)).IsSymm := by
    intro e
    unfold IsSymm
    rw [transpose_add, transpose_smul, transpose_one, hM.eq]
  set B := ∑ i, ∑ j, |M i j|
  have key : ∀ (k : ℕ) (e : ℝ), 0 < e → B < e * 2 ^ k → ∃ r, ridge chol M (k + 1) e = some r := by
    intro k
    induction k with
    | zero =>
      intro e he hB
      rw [pow_zero, mul_one] at hB
      obtain ⟨x, hx⟩ := Option.isSome_iff_exists.1 (hc.complete _ (hsym e) (pd_ridge M e hB))
      rw [ridge, hx]
      exact ⟨_, rfl⟩
    | succ k ih =>
      intro e he hB
      rw [ridge]
      cases hx : chol (M + e • 1) with
      | some x => exact ⟨_, rfl⟩
      | none =>
        dsimp only
        have h1 : nextEps e = e * 2 := by unfold nextEps; rw [if_neg he.ne']
        rw [h1]
        exact ih _ (by linarith) (by rw [pow_succ] at hB; linarith)
  cases hx : chol (M + (0 : ℝ) • 1) with
  | some x => exact ⟨1, (x.1, x.2, 0), by rw [ridge, hx]⟩
  | none =>
    obtain ⟨k, hk⟩ := pow_unbounded_of_one_lt (B * 10 ^ 14) (by norm_num : (1 : ℝ) < 2)
    obtain ⟨r, hr⟩ := key k (1 / 10 ^ 14) (by positivity) (by
      rw [one_div, inv_mul_eq_div, lt_div_iff₀ (by positivity)]
      exact hk)
    refine ⟨k + 2, r, ?_⟩
    rw [ridge, hx]
    dsimp only
    have h1 : nextEps 0 = 1 / 10 ^ 14 := by unfold nextEps; simp
    rw [h1]
    exact hr

/-- **C33.** Factor and covariance root: `L Lᵀ` is the negative penalised Hessian plus a non-negative
multiple of its absolute diagonal, the multiple is zero if that Hessian is positive definite,
`LVᵀ LV` is the inverse of `L Lᵀ`, and the step is `LVᵀ LV` times the penalised gradient. -/
theorem newton_correct (chol) (hc : CholSpec (n := n) chol) (fuel : ℕ) (coef grad : Fin n → ℝ)
    (H S : Matrix (Fin n) (Fin n) ℝ) (hd : ∀ i, -H i i + S i i ≠ 0) (o : Out n)
    (ho : newton chol fuel coef grad H S = some o) :
    0 ≤ o.eps ∧
    o.L * o.Lᵀ = -H + S + o.eps • diagonal (fun i => |-H i i + S i i|) ∧
    (o.LVᵀ * o.LV) * (o.L * o.Lᵀ) = 1 ∧
    ((-H + S).IsSymm → (∀ x, x ≠ 0 → 0 < x ⬝ᵥ (-H + S) *ᵥ x) → o.eps = 0) ∧
    o.coef = coef + (o.LVᵀ * o.LV) *ᵥ (grad - S *ᵥ coef) := by
  have hnH : negH H S = -H + S := by unfold negH; rw [neg_one_smul]
  have hd' : ∀ i, negH H S i i ≠ 0 := by rw [hnH]; exact hd
  unfold newton at ho
  dsimp only at ho
  cases hr : ridge chol (scaled (negH H S)) fuel 0 with
  | none => rw [hr] at ho; simp at ho
  | some r =>
    obtain ⟨Lp, Pr, eps⟩ := r
    rw [hr] at ho
    simp only [Option.some.injEq] at ho
    subst ho
    obtain ⟨h1, h2, h3, h4⟩ := ridge_spec chol hc _ fuel 0 _ le_rfl hr
    dsimp only at h1 h2 h3 h4 ⊢
    set D := diagonal (dgr (negH H S)) with hD
    set DI := diagonal (fun i => 1 / dgr (negH H S) i) with hDI
    have hDD : DI * D = 1 := diag_inv _ hd'
    have hDD' : D * DI = 1 := diag_inv' _ hd'
    have hP := permM_mul_transpose Pr
    have hP' := permM_transpose_mul Pr
    have hDIt : DIᵀ = DI := diagonal_transpose _
    have hDt : Dᵀ = D := diagonal_transpose _
    have hLp : Lp⁻¹ * Lp = 1 := nonsing_inv_mul Lp h3
    have hLp' : Lp * Lp⁻¹ = 1 := mul_nonsing_inv Lp h3
    have hLL : DI * (permM Pr)ᵀ * Lp * (DI * (permM Pr)ᵀ * Lp)ᵀ = DI * (scaled (negH H S) + eps • 1) * DI := by
      rw [transpose_mul, transpose_mul, transpose_transpose, hDIt]
      calc DI * (permM Pr)ᵀ * Lp * (Lpᵀ * (permM Pr * DI))
          = DI * (permM Pr)ᵀ * (Lp * Lpᵀ) * (permM Pr * DI) := by simp only [Matrix.mul_assoc]
        _ = DI * ((permM Pr)ᵀ * permM Pr) * (scaled (negH H S) + eps • 1)
              * ((permM Pr)ᵀ * permM Pr) * DI := by
            rw [← h2]; simp only [Matrix.mul_assoc]
        _ = _ := by rw [hP', Matrix.mul_one, Matrix.mul_one]
    refine ⟨h1, ?_, ?_, ?_, ?_⟩
    · rw [hLL, Matrix.mul_add, Matrix.add_mul]
      congr 1
      · unfold scaled
        rw [← hD]
        calc DI * (D * negH H S * D) * DI = (DI * D) * negH H S * (D * DI) := by
              simp only [Matrix.mul_assoc]
          _ = -H + S := by rw [hDD, hDD', Matrix.one_mul, Matrix.mul_one, hnH]
      · rw [Matrix.mul_smul, Matrix.mul_one, Matrix.smul_mul, hDI, diagonal_mul_diagonal]
        congr 2
        funext i
        rw [dgr_sq _ hd' i, hnH]
        rfl
    · rw [transpose_mul, transpose_mul, hDt]
      rw [transpose_mul, transpose_mul, transpose_transpose, hDIt]
      calc D * ((permM Pr)ᵀ * Lp⁻¹ᵀ) * (Lp⁻¹ * permM Pr * D)
            * (DI * (permM Pr)ᵀ * Lp * (Lpᵀ * (permM Pr * DI)))
          = D * ((permM Pr)ᵀ * Lp⁻¹ᵀ) * (Lp⁻¹ * (permM Pr * (D * DI) * (permM Pr)ᵀ) * Lp)
              * (Lpᵀ * (permM Pr * DI)) := by simp only [Matrix.mul_assoc]
        _ = D * (permM Pr)ᵀ * (Lp⁻¹ᵀ * Lpᵀ) * (permM Pr * DI) := by
            rw [hDD', Matrix.mul_one, hP, Matrix.mul_one, hLp, Matrix.mul_one]
            simp only [Matrix.mul_assoc]
        _ = D * ((permM Pr)ᵀ * permM Pr) * DI := by
            rw [← transpose_mul, hLp', transpose_one, Matrix.mul_one]
            simp only [Matrix.mul_assoc]
        _ = 1 := by rw [hP', Matrix.mul_one, hDD']
    · intro hs hp
      refine h4 ?_
      rw [zero_smul, add_zero]
      refine hc.complete _ (scaled_symm _ (by rw [hnH]; exact hs)) ?_
      exact scaled_pd _ hd' (by rw [hnH]; exact hp)
    · congr 1
      rw [transpose_mul (Lp⁻¹ * permM Pr) D, hDt]
      have : D * ((Lp⁻¹ * permM Pr)ᵀ * (Lp⁻¹ * permM Pr)) * D
          = D * (Lp⁻¹ * permM Pr)ᵀ * (Lp⁻¹ * permM Pr * D) := by simp only [Matrix.mul_assoc]
      rw [this]
      congr 1

/-- The step is zero only at a stationary point, otherwise it makes an acute angle with the penalised
gradient. -/
theorem newton_acute (chol) (hc : CholSpec (n := n) chol) (fuel : ℕ) (coef grad : Fin n → ℝ)
    (H S : Matrix (Fin n) (Fin n) ℝ) (hd : ∀ i, -H i i + S i i ≠ 0) (o : Out n)
    (ho : newton chol fuel coef grad H S = some o) (hg : grad - S *ᵥ coef ≠ 0) :
    0 < (grad - S *ᵥ coef) ⬝ᵥ (o.coef - coef) := by
  obtain ⟨-, -, h3, -, h5⟩ := newton_correct chol hc fuel coef grad H S hd o ho
  rw [h5, add_sub_cancel_left]
  set g := grad - S *ᵥ coef
  have h1 : g ⬝ᵥ (o.LVᵀ * o.LV) *ᵥ g = (o.LV *ᵥ g) ⬝ᵥ (o.LV *ᵥ g) := by
    rw [← mulVec_mulVec, dotProduct_mulVec, vecMul_transpose]
  have h2 : o.LV *ᵥ g ≠ 0 := by
    intro h0
    have h4 : (o.L * o.Lᵀ) * (o.LVᵀ * o.LV) = 1 := mul_eq_one_comm.1 h3
    refine hg ?_
    have : ((o.L * o.Lᵀ) * (o.LVᵀ * o.LV)) *ᵥ g = 0 := by
      rw [← mulVec_mulVec g, ← mulVec_mulVec g, h0, mulVec_zero, mulVec_zero]
    rwa [h4, one_mulVec] at this
  rw [h1]
  obtain ⟨i, hi⟩ := Function.ne_iff.1 h2
  have hi' : (o.LV *ᵥ g) i ≠ 0 := hi
  calc (0 : ℝ) < (o.LV *ᵥ g) i * (o.LV *ᵥ g) i := mul_self_pos.2 hi'
    _ ≤ ∑ j, (o.LV *ᵥ g) j * (o.LV *ᵥ g) j := Finset.single_le_sum
        (f := fun j => (o.LV *ᵥ g) j * (o.LV *ᵥ g) j) (fun j _ => mul_self_nonneg _) (Finset.mem_univ i)

/-- Slope of the penalised log-likelihood along a direction. -/
theorem pen_slope (llk : (Fin n → ℝ) → ℝ) (coef grad d : Fin n → ℝ) (S : Matrix (Fin n) (Fin n) ℝ)
    (hS : S.IsSymm) (hl : HasDerivAt (fun t : ℝ => llk (coef + t • d)) (grad ⬝ᵥ d) 0) :
    HasDerivAt (fun t : ℝ => llk (coef + t • d)
      - 1 / 2 * ((coef + t • d) ⬝ᵥ S *ᵥ (coef + t • d))) ((grad - S *ᵥ coef) ⬝ᵥ d) 0 := by
  have h1 : ∀ t : ℝ, (coef + t • d) ⬝ᵥ S *ᵥ (coef + t • d)
      = coef ⬝ᵥ S *ᵥ coef + t * (2 * ((S *ᵥ coef) ⬝ᵥ d)) + t ^ 2 * (d ⬝ᵥ S *ᵥ d) := by
    intro t
    rw [mulVec_add, mulVec_smul, dotProduct_add, add_dotProduct, add_dotProduct, dotProduct_smul,
      dotProduct_smul, smul_dotProduct, smul_dotProduct]
    have h2 : d ⬝ᵥ S *ᵥ coef = (S *ᵥ coef) ⬝ᵥ d := dotProduct_comm _ _
    have h3 : coef ⬝ᵥ S *ᵥ d = (S *ᵥ coef) ⬝ᵥ d := by
      rw [dotProduct_mulVec, ← mulVec_transpose, hS.eq]
    rw [h2, h3]
    simp only [smul_eq_mul]
    ring
  simp only [h1]
  have h4 : HasDerivAt (fun t : ℝ => coef ⬝ᵥ S *ᵥ coef + t * (2 * ((S *ᵥ coef) ⬝ᵥ d))
      + t ^ 2 * (d ⬝ᵥ S *ᵥ d)) (2 * ((S *ᵥ coef) ⬝ᵥ d)) 0 := by
    have a := (hasDerivAt_id (0 : ℝ)).mul_const (2 * ((S *ᵥ coef) ⬝ᵥ d))
    have b := (hasDerivAt_pow 2 (0 : ℝ)).mul_const (d ⬝ᵥ S *ᵥ d)
    have c := (a.const_add (coef ⬝ᵥ S *ᵥ coef)).add b
    refine c.congr_deriv ?_
    simp
  refine (hl.sub (h4.const_mul (1 / 2))).congr_deriv ?_
  rw [sub_dotProduct]
  ring

/-- **C33.** The Newton step is an ascent direction of the penalised log-likelihood wherever its
gradient is not zero. -/
theorem newton_ascent (chol) (hc : CholSpec (n := n) chol) (fuel : ℕ) (coef grad : Fin n → ℝ)
    (H S : Matrix (Fin n) (Fin n) ℝ) (hS : S.IsSymm) (hd : ∀ i, -H i i + S i i ≠ 0) (o : Out n)
    (ho : newton chol fuel coef grad H S = some o) (hg : grad - S *ᵥ coef ≠ 0)
    (llk : (Fin n → ℝ) → ℝ)
    (hl : ∀ d : Fin n → ℝ, HasDerivAt (fun t : ℝ => llk (coef + t • d)) (grad ⬝ᵥ d) 0) :
    ∃ s > 0, HasDerivAt (fun t : ℝ => llk (coef + t • (o.coef - coef))
      - 1 / 2 * ((coef + t • (o.coef - coef)) ⬝ᵥ S *ᵥ (coef + t • (o.coef - coef)))) s 0 :=
  ⟨_, newton_acute chol hc fuel coef grad H S hd o ho hg,
    pen_slope llk coef grad (o.coef - coef) S hS (hl _)⟩

/-- The gradient step is an ascent direction as well. -/
theorem gradient_ascent (coef grad : Fin n → ℝ) (S : Matrix (Fin n) (Fin n) ℝ) (hS : S.IsSymm) (a : ℝ)
    (ha : 0 < a) (hg : grad - S *ᵥ coef ≠ 0) (llk : (Fin n → ℝ) → ℝ)
    (hl : ∀ d : Fin n → ℝ, HasDerivAt (fun t : ℝ => llk (coef + t • d)) (grad ⬝ᵥ d) 0) :
    ∃ s > 0, HasDerivAt (fun t : ℝ => llk (coef + t • (gradStep coef grad S a - coef))
      - 1 / 2 * ((coef + t • (gradStep coef grad S a - coef)) ⬝ᵥ
        S *ᵥ (coef + t • (gradStep coef grad S a - coef)))) s 0 := by
  refine ⟨_, ?_, pen_slope llk coef grad _ S hS (hl _)⟩
  have h1 : gradStep coef grad S a - coef = a • (grad - S *ᵥ coef) := by
    unfold gradStep
    rw [add_sub_cancel_left]
    rfl
  rw [h1, dotProduct_smul, smul_eq_mul]
  refine mul_pos ha ?_
  set g := grad - S *ᵥ coef
  obtain ⟨i, hi⟩ := Function.ne_iff.1 hg
  have hi' : g i ≠ 0 := hi
  calc (0 : ℝ) < g i * g i := mul_self_pos.2 hi'
    _ ≤ ∑ j, g j * g j := Finset.single_le_sum (f := fun j => g j * g j)
        (fun j _ => mul_self_nonneg _) (Finset.mem_univ i)

/-- **C33.** For a quadratic log-likelihood with positive definite negative penalised Hessian one step
reaches the point where the penalised gradient vanishes. -/
theorem newton_quadratic (chol) (hc : CholSpec (n := n) chol) (fuel : ℕ) (coef b : Fin n → ℝ)
    (H S : Matrix (Fin n) (Fin n) ℝ) (hs : (-H + S).IsSymm)
    (hp : ∀ x, x ≠ 0 → 0 < x ⬝ᵥ (-H + S) *ᵥ x) (o : Out n)
    (ho : newton chol fuel coef (b + H *ᵥ coef) H S = some o) : b + H *ᵥ o.coef - S *ᵥ o.coef = 0 := by
  have hd : ∀ i, -H i i + S i i ≠ 0 := by
    intro i
    have h := hp (Pi.single i 1) (by
      intro h
      have := congrFun h i
      simp at this)
    rw [mulVec_single_one, single_dotProduct, one_mul] at h
    exact h.ne'
  obtain ⟨-, h2, h3, h4, h5⟩ := newton_correct chol hc fuel coef _ H S hd o ho
  rw [h4 hs hp, zero_smul, add_zero] at h2
  rw [h2] at h3
  have h6 : (-H + S) * (o.LVᵀ * o.LV) = 1 := mul_eq_one_comm.1 h3
  have h7 : (-H + S) *ᵥ o.coef = (-H + S) *ᵥ coef + (b + H *ᵥ coef - S *ᵥ coef) := by
    rw [h5, mulVec_add, mulVec_mulVec, h6, one_mulVec]
  rw [add_mulVec, add_mulVec, neg_mulVec, neg_mulVec] at h7
  have h8 : b + H *ᵥ o.coef - S *ᵥ o.coef
      = b - (-(H *ᵥ o.coef) + S *ᵥ o.coef) := by abel
  rw [h8, h7]
  abel

/-! ### Concrete cases -/

open Classical in
/-- A factorisation for one-by-one matrices. -/
noncomputable def chol1 (A : Matrix (Fin 1) (Fin 1) ℝ) :
    Option (Matrix (Fin 1) (Fin 1) ℝ × Equiv.Perm (Fin 1)) :=
  if 0 < A 0 0 then some (!![Real.sqrt (A 0 0)], 1) else none

theorem chol1_spec : CholSpec chol1 where
  sound := by
    intro A L Pr h
    unfold chol1 at h
    split_ifs at h with hA
    simp only [Option.some.injEq, Prod.mk.injEq] at h
    obtain ⟨rfl, rfl⟩ := h
    constructor
    · ext i j
      fin_cases i
      fin_cases j
      simp [mul_apply, permM, Real.mul_self_sqrt hA.le]
    · rw [isUnit_iff_ne_zero, det_unique]
      simpa using (Real.sqrt_pos.2 hA).ne'
  complete := by
    intro A _ hp
    have h := hp (fun _ => 1) (by
      intro h
      have := congrFun h 0
      simp at this)
    unfold chol1
    rw [if_pos (by simpa [dotProduct, mulVec] using h)]
    rfl

/-- Log-likelihood `-b²`, penalty 1, coefficient 1. -/
example : ∃ fuel o, newton chol1 fuel (fun _ => 1) (fun _ => -2) !![-2] !![1] = some o ∧
    0 < ((fun _ => (-2 : ℝ)) - !![1] *ᵥ (fun _ => (1 : ℝ)) : Fin 1 → ℝ) ⬝ᵥ (o.coef - fun _ => 1) := by
  obtain ⟨fuel, r, hr⟩ := ridge_terminates chol1 chol1_spec (scaled (negH !![-2] !![1]))
    (scaled_symm _ (by ext i j; fin_cases i; fin_cases j; rfl))
  have : ∃ o, newton chol1 fuel (fun _ => 1) (fun _ => -2) !![-2] !![1] = some o := by
    unfold newton
    dsimp only
    rw [hr]
    exact ⟨_, rfl⟩
  obtain ⟨o, ho⟩ := this
  refine ⟨fuel, o, ho, newton_acute chol1 chol1_spec fuel _ _ _ _ ?_ o ho ?_⟩
  · intro i; fin_cases i; norm_num
  · intro h
    have := congrFun h 0
    simp [dotProduct] at this
    norm_num at this

end Verif.Newton
