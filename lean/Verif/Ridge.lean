import Verif.RidgeLemmas
import Mathlib.Analysis.Matrix.PosDef
import Mathlib.Analysis.Matrix.Order
import Mathlib.Tactic.Linarith
import Mathlib.Tactic.NormNum

/-!
# Reported Hessian and covariance of fits by Newton's method (property C113)
-/

namespace Verif.Ridge

open Matrix Verif.Newton

variable {n : ℕ}

/-- **C113.** If the negative penalised Hessian of the last Newton step is positive definite, the covariance matrix
and the factor belong to the Hessian that the model stores.  The perturbation is zero or `2 ^ (j - 1) / 10 ^ 14` with
`j ≤ 32`.  Every smaller perturbation tried left a penalty for which the trace of the covariance times the penalty
exceeds the derivative of the log determinant of the penalty matrix.  Unless `j = 32` none is left.  Missing: Hessians
for which `newton_coef_smooth` itself adds a multiple of the diagonal (`hessian_wrong`), and the case `j = 32`
(`gives_up_wrong`). -/
theorem covariance_partial (E : Env n) (pens : List (Pen n)) (hc : CholSpec E.chol) (hf : 0 < E.fuel)
    (hs : (-E.H + E.S).IsSymm) (hp : ∀ x, x ≠ 0 → 0 < x ⬝ᵥ (-E.H + E.S) *ᵥ x) :
    ∃ st j, finish E pens = some st ∧ j ≤ 32 ∧ st.eps = (if j = 0 then 0 else 2 ^ (j - 1) / 10 ^ 14) ∧
      (st.LVᵀ * st.LV) * (-stored E.H st.eps + E.S) = 1 ∧
      st.L * st.Lᵀ = -stored E.H st.eps + E.S ∧
      (∀ x : Fin n → ℝ, x ≠ 0 → 0 < x ⬝ᵥ (-stored E.H st.eps + E.S) *ᵥ x) ∧
      (0 < j → ∃ p ∈ pens, lgdetD E.Sinv p <
        ((-E.H + E.S + (if j = 1 then (0 : ℝ) else st.eps / 2) • (1 : Matrix (Fin n) (Fin n) ℝ))⁻¹
          * (p.D * p.Dᵀ)).trace) ∧
      (j < 32 → ∀ p ∈ pens, ((st.LVᵀ * st.LV) * (p.D * p.Dᵀ)).trace ≤ lgdetD E.Sinv p) := by
  obtain ⟨st, j, h1, h2, h3, h4, h5⟩ := finish_spec E pens hc hf hs hp
  have hst := stored_eq E j
  rw [← h3.eps] at hst
  refine ⟨st, j, h1, h2, h3.eps, ?_, ?_, ?_, ?_, ?_⟩
  · rw [hst, h3.eps]; exact h3.inv
  · rw [hst, h3.eps]; exact h3.fac
  · rw [hst, h3.eps]; exact pd_shift hp (epsAt_nonneg j)
  · intro hj
    obtain ⟨i, rfl⟩ := Nat.exists_eq_succ_of_ne_zero hj.ne'
    have h6 := h4 i (Nat.lt_succ_self i)
    have h7 : (if i + 1 = 1 then (0 : ℝ) else st.eps / 2) = epsAt i := by
      rw [h3.eps, ← epsAt_succ i]
      cases i with
      | zero => simp [epsAt]
      | succ i =>
        have h8 : epsAt (i + 1) ≠ 0 := by
          simp [epsAt]
        rw [if_neg (by omega), if_neg h8]
        ring
    rw [show i.succ = i + 1 from rfl, h7]
    exact h6
  · intro hj p hp'
    have h6 := h5 hj
    by_contra hlt
    push Not at hlt
    refine h6 ⟨p, hp', ?_⟩
    rw [inv_eq_left_inv h3.inv]
    exact hlt

/-- **C113.** Both ways to compute the derivative of the log determinant agree: for a penalty that shares no
coefficients with the others the trace of the generalised inverse times the penalty is the rank divided by the
smoothing parameter. -/
theorem lgdetD_rank (pens : List (Pen n)) (hl : ∀ p ∈ pens, 0 < p.lam) (Sinv : Matrix (Fin n) (Fin n) ℝ)
    (hg : (pens.map fun p => p.lam • (p.D * p.Dᵀ)).sum * Sinv * (pens.map fun p => p.lam • (p.D * p.Dᵀ)).sum
      = (pens.map fun p => p.lam • (p.D * p.Dᵀ)).sum)
    (p : Pen n) (hp : p ∈ pens)
    (ho : p.Dᵀ * ((pens.map fun p => p.lam • (p.D * p.Dᵀ)).sum - p.lam • (p.D * p.Dᵀ)) = 0) :
    lgdetD Sinv { p with rank := some p.D.rank } = lgdetD Sinv { p with rank := none } := by
  unfold lgdetD
  dsimp only
  exact (trace_rank pens hl Sinv hg p hp ho).symm

/-- **C113.** If the negative Hessian of the log-likelihood is positive semi-definite, the Hessian is not perturbed:
`eps` is zero, the model stores the Hessian itself, and the covariance matrix is the inverse of the negative penalised
Hessian. -/
theorem unperturbed (E : Env n) (pens : List (Pen n)) (hc : CholSpec E.chol) (hf : 0 < E.fuel)
    (hsym : E.H.IsSymm) (hH : ∀ x, 0 ≤ x ⬝ᵥ (-E.H) *ᵥ x)
    (hl : ∀ p ∈ pens, 0 < p.lam) (hS : E.S = (pens.map fun p => p.lam • (p.D * p.Dᵀ)).sum)
    (hp : ∀ x, x ≠ 0 → 0 < x ⬝ᵥ (-E.H + E.S) *ᵥ x) (hg : E.S * E.Sinv * E.S = E.S)
    (hr : ∀ p ∈ pens, ∀ r, p.rank = some r → r = p.D.rank ∧ p.Dᵀ * (E.S - p.lam • (p.D * p.Dᵀ)) = 0) :
    ∃ st, finish E pens = some st ∧ st.eps = 0 ∧ stored E.H st.eps = E.H ∧
      (st.LVᵀ * st.LV) * (-E.H + E.S) = 1 ∧ st.L * st.Lᵀ = -E.H + E.S := by
  have hS' : E.S = total pens := hS
  have hs : (-E.H + E.S).IsSymm := by
    unfold IsSymm
    rw [transpose_add, transpose_neg, hsym.eq, hS', (total_symm pens).eq]
  obtain ⟨st, j, h1, -, h3, h4, -⟩ := finish_spec E pens hc hf hs hp
  have hj : j = 0 := by
    by_contra hne
    obtain ⟨p, hp', hlt⟩ := h4 0 (Nat.pos_of_ne_zero hne)
    have h0 : epsAt 0 = 0 := rfl
    rw [h0, zero_smul, add_zero] at hlt
    obtain ⟨o, -, -, -, h8⟩ := newton_zero E.chol hc E.fuel hf E.coef E.grad E.H E.S hs hp
    have h9 : (-E.H + E.S) * (-E.H + E.S)⁻¹ = 1 := by
      rw [inv_eq_left_inv h8]
      exact mul_eq_one_comm.1 h8
    have hg' : total pens * E.Sinv * total pens = total pens := by rw [← hS']; exact hg
    have hle := trace_le pens hl E.H E.Sinv (-E.H + E.S)⁻¹ hg' hH (by rw [← hS']; exact h9) p hp'
    have h10 : lgdetD E.Sinv p = (E.Sinv * (p.D * p.Dᵀ)).trace := by
      cases hrk : p.rank with
      | none => unfold lgdetD; rw [hrk]
      | some r =>
        obtain ⟨h11, h12⟩ := hr p hp' r hrk
        rw [trace_rank pens hl E.Sinv hg' p hp' (by rw [← hS']; exact h12)]
        unfold lgdetD
        rw [hrk, h11]
    rw [h10] at hlt
    exact absurd hle (not_le.2 hlt)
  subst hj
  have h0 : epsAt 0 = 0 := rfl
  have he : st.eps = 0 := h3.eps
  have hf' := h3.fac
  have hi := h3.inv
  rw [h0, zero_smul, add_zero] at hf' hi
  refine ⟨st, h1, he, ?_, hi, hf'⟩
  unfold stored
  rw [he, if_neg (lt_irrefl _)]

/-! ### Where the code does not do what it says -/

theorem chol1_ridge_bound (fuel : ℕ) : ∀ e : ℝ, 0 ≤ e → e ≤ 1 → ∀ r,
    ridge chol1 (!![-1] : Matrix (Fin 1) (Fin 1) ℝ) fuel e = some r → 1 < r.2.2 ∧ r.2.2 ≤ 2 := by
  induction fuel with
  | zero => intro e _ _ r h; simp [ridge] at h
  | succ f ih =>
    intro e h0 h1 r h
    have hch : chol1 (!![-1] + e • (1 : Matrix (Fin 1) (Fin 1) ℝ)) = none := by
      unfold chol1
      rw [if_neg]
      simp
      exact h1
    rw [ridge, hch] at h
    dsimp only at h
    have hne : 0 ≤ nextEps e ∧ nextEps e ≤ 2 := by
      unfold nextEps
      split_ifs with h2
      · rw [h2]; norm_num
      · constructor <;> linarith
    rcases le_or_gt (nextEps e) 1 with h3 | h3
    · exact ih _ hne.1 h3 r h
    · cases f with
      | zero => simp [ridge] at h
      | succ f =>
        have hch' : chol1 (!![-1] + nextEps e • (1 : Matrix (Fin 1) (Fin 1) ℝ))
            = some (!![Real.sqrt (((!![-1] : Matrix (Fin 1) (Fin 1) ℝ)
              + nextEps e • (1 : Matrix (Fin 1) (Fin 1) ℝ)) 0 0)], 1) := by
          unfold chol1
          rw [if_pos]
          simp
          exact h3
        rw [ridge, hch'] at h
        simp only [Option.some.injEq] at h
        rw [← h]
        exact ⟨h3, hne.2⟩

/-- **C113.** Not every stored Hessian belongs to the covariance matrix: `newton_coef_smooth` adds a multiple of the
absolute diagonal, the model subtracts the same multiple of the identity.  With second derivative 10 of the
log-likelihood and no penalty the covariance is positive, while the negative stored Hessian is still negative. -/
theorem hessian_wrong : ∃ (E : Env 1) (st : St 1), CholSpec E.chol ∧ E.H.IsSymm ∧ finish E [] = some st ∧
    0 < st.eps ∧ 0 < (st.LVᵀ * st.LV) 0 0 ∧ (-stored E.H st.eps + E.S) 0 0 < 0 ∧
    (st.LVᵀ * st.LV) * (-stored E.H st.eps + E.S) ≠ 1 := by
  have hsc : scaled (negH (!![10] : Matrix (Fin 1) (Fin 1) ℝ) 0) = !![-1] := by
    ext i j
    fin_cases i
    fin_cases j
    have h1 : dgr (negH (!![10] : Matrix (Fin 1) (Fin 1) ℝ) 0) 0 ^ 2 = 1 / 10 := by
      unfold dgr negH
      rw [← Real.rpow_natCast, ← Real.rpow_mul (abs_nonneg _)]
      norm_num [abs_of_nonneg]
    have h2 : scaled (negH (!![10] : Matrix (Fin 1) (Fin 1) ℝ) 0) 0 0
        = dgr (negH (!![10] : Matrix (Fin 1) (Fin 1) ℝ) 0) 0 ^ 2 * (-10) := by
      unfold scaled
      rw [mul_diagonal, diagonal_mul]
      have : negH (!![10] : Matrix (Fin 1) (Fin 1) ℝ) 0 0 0 = -10 := by simp [negH]
      rw [this]
      ring
    simp only [Fin.zero_eta, Fin.isValue]
    rw [h2, h1]
    norm_num
  obtain ⟨fuel, r, hr⟩ := ridge_terminates chol1 chol1_spec (!![-1] : Matrix (Fin 1) (Fin 1) ℝ)
    (by ext i j; fin_cases i; fin_cases j; rfl)
  have hb := chol1_ridge_bound fuel 0 le_rfl zero_le_one r hr
  have hn : ∃ o, newton chol1 fuel (fun _ => 0) (fun _ => 0) (!![10] : Matrix (Fin 1) (Fin 1) ℝ) 0 = some o
      ∧ o.eps = r.2.2 := by
    unfold newton
    dsimp only
    rw [hsc, hr]
    exact ⟨_, rfl, rfl⟩
  obtain ⟨o, ho, hoe⟩ := hn
  obtain ⟨-, h2, h3, -, -⟩ := newton_correct chol1 chol1_spec fuel _ _ _ _
    (by intro i; fin_cases i; norm_num) o ho
  rw [h2, hoe] at h3
  have h4 : (o.LVᵀ * o.LV) 0 0 * (-10 + 10 * r.2.2) = 1 := by
    have := congrFun (congrFun h3 0) 0
    rw [mul_apply, Fin.sum_univ_one, one_apply_eq] at this
    rw [← this]
    congr 1
    simp
    ring
  have hst : stored (!![10] : Matrix (Fin 1) (Fin 1) ℝ) o.eps 0 0 = 10 - r.2.2 := by
    unfold stored
    rw [hoe, if_pos (by linarith [hb.1])]
    simp
  have h5 : 0 < (o.LVᵀ * o.LV) 0 0 := by
    by_contra hle
    push Not at hle
    have : (o.LVᵀ * o.LV) 0 0 * (-10 + 10 * r.2.2) ≤ 0 :=
      mul_nonpos_of_nonpos_of_nonneg hle (by linarith [hb.1])
    linarith
  have h6 : (-stored (!![10] : Matrix (Fin 1) (Fin 1) ℝ) o.eps + 0) 0 0 < 0 := by
    rw [add_zero, Matrix.neg_apply, hst]
    linarith [hb.2]
  refine ⟨⟨chol1, fuel, fun _ => 0, fun _ => 0, !![10], 0, 0⟩, ⟨o.eps, o.L, o.LV⟩, chol1_spec, ?_, ?_, ?_, h5, h6, ?_⟩
  · ext i j; fin_cases i; fin_cases j; rfl
  · unfold finish
    dsimp only
    rw [ho]
    dsimp only
    rw [loop, if_neg]
    rintro ⟨p, hp, -⟩
    simp at hp
  · rw [hoe]; linarith [hb.1]
  · intro h
    have := congrFun (congrFun h 0) 0
    rw [mul_apply, Fin.sum_univ_one, one_apply_eq] at this
    have := mul_neg_of_pos_of_neg h5 h6
    dsimp only at *
    linarith

/-- Environment with one coefficient, second derivative `1` and penalty `2`. -/
noncomputable def env1 : Env 1 := ⟨chol1, 1, fun _ => 0, fun _ => 0, !![1], !![2], !![1 / 2]⟩

/-- The penalty of that environment. -/
noncomputable def pen1 : Pen 1 := ⟨1, !![1], 2, some 1⟩

/-- **C113.** The loop can give up: after 32 passes the Hessian is perturbed and the derivative still has the wrong
sign. -/
theorem gives_up_wrong : ∃ st, finish env1 [pen1] = some st ∧ st.eps = 2 ^ 31 / 10 ^ 14 ∧
    lgdetD env1.Sinv pen1 - ∑ i, ∑ k, (st.LV * pen1.D) i k ^ 2 < 0 := by
  have hM : ∀ x : Fin 1 → ℝ, x ⬝ᵥ (-env1.H + env1.S) *ᵥ x = x 0 * x 0 := by
    intro x
    have h : (-env1.H + env1.S) = 1 := by
      ext i j
      fin_cases i
      fin_cases j
      simp [env1]
      norm_num
    rw [h, one_mulVec]
    simp [dotProduct]
  obtain ⟨st, j, h1, h2, h3, h4, -, -, -, h8⟩ := covariance_partial env1 [pen1] chol1_spec Nat.one_pos
    (by ext i j; fin_cases i; fin_cases j; rfl)
    (by
      intro x hx
      rw [hM]
      refine mul_self_pos.2 fun h => hx ?_
      funext i
      fin_cases i
      exact h)
  have hlg : lgdetD env1.Sinv pen1 = 1 / 2 := by simp [lgdetD, pen1]
  have he0 : 0 ≤ st.eps := by
    rw [h3]
    split_ifs
    · exact le_rfl
    · positivity
  have he1 : st.eps ≤ 2 ^ 31 / 10 ^ 14 := by
    rw [h3]
    split_ifs
    · positivity
    · gcongr
      · norm_num
      · omega
  have h5 : (st.LVᵀ * st.LV) 0 0 * (1 + st.eps) = 1 := by
    have := congrFun (congrFun h4 0) 0
    rw [mul_apply, Fin.sum_univ_one, one_apply_eq] at this
    have h9 : (-stored env1.H st.eps + env1.S) 0 0 = 1 + st.eps := by
      unfold stored
      split_ifs with h
      · simp [env1]; ring
      · rw [le_antisymm (not_lt.1 h) he0]
        simp [env1]
        norm_num
    rw [h9] at this
    exact this
  have h6 : ((st.LVᵀ * st.LV) * (pen1.D * pen1.Dᵀ)).trace = (st.LVᵀ * st.LV) 0 0 := by
    have h9 : (pen1.D * pen1.Dᵀ : Matrix (Fin 1) (Fin 1) ℝ) = 1 := by
      show (!![1] : Matrix (Fin 1) (Fin 1) ℝ) * (!![1] : Matrix (Fin 1) (Fin 1) ℝ)ᵀ = 1
      ext i j; fin_cases i; fin_cases j; simp [mul_apply]
    rw [h9, Matrix.mul_one]
    simp [trace]
  have h7 : 1 / 2 < (st.LVᵀ * st.LV) 0 0 := by
    by_contra hle
    push Not at hle
    have : (st.LVᵀ * st.LV) 0 0 * (1 + st.eps) ≤ 1 / 2 * (1 + 2 ^ 31 / 10 ^ 14) :=
      mul_le_mul hle (by linarith) (by linarith) (by norm_num)
    rw [h5] at this
    norm_num at this
  have hj : j = 32 := by
    by_contra hne
    have := h8 (lt_of_le_of_ne h2 hne) pen1 List.mem_cons_self
    rw [h6, hlg] at this
    linarith
  refine ⟨st, h1, ?_, ?_⟩
  · rw [h3, hj]; norm_num
  · have := trB_eq st.LV pen1
    unfold trB at this
    rw [this, h6, hlg]
    linarith

/-! ### A decomposition for every size -/

open Classical in
/-- Any root of the matrix, if there is an invertible one. -/
noncomputable def cholC (A : Matrix (Fin n) (Fin n) ℝ) : Option (Matrix (Fin n) (Fin n) ℝ × Equiv.Perm (Fin n)) :=
  if h : ∃ L : Matrix (Fin n) (Fin n) ℝ, A = L * Lᵀ ∧ IsUnit L.det then some (h.choose, 1) else none

open scoped MatrixOrder Matrix.Norms.L2Operator in
theorem cholC_spec : CholSpec (cholC (n := n)) where
  sound := by
    intro A L Pr h
    unfold cholC at h
    split_ifs at h with hA
    simp only [Option.some.injEq, Prod.mk.injEq] at h
    obtain ⟨rfl, rfl⟩ := h
    have h1 : permM (1 : Equiv.Perm (Fin n)) = 1 := by
      ext r c
      simp [permM, one_apply, eq_comm]
    rw [h1, Matrix.one_mul, transpose_one, Matrix.mul_one]
    exact hA.choose_spec
  complete := by
    intro A hs hp
    have h1 : A.PosDef := by
      refine PosDef.of_dotProduct_mulVec_pos ?_ ?_
      · rw [IsHermitian, conjTranspose_eq_transpose_of_trivial]; exact hs
      · intro x hx; simpa using hp x hx
    obtain ⟨B, hB⟩ := CStarAlgebra.nonneg_iff_eq_star_mul_self.mp h1.posSemidef.nonneg
    have h2 : ∃ L : Matrix (Fin n) (Fin n) ℝ, A = L * Lᵀ ∧ IsUnit L.det := by
      rw [star_eq_conjTranspose, conjTranspose_eq_transpose_of_trivial] at hB
      refine ⟨Bᵀ, by rw [transpose_transpose]; exact hB, ?_⟩
      have h3 := h1.det_pos
      rw [hB, det_mul] at h3
      rw [isUnit_iff_ne_zero]
      intro h0
      rw [h0, zero_mul] at h3
      exact lt_irrefl _ h3
    unfold cholC
    rw [dif_pos h2]
    rfl

/-- Two coefficients, one penalty on both. -/
noncomputable def env2 : Env 2 :=
  ⟨cholC, 1, fun _ => 0, fun _ => 0, diagonal ![1 / 2, -100], (2 : ℝ) • 1, (1 / 2 : ℝ) • 1⟩

/-- The penalty of that environment. -/
noncomputable def pen2 : Pen 2 := ⟨2, 1, 2, some 2⟩

/-- **C113.** The check does not make sure that the negative Hessian of the log-likelihood is positive semi-definite:
it passes without perturbation although the log-likelihood curves upwards in the first coefficient. -/
theorem psd_wrong : ∃ (st : St 2) (x : Fin 2 → ℝ), finish env2 [pen2] = some st ∧ st.eps = 0 ∧
    (∀ p ∈ [pen2], 0 ≤ lgdetD env2.Sinv p - ∑ i, ∑ k, (st.LV * p.D) i k ^ 2) ∧
    x ⬝ᵥ (-stored env2.H st.eps) *ᵥ x < 0 := by
  have hM : -env2.H + env2.S = diagonal ![3 / 2, 102] := by
    ext i j
    fin_cases i <;> fin_cases j <;> simp [env2] <;> norm_num
  have hp : ∀ x : Fin 2 → ℝ, x ≠ 0 → 0 < x ⬝ᵥ (-env2.H + env2.S) *ᵥ x := by
    intro x hx
    rw [hM]
    have h1 : x ⬝ᵥ diagonal ![3 / 2, 102] *ᵥ x = 3 / 2 * (x 0) ^ 2 + 102 * (x 1) ^ 2 := by
      simp [dotProduct, mulVec_diagonal, Fin.sum_univ_two]
      ring
    rw [h1]
    by_contra hle
    push Not at hle
    have h2 : x 0 = 0 := by nlinarith [sq_nonneg (x 0), sq_nonneg (x 1)]
    have h3 : x 1 = 0 := by nlinarith [sq_nonneg (x 0), sq_nonneg (x 1)]
    exact hx (by funext i; fin_cases i <;> assumption)
  have hs : (-env2.H + env2.S).IsSymm := by rw [hM]; exact diagonal_transpose _
  have hI : diagonal ![(2 : ℝ) / 3, 1 / 102] * (-env2.H + env2.S) = 1 := by
    rw [hM, diagonal_mul_diagonal]
    ext i j
    fin_cases i <;> fin_cases j <;> simp
  have hD : (pen2.D * pen2.Dᵀ : Matrix (Fin 2) (Fin 2) ℝ) = 1 := by
    show (1 : Matrix (Fin 2) (Fin 2) ℝ) * (1 : Matrix (Fin 2) (Fin 2) ℝ)ᵀ = 1
    rw [transpose_one, Matrix.mul_one]
  have hlg : lgdetD env2.Sinv pen2 = 1 := by simp [lgdetD, pen2]
  obtain ⟨st, j, h1, -, h3, h4, -⟩ := finish_spec env2 [pen2] cholC_spec Nat.one_pos hs hp
  have h0 : epsAt 0 = 0 := rfl
  have hj : j = 0 := by
    by_contra hne
    obtain ⟨p, hp', hlt⟩ := h4 0 (Nat.pos_of_ne_zero hne)
    rw [List.mem_singleton] at hp'
    subst hp'
    rw [h0, zero_smul, add_zero, inv_eq_left_inv hI, hD, Matrix.mul_one, hlg] at hlt
    simp [trace, Fin.sum_univ_two] at hlt
    norm_num at hlt
  subst hj
  have he : st.eps = 0 := h3.eps
  have hi := h3.inv
  rw [h0, zero_smul, add_zero] at hi
  have hV : st.LVᵀ * st.LV = diagonal ![(2 : ℝ) / 3, 1 / 102] := by
    rw [← inv_eq_left_inv hi, inv_eq_left_inv hI]
  refine ⟨st, ![1, 0], h1, he, ?_, ?_⟩
  · intro p hp'
    rw [List.mem_singleton] at hp'
    subst hp'
    have h5 := trB_eq st.LV pen2
    unfold trB at h5
    rw [h5, hV, hD, Matrix.mul_one, hlg]
    simp [trace, Fin.sum_univ_two]
    norm_num
  · unfold stored
    rw [he, if_neg (lt_irrefl _)]
    simp [env2, dotProduct, mulVec, Fin.sum_univ_two]

/-! ### Concrete cases -/

/-- Hypotheses of `covariance_partial` are met and the Hessian is perturbed. -/
example : ∃ st, finish env1 [pen1] = some st ∧ 0 < st.eps := by
  obtain ⟨st, h1, h2, -⟩ := gives_up_wrong
  exact ⟨st, h1, by rw [h2]; positivity⟩

/-- Two coefficients with own penalties: hypotheses of `unperturbed` are met, one coefficient not determined by the
data. -/
example : ∃ st, finish (⟨cholC, 1, fun _ => 0, fun _ => 0, diagonal ![-3, 0], diagonal ![2, 5],
    diagonal ![1 / 2, 1 / 5]⟩ : Env 2)
    [⟨1, !![1; 0], 2, some 1⟩, ⟨1, !![0; 1], 5, none⟩] = some st ∧ st.eps = 0 := by
  have hsum : ([(⟨1, !![1; 0], 2, some 1⟩ : Pen 2), ⟨1, !![0; 1], 5, none⟩].map
      fun p => p.lam • (p.D * p.Dᵀ)).sum = diagonal ![2, 5] := by
    ext i j
    fin_cases i <;> fin_cases j <;> simp [mul_apply, vecMul, dotProduct, Fin.sum_univ_two]
  have hrank : (!![1; 0] : Matrix (Fin 2) (Fin 1) ℝ).rank = 1 := by
    have h : (!![1; 0] : Matrix (Fin 2) (Fin 1) ℝ)ᵀ * (!![1; 0] : Matrix (Fin 2) (Fin 1) ℝ) = 1 := by
      ext i j
      fin_cases i
      fin_cases j
      simp [mul_apply, Fin.sum_univ_two]
    rw [← rank_transpose_mul_self, h, rank_one, Fintype.card_fin]
  obtain ⟨st, h1, h2, -⟩ := unperturbed (⟨cholC, 1, fun _ => 0, fun _ => 0, diagonal ![-3, 0], diagonal ![2, 5],
    diagonal ![1 / 2, 1 / 5]⟩ : Env 2) [⟨1, !![1; 0], 2, some 1⟩, ⟨1, !![0; 1], 5, none⟩] cholC_spec Nat.one_pos
    (diagonal_transpose _)
    (by
      intro x
      simp [dotProduct, mulVec, Fin.sum_univ_two]
      nlinarith [sq_nonneg (x 0)])
    (by intro p hp; fin_cases hp <;> norm_num)
    hsum.symm
    (by
      intro x hx
      have h1 : x ⬝ᵥ (-diagonal ![(-3 : ℝ), 0] + diagonal ![2, 5]) *ᵥ x = 5 * (x 0) ^ 2 + 5 * (x 1) ^ 2 := by
        simp [dotProduct, mulVec, Fin.sum_univ_two]
        ring
      rw [h1]
      by_contra hle
      push Not at hle
      have h2 : x 0 = 0 := by nlinarith [sq_nonneg (x 0), sq_nonneg (x 1)]
      have h3 : x 1 = 0 := by nlinarith [sq_nonneg (x 0), sq_nonneg (x 1)]
      exact hx (by funext i; fin_cases i <;> assumption))
    (by
      dsimp only
      rw [diagonal_mul_diagonal, diagonal_mul_diagonal]
      congr 1
      funext i
      fin_cases i <;> simp)
    (by
      intro p hp r hr
      fin_cases hp
      · simp only [Option.some.injEq] at hr
        refine ⟨by rw [hrank, ← hr], ?_⟩
        ext i j
        fin_cases i
        fin_cases j <;> simp [mul_apply, vecMul, dotProduct, Fin.sum_univ_two]
      · simp at hr)
  exact ⟨st, h1, h2⟩

end Verif.Ridge
