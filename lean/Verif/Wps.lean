import Verif.WpsCrit
import Verif.DChol
import Mathlib.LinearAlgebra.Matrix.Notation

/-!
# Covariance of the log smoothing parameters and smoothing-uncertainty correction (C81, C82)
-/

namespace Verif.Wps

open Matrix Verif.Reml Verif.LogDet

variable {n K m : ℕ}

/-! ## `compute_Vp_WPS` -/

theorem sum_sq_trace {p q : ℕ} (M : Matrix (Fin p) (Fin q) ℝ) : ∑ a, ∑ b, M a b ^ 2 = (M * Mᵀ).trace := by
  simp only [Matrix.trace, Matrix.diag, Matrix.mul_apply, Matrix.transpose_apply]
  exact Finset.sum_congr rfl fun a _ => Finset.sum_congr rfl fun b _ => sq _

section
variable {x : In n K} {A : Matrix (Fin n) (Fin n) ℝ} {g : Fin n → ℝ} {E : Matrix (Fin n) (Fin m) ℝ}
  {Q : Matrix (Fin n) (Fin n) ℝ} {ρ : Fin K → ℝ}

/-- C81. The returned `dBetadRhos` holds the derivatives of the fitted coefficients, also when coefficients are dropped. -/
theorem dBeta_is_derivative (h : Fits x A g E Q ρ) (k : Fin K) (a : Fin n) :
    HasDerivAt (fun t => fitted A x.S E g (Function.update ρ k t) a) (dBeta x k a) (ρ k) := by
  refine (fitted_deriv ρ (h.pd ρ) k a).congr_deriv ?_
  unfold dBeta
  rw [h.lam, ← h.coef, ← h.cov]
  simp only [mulVec_mulVec, Matrix.mul_assoc]

theorem unrot_wsum (h : Fits x A g E Q ρ) : wsum x.SR ρ = Qᵀ * wsum x.S ρ * Q := by
  simp only [wsum, Matrix.mul_sum, Matrix.sum_mul]
  refine Finset.sum_congr rfl fun k _ => ?_
  rw [h.repar, Matrix.mul_smul, Matrix.smul_mul]

/-- The re-parameterised inverse, rotated back, is a generalised inverse of the total penalty. -/
theorem unrot_ginv (h : Fits x A g E Q ρ) : wsum x.S ρ * (Q * x.Sinv * Qᵀ) * wsum x.S ρ = wsum x.S ρ := by
  have h1 := congrArg (fun M => Q * M * Qᵀ) h.ginv
  simp only [unrot_wsum h] at h1
  have e1 : Q * (Qᵀ * wsum x.S ρ * Q * x.Sinv * (Qᵀ * wsum x.S ρ * Q)) * Qᵀ
      = (Q * Qᵀ) * wsum x.S ρ * (Q * x.Sinv * Qᵀ) * wsum x.S ρ * (Q * Qᵀ) := by simp only [Matrix.mul_assoc]
  have e2 : Q * (Qᵀ * wsum x.S ρ * Q) * Qᵀ = (Q * Qᵀ) * wsum x.S ρ * (Q * Qᵀ) := by simp only [Matrix.mul_assoc]
  rw [e1, e2, h.orth, Matrix.one_mul, Matrix.mul_one, Matrix.mul_one] at h1
  exact h1

theorem unrot_trace (h : Fits x A g E Q ρ) (i : Fin K) : (x.Sinv * x.SR i).trace = (Q * x.Sinv * Qᵀ * x.S i).trace := by
  rw [h.repar]
  have : Q * x.Sinv * Qᵀ * x.S i = Q * (x.Sinv * Qᵀ * x.S i) := by simp only [Matrix.mul_assoc]
  rw [this, Matrix.trace_mul_comm Q]
  simp only [Matrix.mul_assoc]

theorem unrot_trace2 (h : Fits x A g E Q ρ) (i j : Fin K) : (x.Sinv * x.SR j * x.Sinv * x.SR i).trace
    = (Q * x.Sinv * Qᵀ * x.S j * (Q * x.Sinv * Qᵀ) * x.S i).trace := by
  rw [h.repar, h.repar]
  have : Q * x.Sinv * Qᵀ * x.S j * (Q * x.Sinv * Qᵀ) * x.S i = Q * (x.Sinv * Qᵀ * x.S j * Q * x.Sinv * Qᵀ * x.S i) := by
    simp only [Matrix.mul_assoc]
  rw [this, Matrix.trace_mul_comm Q]
  simp only [Matrix.mul_assoc]

/-- The part of the Hessian due to the log generalised determinant of the penalty. -/
theorem t3_eq (h : Fits x A g E Q ρ) (i j : Fin K) : t3 x i j = x.rep i * (1 / 2 * ((if i = j then Real.exp (ρ i) * (Q * x.Sinv * Qᵀ * x.S i).trace else 0)
    - Real.exp (ρ i) * Real.exp (ρ j) * (Q * x.Sinv * Qᵀ * x.S j * (Q * x.Sinv * Qᵀ) * x.S i).trace)) := by
  unfold t3
  rw [unrot_trace h, unrot_trace2 h, h.lam, h.lam]
  by_cases hs : i = j ∨ x.start i = x.start j
  · rw [if_pos hs]
    by_cases hij : i = j
    · simp only [if_pos hij]; ring
    · simp only [if_neg hij]; ring
  · rw [if_neg hs]
    push Not at hs
    have h0 := separated_zero x.S h.psd ρ x.start h.separate j i (Ne.symm hs.2) (Q * x.Sinv * Qᵀ) (unrot_ginv h)
    rw [if_neg hs.1]
    have : Q * x.Sinv * Qᵀ * x.S j * (Q * x.Sinv * Qᵀ) * x.S i = Q * x.Sinv * Qᵀ * (x.S j * (Q * x.Sinv * Qᵀ) * x.S i) := by
      simp only [Matrix.mul_assoc]
    rw [this, h0, Matrix.mul_zero, Matrix.trace_zero]
    ring

theorem t12_eq (h : Fits x A g E Q ρ) (i j : Fin K) : t1 x i j - t2 x i j =
    -(1 / (2 * x.scale)) * ((if i = j then Real.exp (ρ i) * (x.coef ⬝ᵥ (x.S i *ᵥ x.coef)) else 0)
      + 2 * Real.exp (ρ i) * (x.coef ⬝ᵥ (x.S i *ᵥ dBeta x j))) := by
  have hsc := h.scale_pos.ne'
  obtain ⟨V, hV⟩ : ∃ V, V = x.Vbrᵀ * x.Vbr := ⟨_, rfl⟩
  set M := A + wsum x.S ρ with hM
  have hnH : nH x = x.scale⁻¹ • M := by
    unfold nH
    rw [h.hess, h.semb, hM, smul_add]
    congr 1
    rw [neg_smul, one_smul, neg_neg]
  have hVs : Vᵀ = V := by rw [hV, Matrix.transpose_mul, Matrix.transpose_transpose]
  have hd : ∀ k, dBeta x k = -x.lam k • (V *ᵥ (x.S k *ᵥ x.coef)) := fun k => by
    unfold dBeta; rw [hV, ← mulVec_mulVec]
  have hVMV : V * M * V = V := by
    rw [hV, h.cov]
    set W := Eᵀ * M * E
    have : E * W⁻¹ * Eᵀ * M * (E * W⁻¹ * Eᵀ) = E * (W⁻¹ * W) * W⁻¹ * Eᵀ := by simp only [W, Matrix.mul_assoc]
    rw [this, Matrix.nonsing_inv_mul _ (isUnit_iff_ne_zero.2 (h.pd ρ).det_pos.ne'), Matrix.mul_one]
  -- symmetric bilinear form
  have hq : ∀ k l, x.coef ⬝ᵥ (x.S k *ᵥ dBeta x l) = -x.lam l * ((x.S k *ᵥ x.coef) ⬝ᵥ (V *ᵥ (x.S l *ᵥ x.coef))) := by
    intro k l
    rw [hd, mulVec_smul, dotProduct_smul, smul_eq_mul, dotProduct_mulVec x.coef, ← mulVec_transpose, psd_symm (h.psd k)]
  have hsw : (x.S j *ᵥ x.coef) ⬝ᵥ (V *ᵥ (x.S i *ᵥ x.coef)) = (x.S i *ᵥ x.coef) ⬝ᵥ (V *ᵥ (x.S j *ᵥ x.coef)) := by
    rw [dotProduct_mulVec, ← mulVec_transpose, hVs, dotProduct_comm]
  have h1 : dBeta x i ⬝ᵥ (nH x *ᵥ dBeta x j)
      = x.scale⁻¹ * (x.lam i * x.lam j * ((x.S i *ᵥ x.coef) ⬝ᵥ (V *ᵥ (x.S j *ᵥ x.coef)))) := by
    have e : (V *ᵥ (x.S i *ᵥ x.coef)) ⬝ᵥ (M *ᵥ (V *ᵥ (x.S j *ᵥ x.coef))) = (x.S i *ᵥ x.coef) ⬝ᵥ (V *ᵥ (x.S j *ᵥ x.coef)) := by
      conv_rhs => rw [← hVMV]
      rw [← mulVec_mulVec, ← mulVec_mulVec, dotProduct_mulVec (x.S i *ᵥ x.coef), ← mulVec_transpose, hVs]
    rw [hnH, hd, hd, smul_mulVec, mulVec_smul, dotProduct_smul, dotProduct_smul, smul_dotProduct, e]
    simp only [smul_eq_mul]
    ring
  unfold t1 t2
  rw [h1, hq i j, hq j i, hsw, h.lam i]
  by_cases hij : i = j
  · subst hij
    simp only [if_true, h.lam i]
    field_simp
    ring
  · simp only [if_neg hij]
    field_simp
    ring

theorem t45_eq (h : Fits x A g E Q ρ) (i j : Fin K) : t4 x i j - t5 x i j =
    -(1 / 2 * ((if i = j then Real.exp (ρ i) * (x.Vbrᵀ * x.Vbr * x.S i).trace else 0)
      - Real.exp (ρ i) * Real.exp (ρ j) * (x.Vbrᵀ * x.Vbr * x.S j * (x.Vbrᵀ * x.Vbr) * x.S i).trace)) := by
  unfold t4 t5
  rw [sum_sq_trace, sum_sq_trace, h.lam, h.lam]
  have e4 : ((x.D i)ᵀ * x.Vbrᵀ * x.Vbr * x.D j * ((x.D i)ᵀ * x.Vbrᵀ * x.Vbr * x.D j)ᵀ).trace
      = (x.Vbrᵀ * x.Vbr * x.S j * (x.Vbrᵀ * x.Vbr) * x.S i).trace := by
    have : (x.D i)ᵀ * x.Vbrᵀ * x.Vbr * x.D j * ((x.D i)ᵀ * x.Vbrᵀ * x.Vbr * x.D j)ᵀ
        = (x.D i)ᵀ * (x.Vbrᵀ * x.Vbr * (x.D j * (x.D j)ᵀ) * (x.Vbrᵀ * x.Vbr) * x.D i) := by
      simp only [Matrix.transpose_mul, Matrix.transpose_transpose, Matrix.mul_assoc]
    rw [this, Matrix.trace_mul_comm, h.root i, h.root j]
    simp only [Matrix.mul_assoc]
  have e5 : (x.Vbr * x.D i * (x.Vbr * x.D i)ᵀ).trace = (x.Vbrᵀ * x.Vbr * x.S i).trace := by
    rw [Matrix.trace_mul_comm, h.root i]
    have : (x.Vbr * x.D i)ᵀ * (x.Vbr * x.D i) = (x.D i)ᵀ * (x.Vbrᵀ * x.Vbr * x.D i) := by
      simp only [Matrix.transpose_mul, Matrix.mul_assoc]
    rw [this, Matrix.trace_mul_comm]
    simp only [Matrix.mul_assoc]
  rw [e4, e5]
  by_cases hij : i = j
  · simp only [if_pos hij]; ring
  · simp only [if_neg hij]; ring

/-- The value computed for a pair differs from the second derivative by `rep_sj - 1` times the contribution of the penalty's log
determinant. -/
theorem vpij_deriv (h : Fits x A g E Q ρ) (c : ℝ) :
    ∃ (γ : (Fin K → ℝ) → Fin K → ℝ) (L : Fin K → Fin K → ℝ),
      (∀ ρ' i, HasDerivAt (fun t => remlFun x.scale c A g x.S E (Function.update ρ' i t)) (γ ρ' i) (ρ' i)) ∧
      (∀ i j, t3 x i j = x.rep i * L i j) ∧
      ∀ i j, HasDerivAt (fun t => γ (Function.update ρ j t) i) (vpij x i j - (x.rep i - 1) * L i j) (ρ j) := by
  obtain ⟨γ, h1, h2⟩ := reml_second (g := g) x.scale c h.psd h.pd
  refine ⟨γ, _, h1, fun i j => t3_eq h i j, fun i j => ?_⟩
  refine (h2 ρ i j (Q * x.Sinv * Qᵀ) (x.Vbrᵀ * x.Vbr) x.coef (dBeta x j) (unrot_ginv h) h.cov h.coef ?_).congr_deriv ?_
  · unfold dBeta; rw [h.lam, ← mulVec_mulVec]
  · have e : vpij x i j = (t1 x i j - t2 x i j) + t3 x i j + (t4 x i j - t5 x i j) := by unfold vpij; ring
    rw [e, t12_eq h, t3_eq h, t45_eq h]
    ring

theorem vpij_symm (h : Fits x A g E Q ρ) (hrep : ∀ k, x.rep k = 1) (i j : Fin K) : vpij x i j = vpij x j i := by
  have e : ∀ i j, vpij x i j = (t1 x i j - t2 x i j) + t3 x i j + (t4 x i j - t5 x i j) := fun i j => by unfold vpij; ring
  by_cases hij : i = j
  · rw [hij]
  have hji : j ≠ i := Ne.symm hij
  rw [e, e, t12_eq h, t12_eq h, t3_eq h, t3_eq h, t45_eq h, t45_eq h, hrep, hrep]
  simp only [if_neg hij, if_neg hji]
  have tr : ∀ G : Matrix (Fin n) (Fin n) ℝ, (G * x.S j * G * x.S i).trace = (G * x.S i * G * x.S j).trace := fun G => by
    rw [Matrix.mul_assoc, Matrix.trace_mul_comm, ← Matrix.mul_assoc]
  have q : Real.exp (ρ i) * (x.coef ⬝ᵥ (x.S i *ᵥ dBeta x j)) = Real.exp (ρ j) * (x.coef ⬝ᵥ (x.S j *ᵥ dBeta x i)) := by
    have hd : ∀ k, dBeta x k = -x.lam k • ((x.Vbrᵀ * x.Vbr) *ᵥ (x.S k *ᵥ x.coef)) := fun k => by
      unfold dBeta; rw [← mulVec_mulVec]
    have hq : ∀ k l, x.coef ⬝ᵥ (x.S k *ᵥ dBeta x l)
        = -x.lam l * ((x.S k *ᵥ x.coef) ⬝ᵥ ((x.Vbrᵀ * x.Vbr) *ᵥ (x.S l *ᵥ x.coef))) := by
      intro k l
      rw [hd, mulVec_smul, dotProduct_smul, smul_eq_mul, dotProduct_mulVec x.coef, ← mulVec_transpose, psd_symm (h.psd k)]
    have hVs : (x.Vbrᵀ * x.Vbr)ᵀ = x.Vbrᵀ * x.Vbr := by rw [Matrix.transpose_mul, Matrix.transpose_transpose]
    have hsw : (x.S j *ᵥ x.coef) ⬝ᵥ ((x.Vbrᵀ * x.Vbr) *ᵥ (x.S i *ᵥ x.coef))
        = (x.S i *ᵥ x.coef) ⬝ᵥ ((x.Vbrᵀ * x.Vbr) *ᵥ (x.S j *ᵥ x.coef)) := by
      rw [dotProduct_mulVec, ← mulVec_transpose, hVs, dotProduct_comm]
    rw [hq, hq, hsw, h.lam, h.lam]
    ring
  rw [tr, tr (x.Vbrᵀ * x.Vbr)]
  linear_combination (-(1 / (2 * x.scale)) * 2) * q

/-- C81. `Hp` is the Hessian of the approximate restricted log-likelihood with respect to the log smoothing parameters. Missing:
penalties that are repeated (`rep_sj > 1`), see `hp_repeated_wrong`. -/
theorem hp_is_hessian_partial (h : Fits x A g E Q ρ) (hrep : ∀ k, x.rep k = 1) (c : ℝ) :
    ∃ γ : (Fin K → ℝ) → Fin K → ℝ,
      (∀ ρ' i, HasDerivAt (fun t => remlFun x.scale c A g x.S E (Function.update ρ' i t)) (γ ρ' i) (ρ' i)) ∧
      ∀ i j, HasDerivAt (fun t => γ (Function.update ρ j t) i) (hp x i j) (ρ j) := by
  obtain ⟨γ, L, h1, _, h3⟩ := vpij_deriv h c
  refine ⟨γ, h1, fun i j => (h3 i j).congr_deriv ?_⟩
  rw [hrep, Nat.cast_one, sub_self, zero_mul, sub_zero]
  unfold hp
  rw [Matrix.of_apply]
  split_ifs
  · rfl
  · exact vpij_symm h hrep i j

/-- C81. For penalties with several repetitions the contribution of the log determinant is counted `rep_sj` times: the second
derivative is the computed value minus `rep_sj - 1` times that contribution. -/
theorem hp_repeated (h : Fits x A g E Q ρ) (c : ℝ) (i : Fin K) :
    ∃ (γ : (Fin K → ℝ) → Fin K → ℝ) (l : ℝ),
      (∀ ρ' i, HasDerivAt (fun t => remlFun x.scale c A g x.S E (Function.update ρ' i t)) (γ ρ' i) (ρ' i)) ∧
      t3 x i i = x.rep i * l ∧ HasDerivAt (fun t => γ (Function.update ρ i t) i) (hp x i i - (x.rep i - 1) * l) (ρ i) := by
  obtain ⟨γ, L, h1, h2, h3⟩ := vpij_deriv h c
  refine ⟨γ, L i i, h1, h2 i i, (h3 i i).congr_deriv ?_⟩
  unfold hp
  rw [Matrix.of_apply, if_pos le_rfl]

end

/-! ### Concrete inputs: two overlapping penalties on the same four coefficients -/

/-- Penalty of a demonstration model. -/
noncomputable def demoS (k : Fin 2) : Matrix (Fin 4) (Fin 4) ℝ := Matrix.diagonal (if k = 0 then ![4, 0, 4, 0] else ![1, 1, 1, 1])

/-- Inputs of the demonstration model; `r` is the number of repetitions of each penalty. -/
noncomputable def demo (r : ℕ) : In 4 2 where
  Vbr := Matrix.diagonal ![1 / 3, 1 / 2, 1 / 3, 1 / 2]
  H := -((1 : ℝ)⁻¹ • Matrix.diagonal ![4, 3, 4, 3])
  Semb := Matrix.diagonal ![5, 1, 5, 1]
  S := demoS
  D := fun k => Matrix.diagonal (if k = 0 then ![2, 0, 2, 0] else ![1, 1, 1, 1])
  lam := fun _ => 1
  start := fun _ => 0
  rep := fun _ => r
  coef := ![1, 1, 1, 1]
  scale := 1
  SR := demoS
  Sinv := Matrix.diagonal ![1 / 5, 1, 1 / 5, 1]

theorem demo_wsum : wsum demoS 0 = Matrix.diagonal ![5, 1, 5, 1] := by
  unfold wsum demoS
  rw [Fin.sum_univ_two]
  simp only [Pi.zero_apply, Real.exp_zero, one_smul, if_true, Fin.isValue, one_ne_zero, if_false, Matrix.diagonal_add]
  congr 1
  funext a
  fin_cases a <;> simp <;> norm_num

theorem demoS_psd (k : Fin 2) : (demoS k).PosSemidef := by
  unfold demoS
  refine PosSemidef.diagonal fun a => ?_
  fin_cases k <;> fin_cases a <;> simp

theorem demo_inv : ((1 : Matrix (Fin 4) (Fin 4) ℝ)ᵀ * (Matrix.diagonal ![4, 3, 4, 3] + wsum demoS 0) * 1)⁻¹
    = Matrix.diagonal ![1 / 9, 1 / 4, 1 / 9, 1 / 4] := by
  rw [demo_wsum, Matrix.transpose_one, Matrix.one_mul, Matrix.mul_one, Matrix.diagonal_add]
  refine Matrix.inv_eq_left_inv ?_
  rw [Matrix.diagonal_mul_diagonal, ← Matrix.diagonal_one]
  congr 1
  funext a
  fin_cases a <;> simp <;> norm_num

theorem demo_fits (r : ℕ) : Fits (demo r) (Matrix.diagonal ![4, 3, 4, 3]) ![9, 4, 9, 4] (1 : Matrix (Fin 4) (Fin 4) ℝ) 1 0 where
  scale_pos := one_pos
  sym := Matrix.diagonal_transpose _
  lam := fun k => by simp [demo]
  semb := demo_wsum.symm
  hess := rfl
  psd := demoS_psd
  root := fun k => by
    simp only [demo, demoS, Matrix.diagonal_transpose, Matrix.diagonal_mul_diagonal]
    congr 1
    funext a
    fin_cases k <;> fin_cases a <;> simp <;> norm_num
  pd := fun ρ' => by
    rw [Matrix.transpose_one, Matrix.one_mul, Matrix.mul_one]
    refine PosDef.add_posSemidef (PosDef.diagonal fun a => ?_) (wsum_psd _ demoS_psd ρ')
    fin_cases a <;> simp
  cov := by
    have : ((1 : Matrix (Fin 4) (Fin 4) ℝ)ᵀ * (Matrix.diagonal ![4, 3, 4, 3] + wsum (demo r).S 0) * 1)⁻¹
        = Matrix.diagonal ![1 / 9, 1 / 4, 1 / 9, 1 / 4] := demo_inv
    rw [this, Matrix.transpose_one, Matrix.one_mul, Matrix.mul_one]
    simp only [demo, Matrix.diagonal_transpose, Matrix.diagonal_mul_diagonal]
    congr 1
    funext a
    fin_cases a <;> simp <;> norm_num
  coef := by
    have : ((1 : Matrix (Fin 4) (Fin 4) ℝ)ᵀ * (Matrix.diagonal ![4, 3, 4, 3] + wsum (demo r).S 0) * 1)⁻¹
        = Matrix.diagonal ![1 / 9, 1 / 4, 1 / 9, 1 / 4] := demo_inv
    unfold fitted
    rw [this, Matrix.transpose_one, one_mulVec, one_mulVec]
    funext a
    rw [Matrix.mulVec_diagonal]
    fin_cases a <;> simp [demo]
  orth := by simp
  repar := fun k => by simp [demo]
  ginv := by
    have : wsum (demo r).SR 0 = Matrix.diagonal ![5, 1, 5, 1] := demo_wsum
    rw [this]
    simp only [demo, Matrix.diagonal_mul_diagonal]
    congr 1
    funext a
    fin_cases a <;> simp
  separate := fun i j h => absurd rfl h

example (c : ℝ) := hp_is_hessian_partial (demo_fits 1) (fun _ => rfl) c

theorem demo_t3 (r : ℕ) : t3 (demo r) 0 0 = r * (4 / 25 : ℝ) := by
  unfold t3
  simp only [demo, demoS, true_or, if_true, Matrix.diagonal_mul_diagonal, Matrix.trace_diagonal, Fin.sum_univ_four]
  simp
  ring

/-- C81, negation for repeated penalties. With two repetitions the diagonal of `Hp` is not the second derivative of the
criterion, although all inputs are as required. -/
theorem hp_repeated_wrong (c : ℝ) (γ : (Fin 2 → ℝ) → Fin 2 → ℝ)
    (hγ : ∀ ρ' i, HasDerivAt (fun t => remlFun 1 c (Matrix.diagonal ![4, 3, 4, 3]) ![9, 4, 9, 4] demoS
      (1 : Matrix (Fin 4) (Fin 4) ℝ) (Function.update ρ' i t)) (γ ρ' i) (ρ' i)) :
    ¬ HasDerivAt (fun t => γ (Function.update 0 0 t) 0) (hp (demo 2) 0 0) 0 := by
  intro hbad
  obtain ⟨γ', l, h1, h2, h3⟩ := hp_repeated (demo_fits 2) c 0
  have hγγ : γ = γ' := by
    funext ρ' i
    exact (hγ ρ' i).unique (h1 ρ' i)
  rw [hγγ] at hbad
  have h4 := hbad.unique h3
  rw [demo_t3] at h2
  simp only [demo] at h2 h4
  push_cast at h2 h4
  linarith

/-! ### Inversion of the Hessian -/

section
variable {Hp U : Matrix (Fin K) (Fin K) ℝ} {eig : Fin K → ℝ}

theorem vp_form (s : ℝ) (eig : Fin K → ℝ) (U : Matrix (Fin K) (Fin K) ℝ) :
    vp s eig U = U * Matrix.diagonal (fun k => ire s eig k ^ 2) * Uᵀ := by
  unfold vp root
  rw [Matrix.transpose_mul, Matrix.transpose_transpose, Matrix.diagonal_transpose, Matrix.mul_assoc,
    ← Matrix.mul_assoc (Matrix.diagonal _), Matrix.diagonal_mul_diagonal, ← Matrix.mul_assoc]
  congr 3
  funext k
  rw [sq]

theorem ire_sq (s : ℝ) (hs : 0 ≤ s) (eig : Fin K → ℝ) (k : Fin K) :
    ire s eig k ^ 2 = if 0 < eig k then 1 / (eig k + s) else 0 := by
  unfold ire
  split_ifs with h
  · rw [div_pow, one_pow, Real.sq_sqrt (by linarith)]
  · norm_num

theorem eig_quad (hU : Uᵀ * U = 1) (hH : -Hp = U * Matrix.diagonal eig * Uᵀ) (k : Fin K) :
    (fun a => U a k) ⬝ᵥ (-Hp *ᵥ fun a => U a k) = eig k := by
  have h1 : (Uᵀ * (-Hp) * U) k k = eig k := by
    rw [hH]
    have : Uᵀ * (U * Matrix.diagonal eig * Uᵀ) * U = (Uᵀ * U) * Matrix.diagonal eig * (Uᵀ * U) := by
      simp only [Matrix.mul_assoc]
    rw [this, hU, Matrix.one_mul, Matrix.mul_one, Matrix.diagonal_apply_eq]
  rw [← h1, Matrix.mul_assoc, Matrix.mul_apply]
  rfl

/-- C81. `Vp` and the regularised `Vpr` are positive semi-definite for every result of the eigendecomposition. -/
theorem vp_psd (s : ℝ) (eig : Fin K → ℝ) (U : Matrix (Fin K) (Fin K) ℝ) : (vp s eig U).PosSemidef := by
  have := posSemidef_conjTranspose_mul_self (root s eig U)
  rwa [conjTranspose_eq_transpose_of_trivial] at this

/-- C81. When the criterion is strictly concave at the estimate, `Vp` is the inverse of the negative Hessian (`s = 0`), and the
regularised version is the inverse after adding 0.1 to the diagonal. -/
theorem vp_inverse (hU : Uᵀ * U = 1) (hH : -Hp = U * Matrix.diagonal eig * Uᵀ) (hpd : (-Hp).PosDef) (s : ℝ) (hs : 0 ≤ s) :
    vp s eig U = (-Hp + s • (1 : Matrix (Fin K) (Fin K) ℝ))⁻¹ := by
  have hUU : U * Uᵀ = 1 := mul_eq_one_comm.1 hU
  have hpos : ∀ k, 0 < eig k := by
    intro k
    rw [← eig_quad hU hH k]
    have hne : (fun a => U a k) ≠ 0 := by
      intro h0
      have := congrFun (congrFun hU k) k
      rw [Matrix.mul_apply, Matrix.one_apply_eq] at this
      simp only [Matrix.transpose_apply, fun a => congrFun h0 a, Pi.zero_apply, mul_zero, Finset.sum_const_zero] at this
      exact zero_ne_one this
    simpa using hpd.dotProduct_mulVec_pos hne
  have hsum : -Hp + s • (1 : Matrix (Fin K) (Fin K) ℝ) = U * Matrix.diagonal (fun k => eig k + s) * Uᵀ := by
    have : Matrix.diagonal (fun k => eig k + s) = Matrix.diagonal eig + s • (1 : Matrix (Fin K) (Fin K) ℝ) := by
      rw [Matrix.smul_one_eq_diagonal, Matrix.diagonal_add]
    rw [this, Matrix.mul_add, Matrix.add_mul, ← hH, Matrix.mul_smul, Matrix.smul_mul, Matrix.mul_one, hUU]
  refine (Matrix.inv_eq_left_inv ?_).symm
  rw [hsum, vp_form]
  have : U * Matrix.diagonal (fun k => ire s eig k ^ 2) * Uᵀ * (U * Matrix.diagonal (fun k => eig k + s) * Uᵀ)
      = U * (Matrix.diagonal (fun k => ire s eig k ^ 2) * ((Uᵀ * U) * Matrix.diagonal (fun k => eig k + s))) * Uᵀ := by
    simp only [Matrix.mul_assoc]
  rw [this, hU, Matrix.one_mul, Matrix.diagonal_mul_diagonal]
  have h1 : (fun k => ire s eig k ^ 2 * (eig k + s)) = fun _ => 1 := by
    funext k
    have := hpos k
    rw [ire_sq s hs, if_pos this]
    field_simp
  rw [h1, Matrix.diagonal_one, Matrix.mul_one, hUU]

/-- C81. When the criterion is concave but not strictly so, `Vp` is a generalised inverse of the negative Hessian, and reflexive. -/
theorem vp_ginv (hU : Uᵀ * U = 1) (hH : -Hp = U * Matrix.diagonal eig * Uᵀ) (hpsd : (-Hp).PosSemidef) :
    -Hp * vp 0 eig U * -Hp = -Hp ∧ vp 0 eig U * -Hp * vp 0 eig U = vp 0 eig U := by
  have hpos : ∀ k, 0 ≤ eig k := by
    intro k
    rw [← eig_quad hU hH k]
    simpa using hpsd.dotProduct_mulVec_nonneg (fun a => U a k)
  have h3 : ∀ a b c : Fin K → ℝ, U * Matrix.diagonal a * Uᵀ * (U * Matrix.diagonal b * Uᵀ) * (U * Matrix.diagonal c * Uᵀ)
      = U * Matrix.diagonal (fun k => a k * b k * c k) * Uᵀ := by
    intro a b c
    have : U * Matrix.diagonal a * Uᵀ * (U * Matrix.diagonal b * Uᵀ) * (U * Matrix.diagonal c * Uᵀ)
        = U * (Matrix.diagonal a * ((Uᵀ * U) * Matrix.diagonal b) * ((Uᵀ * U) * Matrix.diagonal c)) * Uᵀ := by
      simp only [Matrix.mul_assoc]
    rw [this, hU, Matrix.one_mul, Matrix.one_mul, Matrix.diagonal_mul_diagonal, Matrix.diagonal_mul_diagonal]
  rw [hH, vp_form, h3, h3]
  refine ⟨congrArg (fun d => U * Matrix.diagonal d * Uᵀ) ?_, congrArg (fun d => U * Matrix.diagonal d * Uᵀ) ?_⟩ <;>
  · funext k
    rw [ire_sq 0 le_rfl]
    split_ifs with h
    · field_simp; ring
    · have : eig k = 0 := le_antisymm (not_lt.1 h) (hpos k)
      rw [this]; ring

/-- C81. The regularised covariance is never larger than the unregularised one. -/
theorem vpr_le_vp (s : ℝ) (hs : 0 ≤ s) (eig : Fin K → ℝ) (U : Matrix (Fin K) (Fin K) ℝ) :
    (vp 0 eig U - vp s eig U).PosSemidef := by
  rw [vp_form, vp_form, ← Matrix.sub_mul, ← Matrix.mul_sub, Matrix.diagonal_sub]
  have h : (Matrix.diagonal (fun k => ire 0 eig k ^ 2 - ire s eig k ^ 2)).PosSemidef := by
    refine PosSemidef.diagonal fun k => ?_
    show 0 ≤ ire 0 eig k ^ 2 - ire s eig k ^ 2
    rw [ire_sq 0 le_rfl, ire_sq s hs]
    split_ifs with h
    · rw [sub_nonneg]
      exact one_div_le_one_div_of_le (by linarith) (by linarith)
    · norm_num
  have := h.mul_mul_conjTranspose_same U
  rwa [conjTranspose_eq_transpose_of_trivial] at this

/-- C81. A direction in which the criterion is not concave gets variance zero, not a large one. -/
theorem vp_nonconcave (hU : Uᵀ * U = 1) (s : ℝ) (hs : 0 ≤ s) (k : Fin K) (hk : eig k ≤ 0) :
    (fun a => U a k) ⬝ᵥ (vp s eig U *ᵥ fun a => U a k) = 0 := by
  have h1 : (Uᵀ * vp s eig U * U) k k = ire s eig k ^ 2 := by
    rw [vp_form]
    have : Uᵀ * (U * Matrix.diagonal (fun k => ire s eig k ^ 2) * Uᵀ) * U
        = (Uᵀ * U) * Matrix.diagonal (fun k => ire s eig k ^ 2) * (Uᵀ * U) := by simp only [Matrix.mul_assoc]
    rw [this, hU, Matrix.one_mul, Matrix.mul_one, Matrix.diagonal_apply_eq]
  rw [ire_sq s hs, if_neg (not_lt.2 hk)] at h1
  rw [← h1, Matrix.mul_assoc, Matrix.mul_apply]
  rfl

end

example : vp (1 / 10) ![2, 3] (1 : Matrix (Fin 2) (Fin 2) ℝ)
    = (-(-(1 * Matrix.diagonal ![2, 3] * 1ᵀ)) + (1 / 10 : ℝ) • (1 : Matrix (Fin 2) (Fin 2) ℝ))⁻¹ :=
  vp_inverse (Hp := -(1 * Matrix.diagonal ![2, 3] * 1ᵀ)) (by simp) (by simp) (by
    rw [neg_neg, Matrix.one_mul, Matrix.transpose_one, Matrix.mul_one]
    refine PosDef.diagonal fun a => ?_
    fin_cases a <;> simp) _ (by norm_num)

end Verif.Wps
