import Verif.LapModel
import Verif.RlSpec
import Mathlib.Analysis.Convex.Continuous
import Mathlib.Analysis.Calculus.FDeriv.Mul

/-!
# Laplace approximation and value of the penalised likelihood: definitions and helper lemmas (for C122)

The definitions do not refer to the model of the code.
-/

namespace Verif.Lap

open Matrix MeasureTheory Real Verif.Reml Verif.LogDet

variable {p K : ℕ}

/-- Penalised log-likelihood of coefficients `β`. -/
noncomputable def pval (l : (Fin p → ℝ) → ℝ) (S : Fin K → Matrix (Fin p) (Fin p) ℝ) (lam : Fin K → ℝ) (β : Fin p → ℝ) : ℝ :=
  l β - β ⬝ᵥ (Rl.penal S lam *ᵥ β) / 2

/-- `b` maximises the penalised log-likelihood. -/
def Best (l : (Fin p → ℝ) → ℝ) (S : Fin K → Matrix (Fin p) (Fin p) ℝ) (lam : Fin K → ℝ) (b : Fin p → ℝ) : Prop :=
  ∀ β, pval l S lam β ≤ pval l S lam b

/-- Laplace approximation of the log of `∫ exp (l β) * prior β` around `b`; `nH` is the negative Hessian of `l`. `γ` is an additional weight
of the penalised log-likelihood, 1 for the approximation. -/
noncomputable def laplace (γ : ℝ) (l : (Fin p → ℝ) → ℝ) (nH : (Fin p → ℝ) → Matrix (Fin p) (Fin p) ℝ) (S : Fin K → Matrix (Fin p) (Fin p) ℝ)
    (lam : Fin K → ℝ) (b : Fin p → ℝ) : ℝ :=
  γ * pval l S lam b + Real.log (pdet (Rl.penal S lam)) / 2 - Real.log (nH b + Rl.penal S lam).det / 2
    + ((p : ℝ) - (Rl.penal S lam).rank) / 2 * Real.log (2 * π)

/-- What the other parts of the code provide, see `Rl.Ok`; `H` is the negative Hessian at the coefficients. -/
structure Ok (x : In p K) (H : Matrix (Fin p) (Fin p) ℝ) : Prop where
  root : ∀ j, x.S j = x.D j * (x.D j)ᵀ
  pos : ∀ j, 0 < x.lam j
  pd : (H + Rl.penal x.S x.lam).PosDef
  inv : x.LVᵀ * x.LV * (H + Rl.penal x.S x.lam) = 1
  ginv : (∑ j, if x.useRank j then 0 else x.lam j • x.S j) * x.pinv * (∑ j, if x.useRank j then 0 else x.lam j • x.S j)
    = ∑ j, if x.useRank j then 0 else x.lam j • x.S j
  gpos : 0 < x.gamma
  rank : ∀ j, x.useRank j = true → x.rank j = (x.S j).rank ∧ ∀ k, k ≠ j → x.S k * x.S j = 0

section facts
variable {x : In p K} {H : Matrix (Fin p) (Fin p) ℝ}

theorem Ok.psd (h : Ok x H) (j : Fin K) : (x.S j).PosSemidef := by
  rw [h.root j]
  have := posSemidef_self_mul_conjTranspose (x.D j)
  rwa [conjTranspose_eq_transpose_of_trivial] at this

theorem Ok.ldet_eq (h : Ok x H) (j : Fin K) : ldetHS x j = ((H + Rl.penal x.S x.lam)⁻¹ * x.S j).trace := by
  have hi : x.LVᵀ * x.LV = (H + Rl.penal x.S x.lam)⁻¹ := (inv_eq_left_inv h.inv).symm
  unfold ldetHS
  rw [Edf.sum_sq_eq_trace, transpose_mul, ← hi, h.root j, trace_mul_comm]
  rw [trace_mul_comm (x.LVᵀ * x.LV), Matrix.mul_assoc, Matrix.mul_assoc, trace_mul_comm]
  simp only [Matrix.mul_assoc]

theorem Ok.lgdet (h : Ok x H) : ∃ G : Matrix (Fin p) (Fin p) ℝ,
    Rl.penal x.S x.lam * G * Rl.penal x.S x.lam = Rl.penal x.S x.lam ∧ ∀ j, lgdetD x j = (x.S j * G).trace :=
  Rl.lgdet_core h.psd h.pos h.ginv h.rank

theorem Ok.trace_le (h : Ok x H) (hH : H.PosSemidef) (j : Fin K) : ldetHS x j ≤ lgdetD x j := by
  obtain ⟨G, hG, hl⟩ := h.lgdet
  rw [h.ldet_eq, hl, trace_mul_comm (x.S j), h.root j]
  refine Lam.trace_diff_nonneg H (Rl.penal x.S x.lam) (∑ k ∈ Finset.univ.erase j, x.lam k • x.S k) G (x.D j) (x.lam j) (h.pos j) hH ?_ ?_ hG h.pd
  · rw [← h.root j]
    exact (Finset.add_sum_erase _ _ (Finset.mem_univ j)).symm
  · exact posSemidef_sum _ fun k _ => (h.psd k).smul (h.pos k).le

theorem Ok.bsb_nonneg (h : Ok x H) (j : Fin K) : 0 ≤ bsb x j := by
  have : 0 ≤ x.coef ⬝ᵥ (x.S j *ᵥ x.coef) := by simpa using (h.psd j).dotProduct_mulVec_nonneg x.coef
  exact mul_nonneg this h.gpos.le

end facts

/-- Determinants along a differentiable curve of matrices. -/
theorem det_curve {n : Type} [Fintype n] [DecidableEq n] {M : ℝ → Matrix n n ℝ} {M' : Matrix n n ℝ}
    (hM : ∀ i j, HasDerivAt (fun t => M t i j) (M' i j) 0) (h0 : (M 0).det ≠ 0) :
    HasDerivAt (fun t => (M t).det) ((M 0).det * ((M 0)⁻¹ * M').trace) 0 := by
  have hf : Differentiable ℝ fun A : n → n → ℝ => Matrix.det (Matrix.of A) := by
    simp only [Matrix.det_apply, Matrix.of_apply]
    fun_prop
  have hc : ∀ N : ℝ → Matrix n n ℝ, N 0 = M 0 → (∀ i j, HasDerivAt (fun t => N t i j) (M' i j) 0) →
      HasDerivAt (fun t => (N t).det) (fderiv ℝ (fun A : n → n → ℝ => Matrix.det (Matrix.of A)) (M 0) M') 0 := by
    intro N hN hd
    have h1 : HasDerivAt (fun t => (N t : n → n → ℝ)) (M' : n → n → ℝ) 0 :=
      hasDerivAt_pi.2 fun i => hasDerivAt_pi.2 fun j => hd i j
    have h2 := (hf (N 0)).hasFDerivAt.comp_hasDerivAt (0 : ℝ) h1
    rw [hN] at h2
    exact h2
  have h1 := hc M rfl hM
  have h2 := hc (fun t => M 0 + t • M') (by simp) fun i j => by
    have : HasDerivAt (fun t : ℝ => M 0 i j + t * M' i j) (1 * M' i j) 0 := ((hasDerivAt_id (0 : ℝ)).mul_const _).const_add _
    simpa using this
  rwa [h2.unique (hasDerivAt_det_line (M 0) M' h0)] at h1

theorem quad_penal (S : Fin K → Matrix (Fin p) (Fin p) ℝ) (lam : Fin K → ℝ) (β : Fin p → ℝ) :
    β ⬝ᵥ (Rl.penal S lam *ᵥ β) = ∑ j, lam j * (β ⬝ᵥ (S j *ᵥ β)) := by
  unfold Rl.penal
  rw [Matrix.sum_mulVec, dotProduct_sum]
  exact Finset.sum_congr rfl fun j _ => by rw [smul_mulVec, dotProduct_smul, smul_eq_mul]

theorem pval_change (l : (Fin p → ℝ) → ℝ) (S : Fin K → Matrix (Fin p) (Fin p) ℝ) (lam lam' : Fin K → ℝ) (β : Fin p → ℝ) :
    pval l S lam' β = pval l S lam β - (∑ j, (lam' j - lam j) * (β ⬝ᵥ (S j *ᵥ β))) / 2 := by
  unfold pval
  rw [quad_penal, quad_penal]
  simp only [sub_mul, Finset.sum_sub_distrib]
  ring

theorem fs_interior {lgdet ldet bSb l : ℝ} (h1 : Lam.lo < l) (h2 : l < Lam.hi) (hb : 0 ≤ bSb)
    (h : Lam.fsStep lgdet ldet bSb l 1 = 0) : Lam.gradLam lgdet ldet bSb 1 = 0 := by
  rcases le_or_gt ldet lgdet with hd | hd
  · have := Rl.fs_zero one_pos ⟨h1.le, h2.le⟩ hb hd h
    exact le_antisymm (this.2 h2) (this.1 h1)
  · exfalso
    unfold Lam.fsStep at h
    dsimp only at h
    rw [max_eq_left (show lgdet - ldet ≤ 0 by linarith), zero_div, mul_zero, zero_mul, max_eq_right Lam.lo_pos.le] at h
    split_ifs at h
    · linarith
    · have : min Lam.lo Lam.hi ≤ Lam.lo := min_le_left _ _
      linarith

end Verif.Lap
