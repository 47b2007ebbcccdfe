import Verif.RlLemmas

/-!
# Restricted likelihood of additive Gaussian models: definition and helper lemmas (for C121)

`restricted` integrates the coefficients out of likelihood times (improper) prior. It is defined without reference to the model of
the code.
-/

namespace Verif.Rl

open Matrix MeasureTheory ProbabilityTheory Real Verif.Reml Verif.LogDet

variable {N p K : ℕ}

/-- Weighted sum of the penalties. -/
noncomputable def penal (S : Fin K → Matrix (Fin p) (Fin p) ℝ) (lam : Fin K → ℝ) : Matrix (Fin p) (Fin p) ℝ := ∑ j, lam j • S j

/-- Prior density of the coefficients for penalty `T` and scale `φ`: the Gaussian density with precision `T / φ` on the range of `T`, flat on
the kernel. -/
noncomputable def prior (T : Matrix (Fin p) (Fin p) ℝ) (φ : ℝ) (β : Fin p → ℝ) : ℝ :=
  √(pdet (φ⁻¹ • T)) / √(2 * π) ^ T.rank * Real.exp (-(β ⬝ᵥ (T *ᵥ β)) / (2 * φ))

/-- Log of the restricted likelihood: independent Gaussian observations with means `X β` and variance `φ`. -/
noncomputable def restricted (X : Matrix (Fin N) (Fin p) ℝ) (y : Fin N → ℝ) (T : Matrix (Fin p) (Fin p) ℝ) (φ : ℝ) : ℝ :=
  Real.log (∫ β : Fin p → ℝ, (∏ i, gaussianPDFReal ((X *ᵥ β) i) φ.toNNReal (y i)) * prior T φ β)

/-- What the other parts of the code provide. Penalties are given by roots; `Linv` inverts the Cholesky factor of the penalised cross
product; the pseudo-inverse has blocks for the terms with several penalties only (compute_S_emb_pinv_det 289-300) and inverts the sum
of their penalties; terms with a single penalty use its rank and share no coefficients with others. -/
structure Ok (x : In N p K) : Prop where
  root : ∀ j, x.S j = x.D j * (x.D j)ᵀ
  pos : ∀ j, 0 < x.lam j
  pd : (x.Xᵀ * x.X + penal x.S x.lam).PosDef
  inv : x.Linvᵀ * x.Linv * (x.Xᵀ * x.X + penal x.S x.lam) = 1
  ginv : (∑ j, if x.useRank j then 0 else x.lam j • x.S j) * x.pinv * (∑ j, if x.useRank j then 0 else x.lam j • x.S j)
    = ∑ j, if x.useRank j then 0 else x.lam j • x.S j
  rank : ∀ j, x.useRank j = true → x.rank j = (x.S j).rank ∧ ∀ k, k ≠ j → x.S k * x.S j = 0

/-- Explicit form. -/
theorem restricted_eq (X : Matrix (Fin N) (Fin p) ℝ) (y : Fin N → ℝ) {T : Matrix (Fin p) (Fin p) ℝ} (hT : T.PosSemidef)
    (hM : (Xᵀ * X + T).PosDef) {φ : ℝ} (hφ : 0 < φ) {b : Fin p → ℝ} (hb : (Xᵀ * X + T) *ᵥ b = Xᵀ *ᵥ y) :
    restricted X y T φ = -(((N : ℝ) - p + T.rank) / 2) * Real.log (2 * π * φ) + Real.log (pdet T) / 2 - Real.log (Xᵀ * X + T).det / 2
      - (∑ i, (y i - (X *ᵥ b) i) ^ 2 + b ⬝ᵥ (T *ᵥ b)) / (2 * φ) := by
  set Q := ∑ i, (y i - (X *ᵥ b) i) ^ 2 + b ⬝ᵥ (T *ᵥ b) with hQ
  set M := Xᵀ * X + T with hMd
  have hint : ∀ β : Fin p → ℝ, (∏ i, gaussianPDFReal ((X *ᵥ β) i) φ.toNNReal (y i)) * prior T φ β
      = ((√(2 * π * φ) ^ N)⁻¹ * (√(pdet (φ⁻¹ • T)) / √(2 * π) ^ T.rank) * Real.exp (-Q / (2 * φ)))
        * Real.exp (-(1 / 2) * ((β - b) ⬝ᵥ ((φ⁻¹ • M) *ᵥ (β - b)))) := by
    intro β
    rw [prod_pdf _ _ hφ]
    unfold prior
    have hsq := complete_square X y (Wps.psd_symm hT) hb β
    rw [← hQ] at hsq
    have e : Real.exp (-(∑ i, (y i - (X *ᵥ β) i) ^ 2) / (2 * φ)) * Real.exp (-(β ⬝ᵥ (T *ᵥ β)) / (2 * φ))
        = Real.exp (-Q / (2 * φ)) * Real.exp (-(1 / 2) * ((β - b) ⬝ᵥ ((φ⁻¹ • M) *ᵥ (β - b)))) := by
      rw [← Real.exp_add, ← Real.exp_add]
      congr 1
      rw [smul_mulVec, dotProduct_smul, smul_eq_mul]
      field_simp
      linarith
    calc _ = ((√(2 * π * φ) ^ N)⁻¹ * (√(pdet (φ⁻¹ • T)) / √(2 * π) ^ T.rank))
          * (Real.exp (-(∑ i, (y i - (X *ᵥ β) i) ^ 2) / (2 * φ)) * Real.exp (-(β ⬝ᵥ (T *ᵥ β)) / (2 * φ))) := by ring
      _ = _ := by rw [e]; ring
  have hMφ : (φ⁻¹ • M).PosDef := hM.smul (inv_pos.2 hφ)
  unfold restricted
  simp only [hint]
  rw [integral_const_mul, gauss_int hMφ b]
  have h2 : (0 : ℝ) < 2 * π := by positivity
  have hs2 : 0 < √(2 * π) := Real.sqrt_pos.2 h2
  have hs3 : 0 < √(2 * π * φ) := Real.sqrt_pos.2 (by positivity)
  have hp0 : 0 < pdet T := pdet_pos hT
  have hps : pdet (φ⁻¹ • T) = φ⁻¹ ^ T.rank * pdet T := pdet_smul hT (inv_pos.2 hφ)
  have hpp : 0 < pdet (φ⁻¹ • T) := by rw [hps]; positivity
  have hd0 := hMφ.det_pos
  have hsp := Real.sqrt_pos.2 hpp
  have hsd := Real.sqrt_pos.2 hd0
  rw [Real.log_mul (by positivity) (by positivity), Real.log_mul (by positivity) (by positivity), Real.log_mul (by positivity) (by positivity),
    Real.log_inv, Real.log_pow, Real.log_div (by positivity) (by positivity), Real.log_pow, Real.log_exp,
    Real.log_div (by positivity) (by positivity), Real.log_pow, Real.log_sqrt (show 0 ≤ 2 * π * φ by positivity), Real.log_sqrt h2.le,
    Real.log_sqrt hpp.le, Real.log_sqrt hd0.le, hps, det_smul, Fintype.card_fin, Real.log_mul (by positivity) hp0.ne',
    Real.log_mul (by positivity) hM.det_pos.ne', Real.log_pow, Real.log_pow, Real.log_inv, Real.log_mul h2.ne' hφ.ne']
  ring

section facts
variable {x : In N p K}

theorem Ok.psd (h : Ok x) (j : Fin K) : (x.S j).PosSemidef := by
  rw [h.root j]
  have := posSemidef_self_mul_conjTranspose (x.D j)
  rwa [conjTranspose_eq_transpose_of_trivial] at this

theorem penal_psd {S : Fin K → Matrix (Fin p) (Fin p) ℝ} (hS : ∀ j, (S j).PosSemidef) {lam : Fin K → ℝ} (hl : ∀ j, 0 < lam j) :
    (penal S lam).PosSemidef := posSemidef_sum _ fun j _ => (hS j).smul (hl j).le

theorem penal_kernel {S : Fin K → Matrix (Fin p) (Fin p) ℝ} (hS : ∀ j, (S j).PosSemidef) {lam : Fin K → ℝ} (hl : ∀ j, 0 < lam j)
    (v : Fin p → ℝ) : penal S lam *ᵥ v = 0 ↔ ∀ j, S j *ᵥ v = 0 := by
  have e : penal S lam = wsum S fun j => Real.log (lam j) := by
    unfold penal wsum
    exact Finset.sum_congr rfl fun j _ => by rw [Real.exp_log (hl j)]
  rw [e]
  exact wsum_kernel S hS _ v

theorem Ok.coef_eq (h : Ok x) : coef x = (x.Xᵀ * x.X + penal x.S x.lam)⁻¹ *ᵥ (x.Xᵀ *ᵥ x.y) := by
  have := h.pd
  unfold coef Gauss.solveXX
  rw [show Gauss.sEmb x.S x.lam = penal x.S x.lam from rfl, if_pos this]

theorem Ok.unit (h : Ok x) : IsUnit (x.Xᵀ * x.X + penal x.S x.lam).det := isUnit_iff_ne_zero.2 h.pd.det_pos.ne'

theorem Ok.normal (h : Ok x) : (x.Xᵀ * x.X + penal x.S x.lam) *ᵥ coef x = x.Xᵀ *ᵥ x.y := by
  rw [h.coef_eq, mulVec_mulVec, mul_nonsing_inv _ h.unit, one_mulVec]

/-- The computed traces. -/
theorem Ok.bps_eq (h : Ok x) (j : Fin K) : bps x j = ((x.Xᵀ * x.X + penal x.S x.lam)⁻¹ * x.S j).trace := by
  have hi : x.Linvᵀ * x.Linv = (x.Xᵀ * x.X + penal x.S x.lam)⁻¹ := (inv_eq_left_inv h.inv).symm
  unfold bps
  rw [Edf.sum_sq_eq_trace, transpose_mul, ← hi, h.root j, trace_mul_comm]
  rw [trace_mul_comm (x.Linvᵀ * x.Linv), Matrix.mul_assoc, Matrix.mul_assoc, trace_mul_comm]
  simp only [Matrix.mul_assoc]

/-- One generalised inverse gives all derivatives of the log generalised determinant. -/
theorem lgdet_core {S : Fin K → Matrix (Fin p) (Fin p) ℝ} {lam : Fin K → ℝ} {useRank : Fin K → Bool} {rank : Fin K → ℕ}
    {pinv : Matrix (Fin p) (Fin p) ℝ} (psd : ∀ j, (S j).PosSemidef) (pos : ∀ j, 0 < lam j)
    (ginv : (∑ j, if useRank j then 0 else lam j • S j) * pinv * (∑ j, if useRank j then 0 else lam j • S j)
      = ∑ j, if useRank j then 0 else lam j • S j)
    (hrank : ∀ j, useRank j = true → rank j = (S j).rank ∧ ∀ k, k ≠ j → S k * S j = 0) :
    ∃ G : Matrix (Fin p) (Fin p) ℝ, penal S lam * G * penal S lam = penal S lam ∧
      ∀ j, (if useRank j then (rank j : ℝ) / lam j else (pinv * S j).trace) = (S j * G).trace := by
  set P : Matrix (Fin p) (Fin p) ℝ := ∑ j, if useRank j then 0 else lam j • S j with hP
  set R : Matrix (Fin p) (Fin p) ℝ := ∑ j, if useRank j then lam j • S j else 0 with hR
  have hsum : penal S lam = P + R := by
    rw [hP, hR, ← Finset.sum_add_distrib]
    refine Finset.sum_congr rfl fun j _ => ?_
    split_ifs <;> simp
  have hPp : P.PosSemidef := posSemidef_sum _ fun j _ => by
    split_ifs
    · exact PosSemidef.zero
    · exact (psd j).smul (pos j).le
  have hRp : R.PosSemidef := posSemidef_sum _ fun j _ => by
    split_ifs
    · exact (psd j).smul (pos j).le
    · exact PosSemidef.zero
  have hPR : P * R = 0 := by
    rw [hP, hR, Matrix.sum_mul]
    refine Finset.sum_eq_zero fun k _ => ?_
    rw [Matrix.mul_sum]
    refine Finset.sum_eq_zero fun j _ => ?_
    by_cases hk : useRank k = true
    · rw [if_pos hk, Matrix.zero_mul]
    · by_cases hj : useRank j = true
      · have hne : k ≠ j := fun e => hk (e ▸ hj)
        rw [if_neg hk, if_pos hj, Matrix.smul_mul, Matrix.mul_smul, (hrank j hj).2 k hne, smul_zero, smul_zero]
      · rw [if_neg hj, Matrix.mul_zero]
  obtain ⟨G, hG, hT⟩ := ginv_extend hPp hRp hPR ginv
  refine ⟨G, by rw [hsum]; exact hG, fun j => ?_⟩
  by_cases hj : useRank j = true
  · rw [if_pos hj]
    have e : penal S lam = wsum S fun j => Real.log (lam j) := by
      unfold penal wsum
      exact Finset.sum_congr rfl fun j _ => by rw [Real.exp_log (pos j)]
    have := trace_rank S psd (fun j => Real.log (lam j)) j (hrank j hj).2 G (by rw [← e, hsum]; exact hG)
    rw [Real.exp_log (pos j)] at this
    rw [(hrank j hj).1, ← this, mul_div_cancel_left₀ _ (pos j).ne']
  · rw [if_neg hj, hT (S j) (Wps.psd_symm (psd j)), trace_mul_comm]
    intro v hv
    refine psd_kernel _ (psd j) v ?_
    have h0 : ∑ k, (if useRank k then 0 else lam k * (v ⬝ᵥ (S k *ᵥ v))) = 0 := by
      have : v ⬝ᵥ (P *ᵥ v) = 0 := by rw [hv, dotProduct_zero]
      rw [hP, Matrix.sum_mulVec, dotProduct_sum] at this
      refine Eq.trans (Finset.sum_congr rfl fun k _ => ?_) this
      split_ifs
      · rw [zero_mulVec, dotProduct_zero]
      · rw [smul_mulVec, dotProduct_smul, smul_eq_mul]
    have hnn : ∀ k ∈ Finset.univ, 0 ≤ (if useRank k then 0 else lam k * (v ⬝ᵥ (S k *ᵥ v))) := fun k _ => by
      split_ifs
      · exact le_rfl
      · have h1 : 0 ≤ v ⬝ᵥ (S k *ᵥ v) := by simpa using (psd k).dotProduct_mulVec_nonneg v
        exact mul_nonneg (pos k).le h1
    have h1 := (Finset.sum_eq_zero_iff_of_nonneg hnn).1 h0 j (Finset.mem_univ j)
    rw [if_neg hj] at h1
    exact (mul_eq_zero.1 h1).resolve_left (pos j).ne'

theorem Ok.lgdet (h : Ok x) : ∃ G : Matrix (Fin p) (Fin p) ℝ, penal x.S x.lam * G * penal x.S x.lam = penal x.S x.lam ∧
    ∀ j, lgdetD x j = (x.S j * G).trace := lgdet_core h.psd h.pos h.ginv h.rank

theorem Ok.trace_le (h : Ok x) (j : Fin K) : bps x j ≤ lgdetD x j := by
  obtain ⟨G, hG, hl⟩ := h.lgdet
  rw [h.bps_eq, hl, trace_mul_comm (x.S j), h.root j]
  have hXX : (x.Xᵀ * x.X).PosSemidef := by
    have := posSemidef_conjTranspose_mul_self x.X
    rwa [conjTranspose_eq_transpose_of_trivial] at this
  refine Lam.trace_diff_nonneg (x.Xᵀ * x.X) (penal x.S x.lam) (∑ k ∈ Finset.univ.erase j, x.lam k • x.S k) G (x.D j) (x.lam j) (h.pos j) hXX ?_ ?_ hG h.pd
  · rw [← h.root j]
    exact (Finset.add_sum_erase _ _ (Finset.mem_univ j)).symm
  · exact posSemidef_sum _ fun k _ => (h.psd k).smul (h.pos k).le

theorem Ok.bsb_nonneg (h : Ok x) (j : Fin K) : 0 ≤ bsb x j := by
  simpa [bsb] using (h.psd j).dotProduct_mulVec_nonneg (coef x)


theorem pd_other {S : Fin K → Matrix (Fin p) (Fin p) ℝ} (hS : ∀ j, (S j).PosSemidef) {X : Matrix (Fin N) (Fin p) ℝ} {lam lam' : Fin K → ℝ}
    (hl : ∀ j, 0 < lam j) (hl' : ∀ j, 0 < lam' j) (h : (Xᵀ * X + penal S lam).PosDef) : (Xᵀ * X + penal S lam').PosDef := by
  have hXX : (Xᵀ * X).PosSemidef := by
    have := posSemidef_conjTranspose_mul_self X
    rwa [conjTranspose_eq_transpose_of_trivial] at this
  have hp' := penal_psd hS hl'
  have hsum := hXX.add hp'
  refine PosDef.of_dotProduct_mulVec_pos hsum.1 fun v hv => ?_
  refine lt_of_le_of_ne (hsum.dotProduct_mulVec_nonneg v) fun h0 => ?_
  have a1 : 0 ≤ v ⬝ᵥ ((Xᵀ * X) *ᵥ v) := by simpa using hXX.dotProduct_mulVec_nonneg v
  have a2 : 0 ≤ v ⬝ᵥ (penal S lam' *ᵥ v) := by simpa using hp'.dotProduct_mulVec_nonneg v
  have h1 : v ⬝ᵥ ((Xᵀ * X) *ᵥ v) + v ⬝ᵥ (penal S lam' *ᵥ v) = 0 := by
    rw [← dotProduct_add, ← add_mulVec]
    simpa using h0.symm
  have b1 := psd_kernel _ hXX v (by linarith)
  have b2 := (penal_kernel hS hl v).2 ((penal_kernel hS hl' v).1 (psd_kernel _ hp' v (by linarith)))
  have := h.dotProduct_mulVec_pos hv
  rw [add_mulVec, b1, b2, add_zero, dotProduct_zero] at this
  exact lt_irrefl _ this

/-- The form in which the coefficients are eliminated. -/
theorem restricted_inv (X : Matrix (Fin N) (Fin p) ℝ) (y : Fin N → ℝ) {T : Matrix (Fin p) (Fin p) ℝ} (hT : T.PosSemidef)
    (hM : (Xᵀ * X + T).PosDef) {φ : ℝ} (hφ : 0 < φ) :
    restricted X y T φ = -(((N : ℝ) - p + T.rank) / 2) * Real.log (2 * π * φ) + Real.log (pdet T) / 2 - Real.log (Xᵀ * X + T).det / 2
      - (∑ i, y i ^ 2 - (Xᵀ *ᵥ y) ⬝ᵥ ((Xᵀ * X + T)⁻¹ *ᵥ (Xᵀ *ᵥ y))) / (2 * φ) := by
  have hu : IsUnit (Xᵀ * X + T).det := isUnit_iff_ne_zero.2 hM.det_pos.ne'
  have hb : (Xᵀ * X + T) *ᵥ ((Xᵀ * X + T)⁻¹ *ᵥ (Xᵀ *ᵥ y)) = Xᵀ *ᵥ y := by
    rw [mulVec_mulVec, mul_nonsing_inv _ hu, one_mulVec]
  rw [restricted_eq X y hT hM hφ hb]
  have h0 := complete_square X y (Wps.psd_symm hT) hb 0
  rw [zero_sub, mulVec_neg, neg_dotProduct, dotProduct_neg, neg_neg, hb] at h0
  simp only [mulVec_zero, Pi.zero_apply, sub_zero, dotProduct_zero, add_zero] at h0
  rw [h0, dotProduct_comm (Xᵀ *ᵥ y), add_sub_cancel_right]

theorem penal_line (S : Fin K → Matrix (Fin p) (Fin p) ℝ) (lam d : Fin K → ℝ) (t : ℝ) :
    penal S (fun j => lam j + t * d j) = penal S lam + t • penal S d := by
  unfold penal
  rw [Finset.smul_sum, ← Finset.sum_add_distrib]
  exact Finset.sum_congr rfl fun j _ => by rw [add_smul, mul_smul]

theorem line_pos {lam : Fin K → ℝ} (hl : ∀ j, 0 < lam j) (d : Fin K → ℝ) : ∀ᶠ t in nhds (0 : ℝ), ∀ j, 0 < lam j + t * d j := by
  refine Filter.eventually_all.2 fun j => ?_
  have hc : Continuous fun t : ℝ => lam j + t * d j := by fun_prop
  have := hc.continuousAt (x := 0)
  refine this.eventually (lt_mem_nhds ?_)
  simpa using hl j

end facts

end Verif.Rl
