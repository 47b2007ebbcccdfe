import Verif.RlSpec

/-!
# Lemmas on penalised least squares for varying smoothing parameters (properties C130, C131)
-/

namespace Verif.Smo
open Matrix Rl

variable {N p K : ℕ}

/-! ### Order of inverses -/

theorem posDef_unit {M : Matrix (Fin p) (Fin p) ℝ} (h : M.PosDef) : IsUnit M.det := h.isUnit.map Matrix.detMonoidHom

theorem quad_nonneg {M : Matrix (Fin p) (Fin p) ℝ} (h : M.PosSemidef) (v : Fin p → ℝ) : 0 ≤ v ⬝ᵥ (M *ᵥ v) := by
  simpa using h.dotProduct_mulVec_nonneg v

theorem sym_swap {M : Matrix (Fin p) (Fin p) ℝ} (h : Mᵀ = M) (u v : Fin p → ℝ) : u ⬝ᵥ (M *ᵥ v) = v ⬝ᵥ (M *ᵥ u) := by
  rw [dotProduct_mulVec, ← mulVec_transpose, h, dotProduct_comm]

/-- Larger matrices have smaller inverses. -/
theorem inv_anti {M M' : Matrix (Fin p) (Fin p) ℝ} (hM : M.PosDef) (hM' : M'.PosDef) (h : ∀ u, u ⬝ᵥ (M *ᵥ u) ≤ u ⬝ᵥ (M' *ᵥ u))
    (v : Fin p → ℝ) : v ⬝ᵥ (M'⁻¹ *ᵥ v) ≤ v ⬝ᵥ (M⁻¹ *ᵥ v) := by
  set u := M⁻¹ *ᵥ v with hu
  set w := M'⁻¹ *ᵥ v with hw
  have e1 : M *ᵥ u = v := by rw [hu, mulVec_mulVec, mul_nonsing_inv _ (posDef_unit hM), one_mulVec]
  have e2 : M' *ᵥ w = v := by rw [hw, mulVec_mulVec, mul_nonsing_inv _ (posDef_unit hM'), one_mulVec]
  have h1 := quad_nonneg hM.posSemidef (u - w)
  have h2 := h w
  have hs := sym_swap (Wps.psd_symm hM.posSemidef) u w
  rw [mulVec_sub, sub_dotProduct, dotProduct_sub, dotProduct_sub, hs, e1] at h1
  rw [e2] at h2
  rw [dotProduct_comm v w, dotProduct_comm v u]
  linarith

theorem smul_inv {M : Matrix (Fin p) (Fin p) ℝ} {c : ℝ} (hc : c ≠ 0) (hM : IsUnit M.det) : (c • M)⁻¹ = c⁻¹ • M⁻¹ := by
  refine inv_eq_left_inv ?_
  rw [Matrix.smul_mul, Matrix.mul_smul, smul_smul, inv_mul_cancel₀ hc, one_smul, nonsing_inv_mul _ hM]

/-! ### One pass -/

/-- The penalised cross product. -/
noncomputable def M (x : In N p K) : Matrix (Fin p) (Fin p) ℝ := x.Xᵀ * x.X + penal x.S x.lam

/-- What the other parts of the code provide: roots of the penalties, positive smoothing parameters, and the inverse of the Cholesky factor. -/
structure Core (x : In N p K) : Prop where
  root : ∀ j, x.S j = x.D j * (x.D j)ᵀ
  pos : ∀ j, 0 < x.lam j
  pd : (x.Xᵀ * x.X + penal x.S x.lam).PosDef
  inv : x.Linvᵀ * x.Linv * (x.Xᵀ * x.X + penal x.S x.lam) = 1

variable {x : In N p K}

theorem Core.of (h : Ok x) : Core x := ⟨h.root, h.pos, h.pd, h.inv⟩

theorem Core.psd (h : Core x) (j : Fin K) : (x.S j).PosSemidef := by
  rw [h.root]
  have := posSemidef_self_mul_conjTranspose (x.D j)
  rwa [conjTranspose_eq_transpose_of_trivial] at this

theorem Core.unit (h : Core x) : IsUnit (M x).det := posDef_unit h.pd

theorem Core.V (h : Core x) : x.Linvᵀ * x.Linv = (M x)⁻¹ := (inv_eq_left_inv h.inv).symm

theorem quad_penal (S : Fin K → Matrix (Fin p) (Fin p) ℝ) (lam : Fin K → ℝ) (v : Fin p → ℝ) :
    v ⬝ᵥ (penal S lam *ᵥ v) = ∑ j, lam j * (v ⬝ᵥ (S j *ᵥ v)) := by
  unfold penal
  rw [sum_mulVec, dotProduct_sum]
  exact Finset.sum_congr rfl fun j _ => by rw [smul_mulVec, dotProduct_smul, smul_eq_mul]

theorem quad_gram (X : Matrix (Fin N) (Fin p) ℝ) (v : Fin p → ℝ) : v ⬝ᵥ ((Xᵀ * X) *ᵥ v) = ∑ i, (X *ᵥ v) i ^ 2 := by
  rw [← mulVec_mulVec, dotProduct_mulVec, vecMul_transpose]
  simp only [dotProduct, sq]

theorem quad_M (x : In N p K) (v : Fin p → ℝ) : v ⬝ᵥ (M x *ᵥ v) = ∑ i, (x.X *ᵥ v) i ^ 2 + ∑ j, x.lam j * (v ⬝ᵥ (x.S j *ᵥ v)) := by
  unfold M
  rw [add_mulVec, dotProduct_add, quad_gram, quad_penal]

theorem normal (h : Core x) : M x *ᵥ coef x = x.Xᵀ *ᵥ x.y := by
  unfold coef Gauss.solveXX
  have hp : (x.Xᵀ * x.X + Gauss.sEmb x.S x.lam).PosDef := h.pd
  rw [if_pos hp]
  show M x *ᵥ ((M x)⁻¹ *ᵥ _) = _
  rw [mulVec_mulVec, mul_nonsing_inv _ (Core.unit h), one_mulVec]

/-- Squared lengths through the inverse factor are quadratic forms of the inverse. -/
theorem sq_Linv (h : Core x) (v : Fin p → ℝ) : ∑ a, (x.Linv *ᵥ v) a ^ 2 = v ⬝ᵥ ((M x)⁻¹ *ᵥ v) := by
  rw [← h.V, quad_gram]

theorem bps_eq (h : Core x) (j : Fin K) : bps x j = ∑ b, (fun a => x.D j a b) ⬝ᵥ ((M x)⁻¹ *ᵥ fun a => x.D j a b) := by
  unfold bps
  rw [Finset.sum_comm]
  refine Finset.sum_congr rfl fun b _ => ?_
  rw [← sq_Linv h]
  rfl

theorem bps_trace (h : Core x) (j : Fin K) : bps x j = ((M x)⁻¹ * x.S j).trace := by
  rw [bps_eq h, h.root, ← Matrix.mul_assoc, trace_mul_comm, ← Matrix.mul_assoc]
  unfold trace
  refine Finset.sum_congr rfl fun b _ => ?_
  rw [diag_apply, Matrix.mul_assoc, Matrix.mul_apply]
  rfl

/-- Effective degrees of freedom as a sum over rows. -/
theorem edf_eq (h : Core x) : edf x = ∑ i, x.X i ⬝ᵥ ((M x)⁻¹ *ᵥ x.X i) := by
  have e1 : ∑ j, x.lam j * bps x j = ((M x)⁻¹ * penal x.S x.lam).trace := by
    unfold penal
    rw [Matrix.mul_sum, trace_sum]
    exact Finset.sum_congr rfl fun j _ => by rw [bps_trace h, Matrix.mul_smul, trace_smul, smul_eq_mul]
  have e2 : ((M x)⁻¹ * (x.Xᵀ * x.X)).trace + ((M x)⁻¹ * penal x.S x.lam).trace = p := by
    rw [← trace_add, ← Matrix.mul_add]
    show ((M x)⁻¹ * M x).trace = _
    rw [nonsing_inv_mul _ (Core.unit h), trace_one, Fintype.card_fin]
  have e3 : ((M x)⁻¹ * (x.Xᵀ * x.X)).trace = ∑ i, x.X i ⬝ᵥ ((M x)⁻¹ *ᵥ x.X i) := by
    rw [← Matrix.mul_assoc, trace_mul_comm, ← Matrix.mul_assoc]
    unfold trace
    refine Finset.sum_congr rfl fun i _ => ?_
    rw [diag_apply, Matrix.mul_assoc, Matrix.mul_apply]
    rfl
  unfold edf
  rw [e1, ← e3]
  linarith

/-- Residual sum of squares of coefficients. -/
noncomputable def rss (x : In N p K) (b : Fin p → ℝ) : ℝ := ∑ i, (x.y i - (x.X *ᵥ b) i) ^ 2

/-- Penalty of coefficients, of one penalty matrix. -/
noncomputable def rough (x : In N p K) (j : Fin K) (b : Fin p → ℝ) : ℝ := b ⬝ᵥ (x.S j *ᵥ b)

theorem rough_nonneg (h : Core x) (j : Fin K) (b : Fin p → ℝ) : 0 ≤ rough x j b := quad_nonneg (h.psd j) b

theorem penal_symm (h : Core x) : (penal x.S x.lam)ᵀ = penal x.S x.lam := by
  unfold penal
  rw [transpose_sum]
  exact Finset.sum_congr rfl fun j _ => by rw [transpose_smul, Wps.psd_symm (h.psd j)]

/-- The coefficients minimise the penalised sum of squares; the excess is a quadratic form. -/
theorem excess (h : Core x) (b : Fin p → ℝ) :
    rss x b + ∑ j, x.lam j * rough x j b = rss x (coef x) + ∑ j, x.lam j * rough x j (coef x) + (b - coef x) ⬝ᵥ (M x *ᵥ (b - coef x)) := by
  have := complete_square x.X x.y (penal_symm h) (normal h) b
  rw [quad_penal, quad_penal] at this
  exact this

theorem least (h : Core x) (b : Fin p → ℝ) :
    rss x (coef x) + ∑ j, x.lam j * rough x j (coef x) ≤ rss x b + ∑ j, x.lam j * rough x j b := by
  rw [excess h b]
  linarith [quad_nonneg h.pd.posSemidef (b - coef x), show (b - coef x) ⬝ᵥ (M x *ᵥ (b - coef x)) =
    (b - coef x) ⬝ᵥ ((x.Xᵀ * x.X + penal x.S x.lam) *ᵥ (b - coef x)) from rfl]

end Verif.Smo
