import Verif.LogDetLemmas
import Verif.WpsModel
import Mathlib.Analysis.Calculus.FDeriv.Mul
import Mathlib.Analysis.Calculus.Deriv.Mul
import Mathlib.Analysis.Matrix.Normed

/-! Helper lemmas for C81: derivative of a matrix inverse and second derivatives of log determinants along log smoothing
parameters. -/

namespace Verif.Wps

open Matrix Verif.Reml Verif.LogDet

section inv
variable {r : Type} [Fintype r] [DecidableEq r]

attribute [local instance] Matrix.linftyOpNormedRing Matrix.linftyOpNormedAlgebra

/-- Derivative of the inverse along a line. -/
theorem hasDerivAt_inv_line (M B : Matrix r r ℝ) (hM : IsUnit M.det) (a b : r) :
    HasDerivAt (fun x : ℝ => (M + x • B)⁻¹ a b) (-(M⁻¹ * B * M⁻¹) a b) 0 := by
  obtain ⟨u, hu⟩ := (Matrix.isUnit_iff_isUnit_det M).2 hM
  have h1 := hasFDerivAt_ringInverse (𝕜 := ℝ) u
  have hinv : ((u⁻¹ : (Matrix r r ℝ)ˣ) : Matrix r r ℝ) = M⁻¹ := by
    rw [← hu, Matrix.coe_units_inv]
  have hl : HasDerivAt (fun x : ℝ => M + x • B) B 0 := by
    have := ((hasDerivAt_id (0 : ℝ)).smul_const B).const_add M
    rw [one_smul] at this
    exact this
  have h2 : HasFDerivAt (Ring.inverse : Matrix r r ℝ → Matrix r r ℝ) (-ContinuousLinearMap.mulLeftRight ℝ (Matrix r r ℝ) ↑u⁻¹ ↑u⁻¹)
      ((fun x : ℝ => M + x • B) 0) := by
    simpa [← hu] using h1
  have h3 := h2.comp_hasDerivAt (0 : ℝ) hl
  have h4 : HasDerivAt (fun x : ℝ => (M + x • B)⁻¹) (-(M⁻¹ * B * M⁻¹)) 0 := by
    have e : (fun x : ℝ => (M + x • B)⁻¹) = Ring.inverse ∘ fun x : ℝ => M + x • B := by
      funext x
      rw [Function.comp_apply, Matrix.nonsing_inv_eq_ringInverse]
    rw [e]
    refine h3.congr_deriv ?_
    simp [hinv]
  have h5 : HasDerivAt (fun x : ℝ => (Matrix.entryLinearMap ℝ ℝ a b).toContinuousLinearMap ((M + x • B)⁻¹))
      ((Matrix.entryLinearMap ℝ ℝ a b).toContinuousLinearMap (-(M⁻¹ * B * M⁻¹))) 0 :=
    (ContinuousLinearMap.hasFDerivAt _).comp_hasDerivAt (0 : ℝ) h4
  simpa using h5

end inv

section paths
variable {r κ : Type} [Fintype r] [DecidableEq r] [Fintype κ] [DecidableEq κ]

theorem line_update (Q : Matrix r r ℝ) (T : κ → Matrix r r ℝ) (ρ : κ → ℝ) (j : κ) (t : ℝ) :
    Q + wsum T (Function.update ρ j t) = (Q + wsum T ρ) + (Real.exp t - Real.exp (ρ j)) • T j := by
  rw [wsum_update, add_assoc]

theorem hasDerivAt_shift (c : ℝ) : HasDerivAt (fun t => Real.exp t - Real.exp c) (Real.exp c) c :=
  (Real.hasDerivAt_exp c).sub_const _

/-- Entries of the inverse, along one log smoothing parameter. -/
theorem entry_deriv (Q : Matrix r r ℝ) (T : κ → Matrix r r ℝ) (ρ : κ → ℝ) (hW : IsUnit (Q + wsum T ρ).det) (j : κ) (a b : r) :
    HasDerivAt (fun t => (Q + wsum T (Function.update ρ j t))⁻¹ a b)
      (-Real.exp (ρ j) * ((Q + wsum T ρ)⁻¹ * T j * (Q + wsum T ρ)⁻¹) a b) (ρ j) := by
  have h1 : HasDerivAt (fun x : ℝ => ((Q + wsum T ρ) + x • T j)⁻¹ a b) (-((Q + wsum T ρ)⁻¹ * T j * (Q + wsum T ρ)⁻¹) a b)
      ((fun t => Real.exp t - Real.exp (ρ j)) (ρ j)) := by
    rw [show (fun t => Real.exp t - Real.exp (ρ j)) (ρ j) = 0 from sub_self _]
    exact hasDerivAt_inv_line _ _ hW a b
  have h2 := h1.comp (ρ j) (hasDerivAt_shift (ρ j))
  have e : (fun t => (Q + wsum T (Function.update ρ j t))⁻¹ a b)
      = (fun x : ℝ => ((Q + wsum T ρ) + x • T j)⁻¹ a b) ∘ fun t => Real.exp t - Real.exp (ρ j) := by
    funext t
    rw [line_update]
    rfl
  rw [e]
  refine h2.congr_deriv ?_
  ring

theorem trace_deriv (Q : Matrix r r ℝ) (T : κ → Matrix r r ℝ) (ρ : κ → ℝ) (hW : IsUnit (Q + wsum T ρ).det) (j : κ)
    (C : Matrix r r ℝ) :
    HasDerivAt (fun t => ((Q + wsum T (Function.update ρ j t))⁻¹ * C).trace)
      (-Real.exp (ρ j) * ((Q + wsum T ρ)⁻¹ * T j * (Q + wsum T ρ)⁻¹ * C).trace) (ρ j) := by
  have h : HasDerivAt (fun t => ∑ a, ∑ b, (Q + wsum T (Function.update ρ j t))⁻¹ a b * C b a)
      (∑ a, ∑ b, (-Real.exp (ρ j) * ((Q + wsum T ρ)⁻¹ * T j * (Q + wsum T ρ)⁻¹) a b) * C b a) (ρ j) :=
    HasDerivAt.fun_sum fun a _ => HasDerivAt.fun_sum fun b _ => (entry_deriv Q T ρ hW j a b).mul_const _
  refine HasDerivAt.congr_deriv (h.congr_of_eventuallyEq (Filter.Eventually.of_forall fun t => ?_)) ?_
  · simp only [Matrix.trace, Matrix.diag, Matrix.mul_apply]
  · simp only [Matrix.trace, Matrix.diag]
    rw [Finset.mul_sum]
    refine Finset.sum_congr rfl fun a _ => ?_
    rw [Matrix.mul_apply, Finset.mul_sum]
    refine Finset.sum_congr rfl fun b _ => ?_
    ring

theorem quad_deriv (Q : Matrix r r ℝ) (T : κ → Matrix r r ℝ) (ρ : κ → ℝ) (hW : IsUnit (Q + wsum T ρ).det) (j : κ)
    (u v : r → ℝ) :
    HasDerivAt (fun t => u ⬝ᵥ ((Q + wsum T (Function.update ρ j t))⁻¹ *ᵥ v))
      (-Real.exp (ρ j) * (u ⬝ᵥ (((Q + wsum T ρ)⁻¹ * T j * (Q + wsum T ρ)⁻¹) *ᵥ v))) (ρ j) := by
  have h : HasDerivAt (fun t => ∑ a, u a * ∑ b, (Q + wsum T (Function.update ρ j t))⁻¹ a b * v b)
      (∑ a, u a * ∑ b, (-Real.exp (ρ j) * ((Q + wsum T ρ)⁻¹ * T j * (Q + wsum T ρ)⁻¹) a b) * v b) (ρ j) :=
    HasDerivAt.fun_sum fun a _ => (HasDerivAt.fun_sum fun b _ => (entry_deriv Q T ρ hW j a b).mul_const _).const_mul _
  refine HasDerivAt.congr_deriv (h.congr_of_eventuallyEq (Filter.Eventually.of_forall fun t => ?_)) ?_
  · simp only [dotProduct, mulVec]
  · simp only [dotProduct, mulVec]
    rw [Finset.mul_sum]
    refine Finset.sum_congr rfl fun a _ => ?_
    simp only [Finset.mul_sum]
    refine Finset.sum_congr rfl fun b _ => ?_
    ring

theorem logdet_deriv (Q : Matrix r r ℝ) (T : κ → Matrix r r ℝ) (ρ : κ → ℝ) (hW : (Q + wsum T ρ).det ≠ 0) (j : κ) :
    HasDerivAt (fun t => Real.log (Q + wsum T (Function.update ρ j t)).det)
      (Real.exp (ρ j) * ((Q + wsum T ρ)⁻¹ * T j).trace) (ρ j) := by
  have h1 : HasDerivAt (fun x : ℝ => ((Q + wsum T ρ) + x • T j).det) ((Q + wsum T ρ).det * ((Q + wsum T ρ)⁻¹ * T j).trace)
      ((fun t => Real.exp t - Real.exp (ρ j)) (ρ j)) := by
    rw [show (fun t => Real.exp t - Real.exp (ρ j)) (ρ j) = 0 from sub_self _]
    exact hasDerivAt_det_line _ _ hW
  have h2 := h1.comp (ρ j) (hasDerivAt_shift (ρ j))
  have h3 := h2.log (by simpa using hW)
  have e : (fun t => Real.log (Q + wsum T (Function.update ρ j t)).det)
      = fun t => Real.log (((fun x : ℝ => ((Q + wsum T ρ) + x • T j).det) ∘ fun t => Real.exp t - Real.exp (ρ j)) t) := by
    funext t
    rw [line_update]
    rfl
  rw [e]
  refine h3.congr_deriv ?_
  simp only [Function.comp_apply, sub_self, zero_smul, add_zero]
  field_simp

theorem exp_update_deriv (ρ : κ → ℝ) (i j : κ) :
    HasDerivAt (fun t => Real.exp (Function.update ρ j t i)) (if i = j then Real.exp (ρ i) else 0) (ρ j) := by
  by_cases h : i = j
  · subst h
    simp only [Function.update_self, if_true]
    exact Real.hasDerivAt_exp _
  · simp only [Function.update_of_ne h, if_neg h]
    exact hasDerivAt_const _ _

/-- Derivative of a component of the gradient of `log det`. -/
theorem logdet_second (Q : Matrix r r ℝ) (T : κ → Matrix r r ℝ) (ρ : κ → ℝ) (hW : IsUnit (Q + wsum T ρ).det) (i j : κ) :
    HasDerivAt (fun t => Real.exp (Function.update ρ j t i) * ((Q + wsum T (Function.update ρ j t))⁻¹ * T i).trace)
      ((if i = j then Real.exp (ρ i) * ((Q + wsum T ρ)⁻¹ * T i).trace else 0)
        - Real.exp (ρ i) * Real.exp (ρ j) * ((Q + wsum T ρ)⁻¹ * T j * (Q + wsum T ρ)⁻¹ * T i).trace) (ρ j) := by
  have h := (exp_update_deriv ρ i j).fun_mul (trace_deriv Q T ρ hW j (T i))
  refine h.congr_deriv ?_
  rw [Function.update_eq_self]
  by_cases hij : i = j
  · rw [if_pos hij, if_pos hij]; ring
  · rw [if_neg hij, if_neg hij]; ring

end paths

section groups
variable {n κ : Type} [Fintype n] [DecidableEq n] [Fintype κ] [DecidableEq κ]

theorem psd_symm {M : Matrix n n ℝ} (h : M.PosSemidef) : Mᵀ = M := by
  have := h.1.eq
  rwa [conjTranspose_eq_transpose_of_trivial] at this

/-- Second derivative of the log generalised determinant. -/
theorem log_pdet_second (S : κ → Matrix n n ℝ) (hS : ∀ k, (S k).PosSemidef) :
    ∃ γ : (κ → ℝ) → κ → ℝ,
      (∀ ρ i, HasDerivAt (fun t => Real.log (pdet (wsum S (Function.update ρ i t)))) (γ ρ i) (ρ i)) ∧
      ∀ ρ i j (G : Matrix n n ℝ), wsum S ρ * G * wsum S ρ = wsum S ρ →
        HasDerivAt (fun t => γ (Function.update ρ j t) i)
          ((if i = j then Real.exp (ρ i) * (G * S i).trace else 0)
            - Real.exp (ρ i) * Real.exp (ρ j) * (G * S j * G * S i).trace) (ρ j) := by
  obtain ⟨r, _, _, U, hU, hker⟩ := range_basis (wsum S 0) (wsum_psd S hS 0)
  have hall : ∀ v, Uᵀ *ᵥ v = 0 ↔ ∀ k, S k *ᵥ v = 0 := fun v => (hker v).trans (wsum_kernel S hS 0 v)
  set T : κ → Matrix r r ℝ := fun k => Uᵀ * S k * U with hT
  have hA : ∀ ρ', Uᵀ * wsum S ρ' * U = 0 + wsum T ρ' := fun ρ' => by
    rw [zero_add, wsum, wsum, Matrix.mul_sum, Matrix.sum_mul]
    refine Finset.sum_congr rfl fun k _ => ?_
    rw [Matrix.mul_smul, Matrix.smul_mul]
  have hrep : ∀ ρ', wsum S ρ' = U * (0 + wsum T ρ') * Uᵀ := fun ρ' => by
    rw [← hA]
    exact compress U hU _ (psd_symm (wsum_psd S hS ρ')) fun v hv => (wsum_kernel S hS ρ' v).2 ((hall v).1 hv)
  have hpd : ∀ ρ', (0 + wsum T ρ').PosDef := fun ρ' => by
    rw [← hA]
    exact compress_pd U hU _ (wsum_psd S hS ρ') fun v hv => (hall v).2 ((wsum_kernel S hS ρ' v).1 hv)
  have hj : ∀ k, S k = U * T k * Uᵀ := fun k => compress U hU _ (psd_symm (hS k)) fun v hv => (hall v).1 hv k
  refine ⟨fun ρ i => Real.exp (ρ i) * ((0 + wsum T ρ)⁻¹ * T i).trace, ?_, ?_⟩
  · intro ρ i
    have h := logdet_deriv 0 T ρ (hpd ρ).det_pos.ne' i
    refine h.congr_of_eventuallyEq (Filter.Eventually.of_forall fun t => ?_)
    show Real.log (pdet (wsum S (Function.update ρ i t))) = Real.log (0 + wsum T (Function.update ρ i t)).det
    rw [hrep, pdet_compress U hU _ (hpd _)]
  · intro ρ i j G hG
    have h := logdet_second 0 T ρ (isUnit_iff_ne_zero.2 (hpd ρ).det_pos.ne') i j
    refine h.congr_deriv ?_
    have hG' := ginv_compress U hU (0 + wsum T ρ) (isUnit_iff_ne_zero.2 (hpd ρ).det_pos.ne') G
      (by rw [← hrep ρ]; exact hG)
    have e1 : ((0 + wsum T ρ)⁻¹ * T i).trace = (G * S i).trace := by
      rw [← hG']
      conv_rhs => rw [hj i]
      rw [Matrix.mul_assoc, Matrix.mul_assoc, Matrix.trace_mul_comm]
      simp only [Matrix.mul_assoc]
    have e2 : ((0 + wsum T ρ)⁻¹ * T j * (0 + wsum T ρ)⁻¹ * T i).trace = (G * S j * G * S i).trace := by
      rw [← hG']
      conv_rhs => rw [hj i, hj j]
      have : Uᵀ * G * U * T j * (Uᵀ * G * U) * T i = Uᵀ * (G * U * T j * Uᵀ * G * U * T i) := by
        simp only [Matrix.mul_assoc]
      rw [this, Matrix.trace_mul_comm]
      simp only [Matrix.mul_assoc]
    rw [e1, e2]

/-- A penalty whose group does not overlap with that of another one. -/
theorem separated_zero (S : κ → Matrix n n ℝ) (hS : ∀ k, (S k).PosSemidef) (ρ : κ → ℝ) (start : κ → ℕ)
    (hsep : ∀ i j, start i ≠ start j → S i * S j = 0) (i j : κ) (hij : start i ≠ start j)
    (G : Matrix n n ℝ) (hG : wsum S ρ * G * wsum S ρ = wsum S ρ) : S i * G * S j = 0 := by
  -- the group of `i` and the rest
  set T : κ → Matrix n n ℝ := fun k => if start k = start i then S k else 0 with hTd
  set T' : κ → Matrix n n ℝ := fun k => if start k = start i then 0 else S k with hTd'
  have hT : ∀ k, (T k).PosSemidef := fun k => by
    simp only [hTd]; split_ifs
    · exact hS k
    · exact PosSemidef.zero
  have hT' : ∀ k, (T' k).PosSemidef := fun k => by
    simp only [hTd']; split_ifs
    · exact PosSemidef.zero
    · exact hS k
  have hsum : wsum S ρ = wsum T ρ + wsum T' ρ := by
    unfold wsum
    rw [← Finset.sum_add_distrib]
    refine Finset.sum_congr rfl fun k _ => ?_
    simp only [hTd, hTd']
    split_ifs <;> simp
  have hcross : wsum T ρ * wsum T' ρ = 0 := by
    unfold wsum
    rw [Finset.sum_mul]
    refine Finset.sum_eq_zero fun k _ => ?_
    rw [Finset.mul_sum]
    refine Finset.sum_eq_zero fun l _ => ?_
    rw [Matrix.smul_mul, Matrix.mul_smul]
    simp only [hTd, hTd']
    split_ifs with h1 h2
    · simp
    · rw [hsep k l (fun h => h2 (h ▸ h1)), smul_zero, smul_zero]
    · simp
    · simp
  have hcross' : wsum T' ρ * wsum T ρ = 0 := by
    have := congrArg Matrix.transpose hcross
    rwa [Matrix.transpose_mul, psd_symm (wsum_psd T hT ρ), psd_symm (wsum_psd T' hT' ρ), Matrix.transpose_zero] at this
  -- every member of a group factors through the sum over the group
  have key : ∀ (P : κ → Matrix n n ℝ), (∀ k, (P k).PosSemidef) → ∀ k, ∃ X, P k = X * wsum P ρ := by
    intro P hP k
    obtain ⟨r, _, _, U, hU, hker⟩ := range_basis (wsum P ρ) (wsum_psd P hP ρ)
    have hc := compress U hU _ (psd_symm (wsum_psd P hP ρ)) fun v hv => (hker v).1 hv
    have hk := compress U hU _ (psd_symm (hP k)) fun v hv => (wsum_kernel P hP ρ v).1 ((hker v).1 hv) k
    have hpd := compress_pd U hU _ (wsum_psd P hP ρ) fun v hv => (hker v).2 hv
    set A := Uᵀ * wsum P ρ * U
    refine ⟨U * (Uᵀ * P k * U) * A⁻¹ * Uᵀ, ?_⟩
    have : U * (Uᵀ * P k * U) * A⁻¹ * Uᵀ * (U * A * Uᵀ) = U * (Uᵀ * P k * U) * (A⁻¹ * ((Uᵀ * U) * A)) * Uᵀ := by
      simp only [Matrix.mul_assoc]
    rw [hc, this, hU, Matrix.one_mul, Matrix.nonsing_inv_mul _ (isUnit_iff_ne_zero.2 hpd.det_pos.ne'), Matrix.mul_one]
    exact hk
  obtain ⟨X, hX⟩ := key T hT i
  obtain ⟨Y, hY⟩ := key T' hT' j
  have hi : T i = S i := by simp only [hTd, if_true]
  have hj : T' j = S j := by simp only [hTd']; rw [if_neg (fun h => hij h.symm)]
  rw [hi] at hX
  rw [hj] at hY
  have hY' : S j = wsum T' ρ * Yᵀ := by
    have := congrArg Matrix.transpose hY
    rwa [Matrix.transpose_mul, psd_symm (hS j), psd_symm (wsum_psd T' hT' ρ)] at this
  -- replace the group sums by projections of the whole sum
  have proj : ∀ (P P' : κ → Matrix n n ℝ), (∀ k, (P k).PosSemidef) → wsum P ρ * wsum P' ρ = 0 →
      ∃ E, wsum P ρ = E * (wsum P ρ + wsum P' ρ) ∧ E * wsum P' ρ = 0 := by
    intro P P' hP h0
    obtain ⟨r, _, _, U, hU, hker⟩ := range_basis (wsum P ρ) (wsum_psd P hP ρ)
    have hc := compress U hU _ (psd_symm (wsum_psd P hP ρ)) fun v hv => (hker v).1 hv
    have hz : Uᵀ * wsum P' ρ = 0 := by
      refine Matrix.ext_of_mulVec_single fun c => ?_
      rw [← mulVec_mulVec, zero_mulVec]
      refine (hker _).2 ?_
      rw [mulVec_mulVec, h0, zero_mulVec]
    refine ⟨U * Uᵀ, ?_, by rw [Matrix.mul_assoc, hz, Matrix.mul_zero]⟩
    rw [Matrix.mul_add, Matrix.mul_assoc U Uᵀ (wsum P' ρ), hz, Matrix.mul_zero, add_zero]
    conv_rhs => rw [hc]
    have : U * Uᵀ * (U * (Uᵀ * wsum P ρ * U) * Uᵀ) = U * (Uᵀ * U) * (Uᵀ * wsum P ρ * U) * Uᵀ := by
      simp only [Matrix.mul_assoc]
    rw [this, hU, Matrix.mul_one]
    exact hc
  obtain ⟨E, hE, hE0⟩ := proj T T' hT hcross
  obtain ⟨F, hF, _⟩ := proj T' T hT' hcross'
  have hF' : wsum T' ρ = wsum S ρ * Fᵀ := by
    have := congrArg Matrix.transpose hF
    rwa [Matrix.transpose_mul, Matrix.transpose_add, psd_symm (wsum_psd T hT ρ), psd_symm (wsum_psd T' hT' ρ),
      add_comm, ← hsum] at this
  rw [← hsum] at hE
  calc S i * G * S j = X * (E * wsum S ρ) * G * ((wsum S ρ * Fᵀ) * Yᵀ) := by rw [← hE, ← hX, ← hF', ← hY']
    _ = X * (E * (wsum S ρ * G * wsum S ρ * Fᵀ)) * Yᵀ := by simp only [Matrix.mul_assoc]
    _ = X * (E * wsum T' ρ) * Yᵀ := by rw [hG, ← hF']
    _ = 0 := by rw [hE0, Matrix.mul_zero, Matrix.zero_mul]

end groups

end Verif.Wps
