import Verif.Reml
import Mathlib.LinearAlgebra.Matrix.Charpoly.Coeff
import Mathlib.Analysis.Calculus.Deriv.Polynomial
import Mathlib.Analysis.Calculus.Deriv.Comp
import Mathlib.Analysis.SpecialFunctions.Log.Deriv
import Mathlib.Analysis.SpecialFunctions.ExpDeriv
import Mathlib.LinearAlgebra.Matrix.NonsingularInverse
import Mathlib.LinearAlgebra.Matrix.Rank
import Mathlib.Analysis.Matrix.Order

/-!
# Derivative of the log generalised determinant of a weighted sum of penalties (helper lemmas for C69)
-/

namespace Verif.LogDet

open Matrix Polynomial Verif.Reml

variable {n : Type} [Fintype n] [DecidableEq n]

/-- Orthonormal columns spanning the orthogonal complement of the kernel. -/
theorem range_basis (T : Matrix n n ℝ) (hT : T.PosSemidef) :
    ∃ (r : Type) (_ : Fintype r) (_ : DecidableEq r) (U : Matrix n r ℝ), Uᵀ * U = 1 ∧
      ∀ v : n → ℝ, Uᵀ *ᵥ v = 0 ↔ T *ᵥ v = 0 := by
  classical
  set V : Matrix n n ℝ := (hT.1.eigenvectorUnitary : Matrix n n ℝ) with hV
  have hVV : Vᵀ * V = 1 := by
    have := Unitary.coe_star_mul_self hT.1.eigenvectorUnitary
    rwa [star_eq_conjTranspose, conjTranspose_eq_transpose_of_trivial] at this
  have hTV : T = V * diagonal hT.1.eigenvalues * Vᵀ := by
    have := hT.1.spectral_theorem
    rw [Unitary.conjStarAlgAut_apply, star_eq_conjTranspose, conjTranspose_eq_transpose_of_trivial] at this
    exact this
  have hdv : ∀ v, T *ᵥ v = 0 ↔ ∀ i, hT.1.eigenvalues i * (Vᵀ *ᵥ v) i = 0 := by
    intro v
    constructor
    · intro h i
      have h1 : Vᵀ *ᵥ (T *ᵥ v) = 0 := by rw [h, mulVec_zero]
      rw [hTV, ← mulVec_mulVec, ← mulVec_mulVec, mulVec_mulVec, hVV, one_mulVec] at h1
      have := congrFun h1 i
      rwa [mulVec_diagonal] at this
    · intro h
      have h1 : diagonal hT.1.eigenvalues *ᵥ (Vᵀ *ᵥ v) = 0 := by
        funext i
        rw [mulVec_diagonal]
        exact h i
      rw [hTV, ← mulVec_mulVec, ← mulVec_mulVec, h1, mulVec_zero]
  refine ⟨{i : n // hT.1.eigenvalues i ≠ 0}, inferInstance, inferInstance,
    V.submatrix id Subtype.val, ?_, ?_⟩
  · have := congrArg (fun M : Matrix n n ℝ => M.submatrix
      (Subtype.val : {i : n // hT.1.eigenvalues i ≠ 0} → n) (Subtype.val : {i : n // hT.1.eigenvalues i ≠ 0} → n)) hVV
    simp only [submatrix_one _ Subtype.val_injective] at this
    rw [← this]
    rfl
  · intro v
    rw [hdv]
    have hU : ∀ i : {i : n // hT.1.eigenvalues i ≠ 0},
        ((V.submatrix id Subtype.val)ᵀ *ᵥ v) i = (Vᵀ *ᵥ v) i := fun i => rfl
    constructor
    · intro h i
      by_cases hi : hT.1.eigenvalues i = 0
      · rw [hi, zero_mul]
      · have := congrFun h ⟨i, hi⟩
        rw [hU] at this
        rw [this]
        exact mul_zero _
    · intro h
      funext i
      rw [hU]
      exact (mul_eq_zero.1 (h i)).resolve_left i.2

variable {r : Type} [Fintype r] [DecidableEq r]

theorem compress (U : Matrix n r ℝ) (hU : Uᵀ * U = 1) (S : Matrix n n ℝ) (hS : Sᵀ = S)
    (hk : ∀ v : n → ℝ, Uᵀ *ᵥ v = 0 → S *ᵥ v = 0) : S = U * (Uᵀ * S * U) * Uᵀ := by
  have h1 : S * (1 - U * Uᵀ) = 0 := by
    refine Matrix.ext_of_mulVec_single fun j => ?_
    rw [← mulVec_mulVec, zero_mulVec]
    refine hk _ ?_
    rw [mulVec_mulVec, Matrix.mul_sub, ← Matrix.mul_assoc, hU, Matrix.one_mul, Matrix.mul_one, sub_self, zero_mulVec]
  have h2 : S = S * (U * Uᵀ) := by
    rw [Matrix.mul_sub, Matrix.mul_one, sub_eq_zero] at h1
    exact h1
  have h3 : S = U * Uᵀ * S := by
    have := congrArg Matrix.transpose h2
    rw [Matrix.transpose_mul, Matrix.transpose_mul, Matrix.transpose_transpose, hS] at this
    exact this
  calc S = S * (U * Uᵀ) := h2
    _ = (U * Uᵀ * S) * (U * Uᵀ) := by rw [← h3]
    _ = _ := by simp only [Matrix.mul_assoc]

/-- Generalised determinant of a matrix supported on the span of orthonormal columns. -/
theorem pdet_compress (U : Matrix n r ℝ) (hU : Uᵀ * U = 1) (A : Matrix r r ℝ) (hA : A.PosDef) :
    pdet (U * A * Uᵀ) = A.det := by
  have h : X ^ Fintype.card r * (U * A * Uᵀ).charpoly = X ^ Fintype.card n * A.charpoly := by
    have := charpoly_mul_comm' U (A * Uᵀ)
    rw [Matrix.mul_assoc A, hU, Matrix.mul_one, ← Matrix.mul_assoc] at this
    exact this
  have h1 := congrArg nzProd h
  rw [nzProd_mul _ _ (pow_ne_zero _ X_ne_zero) (charpoly_monic _).ne_zero,
    nzProd_mul _ _ (pow_ne_zero _ X_ne_zero) (charpoly_monic _).ne_zero, nzProd_X_pow, nzProd_X_pow,
    one_mul, one_mul, nzProd_posDef A hA] at h1
  exact h1

/-- Derivative of the determinant along a line. -/
theorem hasDerivAt_det_line (A B : Matrix r r ℝ) (hA : A.det ≠ 0) :
    HasDerivAt (fun x : ℝ => (A + x • B).det) (A.det * (A⁻¹ * B).trace) 0 := by
  have hu : IsUnit A.det := isUnit_iff_ne_zero.2 hA
  have h1 : ∀ x : ℝ, (A + x • B).det
      = A.det * (det (1 + (X : ℝ[X]) • (A⁻¹ * B).map C)).eval x := by
    intro x
    have : A + x • B = A * (1 + x • (A⁻¹ * B)) := by
      rw [Matrix.mul_add, Matrix.mul_one, Matrix.mul_smul, ← Matrix.mul_assoc, Matrix.mul_nonsing_inv _ hu,
        Matrix.one_mul]
    rw [this, det_mul, ← Polynomial.coe_evalRingHom, RingHom.map_det]
    congr 2
    ext i j
    simp only [RingHom.mapMatrix_apply, Matrix.add_apply, Matrix.smul_apply, Matrix.map_apply, map_add,
      smul_eq_mul, Polynomial.coe_evalRingHom]
    by_cases hij : i = j
    · subst hij
      simp
      exact mul_comm _ _
    · simp [hij]
      exact mul_comm _ _
  have h2 := ((det (1 + (X : ℝ[X]) • (A⁻¹ * B).map C)).hasDerivAt 0).const_mul A.det
  rw [derivative_det_one_add_X_smul] at h2
  exact h2.congr_of_eventuallyEq (Filter.Eventually.of_forall h1)

/-- Symmetric positive semi-definite matrices: the form vanishes only on the kernel. -/
theorem psd_kernel (S : Matrix n n ℝ) (hS : S.PosSemidef) (v : n → ℝ) (h : v ⬝ᵥ S *ᵥ v = 0) : S *ᵥ v = 0 := by
  have := (hS.dotProduct_mulVec_zero_iff v).1 (by simpa using h)
  exact this

/-! ## Weighted sums of penalties -/

variable {κ : Type} [Fintype κ] [DecidableEq κ]

/-- `∑ exp(ρ_k) S_k`. -/
noncomputable def wsum (S : κ → Matrix n n ℝ) (ρ : κ → ℝ) : Matrix n n ℝ := ∑ k, Real.exp (ρ k) • S k

theorem wsum_psd (S : κ → Matrix n n ℝ) (hS : ∀ k, (S k).PosSemidef) (ρ : κ → ℝ) : (wsum S ρ).PosSemidef :=
  posSemidef_sum _ fun k _ => (hS k).smul (Real.exp_pos _).le

theorem wsum_kernel (S : κ → Matrix n n ℝ) (hS : ∀ k, (S k).PosSemidef) (ρ : κ → ℝ) (v : n → ℝ) :
    wsum S ρ *ᵥ v = 0 ↔ ∀ k, S k *ᵥ v = 0 := by
  constructor
  · intro h k
    have h0 : ∑ k, Real.exp (ρ k) * (v ⬝ᵥ S k *ᵥ v) = 0 := by
      have : v ⬝ᵥ wsum S ρ *ᵥ v = 0 := by rw [h, dotProduct_zero]
      rw [wsum, Matrix.sum_mulVec, dotProduct_sum] at this
      rw [← this]
      exact Finset.sum_congr rfl fun k _ => by rw [smul_mulVec, dotProduct_smul, smul_eq_mul]
    have hn : ∀ k, 0 ≤ v ⬝ᵥ S k *ᵥ v := fun k => by simpa using (hS k).dotProduct_mulVec_nonneg v
    have := (Finset.sum_eq_zero_iff_of_nonneg fun k _ => mul_nonneg (Real.exp_pos (ρ k)).le (hn k)).1 h0 k
      (Finset.mem_univ k)
    exact psd_kernel _ (hS k) v ((mul_eq_zero.1 this).resolve_left (Real.exp_pos _).ne')
  · intro h
    rw [wsum, Matrix.sum_mulVec]
    exact Finset.sum_eq_zero fun k _ => by rw [smul_mulVec, h k, smul_zero]

theorem wsum_update (S : κ → Matrix n n ℝ) (ρ : κ → ℝ) (j : κ) (t : ℝ) :
    wsum S (Function.update ρ j t) = wsum S ρ + (Real.exp t - Real.exp (ρ j)) • S j := by
  unfold wsum
  rw [← Finset.add_sum_erase _ _ (Finset.mem_univ j), ← Finset.add_sum_erase _ _ (Finset.mem_univ j),
    Function.update_self, sub_smul]
  have : ∑ x ∈ Finset.univ.erase j, Real.exp (Function.update ρ j t x) • S x
      = ∑ x ∈ Finset.univ.erase j, Real.exp (ρ x) • S x :=
    Finset.sum_congr rfl fun k hk => by rw [Function.update_of_ne (Finset.ne_of_mem_erase hk)]
  rw [this]
  abel

theorem compress_pd (U : Matrix n r ℝ) (hU : Uᵀ * U = 1) (S : Matrix n n ℝ) (hS : S.PosSemidef)
    (hk : ∀ v : n → ℝ, S *ᵥ v = 0 → Uᵀ *ᵥ v = 0) : (Uᵀ * S * U).PosDef := by
  have hsym : Sᵀ = S := by
    have := hS.1.eq
    rwa [conjTranspose_eq_transpose_of_trivial] at this
  refine PosDef.of_dotProduct_mulVec_pos ?_ ?_
  · rw [IsHermitian, conjTranspose_eq_transpose_of_trivial, Matrix.transpose_mul, Matrix.transpose_mul,
      Matrix.transpose_transpose, hsym, Matrix.mul_assoc]
  · intro x hx
    have e : star x ⬝ᵥ (Uᵀ * S * U) *ᵥ x = (U *ᵥ x) ⬝ᵥ S *ᵥ (U *ᵥ x) := by
      rw [star_trivial, ← mulVec_mulVec, ← mulVec_mulVec, dotProduct_mulVec, vecMul_transpose]
    rw [e]
    refine lt_of_le_of_ne (by simpa using hS.dotProduct_mulVec_nonneg (U *ᵥ x)) fun h => hx ?_
    have := hk _ (psd_kernel S hS _ h.symm)
    rwa [mulVec_mulVec, hU, one_mulVec] at this

theorem ginv_compress (U : Matrix n r ℝ) (hU : Uᵀ * U = 1) (A : Matrix r r ℝ) (hA : IsUnit A.det)
    (G : Matrix n n ℝ) (hG : (U * A * Uᵀ) * G * (U * A * Uᵀ) = U * A * Uᵀ) : Uᵀ * G * U = A⁻¹ := by
  have h1 := congrArg (fun M => Uᵀ * M * U) hG
  have e : Uᵀ * (U * A * Uᵀ * G * (U * A * Uᵀ)) * U = (Uᵀ * U) * A * (Uᵀ * G * U) * A * (Uᵀ * U) := by
    simp only [Matrix.mul_assoc]
  have e2 : Uᵀ * (U * A * Uᵀ) * U = (Uᵀ * U) * A * (Uᵀ * U) := by simp only [Matrix.mul_assoc]
  rw [e, e2, hU, Matrix.one_mul, Matrix.mul_one, Matrix.mul_one] at h1
  have h2 : A * (Uᵀ * G * U) = 1 := by
    have : A * (Uᵀ * G * U) * A * A⁻¹ = A * A⁻¹ := by rw [h1]
    rwa [Matrix.mul_assoc, Matrix.mul_nonsing_inv _ hA, Matrix.mul_one] at this
  exact (Matrix.inv_eq_right_inv h2).symm

/-- Derivative of the log generalised determinant in one log weight, with any generalised inverse. -/
theorem hasDerivAt_log_pdet (S : κ → Matrix n n ℝ) (hS : ∀ k, (S k).PosSemidef) (ρ : κ → ℝ) (j : κ)
    (G : Matrix n n ℝ) (hG : wsum S ρ * G * wsum S ρ = wsum S ρ) :
    HasDerivAt (fun t => Real.log (pdet (wsum S (Function.update ρ j t))))
      (Real.exp (ρ j) * (S j * G).trace) (ρ j) := by
  obtain ⟨r, _, _, U, hU, hker⟩ := range_basis (wsum S ρ) (wsum_psd S hS ρ)
  have hsym : ∀ ρ', (wsum S ρ')ᵀ = wsum S ρ' := fun ρ' => by
    have := (wsum_psd S hS ρ').1.eq
    rwa [conjTranspose_eq_transpose_of_trivial] at this
  have hsymj : (S j)ᵀ = S j := by
    have := (hS j).1.eq
    rwa [conjTranspose_eq_transpose_of_trivial] at this
  have hall : ∀ v, Uᵀ *ᵥ v = 0 ↔ ∀ k, S k *ᵥ v = 0 := fun v => (hker v).trans (wsum_kernel S hS ρ v)
  set A : (κ → ℝ) → Matrix r r ℝ := fun ρ' => Uᵀ * wsum S ρ' * U with hAdef
  set B : Matrix r r ℝ := Uᵀ * S j * U with hBdef
  have hrep : ∀ ρ', wsum S ρ' = U * A ρ' * Uᵀ := fun ρ' =>
    compress U hU _ (hsym ρ') fun v hv => (wsum_kernel S hS ρ' v).2 ((hall v).1 hv)
  have hpd : ∀ ρ', (A ρ').PosDef := fun ρ' =>
    compress_pd U hU _ (wsum_psd S hS ρ') fun v hv => (hall v).2 ((wsum_kernel S hS ρ' v).1 hv)
  have hdet : ∀ ρ', pdet (wsum S ρ') = (A ρ').det := fun ρ' => by
    rw [hrep ρ', pdet_compress U hU _ (hpd ρ')]
  have hAt : ∀ t, A (Function.update ρ j t) = A ρ + (Real.exp t - Real.exp (ρ j)) • B := by
    intro t
    rw [hAdef]
    simp only
    rw [wsum_update, Matrix.mul_add, Matrix.add_mul, Matrix.mul_smul, Matrix.smul_mul]
  have hne : (A ρ).det ≠ 0 := (hpd ρ).det_pos.ne'
  have h1 := hasDerivAt_det_line (A ρ) B hne
  have hx : HasDerivAt (fun t => Real.exp t - Real.exp (ρ j)) (Real.exp (ρ j)) (ρ j) :=
    (Real.hasDerivAt_exp (ρ j)).sub_const _
  have h1' : HasDerivAt (fun x : ℝ => (A ρ + x • B).det) ((A ρ).det * ((A ρ)⁻¹ * B).trace)
      ((fun t => Real.exp t - Real.exp (ρ j)) (ρ j)) := by
    simpa using h1
  have h2 := h1'.comp (ρ j) hx
  have h3 := h2.log (by simpa using hne)
  have hf : (fun t => Real.log (pdet (wsum S (Function.update ρ j t))))
      = fun t => Real.log (((fun x : ℝ => (A ρ + x • B).det) ∘ fun t => Real.exp t - Real.exp (ρ j)) t) := by
    funext t
    rw [hdet, hAt]
    rfl
  rw [hf]
  refine h3.congr_deriv ?_
  have hG' := ginv_compress U hU (A ρ) (isUnit_iff_ne_zero.2 hne) G (by rw [← hrep ρ]; exact hG)
  have htr : (S j * G).trace = ((A ρ)⁻¹ * B).trace := by
    have hj : S j = U * B * Uᵀ := compress U hU _ hsymj fun v hv => (hall v).1 hv j
    rw [← hG', Matrix.trace_mul_comm _ B]
    conv_lhs => rw [hj]
    rw [Matrix.mul_assoc, Matrix.mul_assoc, Matrix.trace_mul_comm]
    simp only [Matrix.mul_assoc]
  rw [htr]
  simp only [Function.comp_apply, sub_self, zero_smul, add_zero]
  field_simp

/-- If no other penalty shares coefficients with penalty `j`, the trace is its rank. -/
theorem trace_rank (S : κ → Matrix n n ℝ) (hS : ∀ k, (S k).PosSemidef) (ρ : κ → ℝ) (j : κ)
    (hd : ∀ k, k ≠ j → S k * S j = 0) (G : Matrix n n ℝ) (hG : wsum S ρ * G * wsum S ρ = wsum S ρ) :
    Real.exp (ρ j) * (S j * G).trace = (S j).rank := by
  obtain ⟨r, _, _, U, hU, hker⟩ := range_basis (S j) (hS j)
  have hsymj : ∀ k, (S k)ᵀ = S k := fun k => by
    have := (hS k).1.eq
    rwa [conjTranspose_eq_transpose_of_trivial] at this
  set A : Matrix r r ℝ := Uᵀ * S j * U with hA
  have hrep : S j = U * A * Uᵀ := compress U hU _ (hsymj j) fun v hv => (hker v).1 hv
  have hpd : A.PosDef := compress_pd U hU _ (hS j) fun v hv => (hker v).2 hv
  have hu : IsUnit A.det := isUnit_iff_ne_zero.2 hpd.det_pos.ne'
  set l := Real.exp (ρ j) with hl
  have hl0 : l ≠ 0 := (Real.exp_pos _).ne'
  have hright : wsum S ρ * S j = l • (S j * S j) := by
    unfold wsum
    rw [Matrix.sum_mul, Finset.sum_eq_single j]
    · rw [Matrix.smul_mul]
    · intro k _ hk
      rw [Matrix.smul_mul, hd k hk, smul_zero]
    · intro h; exact absurd (Finset.mem_univ j) h
  have hleft : S j * wsum S ρ = l • (S j * S j) := by
    have := congrArg Matrix.transpose hright
    have hw : (wsum S ρ)ᵀ = wsum S ρ := by
      have := (wsum_psd S hS ρ).1.eq
      rwa [conjTranspose_eq_transpose_of_trivial] at this
    rw [Matrix.transpose_mul, Matrix.transpose_smul, Matrix.transpose_mul, hsymj, hw] at this
    exact this
  have h1 : (l • (S j * S j)) * G * (l • (S j * S j)) = l • (S j * S j) * S j := by
    rw [← hleft]
    nth_rw 2 [hleft]
    rw [← hright]
    have := congrArg (fun M => S j * M * S j) hG
    calc S j * wsum S ρ * G * (wsum S ρ * S j) = S j * (wsum S ρ * G * wsum S ρ) * S j := by
          simp only [Matrix.mul_assoc]
      _ = _ := this
  have hAA : ∀ B C : Matrix r r ℝ, (U * B * Uᵀ) * (U * C * Uᵀ) = U * (B * C) * Uᵀ := by
    intro B C
    calc (U * B * Uᵀ) * (U * C * Uᵀ) = U * B * (Uᵀ * U) * C * Uᵀ := by simp only [Matrix.mul_assoc]
      _ = _ := by rw [hU, Matrix.mul_one]; simp only [Matrix.mul_assoc]
  have hSS : S j * S j = U * (A * A) * Uᵀ := by
    conv_lhs => rw [hrep]
    rw [hAA]
  have h2 : l • (Uᵀ * G * U) = A⁻¹ := by
    have h := congrArg (fun M => Uᵀ * M * U) h1
    have e1 : Uᵀ * (l • (S j * S j) * G * l • (S j * S j)) * U
        = (l * l) • ((A * A) * (Uᵀ * G * U) * (A * A)) := by
      rw [hSS]
      simp only [Matrix.smul_mul, Matrix.mul_smul, smul_smul]
      congr 1
      calc Uᵀ * (U * (A * A) * Uᵀ * G * (U * (A * A) * Uᵀ)) * U
          = (Uᵀ * U) * (A * A) * (Uᵀ * G * U) * (A * A) * (Uᵀ * U) := by simp only [Matrix.mul_assoc]
        _ = _ := by rw [hU, Matrix.one_mul, Matrix.mul_one]
    have e2 : Uᵀ * (l • (S j * S j) * S j) * U = l • (A * A * A) := by
      rw [Matrix.smul_mul, Matrix.mul_smul, Matrix.smul_mul, hSS]
      conv_lhs => rw [hrep]
      rw [hAA]
      congr 1
      calc Uᵀ * (U * (A * A * A) * Uᵀ) * U = (Uᵀ * U) * (A * A * A) * (Uᵀ * U) := by simp only [Matrix.mul_assoc]
        _ = _ := by rw [hU, Matrix.one_mul, Matrix.mul_one]
    rw [e1, e2, mul_smul] at h
    have h' := smul_right_injective _ hl0 h
    have h3 := congrArg (fun M => A⁻¹ * A⁻¹ * M * A⁻¹ * A⁻¹) h'
    have e3 : A⁻¹ * A⁻¹ * (l • ((A * A) * (Uᵀ * G * U) * (A * A))) * A⁻¹ * A⁻¹ = l • (Uᵀ * G * U) := by
      simp only [Matrix.mul_smul, Matrix.smul_mul]
      congr 1
      calc A⁻¹ * A⁻¹ * (A * A * (Uᵀ * G * U) * (A * A)) * A⁻¹ * A⁻¹
          = A⁻¹ * (A⁻¹ * A) * A * (Uᵀ * G * U) * A * (A * A⁻¹) * A⁻¹ := by simp only [Matrix.mul_assoc]
        _ = (A⁻¹ * A) * (Uᵀ * G * U) * (A * A⁻¹) := by
            rw [Matrix.nonsing_inv_mul _ hu, Matrix.mul_nonsing_inv _ hu, Matrix.mul_one, Matrix.mul_one]
            rw [Matrix.nonsing_inv_mul _ hu]
            simp only [Matrix.mul_assoc, Matrix.mul_nonsing_inv _ hu]
        _ = _ := by rw [Matrix.nonsing_inv_mul _ hu, Matrix.mul_nonsing_inv _ hu, Matrix.one_mul, Matrix.mul_one]
    have e4 : A⁻¹ * A⁻¹ * (A * A * A) * A⁻¹ * A⁻¹ = A⁻¹ := by
      calc A⁻¹ * A⁻¹ * (A * A * A) * A⁻¹ * A⁻¹ = A⁻¹ * (A⁻¹ * A) * A * (A * A⁻¹) * A⁻¹ := by
            simp only [Matrix.mul_assoc]
        _ = A⁻¹ := by
            rw [Matrix.nonsing_inv_mul _ hu, Matrix.mul_nonsing_inv _ hu, Matrix.mul_one, Matrix.mul_one,
              Matrix.nonsing_inv_mul _ hu, Matrix.one_mul]
    rw [e3, e4] at h3
    exact h3
  have hrank : (S j).rank = Fintype.card r := by
    refine le_antisymm ?_ ?_
    · rw [hrep, Matrix.mul_assoc]
      refine (Matrix.rank_mul_le_left _ _).trans ?_
      exact Matrix.rank_le_card_width U
    · have hr : A.rank = Fintype.card r := Matrix.rank_of_isUnit A ((Matrix.isUnit_iff_isUnit_det A).2 hu)
      rw [← hr, hA]
      exact (Matrix.rank_mul_le_left _ _).trans (Matrix.rank_mul_le_right _ _)
  have htr : (S j * G).trace = (A * (Uᵀ * G * U)).trace := by
    conv_lhs => rw [hrep]
    rw [Matrix.mul_assoc, Matrix.mul_assoc, Matrix.trace_mul_comm]
    simp only [Matrix.mul_assoc]
  rw [htr, hrank, ← smul_eq_mul, ← Matrix.trace_smul, ← Matrix.mul_smul, h2, Matrix.mul_nonsing_inv _ hu,
    Matrix.trace_one]

end Verif.LogDet
