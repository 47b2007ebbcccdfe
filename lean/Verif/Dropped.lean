import Verif.DroppedModel
import Mathlib.LinearAlgebra.Matrix.Notation
import Mathlib.LinearAlgebra.Matrix.NonsingularInverse
import Mathlib.Tactic.Linarith
import Mathlib.Tactic.NormNum
import Mathlib.Tactic.FinCases
import Mathlib.Tactic.Ring

/-!
# Which coefficients were dropped (C95)
-/

namespace Verif.Dropped
open Matrix

variable {n r : Type} [Fintype n] [DecidableEq n]

theorem padV_out (K : Finset n) (b : K → ℝ) {j : n} (h : j ∉ K) : padV K b j = 0 := by simp [padV, h]

theorem padM_row (K : Finset n) (A : Matrix K K ℝ) {j : n} (h : j ∉ K) (i : n) : padM K A j i = 0 := by
  simp [padM, h]

theorem padM_col (K : Finset n) (A : Matrix K K ℝ) {j : n} (h : j ∉ K) (i : n) : padM K A i j = 0 := by
  simp [padM, h]

theorem mem_dropped (Q : Matrix n n ℝ) (K : Finset n) (b : K → ℝ) (Hr LVr : Matrix K K ℝ) (j : n) :
    j ∈ (finish Q K b Hr LVr).dropped ↔ j ∉ K := by simp [finish]

/-- Sum over everything of a function that vanishes outside `K`. -/
theorem sum_pad (K : Finset n) (f : n → ℝ) (h : ∀ j, j ∉ K → f j = 0) : ∑ j, f j = ∑ j : K, f j.1 := by
  rw [← Finset.sum_subset (Finset.subset_univ K) (fun j _ hj => h j hj), ← Finset.sum_coe_sort K]

theorem pad_mulVec (M : Matrix r n ℝ) (K : Finset n) (b : K → ℝ) :
    M *ᵥ padV K b = M.submatrix id (Subtype.val : K → n) *ᵥ b := by
  funext i
  simp only [mulVec, dotProduct, submatrix_apply, id]
  rw [sum_pad K _ (fun j hj => by rw [padV_out K b hj, mul_zero])]
  apply Finset.sum_congr rfl
  intro j _
  simp [padV, j.2]

/-- **C95, what has been removed.**  In the direction of column `j` of `Q`, `j` dropped, the coefficients
are zero, their covariance `LV.T LV` is zero and so is the Hessian. -/
theorem removed_directions (Q : Matrix n n ℝ) (hQ : Qᵀ * Q = 1) (K : Finset n) (b : K → ℝ) (Hr LVr : Matrix K K ℝ)
    (j : n) (hj : j ∈ (finish Q K b Hr LVr).dropped) :
    (Qᵀ *ᵥ (finish Q K b Hr LVr).coef) j = 0 ∧ (∀ i, ((finish Q K b Hr LVr).H * Q) i j = 0) ∧
      ∀ i, ((finish Q K b Hr LVr).LV * Q) i j = 0 := by
  have hj' := (mem_dropped Q K b Hr LVr j).mp hj
  refine ⟨?_, fun i => ?_, fun i => ?_⟩
  · simp only [finish]
    rw [mulVec_mulVec, hQ, one_mulVec, padV_out K b hj']
  · simp only [finish]
    rw [Matrix.mul_assoc, hQ, Matrix.mul_one, Matrix.mul_apply]
    exact Finset.sum_eq_zero fun l _ => by rw [padM_col K Hr hj', mul_zero]
  · simp only [finish]
    rw [Matrix.mul_assoc, hQ, Matrix.mul_one, padM_col K LVr hj']

/-- **C95.**  Predictions are those of the model that has the columns `K` of the re-parameterised matrix
only. -/
theorem predictor (Q : Matrix n n ℝ) (K : Finset n) (b : K → ℝ) (Hr LVr : Matrix K K ℝ) (X : Matrix r n ℝ) :
    X *ᵥ (finish Q K b Hr LVr).coef = laterX X Q K *ᵥ b := by
  simp only [finish, laterX]
  rw [mulVec_mulVec, pad_mulVec]

/-- **C95, stored indices.**  If `Q` leaves coefficient `j` alone (unpenalised coefficients, or
`repara=False`), a dropped `j` has coefficient, Hessian, variance and covariances zero.  Missing:
coefficients of penalised terms, see `dropped_wrong`. -/
theorem dropped_partial (Q : Matrix n n ℝ) (K : Finset n) (b : K → ℝ) (Hr LVr : Matrix K K ℝ)
    (j : n) (hj : j ∈ (finish Q K b Hr LVr).dropped) (hq : ∀ i, i ≠ j → Q j i = 0) :
    (finish Q K b Hr LVr).coef j = 0 ∧ (∀ i, (finish Q K b Hr LVr).H j i = 0) ∧
      ∀ i, ((finish Q K b Hr LVr).LVᵀ * (finish Q K b Hr LVr).LV) j i = 0 := by
  have hj' := (mem_dropped Q K b Hr LVr j).mp hj
  have key : ∀ f : n → ℝ, f j = 0 → ∑ l, Q j l * f l = 0 := by
    intro f hf
    apply Finset.sum_eq_zero
    intro l _
    by_cases h : l = j
    · rw [h, hf, mul_zero]
    · rw [hq l h, zero_mul]
  refine ⟨?_, fun i => ?_, fun i => ?_⟩
  · simp only [finish, mulVec, dotProduct]
    exact key _ (padV_out K b hj')
  · simp only [finish]
    rw [Matrix.mul_assoc, Matrix.mul_apply]
    refine key _ ?_
    rw [Matrix.mul_apply]
    exact Finset.sum_eq_zero fun l _ => by rw [padM_row K Hr hj', zero_mul]
  · rw [Matrix.mul_apply]
    apply Finset.sum_eq_zero
    intro l _
    have : (finish Q K b Hr LVr).LVᵀ j l = 0 := by
      simp only [finish, transpose_apply]
      rw [Matrix.mul_apply]
      rw [← key (fun k => padM K LVr l k) (padM_col K LVr hj' l)]
      exact Finset.sum_congr rfl fun k _ => by rw [transpose_apply, mul_comm]
    rw [this, zero_mul]

/-- A rotation. -/
noncomputable def rot : Matrix (Fin 2) (Fin 2) ℝ := !![3 / 5, -(4 / 5); 4 / 5, 3 / 5]

theorem rot_orth : rotᵀ * rot = 1 := by
  ext i j
  fin_cases i <;> fin_cases j <;> simp [rot, Matrix.mul_apply, Fin.sum_univ_two, Matrix.one_apply] <;> norm_num

/-- The unpenalised coefficient of a model with one, the other two being rotated: `dropped_partial`
applies to it. -/
example : ∃ Q : Matrix (Fin 3) (Fin 3) ℝ, Qᵀ * Q = 1 ∧ Q ≠ 1 ∧ (∀ i, i ≠ 0 → Q 0 i = 0) ∧
    (finish Q {1, 2} (fun _ => 1) 1 1).coef 0 = 0 := by
  refine ⟨!![1, 0, 0; 0, 3 / 5, -(4 / 5); 0, 4 / 5, 3 / 5], ?_, ?_, ?_, ?_⟩
  · ext i j
    fin_cases i <;> fin_cases j <;> simp [Matrix.mul_apply, Fin.sum_univ_three, Matrix.one_apply] <;> norm_num
  · intro h
    have := congrFun (congrFun h 1) 1
    simp at this
    norm_num at this
  · intro i hi
    fin_cases i <;> simp_all
  · apply (dropped_partial _ _ _ _ _ 0 _ _).1
    · simp [finish]
    · intro i hi
      fin_cases i <;> simp_all

/-- **Defect.**  With re-parameterisation a coefficient listed in `info.dropped` is in general neither
zero nor without variance. -/
theorem dropped_wrong : ∃ (Q : Matrix (Fin 2) (Fin 2) ℝ) (K : Finset (Fin 2)) (b : K → ℝ) (Hr LVr : Matrix K K ℝ),
    Qᵀ * Q = 1 ∧ (finish Q K b Hr LVr).dropped = {1} ∧ (finish Q K b Hr LVr).coef 1 ≠ 0 ∧
      ((finish Q K b Hr LVr).LVᵀ * (finish Q K b Hr LVr).LV) 1 1 ≠ 0 ∧ (finish Q K b Hr LVr).H 1 1 ≠ 0 := by
  refine ⟨rot, {0}, fun _ => 1, Matrix.of fun _ _ => -1, Matrix.of fun _ _ => 1, rot_orth, ?_, ?_, ?_, ?_⟩
  · ext i; fin_cases i <;> simp [finish]
  · simp only [finish, mulVec, dotProduct, Fin.sum_univ_two]
    simp [padV, rot]
  · simp only [finish, Matrix.mul_apply, Fin.sum_univ_two, transpose_apply]
    simp [padM, rot]
  · simp only [finish, Matrix.mul_apply, Fin.sum_univ_two, transpose_apply]
    simp [padM, rot]

theorem keepOf_finish (Q : Matrix n n ℝ) (K : Finset n) (b : K → ℝ) (Hr LVr : Matrix K K ℝ) :
    keepOf (finish Q K b Hr LVr) = K := by
  ext i; simp [keepOf, finish]

/-- **C95, REML score.**  If every dropped coefficient is left alone by `Q` the determinant in the score
is that of the penalised Hessian without the removed coefficients.  Missing: other dropped
coefficients, see `reml_wrong`. -/
theorem reml_partial (Q : Matrix n n ℝ) (hQ : Qᵀ * Q = 1) (K : Finset n) (b : K → ℝ) (Hr LVr : Matrix K K ℝ)
    (S : Matrix n n ℝ) (hc : ∀ j, j ∉ K → ∀ i, i ≠ j → Q i j = 0) :
    (hPen (finish Q K b Hr LVr) S).det =
      (-1 • Hr + (Qᵀ * S * Q).submatrix (Subtype.val : K → n) Subtype.val).det := by
  have hQ' : Q * Qᵀ = 1 := mul_eq_one_comm.mp hQ
  obtain ⟨P, hP⟩ : ∃ P : Matrix K K ℝ, P = Q.submatrix Subtype.val Subtype.val := ⟨_, rfl⟩
  have h1 : ∀ (A : Matrix n n ℝ), (Q * A * Qᵀ).submatrix (Subtype.val : K → n) Subtype.val =
      P * A.submatrix Subtype.val Subtype.val * Pᵀ := by
    intro A
    ext i l
    have hz : ∀ (i : K) j, j ∉ K → Q i.1 j = 0 := fun i j hj => hc j hj i.1 (fun h => hj (h ▸ i.2))
    rw [submatrix_apply, Matrix.mul_apply, Matrix.mul_apply,
      sum_pad K _ (fun j hj => by rw [transpose_apply, hz l j hj, mul_zero])]
    apply Finset.sum_congr rfl
    intro j _
    rw [Matrix.mul_apply, Matrix.mul_apply, sum_pad K _ (fun k hk => by rw [hz i k hk, zero_mul]), hP]
    rfl
  have h2 : P * Pᵀ = 1 := by
    have := h1 1
    rw [Matrix.mul_one, hQ'] at this
    have h3 : ((1 : Matrix n n ℝ).submatrix (Subtype.val : K → n) Subtype.val) = 1 :=
      Matrix.submatrix_one _ Subtype.val_injective
    rw [h3, Matrix.mul_one] at this
    exact this.symm
  have hpad : (padM K Hr).submatrix (Subtype.val : K → n) Subtype.val = Hr := by
    ext i j; simp [padM, i.2, j.2]
  have hS : S = Q * (Qᵀ * S * Q) * Qᵀ := by
    rw [Matrix.mul_assoc, Matrix.mul_assoc, Matrix.mul_assoc, ← Matrix.mul_assoc Q Qᵀ, hQ', Matrix.one_mul,
      Matrix.mul_one]
  have key : (-1 • (finish Q K b Hr LVr).H + S).submatrix (Subtype.val : K → n) Subtype.val =
      P * (-1 • Hr + (Qᵀ * S * Q).submatrix (Subtype.val : K → n) Subtype.val) * Pᵀ := by
    have h4 : -1 • (finish Q K b Hr LVr).H + S = Q * (-1 • padM K Hr + Qᵀ * S * Q) * Qᵀ := by
      conv_lhs => rw [hS]
      simp only [finish]
      rw [Matrix.mul_add, Matrix.add_mul, Matrix.mul_smul, Matrix.smul_mul]
    rw [h4, h1]
    congr 2
    conv_rhs => rw [← hpad]
    rfl
  have hd : P.det * P.det = 1 := by
    have := congrArg det h2
    rwa [det_mul, det_transpose, det_one] at this
  have hdet : ∀ (K' : Finset n) (e : K' = K), ((-1 • (finish Q K b Hr LVr).H + S).submatrix
      (Subtype.val : K' → n) Subtype.val).det =
      (-1 • Hr + (Qᵀ * S * Q).submatrix (Subtype.val : K → n) Subtype.val).det := by
    rintro K' rfl
    rw [key, det_mul, det_mul, det_transpose, mul_right_comm, hd, one_mul]
  exact hdet _ (keepOf_finish Q K b Hr LVr)

/-- `reml_partial` applies when the unpenalised coefficient is dropped. -/
example : (hPen (finish (!![1, 0, 0; 0, 3 / 5, -(4 / 5); 0, 4 / 5, 3 / 5] : Matrix (Fin 3) (Fin 3) ℝ) {1, 2}
    (fun _ => 1) 1 1) 0).det = (-1 • (1 : Matrix ({1, 2} : Finset (Fin 3)) ({1, 2} : Finset (Fin 3)) ℝ) +
      ((!![1, 0, 0; 0, 3 / 5, -(4 / 5); 0, 4 / 5, 3 / 5] : Matrix (Fin 3) (Fin 3) ℝ)ᵀ * 0 *
        !![1, 0, 0; 0, 3 / 5, -(4 / 5); 0, 4 / 5, 3 / 5]).submatrix Subtype.val Subtype.val).det := by
  apply reml_partial
  · ext i j
    fin_cases i <;> fin_cases j <;> simp [Matrix.mul_apply, Fin.sum_univ_three, Matrix.one_apply] <;> norm_num
  · intro j hj i hi
    fin_cases j <;> fin_cases i <;> simp_all

/-- **Defect.**  The determinant in the REML score is not that of the penalised Hessian without the
removed coefficients: 18/25 instead of 2. -/
theorem reml_wrong : ∃ (Q : Matrix (Fin 2) (Fin 2) ℝ) (K : Finset (Fin 2)) (b : K → ℝ) (Hr LVr : Matrix K K ℝ)
    (S : Matrix (Fin 2) (Fin 2) ℝ), Qᵀ * Q = 1 ∧ Qᵀ * S * Q = diagonal ![1, 0] ∧
    (-1 • Hr + (Qᵀ * S * Q).submatrix (Subtype.val : K → Fin 2) Subtype.val).det = 2 ∧
    (hPen (finish Q K b Hr LVr) S).det = 18 / 25 := by
  have hd : rotᵀ * (rot * diagonal ![1, 0] * rotᵀ) * rot = diagonal ![1, 0] := by
    rw [← Matrix.mul_assoc, ← Matrix.mul_assoc, rot_orth, Matrix.one_mul, Matrix.mul_assoc, rot_orth, Matrix.mul_one]
  refine ⟨rot, {0}, fun _ => 1, Matrix.of fun _ _ => -1, Matrix.of fun _ _ => 1, rot * diagonal ![1, 0] * rotᵀ, rot_orth, hd, ?_, ?_⟩
  · rw [hd]
    have : Unique ({0} : Finset (Fin 2)) := ⟨⟨⟨0, by simp⟩⟩, fun x => Subtype.ext (Finset.mem_singleton.mp x.2)⟩
    rw [det_unique]
    have h0 : (default : ({0} : Finset (Fin 2))).1 = 0 :=
      Finset.mem_singleton.mp (default : ({0} : Finset (Fin 2))).2
    simp only [Matrix.add_apply, Matrix.smul_apply, submatrix_apply, h0, of_apply]
    simp
    norm_num
  · have hk : keepOf (finish rot {0} (fun _ => 1) (Matrix.of fun _ _ => -1) (Matrix.of fun _ _ => 1)) = {0} := keepOf_finish _ _ _ _ _
    have hdet : ∀ K' : Finset (Fin 2), K' = {0} → ((-1 • (finish rot {0} (fun _ => 1) (Matrix.of fun _ _ => -1)
        (Matrix.of fun _ _ => 1)).H + rot * diagonal ![1, 0] * rotᵀ).submatrix (Subtype.val : K' → Fin 2) Subtype.val).det
        = 18 / 25 := by
      rintro K' rfl
      have : Unique ({0} : Finset (Fin 2)) := ⟨⟨⟨0, by simp⟩⟩, fun x => Subtype.ext (Finset.mem_singleton.mp x.2)⟩
      rw [det_unique]
      have h0 : (default : ({0} : Finset (Fin 2))).1 = 0 :=
      Finset.mem_singleton.mp (default : ({0} : Finset (Fin 2))).2
      simp only [submatrix_apply, h0, Matrix.add_apply, Matrix.smul_apply, finish, Matrix.mul_apply, Fin.sum_univ_two,
        transpose_apply]
      simp [padM, rot]
      norm_num
    exact hdet _ hk

/-- **Defect.**  The penalised part of the coefficients is rotated anew whenever smoothing parameters
change, the dropped indices are kept: a model matrix made identifiable by dropping coefficient 1 under
one rotation is not identifiable after dropping coefficient 1 under another. -/
theorem keep_drop_wrong : ∃ (X : Matrix (Fin 1) (Fin 2) ℝ) (Q1 Q2 : Matrix (Fin 2) (Fin 2) ℝ),
    Q1ᵀ * Q1 = 1 ∧ Q2ᵀ * Q2 = 1 ∧ (∀ b, laterX X Q1 {0} *ᵥ b = 0 → b = 0) ∧
    ∃ b, b ≠ 0 ∧ laterX X Q2 {0} *ᵥ b = 0 := by
  refine ⟨!![3, 4], rot, !![-(4 / 5), 3 / 5; 3 / 5, 4 / 5], rot_orth, ?_, ?_, ?_⟩
  · ext i j
    fin_cases i <;> fin_cases j <;> simp [Matrix.mul_apply, Fin.sum_univ_two, Matrix.one_apply] <;> norm_num
  · intro b h
    have h0 := congrFun h 0
    simp [laterX, mulVec, dotProduct, Matrix.mul_apply, Fin.sum_univ_two, rot] at h0
    funext i
    have hi : i = ⟨0, by simp⟩ := Subtype.ext (Finset.mem_singleton.mp i.2)
    rw [hi]
    rcases h0 with h0 | h0
    · norm_num at h0
    · exact h0
  · refine ⟨fun _ => 1, fun h => ?_, ?_⟩
    · have := congrFun h ⟨0, by simp⟩
      simp at this
    · funext i
      fin_cases i
      simp [laterX, mulVec, dotProduct, Matrix.mul_apply, Fin.sum_univ_two]
      norm_num

end Verif.Dropped
