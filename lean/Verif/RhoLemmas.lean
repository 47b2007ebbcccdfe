import Verif.RhoModel
import Verif.LamTrace
import Mathlib.Analysis.SpecialFunctions.Log.ERealExp
import Mathlib.MeasureTheory.Constructions.Pi
import Mathlib.MeasureTheory.Measure.Lebesgue.Basic
import Mathlib.Algebra.BigOperators.Field
import Mathlib.Analysis.Matrix.Order
import Mathlib.Tactic.Linarith
import Mathlib.Tactic.FieldSimp
import Mathlib.Tactic.Abel

/-! Helper lemmas for `Verif.Rho`. -/

namespace Verif.Rho

open Matrix

theorem foldl_bot {k : ℕ} (lo up rho : Fin k → ℝ) (l : List (Fin k)) :
    l.foldl (fun ld i => if rho i < lo i ∨ rho i > up i then ⊥ else ld + ((-Real.log (up i - lo i) : ℝ) : EReal)) ⊥ = ⊥ := by
  induction l with
  | nil => rfl
  | cons i l ih => simp only [List.foldl_cons, EReal.bot_add, ite_self]; exact ih

theorem foldl_eq {k : ℕ} (lo up rho : Fin k → ℝ) (l : List (Fin k)) (x : ℝ) :
    l.foldl (fun ld i => if rho i < lo i ∨ rho i > up i then ⊥ else ld + ((-Real.log (up i - lo i) : ℝ) : EReal)) (x : EReal) =
      if ∃ i ∈ l, rho i < lo i ∨ up i < rho i then ⊥ else ((x + (l.map fun i => -Real.log (up i - lo i)).sum : ℝ) : EReal) := by
  induction l generalizing x with
  | nil => simp
  | cons i l ih =>
    simp only [List.foldl_cons]
    by_cases h : rho i < lo i ∨ rho i > up i
    · rw [if_pos h, foldl_bot, if_pos ⟨i, by simp, h⟩]
    · rw [if_neg h, ← EReal.coe_add, ih]
      by_cases h2 : ∃ j ∈ l, rho j < lo j ∨ up j < rho j
      · obtain ⟨j, hj, hh⟩ := h2
        rw [if_pos ⟨j, hj, hh⟩, if_pos ⟨j, by simp [hj], hh⟩]
      · rw [if_neg h2, if_neg]
        · simp [add_assoc]
        · rintro ⟨j, hj, hh⟩
          rcases List.mem_cons.1 hj with rfl | hj
          · exact h hh
          · exact h2 ⟨j, hj, hh⟩

theorem cLogpdf_eq {k : ℕ} (lo up rho : Fin k → ℝ) : cLogpdf lo up rho =
    if ∃ i, rho i < lo i ∨ up i < rho i then ⊥ else ((∑ i, -Real.log (up i - lo i) : ℝ) : EReal) := by
  have h := foldl_eq lo up rho (List.finRange k) 0
  rw [EReal.coe_zero] at h
  rw [cLogpdf, h, zero_add]
  have h1 : (∃ i ∈ List.finRange k, rho i < lo i ∨ up i < rho i) ↔ ∃ i, rho i < lo i ∨ up i < rho i := by simp
  simp only [h1]
  rw [← List.sum_ofFn, List.ofFn_eq_map]

/-- The volume of a box times the density is one. -/
theorem box_integral {k : ℕ} (lo up : Fin k → ℝ) (h : ∀ i, lo i < up i) :
    ENNReal.ofReal (Real.exp (∑ i, -Real.log (up i - lo i))) * MeasureTheory.volume (Set.Icc lo up) = 1 := by
  rw [Real.volume_Icc_pi, Real.exp_sum, ← ENNReal.ofReal_prod_of_nonneg (fun i _ => (sub_pos.2 (h i)).le),
    ← ENNReal.ofReal_mul (Finset.prod_nonneg fun i _ => (Real.exp_pos _).le), ← Finset.prod_mul_distrib]
  rw [Finset.prod_eq_one, ENNReal.ofReal_one]
  intro i _
  rw [Real.exp_neg, Real.exp_log (sub_pos.2 (h i)), inv_mul_cancel₀ (sub_pos.2 (h i)).ne']

theorem not_out {k : ℕ} (lo up rho : Fin k → ℝ) : ¬ (∃ i, rho i < lo i ∨ up i < rho i) ↔ rho ∈ Set.Icc lo up := by
  simp only [not_exists, not_or, not_lt, Set.mem_Icc, Pi.le_def]
  exact ⟨fun h => ⟨fun i => (h i).1, fun i => (h i).2⟩, fun h i => ⟨h.1 i, h.2 i⟩⟩

variable {n : Type} [Fintype n]

theorem posSemidef_vecMulVec (x : n → ℝ) : (vecMulVec x x).PosSemidef := by
  have := Matrix.posSemidef_vecMulVec_self_star x
  simpa using this

theorem posSemidef_wsum {m : ℕ} (w : Fin m → ℝ) (hw : ∀ r, 0 ≤ w r) (V : Fin m → Matrix n n ℝ) (hV : ∀ r, (V r).PosSemidef) :
    (∑ r, w r • V r).PosSemidef := by
  apply Matrix.posSemidef_sum
  intro r _
  exact (hV r).smul (hw r)

/-- Trace of a product of two positive semi-definite matrices. -/
theorem trace_mul_nonneg [DecidableEq n] (A B : Matrix n n ℝ) (hA : A.PosSemidef) (hB : B.PosSemidef) : 0 ≤ (A * B).trace := by
  obtain ⟨R, rfl⟩ : ∃ R : Matrix n n ℝ, B = Rᴴ * R := by
    open scoped MatrixOrder in
    exact CStarAlgebra.nonneg_iff_eq_star_mul_self.1 hB.nonneg
  rw [conjTranspose_eq_transpose_of_trivial, ← Matrix.mul_assoc, Matrix.trace_mul_comm, ← Matrix.mul_assoc]
  have := Lam.trace_quad_nonneg A hA Rᵀ
  rwa [transpose_transpose] at this

/-- Scatter around the weighted mean. -/
theorem scatter {m : ℕ} (w : Fin m → ℝ) (hs : ∑ r, w r = 1) (x : Fin m → n → ℝ) :
    updateVp (wmean w x) w x = (∑ r, w r • vecMulVec (x r) (x r)) - vecMulVec (wmean w x) (wmean w x) := by
  ext i j
  simp only [updateVp, Matrix.sum_apply, Matrix.smul_apply, vecMulVec_apply, Pi.sub_apply, smul_eq_mul, Matrix.sub_apply]
  have h1 : ∀ r, w r * ((x r i - wmean w x i) * (x r j - wmean w x j)) =
      w r * (x r i * x r j) - wmean w x i * (w r * x r j) - (w r * x r i) * wmean w x j + w r * (wmean w x i * wmean w x j) := by
    intro r; ring
  rw [Finset.sum_congr rfl fun r _ => h1 r, Finset.sum_add_distrib, Finset.sum_sub_distrib, Finset.sum_sub_distrib, ← Finset.mul_sum,
    ← Finset.sum_mul, ← Finset.sum_mul, hs]
  have h2 : ∀ i, ∑ r, w r * x r i = wmean w x i := fun _ => rfl
  rw [h2, h2]; ring

theorem expO_nonneg (s : Option ℝ) : 0 ≤ expO s := by
  cases s with
  | none => exact le_rfl
  | some x => exact (Real.exp_pos x).le

theorem expO_eq_zero (s : Option ℝ) : expO s = 0 ↔ s = none := by
  cases s with
  | none => simp [expO]
  | some x => simp [expO]

theorem sum_expO_eq_zero {m : ℕ} (s : Fin m → Option ℝ) : ∑ j, expO (s j) = 0 ↔ ∀ j, s j = none := by
  rw [Finset.sum_eq_zero_iff_of_nonneg fun j _ => expO_nonneg _]
  simp [expO_eq_zero]

theorem bound_eq [DecidableEq n] (ucF : Matrix n n ℝ) (edf : ℝ) : bound ucF edf = 2 * edf - (ucF * ucF).trace := by
  unfold bound
  congr 1
  simp only [Matrix.trace, Matrix.diag, Matrix.mul_apply, transpose_apply]
  exact Finset.sum_congr rfl fun j _ => Finset.sum_congr rfl fun i _ => mul_comm _ _

/-- `tr F² ≤ tr F` for `F = (H + S)⁻¹ H`. -/
theorem trace_sq_le [DecidableEq n] (H S P F : Matrix n n ℝ) (hH : H.PosSemidef) (hS : S.PosSemidef) (hPs : Pᵀ = P)
    (hP : P * (H + S) = 1) (hF : F = P * H) : (F * F).trace ≤ F.trace := by
  have h1 : F = F * F + P * H * (P * S) := by
    rw [← hF, hF]
    calc P * H = P * H * (P * (H + S)) := by rw [hP, Matrix.mul_one]
      _ = _ := by rw [Matrix.mul_add, Matrix.mul_add]
  have h2 : 0 ≤ (P * H * (P * S)).trace := by
    rw [← Matrix.mul_assoc]
    apply trace_mul_nonneg _ _ _ hS
    have := hH.mul_mul_conjTranspose_same P
    rwa [conjTranspose_eq_transpose_of_trivial, hPs] at this
  have h3 := congrArg Matrix.trace h1
  rw [trace_add] at h3
  linarith

end Verif.Rho
