import Verif.ShapeModel
import Verif.LmlLemmas
import Verif.ScaledT
import Mathlib.Analysis.Matrix.Spectrum

/-!
# Lemmas on the estimation of shape parameters (property C127)
-/

namespace Verif.Shape
open Verif Matrix Step Filter Topology

variable {m : ℕ}

/-- What is assumed of `scp.linalg.eigh`: orthonormal eigenvectors of symmetric matrices with their eigenvalues. -/
def EighSpec (eigh : Matrix (Fin m) (Fin m) ℝ → (Fin m → ℝ) × Matrix (Fin m) (Fin m) ℝ) : Prop :=
  ∀ A : Matrix (Fin m) (Fin m) ℝ, A.IsSymm →
    (eigh A).2ᵀ * (eigh A).2 = 1 ∧ A = (eigh A).2 * diagonal (eigh A).1 * (eigh A).2ᵀ

open Classical in
/-- A decomposition exists for every size. -/
noncomputable def eighC (A : Matrix (Fin m) (Fin m) ℝ) : (Fin m → ℝ) × Matrix (Fin m) (Fin m) ℝ :=
  if h : A.IsHermitian then (h.eigenvalues, h.eigenvectorUnitary) else (0, 0)

theorem eighC_spec : EighSpec (eighC (m := m)) := by
  intro A hA
  have h : A.IsHermitian := by
    show Aᴴ = A
    rw [conjTranspose_eq_transpose_of_trivial]; exact hA
  unfold eighC
  rw [dif_pos h]
  constructor
  · have := Unitary.coe_star_mul_self h.eigenvectorUnitary
    rwa [star_eq_conjTranspose, conjTranspose_eq_transpose_of_trivial] at this
  · have := h.spectral_theorem
    rw [Unitary.conjStarAlgAut_apply, star_eq_conjTranspose, conjTranspose_eq_transpose_of_trivial] at this
    exact this

/-- Hypotheses about a family at `theta`. -/
structure Reg (x : In m) (theta : Fin m → ℝ) : Prop where
  eigh : EighSpec x.eigh
  symm : (x.hess theta).IsSymm

theorem neg_symm {A : Matrix (Fin m) (Fin m) ℝ} (h : A.IsSymm) : (-A).IsSymm := by
  show (-A)ᵀ = -A
  rw [transpose_neg, h.eq]

/-- The matrix behind the proposal, with the eigenvalues raised. -/
noncomputable def sys (x : In m) (theta : Fin m → ℝ) : Matrix (Fin m) (Fin m) ℝ :=
  (x.eigh (-x.hess theta)).2 * diagonal (raise (x.eigh (-x.hess theta)).1) * (x.eigh (-x.hess theta)).2ᵀ

theorem raise_pos {e : Fin m → ℝ} (h : maxev e ≠ 0) (i : Fin m) : 0 < raise e i := by
  have : 0 < maxev e := lt_of_le_of_ne (norm_nonneg e) (Ne.symm h)
  exact lt_of_lt_of_le (by positivity) (le_max_right _ _)

theorem raise_le (e : Fin m → ℝ) (i : Fin m) : raise e i ≤ maxev e := by
  refine max_le ((le_abs_self _).trans (norm_le_pi_norm e i)) ?_
  have : 0 ≤ maxev e := norm_nonneg e
  linarith

theorem diag_of {A U : Matrix (Fin m) (Fin m) ℝ} {e : Fin m → ℝ} (h1 : Uᵀ * U = 1) (h2 : A = U * diagonal e * Uᵀ) :
    Uᵀ * A * U = diagonal e := by
  rw [h2, ← Matrix.mul_assoc, ← Matrix.mul_assoc, h1, Matrix.one_mul, Matrix.mul_assoc, h1, Matrix.mul_one]

theorem maxev_zero_iff {x : In m} {theta : Fin m → ℝ} (h : Reg x theta) :
    maxev (x.eigh (-x.hess theta)).1 = 0 ↔ x.hess theta = 0 := by
  obtain ⟨h1, h2⟩ := h.eigh _ (neg_symm h.symm)
  unfold maxev
  rw [norm_eq_zero]
  constructor
  · intro h0
    rw [h0] at h2
    have : diagonal (0 : Fin m → ℝ) = 0 := diagonal_zero
    rw [this, mul_zero, zero_mul] at h2
    exact neg_eq_zero.1 h2
  · intro h0
    have h3 : (x.eigh (-x.hess theta)).2ᵀ * (-x.hess theta) * (x.eigh (-x.hess theta)).2 = diagonal (x.eigh (-x.hess theta)).1 := diag_of h1 h2
    rw [h0] at h3
    rw [neg_zero, mul_zero, zero_mul] at h3
    rw [h0, neg_zero]
    funext i
    have := congrFun (congrFun h3 i) i
    rw [diagonal_apply_eq] at this
    exact this.symm

theorem proposal_none {x : In m} {theta : Fin m → ℝ} (h : Reg x theta) (h0 : x.hess theta = 0) : proposal x theta = none := by
  unfold proposal
  exact if_pos ((maxev_zero_iff h).2 h0)

theorem proposal_some {x : In m} {theta : Fin m → ℝ} (h : Reg x theta) (h0 : x.hess theta ≠ 0) :
    proposal x theta = some (theta + inh (raise (x.eigh (-x.hess theta)).1) (x.eigh (-x.hess theta)).2 *ᵥ x.grad theta) := by
  unfold proposal
  exact if_neg (fun h' => h0 ((maxev_zero_iff h).1 h'))

theorem sys_inh {x : In m} {theta : Fin m → ℝ} (h : Reg x theta) (h0 : x.hess theta ≠ 0) :
    sys x theta * inh (raise (x.eigh (-x.hess theta)).1) (x.eigh (-x.hess theta)).2 = 1 := by
  obtain ⟨h1, h2⟩ := h.eigh _ (neg_symm h.symm)
  have hp := raise_pos fun h' => h0 ((maxev_zero_iff h).1 h')
  set U := (x.eigh (-x.hess theta)).2
  set e := raise (x.eigh (-x.hess theta)).1
  have h3 : U * Uᵀ = 1 := mul_eq_one_comm.1 h1
  show U * diagonal e * Uᵀ * (U * diagonal (fun i => 1 / e i) * Uᵀ) = 1
  have : U * diagonal e * Uᵀ * (U * diagonal (fun i => 1 / e i) * Uᵀ) =
      U * diagonal e * (Uᵀ * U) * diagonal (fun i => 1 / e i) * Uᵀ := by simp only [Matrix.mul_assoc]
  rw [this, h1, Matrix.mul_one, Matrix.mul_assoc U, diagonal_mul_diagonal]
  have : (fun i => e i * (1 / e i)) = fun _ => 1 := funext fun i => by field_simp [(hp i).ne']
  rw [this, diagonal_one, Matrix.mul_one, h3]

theorem sys_step {x : In m} {theta nt : Fin m → ℝ} (h : Reg x theta) (hn : proposal x theta = some nt) :
    sys x theta *ᵥ (nt - theta) = x.grad theta := by
  have h0 : x.hess theta ≠ 0 := fun h0 => by rw [proposal_none h h0] at hn; simp at hn
  rw [proposal_some h h0] at hn
  rw [← Option.some.inj hn, add_sub_cancel_left, mulVec_mulVec, sys_inh h h0, one_mulVec]

/-- The quadratic form of the raised matrix. -/
theorem sys_quad (x : In m) (theta v : Fin m → ℝ) : v ⬝ᵥ sys x theta *ᵥ v =
    ∑ i, raise (x.eigh (-x.hess theta)).1 i * ((x.eigh (-x.hess theta)).2ᵀ *ᵥ v) i ^ 2 := by
  unfold sys
  rw [← mulVec_mulVec, ← mulVec_mulVec, dotProduct_mulVec, ← mulVec_transpose]
  simp only [dotProduct, mulVec_diagonal]
  exact Finset.sum_congr rfl fun i _ => by ring

theorem sys_pos {x : In m} {theta : Fin m → ℝ} (h : Reg x theta) (h0 : x.hess theta ≠ 0) {v : Fin m → ℝ} (hv : v ≠ 0) :
    0 < v ⬝ᵥ sys x theta *ᵥ v := by
  obtain ⟨h1, -⟩ := h.eigh _ (neg_symm h.symm)
  have hp := raise_pos fun h' => h0 ((maxev_zero_iff h).1 h')
  rw [sys_quad]
  set U := (x.eigh (-x.hess theta)).2
  have hw : Uᵀ *ᵥ v ≠ 0 := by
    intro hz
    apply hv
    have h3 : U * Uᵀ = 1 := mul_eq_one_comm.1 h1
    rw [← one_mulVec v, ← h3, ← mulVec_mulVec, hz, mulVec_zero]
  obtain ⟨i, hi⟩ := Function.ne_iff.1 hw
  have hi' : (Uᵀ *ᵥ v) i ≠ 0 := hi
  exact Finset.sum_pos' (fun j _ => mul_nonneg (hp j).le (sq_nonneg _)) ⟨i, Finset.mem_univ i, mul_pos (hp i) (by positivity)⟩

/-- Entries of an orthogonal matrix are at most one. -/
theorem orth_entry {U : Matrix (Fin m) (Fin m) ℝ} (h : Uᵀ * U = 1) (i j : Fin m) : |U i j| ≤ 1 := by
  have h1 := congrFun (congrFun h j) j
  rw [Matrix.mul_apply, one_apply_eq] at h1
  have h2 : U i j * U i j ≤ ∑ k, Uᵀ j k * U k j := Finset.single_le_sum (f := fun k => Uᵀ j k * U k j)
    (fun k _ => mul_self_nonneg (U k j)) (Finset.mem_univ i)
  rw [h1] at h2
  exact abs_le_one_iff_mul_self_le_one.2 h2

/-- The largest eigenvalue is bounded by the entries of the Hessian. -/
theorem maxev_bound {x : In m} {theta : Fin m → ℝ} (h : Reg x theta) {B : ℝ} (hB0 : 0 ≤ B) (hB : ∀ i j, |x.hess theta i j| ≤ B) :
    maxev (x.eigh (-x.hess theta)).1 ≤ m * m * B := by
  obtain ⟨h1, h2⟩ := h.eigh _ (neg_symm h.symm)
  have h3 : (x.eigh (-x.hess theta)).2ᵀ * (-x.hess theta) * (x.eigh (-x.hess theta)).2 = diagonal (x.eigh (-x.hess theta)).1 := diag_of h1 h2
  set U := (x.eigh (-x.hess theta)).2
  refine (pi_norm_le_iff_of_nonneg (by positivity)).2 fun i => ?_
  have h4 := congrFun (congrFun h3 i) i
  rw [diagonal_apply_eq] at h4
  rw [← h4, Real.norm_eq_abs, Matrix.mul_apply]
  calc |∑ k, (Uᵀ * -x.hess theta) i k * U k i| ≤ ∑ k, |(Uᵀ * -x.hess theta) i k * U k i| := Finset.abs_sum_le_sum_abs _ _
    _ ≤ ∑ _k : Fin m, (m * B) := by
      refine Finset.sum_le_sum fun k _ => ?_
      rw [abs_mul]
      have h5 : |(Uᵀ * -x.hess theta) i k| ≤ m * B := by
        rw [Matrix.mul_apply]
        calc |∑ l, Uᵀ i l * (-x.hess theta) l k| ≤ ∑ l, |Uᵀ i l * (-x.hess theta) l k| := Finset.abs_sum_le_sum_abs _ _
          _ ≤ ∑ _l : Fin m, B := by
            refine Finset.sum_le_sum fun l _ => ?_
            rw [abs_mul, Matrix.neg_apply, abs_neg]
            calc |Uᵀ i l| * |x.hess theta l k| ≤ 1 * B := mul_le_mul (orth_entry h1 l i) (hB l k) (abs_nonneg _) zero_le_one
              _ = B := one_mul B
          _ = m * B := by simp
      calc |(Uᵀ * -x.hess theta) i k| * |U k i| ≤ (m * B) * 1 :=
            mul_le_mul h5 (orth_entry h1 k i) (abs_nonneg _) (by positivity)
        _ = m * B := mul_one _
    _ = m * m * B := by simp [mul_assoc]

theorem sys_entry {x : In m} {theta : Fin m → ℝ} (h : Reg x theta) {B : ℝ} (hB0 : 0 ≤ B) (hB : ∀ i j, |x.hess theta i j| ≤ B)
    (i j : Fin m) : |sys x theta i j| ≤ m * (m * m * B) := by
  obtain ⟨h1, -⟩ := h.eigh _ (neg_symm h.symm)
  have hm := maxev_bound h hB0 hB
  unfold sys
  set U := (x.eigh (-x.hess theta)).2
  set e := (x.eigh (-x.hess theta)).1
  rw [Matrix.mul_apply]
  calc |∑ k, (U * diagonal (raise e)) i k * Uᵀ k j| ≤ ∑ k, |(U * diagonal (raise e)) i k * Uᵀ k j| := Finset.abs_sum_le_sum_abs _ _
    _ ≤ ∑ _k : Fin m, (m * m * B) := by
      refine Finset.sum_le_sum fun k _ => ?_
      rw [mul_diagonal, abs_mul, abs_mul]
      have h6 : 0 ≤ maxev e := norm_nonneg e
      have h5 : |raise e k| ≤ m * m * B := by
        rw [abs_of_nonneg]
        · exact (raise_le e k).trans hm
        · exact le_max_of_le_right (by positivity)
      calc |U i k| * |raise e k| * |Uᵀ k j| ≤ 1 * (m * m * B) * 1 :=
            mul_le_mul (mul_le_mul (orth_entry h1 i k) h5 (abs_nonneg _) zero_le_one) (orth_entry h1 j k) (abs_nonneg _) (by positivity)
        _ = m * m * B := by ring
    _ = m * (m * m * B) := by simp

/-! ### Step length control -/

/-- Finite and above `u`. -/
def Better (x : In m) (u : Fl) (c : Fin m → ℝ) : Prop := Gt (x.llk c) u ∧ (x.llk c).IsFin

theorem inner_first (x : In m) (c d : Fin m → ℝ) (u : Fl) : ∀ left k : ℕ, 0 < left → left + k = 32 →
    (∃ j, k ≤ j ∧ j ≤ 31 ∧ thetaInner x.llk c u left k (Lml.half c d k) = some (Lml.half c d j) ∧ Better x u (Lml.half c d j) ∧
      ∀ i, k ≤ i → i < j → ¬Better x u (Lml.half c d i)) ∨
    (thetaInner x.llk c u left k (Lml.half c d k) = none ∧ ∀ i, k ≤ i → i ≤ 31 → ¬Better x u (Lml.half c d i)) := by
  intro left
  induction left with
  | zero => intro k h; omega
  | succ left ih =>
    intro k _ hk
    rw [thetaInner]
    by_cases hok : Better x u (Lml.half c d k)
    · rw [if_pos (show Gt _ _ ∧ _ from hok)]
      exact Or.inl ⟨k, le_rfl, by omega, rfl, hok, fun i h1 h2 => by omega⟩
    · rw [if_neg (show ¬(Gt _ _ ∧ _) from hok)]
      by_cases h30 : k > 30
      · rw [if_pos h30]
        refine Or.inr ⟨rfl, fun i h1 h2 => ?_⟩
        have : i = k := by omega
        rw [this]; exact hok
      · rw [if_neg h30, Lml.mid_half]
        rcases ih (k + 1) (by omega) (by omega) with ⟨j, j1, j2, j3, j4, j5⟩ | ⟨h1, h2⟩
        · refine Or.inl ⟨j, by omega, j2, j3, j4, fun i i1 i2 => ?_⟩
          rcases i1.lt_or_eq with h | h
          · exact j5 i h i2
          · rw [← h]; exact hok
        · refine Or.inr ⟨h1, fun i i1 i2 => ?_⟩
          rcases i1.lt_or_eq with h | h
          · exact h2 i h i2
          · rw [← h]; exact hok

end Verif.Shape
