import Verif.RidgeModel
import Verif.Newton
import Mathlib.LinearAlgebra.Matrix.Trace
import Mathlib.LinearAlgebra.Matrix.Rank
import Mathlib.LinearAlgebra.Trace
import Mathlib.Data.Matrix.Mul
import Mathlib.Tactic.Ring

/-!
# Lemmas for property C113
-/

namespace Verif.Ridge

open Matrix Verif.Newton

variable {n : ℕ}

theorem trace_root {q : ℕ} (A : Matrix (Fin n) (Fin n) ℝ) (D : Matrix (Fin n) (Fin q) ℝ) :
    (A * (D * Dᵀ)).trace = ∑ k, (fun i => D i k) ⬝ᵥ A *ᵥ (fun i => D i k) := by
  rw [← Matrix.mul_assoc, trace_mul_comm]
  unfold trace
  refine Finset.sum_congr rfl fun k _ => ?_
  rw [diag_apply, mul_apply]
  rfl

theorem trB_eq (LV : Matrix (Fin n) (Fin n) ℝ) (p : Pen n) :
    trB LV p = ((LVᵀ * LV) * (p.D * p.Dᵀ)).trace := by
  rw [trace_root]
  unfold trB
  rw [Finset.sum_comm]
  refine Finset.sum_congr rfl fun k _ => ?_
  rw [← mulVec_mulVec, dotProduct_mulVec, vecMul_transpose]
  refine Finset.sum_congr rfl fun i _ => ?_
  rw [sq]
  rfl

theorem pd_diag {A : Matrix (Fin n) (Fin n) ℝ} (hp : PD A) (i : Fin n) : A i i ≠ 0 := by
  have h := hp (Pi.single i 1) (by
    intro h
    have := congrFun h i
    simp at this)
  rw [mulVec_single_one, single_dotProduct, one_mul] at h
  exact h.ne'

/-- A Newton step with a positive definite negative penalised Hessian. -/
theorem newton_zero (chol) (hc : CholSpec (n := n) chol) (fuel : ℕ) (hf : 0 < fuel) (coef grad : Fin n → ℝ)
    (H S : Matrix (Fin n) (Fin n) ℝ) (hs : (-H + S).IsSymm) (hp : PD (-H + S)) :
    ∃ o, newton chol fuel coef grad H S = some o ∧ o.eps = 0 ∧ o.L * o.Lᵀ = -H + S ∧
      (o.LVᵀ * o.LV) * (-H + S) = 1 := by
  have hnH : negH H S = -H + S := by unfold negH; rw [neg_one_smul]
  have hd : ∀ i, -H i i + S i i ≠ 0 := fun i => pd_diag hp i
  obtain ⟨f, rfl⟩ := Nat.exists_eq_succ_of_ne_zero hf.ne'
  have h1 : (chol (scaled (negH H S) + (0 : ℝ) • 1)).isSome := by
    rw [zero_smul, add_zero]
    refine hc.complete _ (scaled_symm _ (by rw [hnH]; exact hs)) ?_
    exact scaled_pd _ (by rw [hnH]; exact hd) (by rw [hnH]; exact hp)
  obtain ⟨x, hx⟩ := Option.isSome_iff_exists.1 h1
  have h2 : ∃ o, newton chol (f + 1) coef grad H S = some o := by
    unfold newton
    dsimp only
    rw [ridge, hx]
    exact ⟨_, rfl⟩
  obtain ⟨o, ho⟩ := h2
  obtain ⟨-, h3, h4, h5, -⟩ := newton_correct chol hc (f + 1) coef grad H S hd o ho
  have h6 := h5 hs hp
  rw [h6, zero_smul, add_zero] at h3
  rw [h3] at h4
  exact ⟨o, ho, h6, h3, h4⟩

theorem pd_shift {A : Matrix (Fin n) (Fin n) ℝ} (hp : PD A) {e : ℝ} (he : 0 ≤ e) :
    PD (A + e • (1 : Matrix (Fin n) (Fin n) ℝ)) := by
  intro x hx
  have h1 : x ⬝ᵥ (A + e • (1 : Matrix (Fin n) (Fin n) ℝ)) *ᵥ x = x ⬝ᵥ A *ᵥ x + e * (x ⬝ᵥ x) := by
    rw [add_mulVec, smul_mulVec, one_mulVec, dotProduct_add, dotProduct_smul, smul_eq_mul]
  have h2 : 0 ≤ x ⬝ᵥ x := Finset.sum_nonneg fun i _ => mul_self_nonneg _
  have := hp x hx
  rw [h1]
  have := mul_nonneg he h2
  linarith

theorem symm_shift {A : Matrix (Fin n) (Fin n) ℝ} (hs : A.IsSymm) (e : ℝ) :
    (A + e • (1 : Matrix (Fin n) (Fin n) ℝ)).IsSymm := by
  unfold IsSymm
  rw [transpose_add, transpose_smul, transpose_one, hs.eq]

theorem shift_eq (H S : Matrix (Fin n) (Fin n) ℝ) (e : ℝ) :
    -(H - e • (1 : Matrix (Fin n) (Fin n) ℝ)) + S = -H + S + e • (1 : Matrix (Fin n) (Fin n) ℝ) := by
  rw [neg_sub, sub_eq_add_neg, add_assoc, add_comm]

/-- Values of `eps` in the loop. -/
noncomputable def epsAt (j : ℕ) : ℝ := if j = 0 then 0 else 2 ^ (j - 1) / 10 ^ 14

theorem epsAt_nonneg (j : ℕ) : 0 ≤ epsAt j := by
  unfold epsAt
  split_ifs
  · exact le_rfl
  · positivity

theorem epsAt_succ (j : ℕ) :
    (if epsAt j = 0 then epsAt j + 1 / 10 ^ 14 else epsAt j * 2) = epsAt (j + 1) := by
  cases j with
  | zero => simp [epsAt]
  | succ j =>
    have h : epsAt (j + 1) = 2 ^ j / 10 ^ 14 := by simp [epsAt]
    have h' : epsAt (j + 1 + 1) = 2 ^ (j + 1) / 10 ^ 14 := by simp [epsAt]
    rw [if_neg (by rw [h]; positivity), h, h', pow_succ]
    ring

/-- What holds of a state of the loop. -/
structure Good (E : Env n) (j : ℕ) (st : St n) : Prop where
  eps : st.eps = epsAt j
  fac : st.L * st.Lᵀ = -E.H + E.S + epsAt j • (1 : Matrix (Fin n) (Fin n) ℝ)
  inv : (st.LVᵀ * st.LV) * (-E.H + E.S + epsAt j • (1 : Matrix (Fin n) (Fin n) ℝ)) = 1

/-- Some penalty has a negative difference when the Hessian is perturbed by `epsAt j`. -/
def Viol (E : Env n) (pens : List (Pen n)) (j : ℕ) : Prop :=
  ∃ p ∈ pens, lgdetD E.Sinv p
    < ((-E.H + E.S + epsAt j • (1 : Matrix (Fin n) (Fin n) ℝ))⁻¹ * (p.D * p.Dᵀ)).trace

theorem viol_iff (E : Env n) (pens : List (Pen n)) (j : ℕ) (st : St n) (hg : Good E j st) :
    violated E.Sinv st.LV pens ↔ Viol E pens j := by
  unfold violated Viol
  rw [inv_eq_left_inv hg.inv]
  simp only [trB_eq, sub_neg]

theorem loop_spec (E : Env n) (pens : List (Pen n)) (hc : CholSpec E.chol) (hf : 0 < E.fuel)
    (hs : (-E.H + E.S).IsSymm) (hp : PD (-E.H + E.S)) :
    ∀ (k i : ℕ) (st : St n), Good E i st → ∃ st' j, loop E pens k st = some st' ∧ i ≤ j ∧ j ≤ i + k ∧
      Good E j st' ∧ (∀ a, i ≤ a → a < j → Viol E pens a) ∧ (j < i + k → ¬ Viol E pens j) := by
  intro k
  induction k with
  | zero =>
    intro i st hg
    exact ⟨st, i, rfl, le_rfl, le_rfl, hg, fun a h1 h2 => absurd h2 (not_lt.2 h1), fun h => absurd h (lt_irrefl _)⟩
  | succ k ih =>
    intro i st hg
    by_cases hv : violated E.Sinv st.LV pens
    · obtain ⟨o, ho, -, h3, h4⟩ := newton_zero E.chol hc E.fuel hf E.coef E.grad
        (E.H - epsAt (i + 1) • (1 : Matrix (Fin n) (Fin n) ℝ)) E.S
        (by rw [shift_eq]; exact symm_shift hs _) (by rw [shift_eq]; exact pd_shift hp (epsAt_nonneg _))
      rw [shift_eq] at h3 h4
      obtain ⟨st', j, h5, h6, h7, h8, h9, h10⟩ := ih (i + 1) ⟨epsAt (i + 1), o.L, o.LV⟩ ⟨rfl, h3, h4⟩
      refine ⟨st', j, ?_, by omega, by omega, h8, ?_, fun h => h10 (by omega)⟩
      · rw [loop, if_pos hv]
        dsimp only
        rw [hg.eps, epsAt_succ, ho]
        exact h5
      · intro a h1 h2
        rcases Nat.eq_or_lt_of_le h1 with h | h
        · subst h; exact (viol_iff E pens _ st hg).1 hv
        · exact h9 a h h2
    · refine ⟨st, i, ?_, le_rfl, by omega, hg, fun a h1 h2 => absurd h2 (not_lt.2 h1),
        fun _ => fun h => hv ((viol_iff E pens i st hg).2 h)⟩
      rw [loop, if_neg hv]

theorem finish_spec (E : Env n) (pens : List (Pen n)) (hc : CholSpec E.chol) (hf : 0 < E.fuel)
    (hs : (-E.H + E.S).IsSymm) (hp : PD (-E.H + E.S)) :
    ∃ st j, finish E pens = some st ∧ j ≤ 32 ∧ Good E j st ∧ (∀ a < j, Viol E pens a) ∧
      (j < 32 → ¬ Viol E pens j) := by
  obtain ⟨o, ho, h2, h3, h4⟩ := newton_zero E.chol hc E.fuel hf E.coef E.grad E.H E.S hs hp
  have h0 : epsAt 0 = 0 := rfl
  obtain ⟨st', j, h5, -, h7, h8, h9, h10⟩ := loop_spec E pens hc hf hs hp 32 0 ⟨o.eps, o.L, o.LV⟩
    ⟨by rw [h0]; exact h2, by rw [h0, zero_smul, add_zero]; exact h3, by rw [h0, zero_smul, add_zero]; exact h4⟩
  refine ⟨st', j, ?_, by omega, h8, fun a h => h9 a (Nat.zero_le _) h, fun h => h10 (by omega)⟩
  unfold finish
  rw [ho]
  exact h5

theorem stored_eq (E : Env n) (j : ℕ) :
    -stored E.H (epsAt j) + E.S = -E.H + E.S + epsAt j • (1 : Matrix (Fin n) (Fin n) ℝ) := by
  unfold stored
  split_ifs with h
  · exact shift_eq _ _ _
  · rw [le_antisymm (not_lt.1 h) (epsAt_nonneg j), zero_smul, add_zero]

/-! ### Theorem 1 of Wood and Fasiolo -/

/-- The penalty matrix. -/
noncomputable def total (pens : List (Pen n)) : Matrix (Fin n) (Fin n) ℝ :=
  (pens.map fun p => p.lam • (p.D * p.Dᵀ)).sum

theorem root_quad {q : ℕ} (D : Matrix (Fin n) (Fin q) ℝ) (x : Fin n → ℝ) :
    x ⬝ᵥ (D * Dᵀ) *ᵥ x = (Dᵀ *ᵥ x) ⬝ᵥ (Dᵀ *ᵥ x) := by
  rw [← mulVec_mulVec, dotProduct_mulVec, ← mulVec_transpose]

theorem dot_self_nonneg {m : ℕ} (x : Fin m → ℝ) : 0 ≤ x ⬝ᵥ x := Finset.sum_nonneg fun i _ => mul_self_nonneg _

theorem dot_self_zero {m : ℕ} {x : Fin m → ℝ} (h : x ⬝ᵥ x = 0) : x = 0 := by
  funext i
  have := (Finset.sum_eq_zero_iff_of_nonneg (fun i _ => mul_self_nonneg (x i))).1 h i (Finset.mem_univ i)
  exact mul_self_eq_zero.1 this

theorem total_quad_nonneg (pens : List (Pen n)) (hl : ∀ p ∈ pens, 0 < p.lam) (x : Fin n → ℝ) :
    0 ≤ x ⬝ᵥ total pens *ᵥ x := by
  induction pens with
  | nil => simp [total]
  | cons p l ih =>
    have h1 : total (p :: l) = p.lam • (p.D * p.Dᵀ) + total l := by simp [total]
    rw [h1, add_mulVec, dotProduct_add, smul_mulVec, dotProduct_smul, root_quad, smul_eq_mul]
    have := ih fun p hp => hl p (List.mem_cons_of_mem _ hp)
    have := mul_nonneg (hl p List.mem_cons_self).le (dot_self_nonneg (p.Dᵀ *ᵥ x))
    linarith

theorem total_quad_le (pens : List (Pen n)) (hl : ∀ p ∈ pens, 0 < p.lam) (p : Pen n) (hp : p ∈ pens)
    (x : Fin n → ℝ) : p.lam * ((p.Dᵀ *ᵥ x) ⬝ᵥ (p.Dᵀ *ᵥ x)) ≤ x ⬝ᵥ total pens *ᵥ x := by
  induction pens with
  | nil => simp at hp
  | cons p' l ih =>
    have h1 : total (p' :: l) = p'.lam • (p'.D * p'.Dᵀ) + total l := by simp [total]
    rw [h1, add_mulVec, dotProduct_add, smul_mulVec, dotProduct_smul, root_quad, smul_eq_mul]
    have hl' : ∀ p ∈ l, 0 < p.lam := fun p hp => hl p (List.mem_cons_of_mem _ hp)
    rcases List.mem_cons.1 hp with h | h
    · subst h
      have := total_quad_nonneg l hl' x
      linarith
    · have := ih hl' h
      have := mul_nonneg (hl p' List.mem_cons_self).le (dot_self_nonneg (p'.Dᵀ *ᵥ x))
      linarith

theorem total_symm (pens : List (Pen n)) : (total pens).IsSymm := by
  induction pens with
  | nil => simp [total]
  | cons p l ih =>
    have h1 : total (p :: l) = p.lam • (p.D * p.Dᵀ) + total l := by simp [total]
    unfold IsSymm
    rw [h1, transpose_add, transpose_smul, transpose_mul, transpose_transpose, ih.eq]

/-- The penalty matrix times its generalised inverse leaves the roots unchanged. -/
theorem range_root (pens : List (Pen n)) (hl : ∀ p ∈ pens, 0 < p.lam) (Sinv : Matrix (Fin n) (Fin n) ℝ)
    (hg : total pens * Sinv * total pens = total pens) (p : Pen n) (hp : p ∈ pens) :
    total pens * Sinv * p.D = p.D := by
  have h0 : (total pens * Sinv - 1) * total pens = 0 := by rw [Matrix.sub_mul, hg, Matrix.one_mul, sub_self]
  have h1 : (total pens * Sinv - 1) * p.D = 0 := by
    set N := total pens * Sinv - 1
    have h2 : ∀ i, p.Dᵀ *ᵥ N i = 0 := by
      intro i
      have h3 : N i ⬝ᵥ total pens *ᵥ N i = 0 := by
        rw [dotProduct_mulVec]
        have : N i ᵥ* total pens = 0 := by
          funext j
          exact congrFun (congrFun h0 i) j
        rw [this, zero_dotProduct]
      have h4 := total_quad_le pens hl p hp (N i)
      rw [h3] at h4
      have h5 := dot_self_nonneg (p.Dᵀ *ᵥ N i)
      have h6 := hl p hp
      refine dot_self_zero (le_antisymm ?_ h5)
      by_contra hlt
      push Not at hlt
      have := mul_pos h6 hlt
      linarith
    ext i k
    have := congrFun (h2 i) k
    rw [mulVec_transpose] at this
    exact this
  rw [Matrix.sub_mul, Matrix.one_mul, sub_eq_zero] at h1
  exact h1

theorem trace_le (pens : List (Pen n)) (hl : ∀ p ∈ pens, 0 < p.lam) (H Sinv V : Matrix (Fin n) (Fin n) ℝ)
    (hg : total pens * Sinv * total pens = total pens) (hH : ∀ x : Fin n → ℝ, 0 ≤ x ⬝ᵥ (-H) *ᵥ x)
    (hV : (-H + total pens) * V = 1) (p : Pen n) (hp : p ∈ pens) :
    (V * (p.D * p.Dᵀ)).trace ≤ (Sinv * (p.D * p.Dᵀ)).trace := by
  rw [trace_root, trace_root]
  refine Finset.sum_le_sum fun k _ => ?_
  set d : Fin n → ℝ := fun i => p.D i k
  have hy : total pens *ᵥ (Sinv *ᵥ d) = d := by
    rw [mulVec_mulVec]
    funext i
    exact congrFun (congrFun (range_root pens hl Sinv hg p hp) i) k
  have hx : (-H + total pens) *ᵥ (V *ᵥ d) = d := by rw [mulVec_mulVec, hV, one_mulVec]
  generalize V *ᵥ d = x at hx
  generalize Sinv *ᵥ d = y at hy
  have h1 := total_quad_nonneg pens hl (x - y)
  rw [mulVec_sub, hy, dotProduct_sub, sub_dotProduct, sub_dotProduct] at h1
  have h2 : y ⬝ᵥ total pens *ᵥ x = d ⬝ᵥ x := by
    rw [dotProduct_mulVec, ← mulVec_transpose, (total_symm pens).eq, hy]
  have h3 : d ⬝ᵥ x = x ⬝ᵥ (-H) *ᵥ x + x ⬝ᵥ total pens *ᵥ x := by
    rw [← dotProduct_add, ← add_mulVec, hx, dotProduct_comm]
  have h4 := hH x
  rw [h2, dotProduct_comm x d, dotProduct_comm y d] at h1
  linarith

/-- A penalty that does not overlap with the others: the trace is the rank divided by the smoothing parameter. -/
theorem trace_rank (pens : List (Pen n)) (hl : ∀ p ∈ pens, 0 < p.lam) (Sinv : Matrix (Fin n) (Fin n) ℝ)
    (hg : total pens * Sinv * total pens = total pens) (p : Pen n) (hp : p ∈ pens)
    (ho : p.Dᵀ * (total pens - p.lam • (p.D * p.Dᵀ)) = 0) :
    (Sinv * (p.D * p.Dᵀ)).trace = p.D.rank / p.lam := by
  have hlam := hl p hp
  set A := p.D * p.Dᵀ with hA
  have h1 : total pens * (Sinv * A) = A := by
    rw [← Matrix.mul_assoc, hA, ← Matrix.mul_assoc, range_root pens hl Sinv hg p hp]
  have h2 : p.Dᵀ * total pens = p.lam • (p.Dᵀ * A) := by
    rw [Matrix.mul_sub, sub_eq_zero] at ho
    rw [ho, Matrix.mul_smul]
  have h3 : p.Dᵀ * (A * (p.lam • (Sinv * A) ) - A) = 0 := by
    rw [Matrix.mul_sub, Matrix.mul_smul, Matrix.mul_smul, ← Matrix.mul_assoc, ← Matrix.smul_mul, ← h2,
      Matrix.mul_assoc, h1, sub_self]
  have h4 : A * (p.lam • (Sinv * A)) = A := by
    have h5 : p.Dᵀ * (A * (p.lam • (Sinv * A)) - A) = (p.Dᵀ * p.D) * (p.Dᵀ * (p.lam • (Sinv * A)) - p.Dᵀ) := by
      rw [hA]; simp only [Matrix.mul_sub, Matrix.mul_assoc]
    rw [h5] at h3
    have h6 : ∀ X : Matrix (Fin p.q) (Fin n) ℝ, (p.Dᵀ * p.D) * X = 0 → p.D * X = 0 := by
      intro X hX
      ext i k
      have h7 : (p.Dᵀ * p.D) *ᵥ (fun i => X i k) = 0 := by
        funext i; exact congrFun (congrFun hX i) k
      have h8 : (p.D *ᵥ fun i => X i k) = 0 := by
        apply dot_self_zero
        rw [← mulVec_mulVec] at h7
        have h9 : (p.D *ᵥ fun i => X i k) ⬝ᵥ (p.D *ᵥ fun i => X i k)
            = (fun i => X i k) ⬝ᵥ p.Dᵀ *ᵥ (p.D *ᵥ fun i => X i k) := by
          conv_rhs => rw [dotProduct_mulVec, vecMul_transpose]
        rw [h9, h7, dotProduct_zero]
      exact congrFun h8 i
    have h7 := h6 _ h3
    rw [Matrix.mul_sub, ← Matrix.mul_assoc, ← hA, sub_eq_zero] at h7
    exact h7
  set M := p.lam • (Sinv * A) with hM
  have h5 : M * M = M := by
    conv_lhs => lhs; rw [hM]
    rw [Matrix.smul_mul, Matrix.mul_assoc, h4]
  have h6 : M.rank = A.rank := by
    apply le_antisymm
    · rw [hM, ← Matrix.smul_mul]
      exact rank_mul_le_right _ _
    · conv_lhs => rw [← h4]
      exact rank_mul_le_right _ _
  have h7 : M.trace = M.rank := by
    have h9 : LinearMap.IsProj (LinearMap.range (Matrix.mulVecLin M)) (Matrix.mulVecLin M) := by
      refine ⟨fun x => ⟨x, rfl⟩, ?_⟩
      rintro x ⟨y, rfl⟩
      rw [mulVecLin_apply, mulVecLin_apply, mulVec_mulVec, h5]
    have h10 := h9.trace
    rw [← Matrix.toLin'_apply'] at h10
    rw [Matrix.trace_toLin'_eq] at h10
    exact h10
  have h8 : M.trace = p.lam * (Sinv * A).trace := by rw [hM, trace_smul, smul_eq_mul]
  rw [eq_div_iff hlam.ne', mul_comm, ← h8, h7, h6, hA, rank_self_mul_transpose]

end Verif.Ridge
