import Verif.DCholLemmas
import Mathlib.Analysis.SpecialFunctions.Sqrt
import Mathlib.Analysis.Calculus.Deriv.Inv
import Mathlib.Analysis.Calculus.Deriv.Add
import Mathlib.Analysis.Calculus.Deriv.Mul
import Mathlib.LinearAlgebra.Matrix.NonsingularInverse
import Mathlib.Tactic.FinCases
import Mathlib.Tactic.NoncommRing
import Mathlib.Analysis.SpecialFunctions.ExpDeriv
import Mathlib.LinearAlgebra.Matrix.Notation

/-! Property theorems: derivative of Cholesky factors and the second covariance correction (C10, C11, C56). -/

namespace Verif.DChol
open Finset Matrix

variable {n : ℕ}

/-- Upper triangular. -/
def Upper (M : Matrix (Fin n) (Fin n) ℝ) : Prop := ∀ i j, j < i → M i j = 0

/-- The derivative equation of `RᵀR = S`. -/
def SolvesDeriv (R A D : Matrix (Fin n) (Fin n) ℝ) : Prop := Upper D ∧ Dᵀ * R + Rᵀ * D = A

theorem solves_apply {R D : Matrix (Fin n) (Fin n) ℝ} (hD : Upper D) (hR : Upper R) (a b : Fin n) :
    (Dᵀ * R + Rᵀ * D) a b = ∑ k ∈ range ((a : ℕ) + 1), (toArr D k a * toArr R k b + toArr R k a * toArr D k b) := by
  rw [← sum_fin_le (fun k => toArr D k a * toArr R k b + toArr R k a * toArr D k b) a]
  · rw [Matrix.add_apply, Matrix.mul_apply, Matrix.mul_apply, ← sum_add_distrib]
    apply sum_congr rfl
    intro k _
    simp only [toArr_coe, transpose_apply]
  · intro k hk hkn
    have h1 := toArr_coe D ⟨k, hkn⟩ a
    have h2 := toArr_coe R ⟨k, hkn⟩ a
    rw [hD ⟨k, hkn⟩ a hk] at h1
    rw [hR ⟨k, hkn⟩ a hk] at h2
    simp only at h1 h2
    rw [h1, h2]; ring

theorem toArr_dChol (R A : Matrix (Fin n) (Fin n) ℝ) (i j : ℕ) (hi : i < n) (hj : j < n) :
    toArr (dChol R A) i j = dCholArr n (toArr R) (toArr A) i j := by
  simp [toArr, dChol, hi, hj]

/-- C10, existence. For an upper triangular factor with non-zero diagonal and a symmetric `A`, the result is upper triangular and
solves `dRᵀR + RᵀdR = A`. -/
theorem dChol_solves (R A : Matrix (Fin n) (Fin n) ℝ) (hR : Upper R) (hd : ∀ i, R i i ≠ 0) (hA : Aᵀ = A) :
    SolvesDeriv R A (dChol R A) := by
  have ho := dCholArr_outer n (toArr R) (toArr A) (fun i hi => by
    rw [toArr_coe R ⟨i, hi⟩ ⟨i, hi⟩]; exact hd _)
  have hU : Upper (dChol R A) := fun i j hij => ho.zero i j (Or.inr hij)
  have key : ∀ a b : Fin n, a ≤ b → ((dChol R A)ᵀ * R + Rᵀ * dChol R A) a b = A a b := by
    intro a b hab
    rw [solves_apply hU hR, ← toArr_coe A a b]
    have := ho.eqn a b a.2 hab b.2
    unfold RowEq at this
    rw [← this]
    apply sum_congr rfl
    intro k hk
    rw [mem_range] at hk
    rw [toArr_dChol _ _ _ _ (by omega) a.2, toArr_dChol _ _ _ _ (by omega) b.2]
  refine ⟨hU, ?_⟩
  ext a b
  rcases le_total a b with h | h
  · exact key a b h
  · have h1 := key b a h
    have h2 : ((dChol R A)ᵀ * R + Rᵀ * dChol R A)ᵀ = (dChol R A)ᵀ * R + Rᵀ * dChol R A := by
      rw [transpose_add, transpose_mul, transpose_mul, transpose_transpose, transpose_transpose, add_comm]
    rw [← h2, transpose_apply, h1]
    exact congrFun (congrFun hA a) b

/-- C10, uniqueness. No other upper triangular matrix solves the equation. -/
theorem dChol_unique (R A D : Matrix (Fin n) (Fin n) ℝ) (hR : Upper R) (hd : ∀ i, R i i ≠ 0) (hA : Aᵀ = A)
    (hD : SolvesDeriv R A D) : D = dChol R A := by
  have hS := dChol_solves R A hR hd hA
  -- difference of two solutions vanishes row by row
  have hrow : ∀ a : ℕ, ∀ ha : a < n, ∀ b : Fin n, D ⟨a, ha⟩ b = dChol R A ⟨a, ha⟩ b := by
    intro a
    induction a using Nat.strong_induction_on with
    | _ a ih =>
      intro ha
      have heq : ∀ b : Fin n, ∑ k ∈ range (a + 1), (toArr D k a * toArr R k b + toArr R k a * toArr D k b) =
          ∑ k ∈ range (a + 1), (toArr (dChol R A) k a * toArr R k b + toArr R k a * toArr (dChol R A) k b) := by
        intro b
        rw [← solves_apply hD.1 hR ⟨a, ha⟩ b, ← solves_apply hS.1 hR ⟨a, ha⟩ b, hD.2, hS.2]
      have hprev : ∀ b : Fin n, ∀ k < a, toArr D k b = toArr (dChol R A) k b := by
        intro b k hk
        rw [toArr_coe D ⟨k, by omega⟩ b, toArr_coe (dChol R A) ⟨k, by omega⟩ b]
        exact ih k hk (by omega) b
      have hred : ∀ b : Fin n, D ⟨a, ha⟩ ⟨a, ha⟩ * R ⟨a, ha⟩ b + R ⟨a, ha⟩ ⟨a, ha⟩ * D ⟨a, ha⟩ b =
          dChol R A ⟨a, ha⟩ ⟨a, ha⟩ * R ⟨a, ha⟩ b + R ⟨a, ha⟩ ⟨a, ha⟩ * dChol R A ⟨a, ha⟩ b := by
        intro b
        have h1 := heq b
        rw [sum_range_succ, sum_range_succ] at h1
        have h2 : ∑ k ∈ range a, (toArr D k a * toArr R k b + toArr R k a * toArr D k b) =
            ∑ k ∈ range a, (toArr (dChol R A) k a * toArr R k b + toArr R k a * toArr (dChol R A) k b) := by
          apply sum_congr rfl
          intro k hk
          rw [mem_range] at hk
          rw [hprev b k hk, hprev ⟨a, ha⟩ k hk]
        rw [h2] at h1
        have h3 := add_left_cancel h1
        have e1 := toArr_coe D ⟨a, ha⟩ ⟨a, ha⟩
        have e2 := toArr_coe D ⟨a, ha⟩ b
        have e3 := toArr_coe R ⟨a, ha⟩ ⟨a, ha⟩
        have e4 := toArr_coe R ⟨a, ha⟩ b
        have e5 := toArr_coe (dChol R A) ⟨a, ha⟩ ⟨a, ha⟩
        have e6 := toArr_coe (dChol R A) ⟨a, ha⟩ b
        simp only at e1 e2 e3 e4 e5 e6
        rw [e1, e2, e3, e4, e5, e6] at h3
        exact h3
      have hne := hd ⟨a, ha⟩
      have hdiag : D ⟨a, ha⟩ ⟨a, ha⟩ = dChol R A ⟨a, ha⟩ ⟨a, ha⟩ := by
        have h1 := hred ⟨a, ha⟩
        have h2 : R ⟨a, ha⟩ ⟨a, ha⟩ * (D ⟨a, ha⟩ ⟨a, ha⟩ * 2) = R ⟨a, ha⟩ ⟨a, ha⟩ * (dChol R A ⟨a, ha⟩ ⟨a, ha⟩ * 2) := by linarith
        have h3 := mul_left_cancel₀ hne h2
        linarith
      intro b
      have h1 := hred b
      rw [hdiag] at h1
      exact mul_left_cancel₀ hne (add_left_cancel h1)
  ext i j
  exact hrow i i.2 j

/-- Entries of a Cholesky factor are differentiable where the factored matrix is. -/
theorem factor_differentiable (S R : ℝ → Matrix (Fin n) (Fin n) ℝ) (t0 : ℝ) (hR : ∀ t, Upper (R t)) (hd : ∀ t i, 0 < R t i i)
    (hS : ∀ t, (R t)ᵀ * R t = S t) (hdiff : ∀ i j, DifferentiableAt ℝ (fun t => S t i j) t0) :
    ∀ i j, DifferentiableAt ℝ (fun t => R t i j) t0 := by
  have hent : ∀ t (a b : Fin n), S t a b = ∑ k ∈ range ((a : ℕ) + 1), toArr (R t) k a * toArr (R t) k b := by
    intro t a b
    rw [← hS t, Matrix.mul_apply, ← sum_fin_le (fun k => toArr (R t) k a * toArr (R t) k b) a]
    · simp only [toArr_coe, transpose_apply]
    · intro k hk hkn
      have h1 := toArr_coe (R t) ⟨k, hkn⟩ a
      rw [hR t ⟨k, hkn⟩ a hk] at h1
      simp only at h1
      rw [h1]; ring
  have hrow : ∀ a : ℕ, ∀ ha : a < n, ∀ b : Fin n, DifferentiableAt ℝ (fun t => R t ⟨a, ha⟩ b) t0 := by
    intro a
    induction a using Nat.strong_induction_on with
    | _ a ih =>
      intro ha
      have hsplit : ∀ t b, R t ⟨a, ha⟩ ⟨a, ha⟩ * R t ⟨a, ha⟩ b =
          S t ⟨a, ha⟩ b - ∑ k ∈ range a, toArr (R t) k a * toArr (R t) k b := by
        intro t b
        have := hent t ⟨a, ha⟩ b
        rw [sum_range_succ] at this
        have e1 := toArr_coe (R t) ⟨a, ha⟩ ⟨a, ha⟩
        have e2 := toArr_coe (R t) ⟨a, ha⟩ b
        simp only at e1 e2 this
        rw [e1, e2] at this
        linarith
      have hrest : ∀ b, DifferentiableAt ℝ (fun t => S t ⟨a, ha⟩ b - ∑ k ∈ range a, toArr (R t) k a * toArr (R t) k b) t0 := by
        intro b
        apply (hdiff _ _).sub
        apply DifferentiableAt.fun_sum
        intro k hk
        rw [mem_range] at hk
        have e1 : ∀ b : Fin n, DifferentiableAt ℝ (fun t => toArr (R t) k b) t0 := by
          intro b
          have : (fun t => toArr (R t) k b) = fun t => R t ⟨k, by omega⟩ b := funext fun t => toArr_coe (R t) ⟨k, by omega⟩ b
          rw [this]
          exact ih k hk (by omega) b
        exact (e1 ⟨a, ha⟩).mul (e1 b)
      have hdiag : DifferentiableAt ℝ (fun t => R t ⟨a, ha⟩ ⟨a, ha⟩) t0 := by
        have : (fun t => R t ⟨a, ha⟩ ⟨a, ha⟩) =
            fun t => Real.sqrt (S t ⟨a, ha⟩ ⟨a, ha⟩ - ∑ k ∈ range a, toArr (R t) k a * toArr (R t) k (⟨a, ha⟩ : Fin n)) := by
          funext t
          rw [← hsplit t, Real.sqrt_mul_self (hd t _).le]
        rw [this]
        apply (hrest ⟨a, ha⟩).sqrt
        rw [← hsplit t0]
        exact (mul_pos (hd t0 _) (hd t0 _)).ne'
      intro b
      have : (fun t => R t ⟨a, ha⟩ b) =
          fun t => (S t ⟨a, ha⟩ b - ∑ k ∈ range a, toArr (R t) k a * toArr (R t) k b) / R t ⟨a, ha⟩ ⟨a, ha⟩ := by
        funext t
        rw [← hsplit t, mul_div_cancel_left₀ _ (hd t _).ne']
      rw [this]
      exact (hrest b).div hdiag (hd t0 _).ne'
  exact fun i j => hrow i i.2 j

theorem hasDerivAt_mul_apply {P Q : ℝ → Matrix (Fin n) (Fin n) ℝ} {P' Q' : Matrix (Fin n) (Fin n) ℝ} {t0 : ℝ}
    (hP : ∀ i j, HasDerivAt (fun t => P t i j) (P' i j) t0) (hQ : ∀ i j, HasDerivAt (fun t => Q t i j) (Q' i j) t0) (i j : Fin n) :
    HasDerivAt (fun t => (P t * Q t) i j) ((P' * Q t0 + P t0 * Q') i j) t0 := by
  simp only [Matrix.add_apply, Matrix.mul_apply, ← sum_add_distrib]
  exact HasDerivAt.fun_sum fun k _ => (hP i k).mul (hQ k j)

/-- C10, the result is the derivative. Take any differentiable path of positive definite matrices with its Cholesky factors
(upper triangular, positive diagonal). The factor is differentiable and its derivative is what `dChol` returns. -/
theorem dChol_is_derivative (S R : ℝ → Matrix (Fin n) (Fin n) ℝ) (S' : Matrix (Fin n) (Fin n) ℝ) (t0 : ℝ) (hR : ∀ t, Upper (R t))
    (hd : ∀ t i, 0 < R t i i) (hS : ∀ t, (R t)ᵀ * R t = S t) (hS' : ∀ i j, HasDerivAt (fun t => S t i j) (S' i j) t0) (i j : Fin n) :
    HasDerivAt (fun t => R t i j) (dChol (R t0) S' i j) t0 := by
  have hdiff := factor_differentiable S R t0 hR hd hS (fun i j => (hS' i j).differentiableAt)
  set D : Matrix (Fin n) (Fin n) ℝ := Matrix.of fun i j => deriv (fun t => R t i j) t0 with hDdef
  have hD : ∀ i j, HasDerivAt (fun t => R t i j) (D i j) t0 := fun i j => (hdiff i j).hasDerivAt
  have hsym : S'ᵀ = S' := by
    ext a b
    rw [transpose_apply]
    apply (hS' b a).unique
    have : (fun t => S t b a) = fun t => S t a b := by
      funext t
      have : ((R t)ᵀ * R t)ᵀ = (R t)ᵀ * R t := by rw [transpose_mul, transpose_transpose]
      rw [← hS t]
      exact congrFun (congrFun this a) b
    rw [this]
    exact hS' a b
  have hsol : SolvesDeriv (R t0) S' D := by
    constructor
    · intro a b hab
      apply (hD a b).unique
      have : (fun t => R t a b) = fun _ => 0 := funext fun t => hR t a b hab
      rw [this]
      exact hasDerivAt_const _ _
    · ext a b
      have h1 := hasDerivAt_mul_apply (P := fun t => (R t)ᵀ) (P' := Dᵀ) (fun i j => hD j i) hD a b
      have h2 : (fun t => ((R t)ᵀ * R t) a b) = fun t => S t a b := funext fun t => by rw [hS t]
      rw [h2] at h1
      exact h1.unique (hS' a b)
  rw [← dChol_unique (R t0) S' D (hR t0) (fun i => (hd t0 i).ne') hsym hsol]
  exact hD i j

/-- The determinant of a matrix with differentiable entries is differentiable. -/
theorem differentiableAt_det {R : ℝ → Matrix (Fin n) (Fin n) ℝ} {t0 : ℝ}
    (hR : ∀ i j, DifferentiableAt ℝ (fun t => R t i j) t0) : DifferentiableAt ℝ (fun t => (R t).det) t0 := by
  simp_rw [Matrix.det_apply]
  refine DifferentiableAt.fun_sum fun σ _ => ?_
  exact (DifferentiableAt.fun_finsetProd fun i _ => hR (σ i) i).fun_const_smul _

/-- The entries of the inverse of a matrix with differentiable entries are differentiable. -/
theorem differentiableAt_inv {R Rinv : ℝ → Matrix (Fin n) (Fin n) ℝ} {t0 : ℝ}
    (hR : ∀ i j, DifferentiableAt ℝ (fun t => R t i j) t0) (hinv : ∀ t, Rinv t * R t = 1) (i j : Fin n) :
    DifferentiableAt ℝ (fun t => Rinv t i j) t0 := by
  have h0 : ∀ t, (R t).det ≠ 0 := fun t => by
    have := congrArg Matrix.det (hinv t)
    rw [Matrix.det_mul, Matrix.det_one] at this
    exact right_ne_zero_of_mul_eq_one this
  have e : (fun t => Rinv t i j) = fun t => (R t).det⁻¹ * ((R t).updateRow j (Pi.single i 1)).det := by
    funext t
    rw [← Matrix.inv_eq_left_inv (hinv t), Matrix.inv_def, Matrix.smul_apply, Matrix.adjugate_apply, Ring.inverse_eq_inv', smul_eq_mul]
  rw [e]
  refine ((differentiableAt_det hR).fun_inv (h0 t0)).fun_mul (differentiableAt_det fun a b => ?_)
  by_cases h : a = j
  · subst h
    simp only [Matrix.updateRow_self]
    exact differentiableAt_const _
  · simp only [Matrix.updateRow_ne h]
    exact hR a b

/-- C56, what holds: `invdChol` returns the derivative of the inverse factor with the opposite sign. -/
theorem invdChol_is_neg_derivative_partial (S R Rinv : ℝ → Matrix (Fin n) (Fin n) ℝ) (S' : Matrix (Fin n) (Fin n) ℝ) (t0 : ℝ)
    (hR : ∀ t, Upper (R t)) (hd : ∀ t i, 0 < R t i i) (hS : ∀ t, (R t)ᵀ * R t = S t)
    (hS' : ∀ i j, HasDerivAt (fun t => S t i j) (S' i j) t0) (hinv : ∀ t, Rinv t * R t = 1)
    (i j : Fin n) :
    HasDerivAt (fun t => Rinv t i j) (-(invdChol (R t0) (Rinv t0) S') i j) t0 := by
  set E : Matrix (Fin n) (Fin n) ℝ := Matrix.of fun i j => deriv (fun t => Rinv t i j) t0
  have hE : ∀ i j, HasDerivAt (fun t => Rinv t i j) (E i j) t0 := fun i j =>
    (differentiableAt_inv (fun a b => (dChol_is_derivative S R S' t0 hR hd hS hS' a b).differentiableAt) hinv i j).hasDerivAt
  have h0 : E * R t0 + Rinv t0 * dChol (R t0) S' = 0 := by
    ext a b
    have h1 := hasDerivAt_mul_apply hE (dChol_is_derivative S R S' t0 hR hd hS hS') a b
    have h2 : (fun t => (Rinv t * R t) a b) = fun _ => (1 : Matrix (Fin n) (Fin n) ℝ) a b := funext fun t => by rw [hinv t]
    rw [h2] at h1
    exact h1.unique (hasDerivAt_const _ _)
  have hinv' : R t0 * Rinv t0 = 1 := mul_eq_one_comm.1 (hinv t0)
  have : E = -invdChol (R t0) (Rinv t0) S' := by
    unfold invdChol
    calc E = E * (R t0 * Rinv t0) := by rw [hinv', Matrix.mul_one]
      _ = (E * R t0 + Rinv t0 * dChol (R t0) S') * Rinv t0 - Rinv t0 * dChol (R t0) S' * Rinv t0 := by noncomm_ring
      _ = _ := by rw [h0]; simp
  have hh := hE i j
  rw [this] at hh
  exact hh

/-- C56 fails as documented: for the 1×1 path `S(t) = t`, factor `√t`, the inverse factor `1/√t` has a negative derivative at 1,
while the returned value is positive. -/
theorem invdChol_not_derivative :
    let R : Matrix (Fin 1) (Fin 1) ℝ := 1
    invdChol R R 1 0 0 = 1 / 2 ∧ HasDerivAt (fun t : ℝ => (Real.sqrt t)⁻¹) (-(1 / 2)) 1 := by
  intro R
  constructor
  · have hs := dChol_solves (n := 1) 1 1 (fun i j h => by omega) (fun i => by simp) (by simp)
    have h2 := congrFun (congrFun hs.2 0) 0
    simp only [Matrix.mul_one, transpose_one, Matrix.one_mul, Matrix.add_apply, transpose_apply, Matrix.one_apply_eq] at h2
    unfold invdChol
    simp only [R, Matrix.mul_one, Matrix.one_mul]
    linarith
  · have h := (Real.hasDerivAt_sqrt (x := 1) (by norm_num)).inv (by simp)
    refine h.congr_deriv ?_
    simp

/-! ### C11 -/

theorem v2_inner (nn : ℕ) {np : ℕ} (V : Matrix (Fin np) (Fin np) ℝ) (M : Fin np → ℕ → ℕ → ℝ) (j s c : ℕ) (acc : ℕ → ℕ → ℝ) :
    ∀ a b, (List.range' s c).foldl (fun acc m => setAt (setAt acc m j (vjm nn V M j m)) j m (vjm nn V M j m)) acc a b =
      if a = j ∧ s ≤ b ∧ b < s + c then vjm nn V M j b
      else if b = j ∧ s ≤ a ∧ a < s + c then vjm nn V M j a else acc a b := by
  induction c generalizing s acc with
  | zero => intro a b; rw [if_neg (by omega), if_neg (by omega)]; rfl
  | succ c ih =>
    intro a b
    rw [List.range'_succ, List.foldl_cons, ih]
    by_cases h1 : a = j ∧ s + 1 ≤ b ∧ b < s + 1 + c
    · rw [if_pos h1, if_pos (by omega)]
    rw [if_neg h1]
    by_cases h2 : b = j ∧ s + 1 ≤ a ∧ a < s + 1 + c
    · rw [if_pos h2]
      by_cases h3 : a = j ∧ s ≤ b ∧ b < s + (c + 1)
      · rw [if_pos h3, h3.1, h2.1]
      · rw [if_neg h3, if_pos (by omega)]
    rw [if_neg h2]
    by_cases h3 : a = j ∧ b = s
    · rw [if_pos (by omega), h3.1, h3.2, setAt_self]
    rw [setAt_ne _ _ _ _ _ _ h3]
    by_cases h4 : a = s ∧ b = j
    · rw [h4.1, h4.2, setAt_self, if_neg (by omega), if_pos (by omega)]
    rw [setAt_ne _ _ _ _ _ _ h4, if_neg (by omega), if_neg (by omega)]

theorem v2_outer (nn : ℕ) {np : ℕ} (V : Matrix (Fin np) (Fin np) ℝ) (M : Fin np → ℕ → ℕ → ℝ) (J : ℕ) (hJ : J ≤ nn) :
    ∀ a b, a < nn → b < nn → (List.range J).foldl (fun acc j => (List.range' j (nn - j)).foldl
      (fun acc m => setAt (setAt acc m j (vjm nn V M j m)) j m (vjm nn V M j m)) acc) (fun _ _ => 0) a b =
      if min a b < J then vjm nn V M (min a b) (max a b) else 0 := by
  induction J with
  | zero => intro a b _ _; simp
  | succ J ih =>
    intro a b ha hb
    rw [List.range_succ, List.foldl_append, List.foldl_cons, List.foldl_nil, v2_inner, ih (by omega) a b ha hb]
    by_cases h1 : a = J ∧ J ≤ b ∧ b < J + (nn - J)
    · rw [if_pos h1, if_pos (by omega), min_eq_left (by omega), max_eq_right (by omega), h1.1]
    rw [if_neg h1]
    by_cases h2 : b = J ∧ J ≤ a ∧ a < J + (nn - J)
    · rw [if_pos h2, if_pos (by omega), min_eq_right (by omega), max_eq_left (by omega), h2.1]
    rw [if_neg h2]
    by_cases h3 : min a b < J
    · rw [if_pos h3, if_pos (by omega)]
    · rw [if_neg h3, if_neg (by omega)]

/-- C11, value. With upper triangular `M k` and a symmetric `V` the result is `Σ_k Σ_l V k l • M k * (M l)ᵀ`. -/
theorem computeV2_eq {np : ℕ} (V : Matrix (Fin np) (Fin np) ℝ) (M : Fin np → Matrix (Fin n) (Fin n) ℝ) (hV : Vᵀ = V)
    (hM : ∀ k, Upper (M k)) : computeV2 V M = ∑ k, ∑ l, V k l • (M k * (M l)ᵀ) := by
  have hv : ∀ a b : Fin n, a ≤ b → vjm n V (fun k => toArr (M k)) a b = (∑ k, ∑ l, V k l • (M k * (M l)ᵀ)) a b := by
    intro a b _
    unfold vjm
    rw [sum_comm]
    simp only [Matrix.sum_apply, Matrix.smul_apply, Matrix.mul_apply, transpose_apply, smul_eq_mul, mul_sum]
    apply sum_congr rfl
    intro k _
    apply sum_congr rfl
    intro l _
    have : ∑ i : Fin n, V k l * (M k a i * M l b i) =
        ∑ i ∈ range n, toArr (M k) a i * V k l * toArr (M l) b i := by
      rw [← Fin.sum_univ_eq_sum_range (fun i => toArr (M k) a i * V k l * toArr (M l) b i) n]
      apply sum_congr rfl
      intro i _
      rw [toArr_coe, toArr_coe]; ring
    rw [this]
    apply sum_subset
    · intro i; simp only [mem_Ico, mem_range]; omega
    · intro i hi hi'
      rw [mem_range] at hi
      have hib : i < b := by
        by_contra hc
        exact hi' (mem_Ico.2 ⟨by omega, hi⟩)
      have h1 := toArr_coe (M l) b ⟨i, hi⟩
      rw [hM l b ⟨i, hi⟩ hib] at h1
      simp only at h1
      rw [h1]; ring
  have hsym : (∑ k, ∑ l, V k l • (M k * (M l)ᵀ))ᵀ = ∑ k, ∑ l, V k l • (M k * (M l)ᵀ) := by
    simp only [transpose_sum, transpose_smul, transpose_mul, transpose_transpose]
    rw [sum_comm]
    apply sum_congr rfl; intro k _
    apply sum_congr rfl; intro l _
    rw [← hV, transpose_apply]
    rw [hV]
  ext a b
  show computeV2Arr n V (fun k => toArr (M k)) a b = _
  unfold computeV2Arr
  rw [v2_outer n V _ n le_rfl a b a.2 b.2, if_pos (by omega)]
  rcases le_total a b with h | h
  · rw [min_eq_left (show (a : ℕ) ≤ b from h), max_eq_right (show (a : ℕ) ≤ b from h)]
    exact hv a b h
  · rw [min_eq_right (show (b : ℕ) ≤ a from h), max_eq_left (show (b : ℕ) ≤ a from h), hv b a h]
    rw [← hsym, transpose_apply, hsym]

/-- C11, symmetric. -/
theorem computeV2_symm {np : ℕ} (V : Matrix (Fin np) (Fin np) ℝ) (M : Fin np → Matrix (Fin n) (Fin n) ℝ) :
    (computeV2 V M)ᵀ = computeV2 V M := by
  ext a b
  show computeV2Arr n V (fun k => toArr (M k)) b a = computeV2Arr n V (fun k => toArr (M k)) a b
  unfold computeV2Arr
  rw [v2_outer n V _ n le_rfl a b a.2 b.2, v2_outer n V _ n le_rfl b a b.2 a.2, min_comm, max_comm]

/-- C11, positive semi-definite when the smoothing parameter covariance is. -/
theorem computeV2_psd {np : ℕ} (V : Matrix (Fin np) (Fin np) ℝ) (M : Fin np → Matrix (Fin n) (Fin n) ℝ) (hV : Vᵀ = V)
    (hpsd : ∀ x : Fin np → ℝ, 0 ≤ ∑ k, ∑ l, x k * V k l * x l) (hM : ∀ k, Upper (M k)) (v : Fin n → ℝ) :
    0 ≤ ∑ a, ∑ b, v a * computeV2 V M a b * v b := by
  rw [computeV2_eq V M hV hM]
  have : ∑ a, ∑ b, v a * (∑ k, ∑ l, V k l • (M k * (M l)ᵀ)) a b * v b =
      ∑ i, ∑ k, ∑ l, (∑ a, v a * M k a i) * V k l * (∑ b, v b * M l b i) := by
    simp only [Matrix.sum_apply, Matrix.smul_apply, Matrix.mul_apply, transpose_apply, smul_eq_mul, mul_sum, sum_mul]
    calc _ = ∑ a, ∑ b, ∑ i, ∑ k, ∑ l, v a * M k a i * V k l * (v b * M l b i) := by
          apply sum_congr rfl; intro a _
          apply sum_congr rfl; intro b _
          rw [sum_comm' (t' := univ) (s' := fun _ => univ) (by simp)]
          conv_rhs => rw [sum_comm]
          rw [sum_comm]
          apply sum_congr rfl; intro k _
          conv_rhs => rw [sum_comm]
          apply sum_congr rfl; intro l _
          apply sum_congr rfl; intro i _
          ring
      _ = ∑ i, ∑ k, ∑ l, ∑ b, ∑ a, v a * M k a i * V k l * (v b * M l b i) := by
          rw [sum_congr rfl fun a _ => sum_comm, sum_comm]
          apply sum_congr rfl; intro i _
          rw [sum_congr rfl fun a _ => sum_comm, sum_comm]
          apply sum_congr rfl; intro k _
          rw [sum_congr rfl fun a _ => sum_comm, sum_comm]
          apply sum_congr rfl; intro l _
          rw [sum_comm]
  rw [this]
  exact sum_nonneg fun i _ => hpsd fun k => ∑ a, v a * M k a i

/-- A 2×2 factor, derivative matrix and path meeting the hypotheses above. -/
example : Upper !![2, 1; 0, 3] ∧ (∀ i, (!![2, 1; 0, 3] : Matrix (Fin 2) (Fin 2) ℝ) i i ≠ 0) ∧
    (!![1, 5; 5, 2] : Matrix (Fin 2) (Fin 2) ℝ)ᵀ = !![1, 5; 5, 2] := by
  refine ⟨?_, ?_, ?_⟩
  · intro i j h; fin_cases i <;> fin_cases j <;> simp_all
  · intro i; fin_cases i <;> simp
  · ext i j; fin_cases i <;> fin_cases j <;> rfl

/-- The path `R(t) = [[exp t, t], [0, 1]]` meets the hypotheses of `dChol_is_derivative` for every `t0`. -/
example : (∀ t : ℝ, Upper !![Real.exp t, t; 0, 1]) ∧ (∀ (t : ℝ) (i : Fin 2), 0 < (!![Real.exp t, t; 0, 1] : Matrix _ _ ℝ) i i) := by
  refine ⟨?_, ?_⟩
  · intro t i j h; fin_cases i <;> fin_cases j <;> simp_all
  · intro t i; fin_cases i <;> simp [Real.exp_pos]

end Verif.DChol
