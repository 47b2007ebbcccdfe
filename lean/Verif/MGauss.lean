import Verif.MGaussLemmas
import Mathlib.Analysis.SpecialFunctions.Log.Basic
import Mathlib.Tactic.NormNum
import Mathlib.Tactic.FinCases
import Mathlib.LinearAlgebra.Matrix.Notation

/-!
# Theorems about the multivariate Gaussian family (property C49)
-/

namespace Verif.MGauss

open Matrix

variable {m N : ℕ} {k : Fin m → ℕ}

/-- C49: the list of cells agrees with the positions from which `getR` reads the cells, so that columns of the Hessian and entries of
the gradient belong to the same parameters; there are `m (m + 1) / 2` of them. -/
theorem thetIdx_pos (m : ℕ) : (thetIdx m).length = m * (m + 1) / 2 ∧
    ∀ i j : Fin m, i ≤ j → (thetIdx m)[pos m i j]? = some ((i : ℕ), (j : ℕ)) := by
  have hlen : ∀ n ≤ m, ((List.range n).flatMap fun i => (List.range (m - i)).map fun d => (i, i + d)).length = datIdx m n := by
    intro n hn
    induction n with
    | zero => rfl
    | succ n ih => rw [List.range_succ, List.flatMap_append, List.length_append, ih (by omega)]; simp [datIdx]
  have htot : ∀ n ≤ m, 2 * datIdx m n = n * (2 * m + 1 - n) := by
    intro n hn
    induction n with
    | zero => simp [datIdx]
    | succ n ih =>
      rw [datIdx, Nat.mul_add, ih (by omega)]
      obtain ⟨d, rfl⟩ : ∃ d, m = n + 1 + d := ⟨m - (n + 1), by omega⟩
      have h1 : 2 * (n + 1 + d) + 1 - n = n + 3 + 2 * d := by omega
      have h2 : 2 * (n + 1 + d) + 1 - (n + 1) = n + 2 + 2 * d := by omega
      have h3 : n + 1 + d - n = 1 + d := by omega
      rw [h1, h2, h3]; ring
  constructor
  · have h1 : (thetIdx m).length = datIdx m m := hlen m le_rfl
    have h2 := htot m le_rfl
    rw [h1]
    have h3 : 2 * m + 1 - m = m + 1 := by omega
    rw [h3] at h2
    omega
  · intro i j hij
    have hij' : (i : ℕ) ≤ j := hij
    have hj := j.isLt
    have hsplit : List.range m = List.range i ++ (i : ℕ) :: (List.range' (i + 1) (m - i - 1)) := by
      rw [List.range_eq_range', List.range_eq_range', ← List.range'_succ]
      have h1 := List.range'_append_1 (s := 0) (m := i) (n := m - i - 1 + 1)
      rw [zero_add] at h1
      rw [h1]
      congr 1
      omega
    rw [thetIdx, hsplit, List.flatMap_append, List.flatMap_cons, List.getElem?_append_right (by rw [hlen i (by omega)]; exact Nat.le_add_right _ _),
      hlen i (by omega), List.getElem?_append_left (by simp [pos]; omega)]
    simp only [pos, Nat.add_sub_cancel_left, List.getElem?_map]
    rw [List.getElem?_range (by omega)]
    simp
    omega

example : thetIdx 3 = [(0, 0), (0, 1), (0, 2), (1, 1), (1, 2), (2, 2)] := by decide

/-- C49: the factor is upper triangular with positive diagonal, its determinant is the exponential of `logdet`, and it is the factor of
a positive definite precision matrix whose inverse turns into the identity under the transformation of the residuals. -/
theorem factor_spec (θ : ℕ → ℝ) : (∀ i j : Fin m, j < i → getR m θ i j = 0) ∧ (∀ i : Fin m, 0 < getR m θ i i) ∧
    (getR m θ).det = Real.exp (logdet m θ) ∧ ((getR m θ)ᵀ * getR m θ).PosDef ∧
      getR m θ * ((getR m θ)ᵀ * getR m θ)⁻¹ * (getR m θ)ᵀ = 1 := by
  have hdet : (getR m θ).det = Real.exp (logdet m θ) := by
    rw [Matrix.det_of_isUpperTriangular (getR_upper θ), logdet, Real.exp_sum]
    exact Finset.prod_congr rfl fun i _ => getR_diag θ i
  have hu : IsUnit (getR m θ).det := by rw [hdet]; exact (Real.exp_pos _).ne'.isUnit
  refine ⟨fun i j h => getR_upper θ h, fun i => by rw [getR_diag]; exact Real.exp_pos _, hdet, ?_, ?_⟩
  · have := Matrix.PosDef.conjTranspose_mul_self (getR m θ)
      (Matrix.mulVec_injective_iff_isUnit.2 ((Matrix.isUnit_iff_isUnit_det _).2 hu))
    rwa [conjTranspose_eq_transpose_of_trivial] at this
  · have hut : IsUnit (getR m θ)ᵀ.det := by rwa [Matrix.det_transpose]
    rw [Matrix.mul_inv_rev, ← Matrix.mul_assoc, Matrix.mul_nonsing_inv _ hu, Matrix.one_mul, Matrix.nonsing_inv_mul _ hut]

/-- C49: the log-likelihood is the sum of logarithms of multivariate normal densities with precision `Q = Rᵀ R`, up to the term
`N m log(2π) / 2`: the quadratic form of every observation and half of the log-determinant of the precision. -/
theorem llk_gauss (e : Matrix (Fin N) (Fin m) ℝ) (θ : ℕ → ℝ) (Q : Matrix (Fin m) (Fin m) ℝ) (hQ : Q = (getR m θ)ᵀ * getR m θ) :
    llk e θ = ∑ o, (1 / 2 * Real.log Q.det - 1 / 2 * (e o ⬝ᵥ Q *ᵥ e o)) := by
  obtain ⟨-, -, hdet, -, -⟩ := factor_spec (m := m) θ
  have hlog : 1 / 2 * Real.log Q.det = logdet m θ := by
    rw [hQ, det_mul, det_transpose, hdet, ← Real.exp_add, Real.log_exp]; ring
  have hquad : ∀ o, e o ⬝ᵥ Q *ᵥ e o = ∑ p, (e * (getR m θ)ᵀ) o p * (e * (getR m θ)ᵀ) o p := by
    intro o
    have h1 : ∀ p, (e * (getR m θ)ᵀ) o p = (getR m θ *ᵥ e o) p := by
      intro p
      rw [eR_apply, mulVec, dotProduct]
      exact Finset.sum_congr rfl fun q _ => mul_comm _ _
    rw [hQ, ← Matrix.mulVec_mulVec, Matrix.dotProduct_mulVec, Matrix.vecMul_transpose]
    simp only [h1, dotProduct]
  simp only [hlog, hquad, llk, Finset.sum_sub_distrib, Finset.sum_const, Finset.card_univ, Fintype.card_fin, nsmul_eq_mul, ← Finset.mul_sum]
  ring

/-- C49: the derivative of the log-likelihood along any direction, for any differentiable inverse links with derivatives `fi'`: the
entries for the means carry the factor `fi'`. -/
theorem llk_deriv (fi fi' : Fin m → ℝ → ℝ) (hfi : ∀ p x, HasDerivAt (fi p) (fi' p x) x) (y : Matrix (Fin N) (Fin m) ℝ)
    (X : (p : Fin m) → Matrix (Fin N) (Fin (k p)) ℝ) (β dβ : (p : Fin m) → Fin (k p) → ℝ) (θ dθ : ℕ → ℝ) :
    HasDerivAt (fun t : ℝ => llk (err fi y X (β + t • dβ)) (θ + t • dθ))
      ((∑ p, ∑ c, dβ p c * ∑ o, X p o c * fi' p (eta X β o p) * ((getR m θ)ᵀ * (err fi y X β * (getR m θ)ᵀ)ᵀ) p o) +
        ∑ r, ∑ c, if r ≤ c then dθ (pos m r c) * gradTheta (err fi y X β) θ r c else 0) 0 := by
  set e := err fi y X β with he
  set e' : Matrix (Fin N) (Fin m) ℝ := of fun o p => -(fi' p (eta X β o p) * eta X dβ o p) with he'
  have heta : ∀ (t : ℝ) o p, eta X (β + t • dβ) o p = eta X β o p + t * eta X dβ o p := by
    intro t o p
    simp only [eta, Pi.add_apply, Pi.smul_apply, smul_eq_mul, Finset.mul_sum, ← Finset.sum_add_distrib]
    exact Finset.sum_congr rfl fun c _ => by ring
  have hed : ∀ o q, HasDerivAt (fun t : ℝ => err fi y X (β + t • dβ) o q) (e' o q) 0 := by
    intro o q
    simp only [err, of_apply, heta, he']
    have h1 : HasDerivAt (fun t : ℝ => eta X β o q + t * eta X dβ o q) (eta X dβ o q) 0 := by
      have := ((hasDerivAt_id (0 : ℝ)).mul_const (eta X dβ o q)).const_add (eta X β o q)
      simpa using this
    have h2 : HasDerivAt (fi q) (fi' q (eta X β o q)) (eta X β o q + 0 * eta X dβ o q) := by
      rw [zero_mul, add_zero]; exact hfi q _
    exact (h2.comp (0 : ℝ) h1).const_sub (y o q)
  have h0e : err fi y X (β + (0 : ℝ) • dβ) = e := by rw [zero_smul, add_zero]
  have h0R : getR m (θ + (0 : ℝ) • dθ) = getR m θ := by rw [zero_smul, add_zero]
  have hz : ∀ o p, HasDerivAt (fun t : ℝ => (err fi y X (β + t • dβ) * (getR m (θ + t • dθ))ᵀ) o p)
      ((e' * (getR m θ)ᵀ) o p + (e * (dR m θ dθ)ᵀ) o p) 0 := by
    intro o p
    have := hasDerivAt_eR (fun t => err fi y X (β + t • dβ)) (fun t => getR m (θ + t • dθ)) e' (dR m θ dθ) hed
      (fun p q => hasDerivAt_getR θ dθ p q) o p
    simpa only [h0e, h0R] using this
  have hld : HasDerivAt (fun t : ℝ => logdet m (θ + t • dθ)) (∑ i : Fin m, dθ (pos m i i)) 0 := by
    simp only [logdet, Pi.add_apply, Pi.smul_apply, smul_eq_mul]
    refine HasDerivAt.fun_sum fun i _ => ?_
    have := ((hasDerivAt_id (0 : ℝ)).mul_const (dθ (pos m i i))).const_add (θ (pos m i i))
    simpa using this
  have hsum := (HasDerivAt.fun_sum (u := Finset.univ) fun o _ => HasDerivAt.fun_sum (u := Finset.univ) fun p _ =>
    (hz o p).mul (hz o p)).const_mul (-(1 / 2 : ℝ))
  have := hsum.add (hld.const_mul (N : ℝ))
  refine this.congr_deriv ?_
  rw [theta_sum]
  simp only [h0e, h0R]
  have hmean : (∑ p, ∑ c, dβ p c * ∑ o, X p o c * fi' p (eta X β o p) * ((getR m θ)ᵀ * (e * (getR m θ)ᵀ)ᵀ) p o) =
      -∑ o, ∑ p, (e * (getR m θ)ᵀ) o p * (e' * (getR m θ)ᵀ) o p := by
    have h1 : ∀ o, ∑ p, (e * (getR m θ)ᵀ) o p * (e' * (getR m θ)ᵀ) o p =
        ∑ q, e' o q * ((getR m θ)ᵀ * (e * (getR m θ)ᵀ)ᵀ) q o := by
      intro o
      simp only [eR_apply e', Matrix.mul_apply (M := (getR m θ)ᵀ), Finset.mul_sum, transpose_apply]
      rw [Finset.sum_comm]
      exact Finset.sum_congr rfl fun q _ => Finset.sum_congr rfl fun p _ => by ring
    rw [Finset.sum_congr rfl fun o _ => h1 o]
    simp only [he', of_apply, neg_mul, Finset.sum_neg_distrib, neg_neg]
    rw [Finset.sum_comm]
    refine Finset.sum_congr rfl fun p _ => ?_
    simp only [Finset.mul_sum]
    rw [Finset.sum_comm]
    refine Finset.sum_congr rfl fun o _ => ?_
    rw [show eta X dβ o p = ∑ c, X p o c * dβ p c from rfl, Finset.mul_sum, Finset.sum_mul]
    exact Finset.sum_congr rfl fun c _ => by ring
  rw [hmean]
  have h3 : ∀ o p, ((e' * (getR m θ)ᵀ) o p + (e * (dR m θ dθ)ᵀ) o p) * (e * (getR m θ)ᵀ) o p +
      (e * (getR m θ)ᵀ) o p * ((e' * (getR m θ)ᵀ) o p + (e * (dR m θ dθ)ᵀ) o p) =
      2 * ((e * (getR m θ)ᵀ) o p * (e' * (getR m θ)ᵀ) o p) + 2 * ((e * (getR m θ)ᵀ) o p * (e * (dR m θ dθ)ᵀ) o p) := by
    intro o p; ring
  simp only [h3, Finset.sum_add_distrib, ← Finset.mul_sum]
  ring

/-- C49, part: with identity links the gradient is the derivative of the log-likelihood in every direction.  Missing: other links, for
which the gradient lacks the derivative of the inverse link (`gradient_link`). -/
theorem gradient_partial (y : Matrix (Fin N) (Fin m) ℝ) (X : (p : Fin m) → Matrix (Fin N) (Fin (k p)) ℝ)
    (β dβ : (p : Fin m) → Fin (k p) → ℝ) (θ dθ : ℕ → ℝ) :
    HasDerivAt (fun t : ℝ => llk (err (fun _ x => x) y X (β + t • dβ)) (θ + t • dθ))
      ((∑ p, ∑ c, dβ p c * gradMean X (err (fun _ x => x) y X β) θ p c) +
        ∑ r, ∑ c, if r ≤ c then dθ (pos m r c) * gradTheta (err (fun _ x => x) y X β) θ r c else 0) 0 := by
  have := llk_deriv (fun _ x => x) (fun _ _ => 1) (fun p x => hasDerivAt_id x) y X β dβ θ dθ
  refine this.congr_deriv ?_
  congr 1
  refine Finset.sum_congr rfl fun p _ => Finset.sum_congr rfl fun c _ => ?_
  rw [gradMean]
  congr 1
  exact Finset.sum_congr rfl fun o _ => by rw [mul_one]

/-- Model matrix of one column and one row for examples. -/
def X1 : (p : Fin 1) → Matrix (Fin 1) (Fin 1) ℝ := fun _ => !![1]

/-- C49, negation: with a log link (inverse `exp`) and one observation `y = 3`, coefficient `log 2` and `θ = 0` the gradient says one but
the derivative is two. -/
theorem gradient_link : ∃ (y : Matrix (Fin 1) (Fin 1) ℝ) (β : (p : Fin 1) → Fin 1 → ℝ) (θ : ℕ → ℝ),
    gradMean X1 (err (fun _ => Real.exp) y X1 β) θ 0 0 = 1 ∧
      HasDerivAt (fun t : ℝ => llk (err (fun _ => Real.exp) y X1 (β + t • fun _ _ => 1)) θ) 2 0 := by
  refine ⟨!![3], fun _ _ => Real.log 2, 0, ?_, ?_⟩
  · simp [gradMean, err, X1, eta, getR, Matrix.mul_apply, Real.exp_log]
    norm_num
  · have h := llk_deriv (k := fun _ => 1) (fun _ => Real.exp) (fun _ => Real.exp) (fun p x => Real.hasDerivAt_exp x) !![3] X1
      (fun _ _ => Real.log 2) (fun _ _ => 1) 0 0
    simp only [smul_zero, add_zero] at h
    refine h.congr_deriv ?_
    simp [err, X1, eta, getR, Matrix.mul_apply, Real.exp_log]
    norm_num

/-! ## Second derivatives (identity links) -/

/-- Derivative of the entries of the gradient for the means along any direction. -/
theorem gradMean_deriv (y : Matrix (Fin N) (Fin m) ℝ) (X : (p : Fin m) → Matrix (Fin N) (Fin (k p)) ℝ)
    (β dβ : (p : Fin m) → Fin (k p) → ℝ) (θ dθ : ℕ → ℝ) (p : Fin m) (c : Fin (k p)) :
    HasDerivAt (fun t : ℝ => gradMean X (err (fun _ x => x) y X (β + t • dβ)) (θ + t • dθ) p c)
      (∑ o, X p o c * ((((dR m θ dθ)ᵀ * getR m θ + (getR m θ)ᵀ * dR m θ dθ) * (err (fun _ x => x) y X β)ᵀ) p o -
        ∑ q, ((getR m θ)ᵀ * getR m θ) p q * eta X dβ o q)) 0 := by
  set e := err (fun _ x => x) y X β with he
  set e' : Matrix (Fin N) (Fin m) ℝ := of fun o p => -eta X dβ o p with he'
  have hz := err_deriv y X β dβ θ dθ
  rw [← he, ← he'] at hz
  have h0e : err (fun _ x => x) y X (β + (0 : ℝ) • dβ) = e := by rw [zero_smul, add_zero]
  have h0R : getR m (θ + (0 : ℝ) • dθ) = getR m θ := by rw [zero_smul, add_zero]
  have h1 : ∀ o, HasDerivAt (fun t : ℝ => ((getR m (θ + t • dθ))ᵀ *
      (err (fun _ x => x) y X (β + t • dβ) * (getR m (θ + t • dθ))ᵀ)ᵀ) p o)
      (∑ q, (dR m θ dθ q p * (e * (getR m θ)ᵀ) o q + getR m θ q p * ((e' * (getR m θ)ᵀ) o q + (e * (dR m θ dθ)ᵀ) o q))) 0 := by
    intro o
    simp only [Matrix.mul_apply (M := (getR m (θ + _ • dθ))ᵀ), transpose_apply]
    refine HasDerivAt.fun_sum fun q _ => ?_
    have := (hasDerivAt_getR (m := m) θ dθ q p).fun_mul (hz o q)
    simpa only [h0e, h0R] using this
  refine (HasDerivAt.fun_sum (u := Finset.univ) fun o _ => (h1 o).const_mul (X p o c)).congr_deriv ?_
  refine Finset.sum_congr rfl fun o _ => ?_
  congr 1
  have ha : ((dR m θ dθ)ᵀ * getR m θ * eᵀ) p o = ∑ q, dR m θ dθ q p * (e * (getR m θ)ᵀ) o q := by
    rw [Matrix.mul_assoc, Matrix.mul_apply]
    refine Finset.sum_congr rfl fun q _ => ?_
    rw [transpose_apply, ← transpose_apply (getR m θ * eᵀ), transpose_mul, transpose_transpose]
  have hb : ((getR m θ)ᵀ * dR m θ dθ * eᵀ) p o = ∑ q, getR m θ q p * (e * (dR m θ dθ)ᵀ) o q := by
    rw [Matrix.mul_assoc, Matrix.mul_apply]
    refine Finset.sum_congr rfl fun q _ => ?_
    rw [transpose_apply, ← transpose_apply (dR m θ dθ * eᵀ), transpose_mul, transpose_transpose]
  have hc : ∑ q, ((getR m θ)ᵀ * getR m θ) p q * eta X dβ o q = -∑ q, getR m θ q p * (e' * (getR m θ)ᵀ) o q := by
    simp only [eR_apply, he', of_apply, Matrix.mul_apply, transpose_apply, neg_mul, Finset.sum_neg_distrib, mul_neg, neg_neg,
      Finset.mul_sum, Finset.sum_mul]
    rw [Finset.sum_comm]
    exact Finset.sum_congr rfl fun q _ => Finset.sum_congr rfl fun q' _ => by ring
  rw [Matrix.add_mul, Matrix.add_apply, ha, hb, hc]
  simp only [mul_add, Finset.sum_add_distrib]
  ring

/-- Derivative of the entries of the gradient for the factor along any direction. -/
theorem gradTheta_deriv (y : Matrix (Fin N) (Fin m) ℝ) (X : (p : Fin m) → Matrix (Fin N) (Fin (k p)) ℝ)
    (β dβ : (p : Fin m) → Fin (k p) → ℝ) (θ dθ : ℕ → ℝ) (r c : Fin m) :
    HasDerivAt (fun t : ℝ => gradTheta (err (fun _ x => x) y X (β + t • dβ)) (θ + t • dθ) r c)
      (-∑ o, ((-(∑ q, eta X dβ o q * getR m θ r q) + ((err (fun _ x => x) y X β) * (dR m θ dθ)ᵀ) o r) *
          ((err (fun _ x => x) y X β) o c * (if r = c then getR m θ r r else 1)) +
        ((err (fun _ x => x) y X β) * (getR m θ)ᵀ) o r * (-eta X dβ o c * (if r = c then getR m θ r r else 1) +
          (err (fun _ x => x) y X β) o c * (if r = c then dR m θ dθ r r else 0)))) 0 := by
  set e := err (fun _ x => x) y X β with he
  set e' : Matrix (Fin N) (Fin m) ℝ := of fun o p => -eta X dβ o p with he'
  have hz := err_deriv y X β dβ θ dθ
  rw [← he, ← he'] at hz
  have hed := fun o q => err_deriv0 y X β dβ o q
  have h0e : err (fun _ x => x) y X (β + (0 : ℝ) • dβ) = e := by rw [zero_smul, add_zero]
  have h0R : getR m (θ + (0 : ℝ) • dθ) = getR m θ := by rw [zero_smul, add_zero]
  have hform : ∀ (e : Matrix (Fin N) (Fin m) ℝ) (θ : ℕ → ℝ), gradTheta e θ r c =
      -(∑ o, (e * (getR m θ)ᵀ) o r * (e o c * (if r = c then getR m θ r r else 1))) + if r = c then (N : ℝ) else 0 := by
    intro e θ
    unfold gradTheta
    congr 2
    refine Finset.sum_congr rfl fun o _ => ?_
    simp only [eRp_apply]
    rw [Finset.sum_eq_single r]
    · rw [if_pos rfl]
    · intro q _ hq; rw [if_neg hq, mul_zero]
    · intro hr; exact absurd (Finset.mem_univ r) hr
  simp only [hform]
  have hv : HasDerivAt (fun t : ℝ => if r = c then getR m (θ + t • dθ) r r else 1) (if r = c then dR m θ dθ r r else 0) 0 := by
    by_cases h : r = c
    · simp only [if_pos h]; exact hasDerivAt_getR θ dθ r r
    · simp only [if_neg h]; exact hasDerivAt_const _ _
  have h1 : ∀ o, HasDerivAt (fun t : ℝ => (err (fun _ x => x) y X (β + t • dβ) * (getR m (θ + t • dθ))ᵀ) o r *
      (err (fun _ x => x) y X (β + t • dβ) o c * (if r = c then getR m (θ + t • dθ) r r else 1)))
      (((e' * (getR m θ)ᵀ) o r + (e * (dR m θ dθ)ᵀ) o r) * (e o c * (if r = c then getR m θ r r else 1)) +
        (e * (getR m θ)ᵀ) o r * (e' o c * (if r = c then getR m θ r r else 1) + e o c * (if r = c then dR m θ dθ r r else 0))) 0 := by
    intro o
    have := (hz o r).fun_mul ((hed o c).fun_mul hv)
    simpa only [h0e, h0R] using this
  refine ((HasDerivAt.fun_sum (u := Finset.univ) fun o _ => h1 o).neg.add_const _).congr_deriv ?_
  congr 1
  refine Finset.sum_congr rfl fun o _ => ?_
  simp only [he', eR_apply (of _), of_apply, neg_mul, Finset.sum_neg_distrib]

/-- C49: columns of the Hessian for coefficients of the means are derivatives of the gradient. -/
theorem hessian_coef (y : Matrix (Fin N) (Fin m) ℝ) (X : (p : Fin m) → Matrix (Fin N) (Fin (k p)) ℝ)
    (β : (p : Fin m) → Fin (k p) → ℝ) (θ : ℕ → ℝ) (p' : Fin m) (c' : Fin (k p')) :
    (∀ p c, HasDerivAt (fun t : ℝ => gradMean X (err (fun _ x => x) y X (β + t • unitB p' c')) θ p c)
      (hCC X θ p' c' p c) 0) ∧
    ∀ r c, HasDerivAt (fun t : ℝ => gradTheta (err (fun _ x => x) y X (β + t • unitB p' c')) θ r c)
      (hCT X (err (fun _ x => x) y X β) θ p' c' r c) 0 := by
  have heta : ∀ o q, eta X (unitB p' c') o q = xbar X p' c' q o := by
    intro o q
    simp only [eta, xbar, of_apply, unitB]
    by_cases hq : q = p'
    · subst hq
      simp [Pi.single_apply]
    · rw [if_neg hq, Pi.single_eq_of_ne hq]
      simp
  constructor
  · intro p c
    have h := gradMean_deriv y X β (unitB p' c') θ 0 p c
    simp only [smul_zero, add_zero, dR_zero] at h
    refine h.congr_deriv ?_
    rw [hCC, ← Finset.sum_neg_distrib]
    refine Finset.sum_congr rfl fun o _ => ?_
    simp only [heta, Matrix.mul_apply (N := xbar X p' c')]
    simp
  · intro r c
    have h := gradTheta_deriv y X β (unitB p' c') θ 0 r c
    simp only [smul_zero, add_zero, dR_zero] at h
    refine h.congr_deriv ?_
    set e := err (fun _ x => x) y X β
    rw [hCT, ← Finset.sum_neg_distrib]
    refine Finset.sum_congr rfl fun o _ => ?_
    have hx : ∀ q, xbar X p' c' q o = if q = p' then X p' o c' else 0 := fun q => rfl
    have h1 : (rpr θ r c * eᵀ) p' o = (if p' = c then (if r = c then getR m θ r r else 1) else 0) * (e * (getR m θ)ᵀ) o r +
        getR m θ r p' * (e o c * (if r = c then getR m θ r r else 1)) := by
      rw [rpr, Matrix.add_mul, Matrix.add_apply, Matrix.mul_assoc, Matrix.mul_assoc, Matrix.mul_apply, Matrix.mul_apply]
      congr 1
      · rw [Finset.sum_eq_single r]
        · rw [transpose_apply, Rp, Matrix.single_apply, eR_apply, Matrix.mul_apply]
          congr 1
          · by_cases hp : p' = c
            · rw [if_pos ⟨rfl, hp.symm⟩, if_pos hp]
            · rw [if_neg (fun h => hp h.2.symm), if_neg hp]
          · exact Finset.sum_congr rfl fun q _ => mul_comm _ _
        · intro q _ hq
          rw [transpose_apply, Rp, Matrix.single_apply, if_neg (fun h => hq h.1.symm), zero_mul]
        · intro hr; exact absurd (Finset.mem_univ r) hr
      · rw [Finset.sum_eq_single r]
        · rw [transpose_apply, ← transpose_apply (Rp θ r c * eᵀ), transpose_mul, transpose_transpose, eRp_apply, if_pos rfl]
        · intro q _ hq
          rw [← transpose_apply (Rp θ r c * eᵀ), transpose_mul, transpose_transpose, eRp_apply, if_neg hq, mul_zero]
        · intro hr; exact absurd (Finset.mem_univ r) hr
    rw [h1]
    generalize (if r = c then getR m θ r r else 1) = v
    simp only [heta, hx, ite_mul, zero_mul, Finset.sum_ite_eq', Finset.mem_univ, if_true]
    by_cases hp : p' = c
    · subst hp; simp; ring
    · have hp' : ¬ c = p' := fun h => hp h.symm
      simp [hp, hp']; ring

/-- C49: columns of the Hessian for parameters of the factor, rows for coefficients of the means. -/
theorem hessian_theta_mean (y : Matrix (Fin N) (Fin m) ℝ) (X : (p : Fin m) → Matrix (Fin N) (Fin (k p)) ℝ)
    (β : (p : Fin m) → Fin (k p) → ℝ) (θ : ℕ → ℝ) (r c' : Fin m) (h : r ≤ c') (p : Fin m) (c : Fin (k p)) :
    HasDerivAt (fun t : ℝ => gradMean X (err (fun _ x => x) y X β) (θ + t • Pi.single (pos m r c') 1) p c)
      (hTC X (err (fun _ x => x) y X β) θ r c' p c) 0 := by
  have hd := gradMean_deriv y X β 0 θ (Pi.single (pos m r c') 1) p c
  simp only [smul_zero, add_zero, dR_single θ r c' h] at hd
  refine hd.congr_deriv ?_
  rw [hTC]
  refine Finset.sum_congr rfl fun o _ => ?_
  simp [eta, rpr]

/-- The derivative in the direction of the parameter of a cell. -/
theorem theta_theta_deriv (y : Matrix (Fin N) (Fin m) ℝ) (X : (p : Fin m) → Matrix (Fin N) (Fin (k p)) ℝ)
    (β : (p : Fin m) → Fin (k p) → ℝ) (θ : ℕ → ℝ) (r' c' : Fin m) (h : r' ≤ c') (r c : Fin m) :
    HasDerivAt (fun t : ℝ => gradTheta (err (fun _ x => x) y X β) (θ + t • Pi.single (pos m r' c') 1) r c)
      (-∑ o, ∑ q, (((err (fun _ x => x) y X β) * (Rp θ r' c')ᵀ) o q * ((err (fun _ x => x) y X β) * (Rp θ r c)ᵀ) o q +
        if r = r' ∧ c = c' ∧ r = c then
          ((err (fun _ x => x) y X β) * (getR m θ)ᵀ) o q * ((err (fun _ x => x) y X β) * (Rp θ r' c')ᵀ) o q else 0)) 0 := by
  have hd := gradTheta_deriv y X β 0 θ (Pi.single (pos m r' c') 1) r c
  simp only [smul_zero, add_zero, dR_single θ r' c' h] at hd
  refine hd.congr_deriv ?_
  set e := err (fun _ x => x) y X β
  congr 1
  refine Finset.sum_congr rfl fun o _ => ?_
  have h1 : ∀ q, eta X (0 : (p : Fin m) → Fin (k p) → ℝ) o q = 0 := by intro q; simp [eta]
  simp only [h1, zero_mul, Finset.sum_const_zero, neg_zero, zero_add]
  rw [Finset.sum_eq_single r]
  · congr 1
    · rw [eRp_apply e θ r c, if_pos rfl]
    · by_cases hrc : r = c
      · subst hrc
        by_cases hr : r = r'
        · subst hr
          by_cases hc : r = c'
          · subst hc
            simp [eRp_apply, Rp]
          · simp [hc, Rp, Matrix.single_apply, Ne.symm hc]
        · simp [hr, Rp, Matrix.single_apply, Ne.symm hr]
      · simp [hrc]
  · intro q _ hq
    rw [eRp_apply e θ r c, if_neg hq, mul_zero, zero_add]
    by_cases hh : r = r' ∧ c = c' ∧ r = c
    · rw [if_pos hh, eRp_apply, if_neg (by rw [← hh.1]; exact hq), mul_zero]
    · rw [if_neg hh]
  · intro hr; exact absurd (Finset.mem_univ r) hr

/-- C49, part: the entry of the Hessian for two cells is the derivative of the gradient, unless both are the same cell above the
diagonal.  Missing: that case, see `hessian_theta_wrong`. -/
theorem hessian_theta_partial (y : Matrix (Fin N) (Fin m) ℝ) (X : (p : Fin m) → Matrix (Fin N) (Fin (k p)) ℝ)
    (β : (p : Fin m) → Fin (k p) → ℝ) (θ : ℕ → ℝ) (r' c' : Fin m) (h : r' ≤ c') (r c : Fin m)
    (hne : ¬ (r = r' ∧ c = c') ∨ r = c) :
    HasDerivAt (fun t : ℝ => gradTheta (err (fun _ x => x) y X β) (θ + t • Pi.single (pos m r' c') 1) r c)
      (hTT (err (fun _ x => x) y X β) θ r' c' r c) 0 := by
  have hd := theta_theta_deriv y X β θ r' c' h r c
  have hiff : (r = r' ∧ c = c' ∧ r = c) ↔ (r = r' ∧ c = c') := by tauto
  simp only [hiff] at hd
  exact hd

/-- C49, negation: for a cell above the diagonal the diagonal entry of the Hessian differs from the derivative of the gradient by minus
the sum of products of standardised residuals of the row and errors of the column. -/
theorem hessian_theta_wrong (y : Matrix (Fin N) (Fin m) ℝ) (X : (p : Fin m) → Matrix (Fin N) (Fin (k p)) ℝ)
    (β : (p : Fin m) → Fin (k p) → ℝ) (θ : ℕ → ℝ) (r c : Fin m) (h : r < c) :
    HasDerivAt (fun t : ℝ => gradTheta (err (fun _ x => x) y X β) (θ + t • Pi.single (pos m r c) 1) r c)
      (hTT (err (fun _ x => x) y X β) θ r c r c + ∑ o, resid (err (fun _ x => x) y X β) θ o r * err (fun _ x => x) y X β o c) 0 := by
  have hd := theta_theta_deriv y X β θ r c h.le r c
  refine hd.congr_deriv ?_
  set e := err (fun _ x => x) y X β
  simp only [h.ne, and_false, if_false, add_zero, hTT, and_self, if_true, Finset.sum_add_distrib, neg_add]
  have h2 : ∀ o, ∑ q, (e * (getR m θ)ᵀ) o q * (e * (Rp θ r c)ᵀ) o q = resid e θ o r * e o c := by
    intro o
    simp only [eRp_apply, if_neg h.ne, mul_one]
    rw [Finset.sum_eq_single r]
    · rw [if_pos rfl]; rfl
    · intro q _ hq; rw [if_neg hq, mul_zero]
    · intro hr; exact absurd (Finset.mem_univ r) hr
  simp only [h2]
  ring

/-- Two means, one observation `y = (1, 1)`, zero coefficients and `θ = 0`: the difference is one. -/
example : ∑ o : Fin 1, resid (err (fun _ x => x) !![1, 1] (fun _ : Fin 2 => (!![1] : Matrix (Fin 1) (Fin 1) ℝ)) 0) 0 o 0 *
    err (fun _ x => x) !![1, 1] (fun _ : Fin 2 => (!![1] : Matrix (Fin 1) (Fin 1) ℝ)) 0 o 1 = 1 := by
  simp [resid, err, eta, getR, Matrix.mul_apply, Fin.sum_univ_two]

end Verif.MGauss
