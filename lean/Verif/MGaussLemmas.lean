import Verif.MGaussModel
import Mathlib.Analysis.SpecialFunctions.ExpDeriv
import Mathlib.Analysis.Calculus.Deriv.Add
import Mathlib.Analysis.Calculus.Deriv.Mul
import Mathlib.LinearAlgebra.Matrix.NonsingularInverse
import Mathlib.LinearAlgebra.Matrix.Block
import Mathlib.LinearAlgebra.Matrix.PosDef
import Mathlib.Algebra.Order.Star.Real
import Mathlib.Algebra.BigOperators.Fin
import Mathlib.Tactic.Linarith

/-! Helper lemmas for `Verif.MGauss`. -/

namespace Verif.MGauss

open Matrix

theorem datIdx_mono (m : ℕ) {i j : ℕ} (h : i ≤ j) : datIdx m i ≤ datIdx m j := by
  induction h with
  | refl => exact le_rfl
  | step _ ih => exact le_trans ih (Nat.le_add_right _ _)

theorem pos_lt (m : ℕ) (i j : Fin m) (h : i ≤ j) : pos m i j < datIdx m (i + 1) := by
  have := j.isLt
  have hij : (i : ℕ) ≤ j := h
  simp only [pos, datIdx]; omega

theorem pos_inj (m : ℕ) (i j i' j' : Fin m) (h : i ≤ j) (h' : i' ≤ j') (he : pos m i j = pos m i' j') : i = i' ∧ j = j' := by
  have hii : i = i' := by
    rcases lt_trichotomy i i' with hl | hl | hl
    · have h1 := pos_lt m i j h
      have h2 : datIdx m (i + 1) ≤ datIdx m i' := datIdx_mono m hl
      have h3 : datIdx m i' ≤ pos m i' j' := Nat.le_add_right _ _
      omega
    · exact hl
    · have h1 := pos_lt m i' j' h'
      have h2 : datIdx m (i' + 1) ≤ datIdx m i := datIdx_mono m hl
      have h3 : datIdx m i ≤ pos m i j := Nat.le_add_right _ _
      omega
  subst hii
  refine ⟨rfl, ?_⟩
  have hij : (i : ℕ) ≤ j := h
  have hij' : (i : ℕ) ≤ j' := h'
  simp only [pos] at he
  exact Fin.ext (by omega)

variable {m N : ℕ} {k : Fin m → ℕ}

/-- Derivative of the factor along `dθ`. -/
noncomputable def dR (m : ℕ) (θ dθ : ℕ → ℝ) : Matrix (Fin m) (Fin m) ℝ :=
  of fun i j => if i ≤ j then dθ (pos m i j) * (if i = j then getR m θ i i else 1) else 0

theorem hasDerivAt_getR (θ dθ : ℕ → ℝ) (i j : Fin m) :
    HasDerivAt (fun t : ℝ => getR m (θ + t • dθ) i j) (dR m θ dθ i j) 0 := by
  have h0 : HasDerivAt (fun t : ℝ => θ (pos m i j) + t * dθ (pos m i j)) (dθ (pos m i j)) 0 := by
    have := ((hasDerivAt_id (0 : ℝ)).mul_const (dθ (pos m i j))).const_add (θ (pos m i j))
    simpa using this
  simp only [getR, dR, of_apply, Pi.add_apply, Pi.smul_apply, smul_eq_mul]
  by_cases hij : i ≤ j
  · simp only [if_pos hij]
    by_cases he : i = j
    · subst he
      simp only [if_pos rfl, le_refl]
      have := h0.exp
      simp only [zero_mul, add_zero] at this
      rw [mul_comm]
      simpa using this
    · simp only [if_neg he, mul_one]
      exact h0
  · simp only [if_neg hij]
    exact hasDerivAt_const _ _

/-- Entries of `E @ R.T`. -/
theorem eR_apply (e : Matrix (Fin N) (Fin m) ℝ) (R : Matrix (Fin m) (Fin m) ℝ) (o : Fin N) (p : Fin m) :
    (e * Rᵀ) o p = ∑ q, e o q * R p q := rfl

theorem hasDerivAt_eR (e : ℝ → Matrix (Fin N) (Fin m) ℝ) (R : ℝ → Matrix (Fin m) (Fin m) ℝ) (e' : Matrix (Fin N) (Fin m) ℝ)
    (R' : Matrix (Fin m) (Fin m) ℝ) (he : ∀ o q, HasDerivAt (fun t => e t o q) (e' o q) 0)
    (hR : ∀ p q, HasDerivAt (fun t => R t p q) (R' p q) 0) (o : Fin N) (p : Fin m) :
    HasDerivAt (fun t => (e t * (R t)ᵀ) o p) ((e' * (R 0)ᵀ) o p + (e 0 * R'ᵀ) o p) 0 := by
  simp only [eR_apply]
  rw [← Finset.sum_add_distrib]
  exact HasDerivAt.fun_sum fun q _ => (he o q).mul (hR p q)

theorem eRp_apply (e : Matrix (Fin N) (Fin m) ℝ) (θ : ℕ → ℝ) (r c : Fin m) (o : Fin N) (q : Fin m) :
    (e * (Rp θ r c)ᵀ) o q = if q = r then e o c * (if r = c then getR m θ r r else 1) else 0 := by
  rw [eR_apply]
  simp only [Rp, Matrix.single_apply]
  by_cases hq : q = r
  · subst hq
    simp
  · rw [if_neg hq]
    apply Finset.sum_eq_zero
    intro s _
    rw [if_neg (fun h => hq h.1.symm), mul_zero]

theorem dR_single (θ : ℕ → ℝ) (r c : Fin m) (h : r ≤ c) : dR m θ (Pi.single (pos m r c) 1) = Rp θ r c := by
  ext i j
  simp only [dR, Rp, of_apply, Matrix.single_apply]
  by_cases hij : i ≤ j
  · rw [if_pos hij]
    by_cases hp : pos m i j = pos m r c
    · obtain ⟨rfl, rfl⟩ := pos_inj m i j r c hij h hp
      simp
    · rw [Pi.single_eq_of_ne hp, zero_mul, if_neg]
      rintro ⟨rfl, rfl⟩
      exact hp rfl
  · rw [if_neg hij, if_neg]
    rintro ⟨rfl, rfl⟩
    exact hij h

theorem dR_zero (θ : ℕ → ℝ) : dR m θ 0 = 0 := by
  ext i j; simp [dR]

/-- The part of the gradient for the triangular factor, summed along a direction. -/
theorem theta_sum (e : Matrix (Fin N) (Fin m) ℝ) (θ dθ : ℕ → ℝ) :
    ∑ r, ∑ c, (if r ≤ c then dθ (pos m r c) * gradTheta e θ r c else 0) =
      -(∑ o, ∑ p, (e * (getR m θ)ᵀ) o p * (e * (dR m θ dθ)ᵀ) o p) + N * ∑ i, dθ (pos m i i) := by
  have h1 : ∀ r c : Fin m, (if r ≤ c then dθ (pos m r c) * gradTheta e θ r c else 0) =
      -(∑ o, (e * (getR m θ)ᵀ) o r * (e o c * dR m θ dθ r c)) + if r = c then N * dθ (pos m r c) else 0 := by
    intro r c
    by_cases h : r ≤ c
    · rw [if_pos h]
      have h2 : gradTheta e θ r c = -(∑ o, (e * (getR m θ)ᵀ) o r * (e o c * (if r = c then getR m θ r r else 1))) +
          if r = c then (N : ℝ) else 0 := by
        unfold gradTheta
        congr 2
        refine Finset.sum_congr rfl fun o _ => ?_
        simp only [eRp_apply]
        rw [Finset.sum_eq_single r]
        · rw [if_pos rfl]
        · intro q _ hq; rw [if_neg hq, mul_zero]
        · intro hr; exact absurd (Finset.mem_univ r) hr
      rw [h2, mul_add, mul_neg, Finset.mul_sum]
      congr 1
      · congr 1
        refine Finset.sum_congr rfl fun o _ => ?_
        simp only [dR, of_apply, if_pos h]
        ring
      · split_ifs <;> ring
    · have hne : r ≠ c := fun hc => h hc.le
      rw [if_neg h, if_neg hne, add_zero]
      simp [dR, h]
  simp only [h1, Finset.sum_add_distrib, Finset.sum_neg_distrib]
  congr 1
  · congr 1
    simp only [eR_apply, Finset.mul_sum]
    rw [Finset.sum_congr rfl fun r _ => Finset.sum_comm, Finset.sum_comm]
  · rw [Finset.mul_sum]
    refine Finset.sum_congr rfl fun r _ => ?_
    rw [Finset.sum_ite_eq]; simp

theorem getR_upper (θ : ℕ → ℝ) : (getR m θ).BlockTriangular id := by
  intro i j hij
  simp only [getR, of_apply]
  exact if_neg (not_le.2 hij)

theorem getR_diag (θ : ℕ → ℝ) (i : Fin m) : getR m θ i i = Real.exp (θ (pos m i i)) := by
  simp [getR]

theorem err_deriv0 (y : Matrix (Fin N) (Fin m) ℝ) (X : (p : Fin m) → Matrix (Fin N) (Fin (k p)) ℝ)
    (β dβ : (p : Fin m) → Fin (k p) → ℝ) (o : Fin N) (q : Fin m) :
    HasDerivAt (fun t : ℝ => err (fun _ x => x) y X (β + t • dβ) o q) ((of fun o p => -eta X dβ o p : Matrix (Fin N) (Fin m) ℝ) o q) 0 := by
  have heta : ∀ (t : ℝ), eta X (β + t • dβ) o q = eta X β o q + t * eta X dβ o q := by
    intro t
    simp only [eta, Pi.add_apply, Pi.smul_apply, smul_eq_mul, Finset.mul_sum, ← Finset.sum_add_distrib]
    exact Finset.sum_congr rfl fun c _ => by ring
  simp only [err, of_apply, heta]
  have h1 : HasDerivAt (fun t : ℝ => eta X β o q + t * eta X dβ o q) (eta X dβ o q) 0 := by
    have := ((hasDerivAt_id (0 : ℝ)).mul_const (eta X dβ o q)).const_add (eta X β o q)
    simpa using this
  exact h1.const_sub (y o q)

theorem err_deriv (y : Matrix (Fin N) (Fin m) ℝ) (X : (p : Fin m) → Matrix (Fin N) (Fin (k p)) ℝ)
    (β dβ : (p : Fin m) → Fin (k p) → ℝ) (θ dθ : ℕ → ℝ) (o : Fin N) (p : Fin m) :
    HasDerivAt (fun t : ℝ => (err (fun _ x => x) y X (β + t • dβ) * (getR m (θ + t • dθ))ᵀ) o p)
      (((of fun o p => -eta X dβ o p : Matrix (Fin N) (Fin m) ℝ) * (getR m θ)ᵀ) o p +
        (err (fun _ x => x) y X β * (dR m θ dθ)ᵀ) o p) 0 := by
  have := hasDerivAt_eR (fun t => err (fun _ x => x) y X (β + t • dβ)) (fun t => getR m (θ + t • dθ)) _ (dR m θ dθ)
    (fun o q => err_deriv0 y X β dβ o q) (fun p q => hasDerivAt_getR θ dθ p q) o p
  simpa only [zero_smul, add_zero] using this

end Verif.MGauss
