import Verif.BsplineModel
import Mathlib.Tactic.Ring
import Mathlib.Tactic.Linarith
import Mathlib.Tactic.FieldSimp
import Mathlib.Tactic.Positivity
import Mathlib.Tactic.NormNum
import Mathlib.Algebra.BigOperators.Ring.Finset
import Mathlib.Algebra.BigOperators.Intervals
import Mathlib.Algebra.BigOperators.Field

/-!
# Differences of truncated powers: lemmas
-/

namespace Verif.Bspline

open Finset

theorem dif_iter_succ (m : ℕ) (f : ℕ → ℝ) (j : ℕ) : dif^[m + 1] f j = dif^[m] f (j + 1) - dif^[m] f j := by
  rw [Function.iterate_succ_apply']
  rfl

/-- Only entries `j .. j+m` matter. -/
theorem dif_iter_congr (m : ℕ) : ∀ (f g : ℕ → ℝ) (j : ℕ), (∀ i, j ≤ i → i ≤ j + m → f i = g i) → dif^[m] f j = dif^[m] g j := by
  induction m with
  | zero => intro f g j h; exact h j le_rfl le_rfl
  | succ m ih =>
    intro f g j h
    rw [dif_iter_succ, dif_iter_succ, ih f g (j + 1) (fun i h1 h2 => h i (by omega) (by omega)),
      ih f g j (fun i h1 h2 => h i (by omega) (by omega))]

theorem dif_iter_zero (m j : ℕ) : dif^[m] (fun _ => (0 : ℝ)) j = 0 := by
  induction m generalizing j with
  | zero => rfl
  | succ m ih => rw [dif_iter_succ, ih, ih, sub_zero]

/-- Multiplying a row by the difference matrix takes differences. -/
theorem mul_difI (p : ℕ → ℝ) (n : ℕ) (m : ℕ) : ∀ j, j + m < n → ∑ k ∈ range n, p k * difI m k j = dif^[m] p j := by
  induction m with
  | zero =>
    intro j hj
    unfold difI
    simp only [Function.iterate_zero, id_eq, mul_ite, mul_one, mul_zero]
    rw [Finset.sum_ite_eq' (range n) j p, if_pos (mem_range.2 (by omega))]
  | succ m ih =>
    intro j hj
    rw [dif_iter_succ, ← ih (j + 1) (by omega), ← ih j (by omega), ← Finset.sum_sub_distrib]
    refine Finset.sum_congr rfl fun k _ => ?_
    unfold difI
    rw [dif_iter_succ, mul_sub]

/-- Leibniz rule for a sequence with constant difference `c`. -/
theorem dif_iter_mul (a g : ℕ → ℝ) (c : ℝ) (ha : ∀ k, a (k + 1) = a k + c) (m : ℕ) :
    ∀ j, dif^[m + 1] (fun k => a k * g k) j = a j * dif^[m + 1] g j + (m + 1 : ℝ) * c * dif^[m] g (j + 1) := by
  induction m with
  | zero =>
    intro j
    simp only [dif_iter_succ, Function.iterate_zero, id_eq, ha]
    push_cast
    ring
  | succ m ih =>
    intro j
    rw [dif_iter_succ, ih, ih, dif_iter_succ (m + 1) g j, ha, dif_iter_succ m g (j + 1)]
    push_cast
    ring

theorem tpower_succ (x t : ℝ) (p : ℕ) : tpower x t (p + 1) = (x - t) * tpower x t p := by
  unfold tpower
  ring

variable {t : ℕ → ℝ} {h : ℝ}

/-- Equally spaced knots. -/
def Even (t : ℕ → ℝ) (h : ℝ) : Prop := ∀ k, t (k + 1) = t k + h

theorem even_add (ht : Even t h) (k i : ℕ) : t (k + i) = t k + i * h := by
  induction i with
  | zero => simp
  | succ i ih =>
    rw [← Nat.add_assoc, ht, ih]
    push_cast
    ring

/-- B-spline `k` of degree `d` on knots `t`, in terms of differences. -/
noncomputable def bs (t : ℕ → ℝ) (h : ℝ) (x : ℝ) (d k : ℕ) : ℝ :=
  (-1) ^ (d + 1) * dif^[d + 1] (fun i => tpower x (t i) d) k / ((d.factorial : ℝ) * h ^ d)

theorem bbase_eq (x : ℝ) (t : ℕ → ℝ) (n : ℕ) (h : ℝ) (d j : ℕ) (hj : j + (d + 1) < n) : bbase x t n h d j = bs t h x d j := by
  unfold bbase bs
  rw [← mul_difI _ n (d + 1) j hj, mul_div_assoc, Finset.sum_div]
  congr 1
  exact Finset.sum_congr rfl fun k _ => (mul_div_assoc _ _ _).symm

theorem bs_zero (x : ℝ) (k : ℕ) : bs t h x 0 k = (if x > t k then 1 else 0) - (if x > t (k + 1) then 1 else 0) := by
  unfold bs
  simp only [dif_iter_succ, Function.iterate_zero, id_eq, tpower]
  simp

/-- Cox - de Boor recursion. -/
theorem bs_succ (ht : Even t h) (hh : h ≠ 0) (x : ℝ) (d k : ℕ) :
    bs t h x (d + 1) k = ((x - t k) * bs t h x d k + (t (k + d + 2) - x) * bs t h x d (k + 1)) / (((d : ℝ) + 1) * h) := by
  unfold bs
  have hl := dif_iter_mul (fun i => x - t i) (fun i => tpower x (t i) d) (-h) (fun i => by rw [ht i]; ring) (d + 1) k
  have he : (fun i => tpower x (t i) (d + 1)) = fun i => (x - t i) * tpower x (t i) d := funext fun i => tpower_succ x (t i) d
  rw [he, hl, dif_iter_succ (d + 1) _ k, show k + d + 2 = k + (d + 2) from by ring, even_add ht k (d + 2), Nat.factorial_succ]
  have hd : (d.factorial : ℝ) ≠ 0 := by exact_mod_cast d.factorial_ne_zero
  have hd1 : (d : ℝ) + 1 ≠ 0 := by positivity
  push_cast
  field_simp
  ring

/-- Zero to the left of the support. -/
theorem bs_left (ht : Even t h) (hh : 0 < h) (x : ℝ) (d k : ℕ) (hx : x ≤ t k) : bs t h x d k = 0 := by
  unfold bs
  have : dif^[d + 1] (fun i => tpower x (t i) d) k = 0 := by
    rw [← dif_iter_zero (d + 1) k]
    refine dif_iter_congr _ _ _ _ fun i h1 _ => ?_
    have : t k ≤ t i := by
      obtain ⟨e, rfl⟩ := Nat.exists_eq_add_of_le h1
      rw [even_add ht k e]
      have : 0 ≤ (e : ℝ) * h := by positivity
      linarith
    unfold tpower
    rw [if_neg (not_lt.2 (hx.trans this)), mul_zero]
  rw [this]
  simp

/-- Zero to the right of the support. -/
theorem bs_right (ht : Even t h) (hh : 0 < h) (x : ℝ) (d : ℕ) : ∀ k, t (k + d + 1) < x → bs t h x d k = 0 := by
  induction d with
  | zero =>
    intro k hx
    rw [bs_zero, if_pos (by have := ht k; simp only [Nat.add_zero] at hx; linarith), if_pos hx, sub_self]
  | succ d ih =>
    intro k hx
    have h1 : t (k + d + 1) < x := by
      have := ht (k + d + 1)
      have e : k + (d + 1) + 1 = k + d + 1 + 1 := by ring
      rw [e] at hx
      linarith
    have h2 : t (k + 1 + d + 1) < x := by
      have e : k + (d + 1) + 1 = k + 1 + d + 1 := by ring
      rw [← e]
      exact hx
    rw [bs_succ ht hh.ne', ih k h1, ih (k + 1) h2]
    simp

theorem bs_right_closed (ht : Even t h) (hh : 0 < h) (x : ℝ) (d : ℕ) (k : ℕ) (hx : t (k + d + 2) ≤ x) : bs t h x (d + 1) k = 0 := by
  rcases lt_or_eq_of_le hx with hlt | heq
  · exact bs_right ht hh x (d + 1) k (by rw [show k + (d + 1) + 1 = k + d + 2 from by ring]; exact hlt)
  · have h1 : t (k + d + 1) < x := by
      have := ht (k + d + 1)
      rw [show k + d + 1 + 1 = k + d + 2 from by ring] at this
      linarith
    rw [bs_succ ht hh.ne', bs_right ht hh x d k h1, heq]
    simp

/-- B-splines are non-negative. -/
theorem bs_nonneg (ht : Even t h) (hh : 0 < h) (x : ℝ) (d : ℕ) : ∀ k, 0 ≤ bs t h x d k := by
  induction d with
  | zero =>
    intro k
    rw [bs_zero]
    by_cases h1 : x > t (k + 1)
    · have h0 : x > t k := by have := ht k; linarith
      rw [if_pos h1, if_pos h0, sub_self]
    · rw [if_neg h1, sub_zero]
      by_cases h0 : x > t k
      · rw [if_pos h0]; exact zero_le_one
      · rw [if_neg h0]
  | succ d ih =>
    intro k
    rw [bs_succ ht hh.ne']
    refine div_nonneg (add_nonneg ?_ ?_) (by positivity)
    · rcases le_total x (t k) with hx | hx
      · rw [bs_left ht hh x d k hx, mul_zero]
      · exact mul_nonneg (by linarith) (ih k)
    · rcases lt_or_ge (t (k + d + 2)) x with hx | hx
      · rw [bs_right ht hh x d (k + 1) (by rw [show k + 1 + d + 1 = k + d + 2 from by ring]; exact hx), mul_zero]
      · exact mul_nonneg (by linarith) (ih (k + 1))

/-- Differences of order `d` of the powers `(x - t_i)^d`. -/
theorem dif_pow (ht : Even t h) (x : ℝ) (d : ℕ) : ∀ j, dif^[d] (fun i => (x - t i) ^ d) j = d.factorial * (-h) ^ d ∧
    dif^[d + 1] (fun i => (x - t i) ^ d) j = 0 := by
  induction d with
  | zero =>
    intro j
    simp [dif]
  | succ d ih =>
    intro j
    have he : (fun i => (x - t i) ^ (d + 1)) = fun i => (x - t i) * (x - t i) ^ d := funext fun i => by ring
    have hl := fun m j => dif_iter_mul (fun i => x - t i) (fun i => (x - t i) ^ d) (-h) (fun i => by rw [ht i]; ring) m j
    have key : ∀ j, dif^[d + 1] (fun i => (x - t i) ^ (d + 1)) j = ((d + 1).factorial : ℝ) * (-h) ^ (d + 1) := by
      intro j
      rw [he, hl d j, (ih j).2, (ih (j + 1)).1, Nat.factorial_succ]
      push_cast
      ring
    exact ⟨key j, by rw [dif_iter_succ, key, key, sub_self]⟩

/-- Differences of order `d` of the powers `(x - t_i)^(d+1)`. -/
theorem dif_pow_succ (ht : Even t h) (x : ℝ) (d : ℕ) : ∀ j, dif^[d] (fun i => (x - t i) ^ (d + 1)) j =
    ((d + 1).factorial : ℝ) * (-h) ^ d * (x - t j - d * h / 2) := by
  induction d with
  | zero => intro j; simp
  | succ d ih =>
    intro j
    have he : (fun i => (x - t i) ^ (d + 1 + 1)) = fun i => (x - t i) * (x - t i) ^ (d + 1) := funext fun i => by ring
    rw [he, dif_iter_mul (fun i => x - t i) _ (-h) (fun i => by rw [ht i]; ring) d j, (dif_pow ht x (d + 1) j).1, ih, ht j,
      Nat.factorial_succ (d + 1)]
    push_cast
    ring

/-- Sums of B-splines telescope. -/
theorem sum_bs (x : ℝ) (d K : ℕ) : ∑ k ∈ range K, bs t h x d k =
    (-1) ^ (d + 1) * (dif^[d] (fun i => tpower x (t i) d) K - dif^[d] (fun i => tpower x (t i) d) 0) / ((d.factorial : ℝ) * h ^ d) := by
  unfold bs
  rw [← Finset.sum_div, ← Finset.mul_sum]
  congr 2
  rw [← Finset.sum_range_sub]
  exact Finset.sum_congr rfl fun k _ => dif_iter_succ d _ k

end Verif.Bspline
