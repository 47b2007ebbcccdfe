import Verif.RootModel
import Mathlib.Algebra.BigOperators.Fin
import Mathlib.Algebra.Order.BigOperators.Ring.Finset
import Mathlib.Tactic.Ring
import Mathlib.Tactic.Linarith
import Mathlib.Tactic.FieldSimp

/-! # Lemmas on the QR solution (property C109) -/

namespace Verif.Root

open Finset

/-! ### Back substitution -/

theorem back_succ (R : ℕ → ℕ → ℝ) (f : ℕ → ℝ) (r k i : ℕ) : back R f r (k + 1) i
    = if i = r - (k + 1) then (f i - ∑ j ∈ Ico (i + 1) r, R i j * back R f r k j) / R i i else back R f r k i := rfl

theorem back_solves (R : ℕ → ℕ → ℝ) (f : ℕ → ℝ) (r : ℕ) (hd : ∀ i < r, R i i ≠ 0) (k : ℕ) (hk : k ≤ r) :
    (∀ i, r - k ≤ i → i < r → ∑ j ∈ Ico i r, R i j * back R f r k j = f i) ∧ ∀ i, i < r - k ∨ r ≤ i → back R f r k i = 0 := by
  induction k with
  | zero => exact ⟨fun i h1 h2 => by omega, fun _ _ => rfl⟩
  | succ k ih =>
    obtain ⟨h1, h2⟩ := ih (by omega)
    constructor
    · intro i hi hir
      rw [Finset.sum_eq_sum_Ico_succ_bot hir]
      have e : ∀ j ∈ Ico (i + 1) r, R i j * back R f r (k + 1) j = R i j * back R f r k j := by
        intro j hj
        rw [mem_Ico] at hj
        rw [back_succ, if_neg (by omega)]
      rw [Finset.sum_congr rfl e]
      by_cases h : i = r - (k + 1)
      · rw [back_succ, if_pos h]
        have := hd i hir
        field_simp
        ring
      · rw [back_succ, if_neg h, ← Finset.sum_eq_sum_Ico_succ_bot hir (fun j => R i j * back R f r k j)]
        exact h1 i (by omega) hir
    · intro i hi
      rw [back_succ, if_neg (by omega)]
      exact h2 i (by omega)

theorem sum_fin_ico {n : ℕ} (g : ℕ → ℝ) (a r : ℕ) (hr : r ≤ n) (h0 : ∀ j, j < a ∨ r ≤ j → g j = 0) :
    ∑ p : Fin n, g p = ∑ j ∈ Ico a r, g j := by
  rw [← Finset.sum_range (fun j => g j)]
  symm
  refine Finset.sum_subset ?_ ?_
  · intro j hj
    rw [mem_Ico] at hj
    rw [mem_range]
    omega
  · intro j _ hj
    refine h0 j ?_
    by_contra hcon
    exact hj (mem_Ico.2 (by omega))

/-! ### Residuals -/

theorem qr_coord {M n : ℕ} {A : Fin M → Fin n → ℝ} {q : Qr M n} (h : Qr.Of A q) (l : Fin M) (p : Fin n) :
    ∑ i, q.Q i l * A i (q.piv p) = q.R l p := by
  have e : ∀ i, q.Q i l * A i (q.piv p) = ∑ m, (q.Q i l * q.Q i m) * q.R m p := by
    intro i
    rw [h.fact, Finset.mul_sum]
    exact Finset.sum_congr rfl fun m _ => by ring
  rw [Finset.sum_congr rfl fun i _ => e i, Finset.sum_comm]
  have e2 : ∀ m, ∑ i, (q.Q i l * q.Q i m) * q.R m p = (if l = m then 1 else 0) * q.R m p := by
    intro m
    rw [← Finset.sum_mul, h.orth]
  rw [Finset.sum_congr rfl fun m _ => e2 m]
  simp

theorem qr_resid {M n : ℕ} {A : Fin M → Fin n → ℝ} {q : Qr M n} (h : Qr.Of A q) (v : Fin M → ℝ) (c : Fin n → ℝ)
    (hs : ∀ i : Fin M, i.val < q.rank → ∑ p, q.R i p * c p = ∑ l, q.Q l i * v l) (p : Fin n)
    (hp : ∀ i : Fin M, q.rank ≤ i.val → q.R i p = 0) :
    ∑ i, A i (q.piv p) * (v i - ∑ k, A i (q.piv k) * c k) = 0 := by
  have e1 : ∀ i, A i (q.piv p) * (v i - ∑ k, A i (q.piv k) * c k)
      = ∑ l, q.R l p * (q.Q i l * (v i - ∑ k, A i (q.piv k) * c k)) := by
    intro i
    rw [h.fact i p, Finset.sum_mul]
    exact Finset.sum_congr rfl fun m _ => by ring
  rw [Finset.sum_congr rfl fun i _ => e1 i, Finset.sum_comm]
  refine Finset.sum_eq_zero fun l _ => ?_
  rw [← Finset.mul_sum]
  by_cases hl : l.val < q.rank
  · have e2 : ∀ i, q.Q i l * (v i - ∑ k, A i (q.piv k) * c k) = q.Q i l * v i - ∑ k, (q.Q i l * A i (q.piv k)) * c k := by
      intro i
      rw [mul_sub, Finset.mul_sum]
      congr 1
      exact Finset.sum_congr rfl fun m _ => by ring
    rw [Finset.sum_congr rfl fun i _ => e2 i, Finset.sum_sub_distrib, Finset.sum_comm]
    have e3 : ∀ k, ∑ i, q.Q i l * A i (q.piv k) * c k = q.R l k * c k := by
      intro k
      rw [← Finset.sum_mul, qr_coord h]
    rw [Finset.sum_congr rfl fun k _ => e3 k, hs l hl]
    ring
  · rw [hp l (by omega), zero_mul]

/-- Gram matrix of the columns. -/
theorem qr_gram {M n : ℕ} {A : Fin M → Fin n → ℝ} {q : Qr M n} (h : Qr.Of A q) (p p' : Fin n) :
    ∑ i, A i (q.piv p) * A i (q.piv p') = ∑ l, q.R l p * q.R l p' := by
  have e : ∀ i, A i (q.piv p) * A i (q.piv p') = ∑ l, q.R l p * (q.Q i l * A i (q.piv p')) := by
    intro i
    rw [h.fact i p, Finset.sum_mul]
    exact Finset.sum_congr rfl fun m _ => by ring
  rw [Finset.sum_congr rfl fun i _ => e i, Finset.sum_comm]
  refine Finset.sum_congr rfl fun l _ => ?_
  rw [← Finset.mul_sum, qr_coord h]

/-- Triangular systems with the leading block have a solution. -/
theorem qr_solve {M n : ℕ} {A : Fin M → Fin n → ℝ} {q : Qr M n} (h : Qr.Of A q) (f : ℕ → ℝ) :
    let R2 : ℕ → ℕ → ℝ := fun i j => if h : i < M ∧ j < n then q.R ⟨i, h.1⟩ ⟨j, h.2⟩ else 0
    (∀ i : Fin M, i.val < q.rank → ∑ p : Fin n, q.R i p * back R2 f q.rank q.rank p = f i) ∧
    ∀ i, q.rank ≤ i → back R2 f q.rank q.rank i = 0 := by
  intro R2
  have hd : ∀ i < q.rank, R2 i i ≠ 0 := by
    intro i hi
    have hn := h.rank_le
    have hm := h.rank_rows
    simp only [R2]
    rw [dif_pos ⟨by omega, by omega⟩]
    exact h.diag _ _ rfl hi
  obtain ⟨h1, h2⟩ := back_solves R2 f q.rank hd q.rank le_rfl
  refine ⟨fun i hi => ?_, fun i hi => h2 i (Or.inr hi)⟩
  rw [← h1 i (by omega) hi, ← sum_fin_ico (n := n) (fun j => R2 i j * back R2 f q.rank q.rank j) i q.rank h.rank_le]
  · refine Finset.sum_congr rfl fun p _ => ?_
    simp only [R2]
    rw [dif_pos ⟨i.isLt, p.isLt⟩]
  · intro j hj
    rcases hj with hj | hj
    · simp only [R2]
      by_cases hjn : j < n
      · rw [dif_pos ⟨i.isLt, hjn⟩, h.upper i ⟨j, hjn⟩ hj, zero_mul]
      · rw [dif_neg (by omega), zero_mul]
    · rw [h2 j (Or.inr hj), mul_zero]

/-- The leading columns are independent. -/
theorem qr_indep {M n : ℕ} {A : Fin M → Fin n → ℝ} {q : Qr M n} (h : Qr.Of A q) (d : Fin n → ℝ) (hd0 : ∀ p : Fin n, q.rank ≤ p.val → d p = 0)
    (hd : ∀ i, ∑ k, A i (q.piv k) * d k = 0) : d = 0 := by
  have hR : ∀ l, ∑ k, q.R l k * d k = 0 := by
    intro l
    have e : ∀ k, q.R l k * d k = ∑ i, q.Q i l * (A i (q.piv k) * d k) := by
      intro k
      rw [← qr_coord h l k, Finset.sum_mul]
      exact Finset.sum_congr rfl fun m _ => by ring
    rw [Finset.sum_congr rfl fun k _ => e k, Finset.sum_comm]
    refine Finset.sum_eq_zero fun i _ => ?_
    rw [← Finset.mul_sum, hd i, mul_zero]
  have key : ∀ m, ∀ p : Fin n, q.rank ≤ p.val + m → d p = 0 := by
    intro m
    induction m with
    | zero => intro p hp; exact hd0 p (by omega)
    | succ m ih =>
      intro p hp
      by_cases hp' : q.rank ≤ p.val + m
      · exact ih p hp'
      have hpr : p.val < q.rank := by omega
      have hm := h.rank_rows
      have hr := hR ⟨p.val, by omega⟩
      rw [Finset.sum_eq_single p] at hr
      · exact (mul_eq_zero.1 hr).resolve_left (h.diag _ _ rfl hpr)
      · intro k _ hk
        rcases Nat.lt_or_ge k.val p.val with hlt | hge
        · rw [h.upper _ _ hlt, zero_mul]
        · rw [ih k (by have : k.val ≠ p.val := fun e => hk (Fin.ext e)
                       omega), mul_zero]
      · intro hn
        exact absurd (mem_univ p) hn
  funext p
  exact key q.rank p (by omega)

end Verif.Root
