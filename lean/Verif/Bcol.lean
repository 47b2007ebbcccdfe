import Verif.BcolLemmas
import Verif.Edf
import Mathlib.LinearAlgebra.Matrix.NonsingularInverse
import Mathlib.Tactic.NormNum
import Mathlib.Tactic.Positivity

/-!
# Traces computed without the inverse (property C114)

`W` is the inverse of the factor times the permutation, `Edf.bps W q` the sum of squares that `calculate_edf` uses when
the inverse is formed (a trace by `Edf.bps_eq_trace`).
-/

namespace Verif.Bcol

open Matrix Verif.Pen

variable {p : ℕ}

/-- **C114.** For a penalty that is not of the special null space form the trace does not depend on whether the inverse is
formed, for any number of processes. -/
theorem trace_spec (W : Matrix (Fin p) (Fin p) ℝ) (nc : ℕ) (null : Bool) (T Dl : Trip) (k rank levels cur : ℕ)
    (id : Option ℕ) (lam : ℝ) (hl : 0 < levels) (hD : ∀ t ∈ Dl, t.1 < k ∧ t.2.1 < k)
    (hn : null = false ∨ (∑ c ∈ Finset.range k, max 0 (∑ r ∈ Finset.range k, coo T r c)) ≠ 1) :
    computeB W nc null (buildShared T Dl k rank levels cur id lam).1
      = some (∑ i, ∑ j, (W * Edf.toMat p (buildShared T Dl k rank levels cur id lam).1.Demb) i j ^ 2) := by
  refine computeB_block W nc null _ ?_ ?_
  · rintro ⟨h1, h2⟩
    rcases hn with h | h
    · rw [h] at h1; simp at h1
    · refine h ?_
      unfold single at h2
      rw [← h2]
      refine Finset.sum_congr rfl fun c _ => ?_
      split_ifs with h3
      · exact max_eq_right h3.le
      · exact max_eq_left (not_lt.1 h3)
  · intro r _ c _ hc
    rw [(buildShared_emb T Dl k rank levels cur id lam hl r c).2]
    refine Finset.sum_eq_zero fun t ht => coo_shift_out hD _ r c (Or.inr ?_)
    have hc' : ¬ (cur ≤ c ∧ c < cur + levels * k) := hc
    have h1 : t * k + k ≤ levels * k := by
      rw [← Nat.succ_mul]; exact Nat.mul_le_mul_right k (Finset.mem_range.1 ht)
    by_contra hcon
    push Not at hcon
    exact hc' ⟨by omega, by omega⟩

/-- **C114.** The null space penalty of a factor smooth with `rep` levels and `k` coefficients per level, on coefficient `j`
of each level, the smooth starting at column `cur`: levels from number `rep + 1 - (cur + j) / k` on are left out, and the
call raises if the smooth starts early and is the last one. -/
theorem null_spec (W : Matrix (Fin p) (Fin p) ℝ) (nc j k rep cur : ℕ) (lam : ℝ) (hj : j < k) (hr : 0 < rep)
    (hp : cur + k * rep ≤ p) :
    computeB W nc true (buildShared [(j, j, 1)] [(j, j, 1)] k 1 rep cur none lam).1
      = (if cur + j < k ∧ p ≤ cur + j + k * rep then none
        else some (∑ t ∈ Finset.range (min rep (rep + 1 - (cur + j) / k)),
          ∑ i, if h : cur + j + k * t < p then W i ⟨cur + j + k * t, h⟩ ^ 2 else 0)) := by
  change computeB W nc true (nullPen j k rep cur lam) = _
  have hk : 0 < k := by omega
  have hin : ∀ t < rep, cur + j + k * t < p := by
    intro t ht
    have : k * t + k ≤ k * rep := by rw [← Nat.mul_succ]; exact Nat.mul_le_mul_left k ht
    omega
  split_ifs with h
  · refine computeB_none W nc true _ ⟨cur + j + k * rep, ?_, h.2⟩
    rw [null_dIdx j k rep cur lam hj, Nat.div_eq_of_lt h.1]
    exact List.mem_map.2 ⟨rep, List.mem_range.2 (by omega), rfl⟩
  · rw [computeB_some W nc true _ (by
      intro c hc
      rw [null_dIdx j k rep cur lam hj] at hc
      obtain ⟨t, ht, rfl⟩ := List.mem_map.1 hc
      have ht' := List.mem_range.1 ht
      rcases Nat.lt_or_ge t rep with h1 | h1
      · exact hin t h1
      · have h2 : (cur + j) / k = 0 := by
          generalize (cur + j) / k = d at ht' ⊢
          omega
        have h3 : cur + j < k := by
          rcases Nat.div_eq_zero_iff.1 h2 with h4 | h4
          · omega
          · exact h4
        have h4 : t = rep := by
          rw [h2] at ht'
          omega
        subst h4
        by_contra hcon
        exact h ⟨h3, by omega⟩), null_dIdx j k rep cur lam hj, List.map_map, list_sum_range]
    congr 1
    rcases Nat.eq_zero_or_pos ((cur + j) / k) with h2 | h2
    · rw [h2, Nat.sub_zero, Nat.min_eq_left (Nat.le_succ rep), Finset.sum_range_succ]
      rw [show (colQ W (nullPen j k rep cur lam) ∘ fun t => cur + j + k * t) rep = 0 from
        null_colQ_out W j k rep cur lam hr _ (by
          intro t ht h3
          have h3' : cur + j + k * rep = cur + j + k * t := h3
          have : k * rep = k * t := by omega
          have := Nat.eq_of_mul_eq_mul_left hk this
          omega), add_zero]
      exact Finset.sum_congr rfl fun t ht => null_colQ_in W j k rep cur lam hj t (Finset.mem_range.1 ht) hp
    · rw [Nat.min_eq_right (by omega)]
      exact Finset.sum_congr rfl fun t ht =>
        null_colQ_in W j k rep cur lam hj t (by
          have := Finset.mem_range.1 ht
          generalize (cur + j) / k = d at this h2
          omega) hp

/-- **C114.** For these penalties the trace is the one with the inverse exactly if the smooth starts in the first places but,
unless more columns follow, not in the very first. -/
theorem null_iff (W : Matrix (Fin p) (Fin p) ℝ) (hW : IsUnit W.det) (nc j k rep cur : ℕ) (lam : ℝ) (hj : j < k)
    (hr : 0 < rep) (hp : cur + k * rep ≤ p) :
    computeB W nc true (buildShared [(j, j, 1)] [(j, j, 1)] k 1 rep cur none lam).1
      = some (∑ i, ∑ c, (W * Edf.toMat p (buildShared [(j, j, 1)] [(j, j, 1)] k 1 rep cur none lam).1.Demb) i c ^ 2) ↔
    cur + j < 2 * k ∧ (k ≤ cur + j ∨ cur + j + k * rep < p) := by
  have hk : 0 < k := by omega
  have hb := null_bps W j k rep cur lam hj hr hp
  unfold nullPen at hb
  unfold Edf.bps at hb
  rw [hb, null_spec W nc j k rep cur lam hj hr hp]
  have hpos : ∀ t < rep, 0 < colSq W (cur + j + k * t) := by
    intro t ht
    have hc : cur + j + k * t < p := by
      have : k * t + k ≤ k * rep := by rw [← Nat.mul_succ]; exact Nat.mul_le_mul_left k ht
      omega
    have h0 : ∃ i, W i ⟨cur + j + k * t, hc⟩ ≠ 0 := by
      by_contra hcon
      push Not at hcon
      have := det_eq_zero_of_column_eq_zero _ hcon
      rw [this] at hW
      exact not_isUnit_zero hW
    obtain ⟨i, hi⟩ := h0
    unfold colSq
    simp only [dif_pos hc]
    exact Finset.sum_pos' (fun _ _ => sq_nonneg _) ⟨i, Finset.mem_univ _, by positivity⟩
  constructor
  · intro h
    split_ifs at h with h1
    simp only [Option.some.injEq] at h
    refine ⟨?_, by omega⟩
    by_contra hcon
    have h2 : 2 ≤ (cur + j) / k := by
      rw [Nat.le_div_iff_mul_le hk]
      omega
    have hlt : min rep (rep + 1 - (cur + j) / k) < rep := by omega
    have hlt' : ∑ t ∈ Finset.range (min rep (rep + 1 - (cur + j) / k)), colSq W (cur + j + k * t)
        < ∑ t ∈ Finset.range rep, colSq W (cur + j + k * t) := by
      refine Finset.sum_lt_sum_of_subset (i := min rep (rep + 1 - (cur + j) / k)) ?_ (Finset.mem_range.2 hlt) ?_
        (hpos _ hlt) ?_
      · exact Finset.range_subset_range.2 hlt.le
      · simp
      · intro t ht _
        exact (hpos t (Finset.mem_range.1 ht)).le
    exact absurd h hlt'.ne
  · rintro ⟨h1, h2⟩
    rw [if_neg (by omega)]
    have h3 : (cur + j) / k ≤ 1 := by
      have : (cur + j) / k < 2 := by rw [Nat.div_lt_iff_lt_mul hk]; omega
      omega
    rw [Nat.min_eq_left (by omega)]
    rfl

/-- **C114.** A smooth that starts behind the columns the loop covers: the trace is zero, so the penalty is taken to leave
all degrees of freedom. -/
theorem null_zero_wrong (W : Matrix (Fin p) (Fin p) ℝ) (nc j k rep cur : ℕ) (lam : ℝ) (hj : j < k) (hr : 0 < rep)
    (hp : cur + k * rep ≤ p) (hc : k * (rep + 1) ≤ cur + j) :
    computeB W nc true (buildShared [(j, j, 1)] [(j, j, 1)] k 1 rep cur none lam).1 = some 0 := by
  have hk : 0 < k := by omega
  rw [null_spec W nc j k rep cur lam hj hr hp, if_neg]
  · have : rep + 1 ≤ (cur + j) / k := by
      rw [Nat.le_div_iff_mul_le hk, mul_comm]
      exact hc
    rw [show min rep (rep + 1 - (cur + j) / k) = 0 by omega]
    simp
  · have : k * 1 ≤ k * (rep + 1) := Nat.mul_le_mul_left k (by omega)
    omega

/-- **C114.** Not in general: intercept, a smooth with three coefficients, a factor smooth with two levels and two
coefficients each, its null space penalty on the second.  Without the inverse the trace is one, with it two. -/
theorem null_wrong (lam : ℝ) (nc : ℕ) :
    computeB (1 : Matrix (Fin 8) (Fin 8) ℝ) nc true (buildShared [(1, 1, 1)] [(1, 1, 1)] 2 1 2 4 none lam).1 = some 1 ∧
    (∑ i, ∑ c, ((1 : Matrix (Fin 8) (Fin 8) ℝ) * Edf.toMat 8
      (buildShared [(1, 1, 1)] [(1, 1, 1)] 2 1 2 4 none lam).1.Demb) i c ^ 2) = 2 := by
  constructor
  · rw [null_spec _ nc 1 2 2 4 lam (by norm_num) (by norm_num) (by norm_num), if_neg (by norm_num)]
    congr 1
    rw [show min 2 (2 + 1 - (4 + 1) / 2) = 1 from rfl, Finset.sum_range_one]
    simp [Matrix.one_apply]
  · have hb := null_bps (1 : Matrix (Fin 8) (Fin 8) ℝ) 1 2 2 4 lam (by norm_num) (by norm_num) (by norm_num)
    unfold nullPen Edf.bps at hb
    rw [hb, Finset.sum_range_succ, Finset.sum_range_one]
    simp [colSq, Matrix.one_apply]
    norm_num

/-- **C114.** A model of an intercept and a factor smooth with two null space functions cannot be fitted this way: the call for
the first of them raises. -/
theorem null_raises_wrong (k rep : ℕ) (hk : 3 ≤ k) (hr : 0 < rep) (lam : ℝ) (nc : ℕ)
    (W : Matrix (Fin (1 + k * rep)) (Fin (1 + k * rep)) ℝ) :
    computeB W nc true (buildShared [(k - 2, k - 2, 1)] [(k - 2, k - 2, 1)] k 1 rep 1 none lam).1 = none := by
  rw [null_spec W nc (k - 2) k rep 1 lam (by omega) hr le_rfl, if_pos]
  omega

/-! ### Concrete cases -/

/-- A difference penalty repeated for two levels: the selected columns give the trace. -/
example (W : Matrix (Fin 5) (Fin 5) ℝ) : computeB W 1 false
    (buildShared [(0, 0, 1), (0, 1, -1), (1, 0, -1), (1, 1, 1)] [(0, 0, 1), (1, 0, -1)] 2 1 2 1 none 3).1
    = some (∑ i, ∑ j, (W * Edf.toMat 5 (buildShared [(0, 0, 1), (0, 1, -1), (1, 0, -1), (1, 1, 1)]
      [(0, 0, 1), (1, 0, -1)] 2 1 2 1 none 3).1.Demb) i j ^ 2) :=
  trace_spec W 1 false _ _ 2 1 2 1 none 3 (by norm_num) (by simp) (Or.inl rfl)

/-- Intercept and a factor smooth with one null space function: the trace is right. -/
example (lam : ℝ) : computeB (1 : Matrix (Fin 5) (Fin 5) ℝ) 1 true
    (buildShared [(1, 1, 1)] [(1, 1, 1)] 2 1 2 1 none lam).1
    = some (∑ i, ∑ c, ((1 : Matrix (Fin 5) (Fin 5) ℝ) * Edf.toMat 5
      (buildShared [(1, 1, 1)] [(1, 1, 1)] 2 1 2 1 none lam).1.Demb) i c ^ 2) :=
  (null_iff 1 (by rw [det_one]; exact isUnit_one) 1 1 2 2 1 lam (by norm_num) (by norm_num) (by norm_num)).2
    ⟨by norm_num, Or.inl (by norm_num)⟩

end Verif.Bcol
