import Verif.HsmmLemmas

/-! Property theorems: hidden semi-Markov log-likelihood (C01). -/

namespace Verif.Hsmm

open Finset

/-- C01. The set of labelled segmentations allowed by the boundary switches is finite, and whenever their total joint
probability with the series is positive, the returned log-likelihood is the logarithm of that total. Holds for all
tables, all sizes and all switches. -/
theorem llk_eq_log_sum_over_segmentations (m : Tables ℝ) (hm : NonNeg m) (hT : 0 < m.n_T) :
    ∃ A : Finset (List Seg), (∀ l, l ∈ A ↔ Admissible m l) ∧
      (0 < ∑ l ∈ A, weight m l → llk m = Real.log (∑ l ∈ A, weight m l)) := by
  refine ⟨allSegs m, mem_allSegs m hT, fun hpos => ?_⟩
  have hL := Lam_pos_of_sum_pos m hm hpos
  have h := Lam_final_mul m hT hL
  have e : m.n_T = (m.n_T - 1) + 1 := by omega
  have hlast : Lam m (m.n_T - 1) ≠ 0 := by
    intro h0
    rw [← h, h0, zero_mul] at hpos
    exact lt_irrefl _ hpos
  unfold llk
  rw [← h, Real.log_mul hlast (prod_ne_zero_iff.2 fun s hs => hL s (mem_range.1 hs)),
    Real.log_prod (fun s hs => hL s (mem_range.1 hs)), add_comm]
  conv_lhs => rw [e]
  rw [sum_range_succ]

/-- C01, impossible series. If no allowed segmentation has positive probability, then one of the conditional
probabilities `Lam(t)` whose logarithms are summed is zero: the code then returns minus infinity or NaN, never a finite
number. -/
theorem llk_zero_probability (m : Tables ℝ) (hT : 0 < m.n_T) (A : Finset (List Seg))
    (hA : ∀ l, l ∈ A ↔ Admissible m l) (h0 : ∑ l ∈ A, weight m l = 0) : ∃ t < m.n_T, Lam m t = 0 := by
  have hAe : A = allSegs m := by ext l; rw [hA, mem_allSegs m hT]
  subst hAe
  by_contra hcon
  push Not at hcon
  have h := Lam_final_mul m hT fun s hs => hcon s (by omega)
  rw [h0] at h
  rcases mul_eq_zero.1 h with h | h
  · exact hcon _ (by omega) h
  · exact (prod_ne_zero_iff.2 fun s hs => hcon s (by have := mem_range.1 hs; omega)) h

/-- A two-state series of length 3 with all tables equal to 1/2 meets the hypotheses; `[(1..2, state 1), (0, state 0)]`
is one of its segmentations, with positive joint probability. -/
noncomputable def demo : Tables ℝ where
  n_T := 3
  D := 4
  n_S := 2
  event_width := 1
  starts_with_first := true
  ends_with_last := true
  ends_in_last := true
  hmp := false
  tvdtpi := false
  bs2 := fun _ _ => 1 / 2
  bs3 := fun _ _ _ => 1 / 2
  ds2 := fun _ _ => 1 / 2
  ds3 := fun _ _ _ => 1 / 2
  T2 := fun _ _ => 1 / 2
  T3 := fun _ _ _ => 1 / 2
  pi := fun _ => 1 / 2

example : NonNeg demo ∧ 0 < demo.n_T ∧ Admissible demo [⟨1, 1, 1⟩, ⟨0, 0, 0⟩] ∧
    0 < weight demo [⟨1, 1, 1⟩, ⟨0, 0, 0⟩] := by
  refine ⟨⟨?_, ?_, ?_, ?_, ?_, ?_, ?_⟩, by decide, ⟨⟨rfl, by decide, rfl⟩, ?_, _, _, rfl, by decide, by decide, ?_, ?_⟩, ?_⟩
  any_goals (intros; simp [demo])
  · rename_i s hs
    simp at hs
    rcases hs with rfl | rfl <;> simp [SegOk]
  · simp [weight, weightUpTo, obsProd, obs, Tables.T, Tables.ds]

end Verif.Hsmm
