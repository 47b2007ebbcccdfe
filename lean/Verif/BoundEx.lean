import Verif.Bound

/-!
# Cases for C139
-/

namespace Verif.Bound

open Matrix Fl Fam

/-- Close to the limits of double precision. -/
noncomputable def double : Arith := ⟨-745, 53 * Real.log 2, 709, by norm_num, by positivity, by
  have := Real.log_two_lt_d9
  linarith⟩

theorem one_lt : double.one ≤ 66 := by
  have := Real.log_two_lt_d9
  show 53 * Real.log 2 ≤ 66
  linarith

example : ∃ r d d', accept double coin ![-5] (Step.evalAt (prob double coin) ![-5]).pen (Pirls.next coin ![-5]) = some r ∧
    r.n = Pirls.next coin ![-5] ∧ r.dev = fin 0 ∧ SmoG.deviance coin ![-5] = fin d ∧ SmoG.deviance coin r.n = fin d' ∧ d < d' ∧
    working double coin r.n = none :=
  step_wrong one_lt (by norm_num [double]) (by norm_num [double])

/-- From intercept 1 to intercept -1/2 nothing is rounded. -/
example (c : Fl) : accept double coin ![1] c ![-1 / 2] = Pirls.accept coin ![1] c ![-1 / 2] := by
  have h := Real.log_two_gt_d9
  refine accept_same_partial (fun i => ?_) (fun i => ?_) c <;> rw [coin_eta]
  · exact ⟨by norm_num [double], by show (1 : ℝ) < 53 * Real.log 2; linarith⟩
  · exact ⟨by norm_num [double], by show (-1 / 2 : ℝ) < 53 * Real.log 2; linarith⟩

/-- A count of 3 and an intercept of 800 proposed. -/
example (c : Fl) : ∃ r, accept double (⟨fun _ => .poisson, .log, fun _ => 3, fun _ _ => 1, 0, 0⟩ : Pirls.In 1 1) ![0] c ![800] = some r ∧
    ∀ i, Pirls.eta (⟨fun _ => .poisson, .log, fun _ => 3, fun _ _ => 1, 0, 0⟩ : Pirls.In 1 1) r.n i ≤ double.over :=
  overflow_rejected (Or.inl rfl) (fun _ n h => by cases h) (fun i => by simp [Pirls.eta, mulVec, dotProduct, double]) c _

/-- One success in two trials and mean 1; three and mean 0. -/
example : (∃ d ≤ 0, FamKind.D (.binomial 2) (fin ((1 : ℕ) / (2 : ℕ))) (fin 1) = fin d) ∧ FamKind.D .poisson (fin (3 : ℕ)) (fin 0) = fin (-2 * (3 : ℕ)) :=
  ⟨(binomial_one_wrong (by norm_num)).1, (poisson_wrong (by norm_num)).1⟩

end Verif.Bound
