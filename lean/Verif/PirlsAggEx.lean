import Verif.PirlsAgg

/-! Cases meeting the hypotheses of the theorems of C134. -/

namespace Verif.PInv
open Verif Matrix Fl Fam Pirls

/-- Counts 1 and 2 under exposures 1 and 2 at one value of the covariate, count 3 under exposure 1 at another. -/
noncomputable def detailed : In 3 2 := ⟨fun _ => .poisson, .log, ![1, 2, 3], !![1, 0; 1, 0; 1, 1], ![0, Real.log 2, 0], diagonal ![0, 1]⟩

/-- Added up: count 3 under exposure 3. -/
noncomputable def summed : In 2 2 := ⟨fun _ => .poisson, .log, ![3, 3], !![1, 0; 1, 1], ![Real.log 3, 0], diagonal ![0, 1]⟩

theorem summed_detailed : Exposures summed detailed ![0, 0, 1] where
  fam _ := rfl
  fam' _ := rfl
  lk := rfl
  lk' := rfl
  X k := by fin_cases k <;> rfl
  S := rfl
  off i := by
    rw [Finset.sum_filter]
    fin_cases i <;> simp [summed, detailed, Fin.sum_univ_three, Real.exp_log]
    norm_num
  y i := by
    rw [Finset.sum_filter]
    fin_cases i <;> simp [summed, detailed, Fin.sum_univ_three]
    norm_num

theorem detailed_good : Good detailed 1 := by
  refine ⟨fun i => ?_, one_pos, fun _ => Or.inr rfl, Matrix.PosSemidef.diagonal fun k => ?_⟩
  · fin_cases i
    · exact ⟨1, by simp [detailed]⟩
    · exact ⟨2, by simp [detailed]⟩
    · exact ⟨3, by simp [detailed]⟩
  · fin_cases k <;> simp

theorem summed_good : Good summed 1 := by
  refine ⟨fun i => ?_, one_pos, fun _ => Or.inr rfl, Matrix.PosSemidef.diagonal fun k => ?_⟩
  · fin_cases i
    · exact ⟨3, by simp [summed]⟩
    · exact ⟨3, by simp [summed]⟩
  · fin_cases k <;> simp

example (c : Fin 2 → ℝ) (k : ℕ) : (pass detailed)^[k] c = (pass summed)^[k] c :=
  (exposures summed_detailed summed_good detailed_good c).2 k

/-- Without covariate effects three events are expected for the group. -/
example : summed.lk.fiR (eta summed 0 0) = 3 ∧
    summed.lk.fiR (eta summed 0 0) = ∑ k ∈ Finset.univ.filter (fun k => (![0, 0, 1] : Fin 3 → Fin 2) k = 0), detailed.lk.fiR (eta detailed 0 k) :=
  ⟨by rw [fi_poisson rfl]; simp [summed, Real.exp_log], exposures_mean summed_detailed 0 0⟩

/-- The rows of `summed` twice, in another order, with the penalty doubled. -/
noncomputable def twice : In 4 2 :=
  ⟨fun _ => .poisson, .log, ![3, 3, 3, 3], !![1, 0; 1, 1; 1, 1; 1, 0], ![Real.log 3, 0, 0, Real.log 3], (2 : ℝ) • diagonal ![0, 1]⟩

theorem summed_twice : Copies summed twice ![0, 1, 1, 0] 2 where
  fam _ := rfl
  lk := rfl
  X k := by fin_cases k <;> rfl
  off k := by fin_cases k <;> rfl
  y k := by fin_cases k <;> rfl
  S := by simp [twice, summed]
  count i := by fin_cases i <;> rfl

example (m : ℕ) (c : Fin 2 → ℝ) : Pirls.inner twice m c = Pirls.inner summed m c := copies summed_twice two_pos m c

theorem summed_ident : Ident summed := by
  intro v h _
  have h0 := h 0
  have h1 := h 1
  simp [summed, Fin.sum_univ_two] at h0 h1
  funext a
  fin_cases a
  · exact h0
  · show v 1 = 0
    linarith

example (c v : Fin 2 → ℝ) : v ⬝ᵥ ((Pirls.gram twice c)⁻¹ *ᵥ v) = (v ⬝ᵥ ((Pirls.gram summed c)⁻¹ *ᵥ v)) / (2 : ℕ) :=
  spread_copies summed_twice two_pos c v (gram_posdef summed_good summed_ident (adm_poisson (fun _ => rfl) rfl c))

end Verif.PInv
