import Verif.PirlsInv

/-!
# Cases for property C129
-/

namespace Verif.PInv
open Verif Matrix Fl Fam Pirls

/-- Seconds instead of half seconds: the coefficient found is half as large. -/
example (c : Fin 1 → ℝ) : (Pirls.inner (recomb (diagonal ![2]) demo) 50 c).map (fun b k => ![2] k * b k) = Pirls.inner demo 50 (fun k => ![2] k * c k) :=
  units (fun k => by fin_cases k; norm_num) 50 c

/-- And something is found. -/
example (c : Fin 1 → ℝ) : ∃ b, Pirls.inner demo 50 c = some b := (inner_ascends demo_good demo_total 50 c).imp fun _ h => h.choose_spec.choose_spec.1

example (c : Fin 1 → ℝ) : Pirls.inner (reorder (Equiv.swap 0 1) demo) 50 c = Pirls.inner demo 50 c := rows _ _ _

/-- Intercept and a penalised slope, three counts. -/
noncomputable def two : In 3 2 where
  fam := fun _ => .poisson
  lk := .log
  y := ![1, 0, 4]
  X := !![1, 0; 1, 1; 1, 2]
  off := ![0, 1, 0]
  S := diagonal ![0, 1]

theorem two_good : Good two 1 := by
  refine ⟨fun i => ?_, one_pos, fun _ => Or.inr rfl, Matrix.PosSemidef.diagonal fun k => ?_⟩
  · fin_cases i
    · exact ⟨1, by simp [two]⟩
    · exact ⟨0, by simp [two]⟩
    · exact ⟨4, by simp [two]⟩
  · fin_cases k <;> simp

theorem two_ident : Ident two := by
  intro v h _
  have h0 := h 0
  have h1 := h 1
  simp [two, Fin.sum_univ_two] at h0 h1
  funext a
  fin_cases a
  · exact h0
  · show v 1 = 0
    linarith

/-- The intercept, part of which is moved into the offset; another start. -/
example (m : ℕ) : (Pirls.inner (shift ![2, 0] two) m ![-1, 0]).map (· + ![2, 0]) = Pirls.inner two m (![-1, 0] + ![2, 0]) :=
  (offset (x := two) (b0 := ![2, 0]) (Matrix.diagonal_transpose _)
    (by funext k; show (diagonal ![0, 1] *ᵥ ![2, 0]) k = 0; rw [Matrix.mulVec_diagonal]; fin_cases k <;> simp)
    (fun b => gram_posdef two_good two_ident (adm_total (x := two) (fun _ => trivial) b)) m ![-1, 0]).1

/-- The slope of `two` is penalised: the hypothesis on `b0` is not met by every `b0`. -/
example : two.S *ᵥ ![0, 1] ≠ 0 := by
  intro h
  have := congrFun h 1
  rw [show two.S = diagonal ![0, 1] from rfl, Matrix.mulVec_diagonal] at this
  simp at this

/-- Two trials with one success, and one trial with success, at other values of the covariate. -/
noncomputable def grouped : In 2 2 := ⟨fun i => .binomial (![2, 1] i), .logit, ![1 / 2, 1], !![1, 0; 1, 1], 0, diagonal ![0, 1]⟩

/-- The same with one row for each trial. -/
noncomputable def single : In 3 2 := ⟨fun _ => .binomial 1, .logit, ![1, 0, 1], !![1, 0; 1, 0; 1, 1], 0, diagonal ![0, 1]⟩

theorem grouped_single : Trials grouped single ![0, 0, 1] ![2, 1] where
  fam _ := rfl
  fam' _ := rfl
  lk := rfl
  lk' := rfl
  X k := by fin_cases k <;> rfl
  off k := rfl
  S := rfl
  count i := by fin_cases i <;> rfl
  y i := by
    rw [Finset.sum_filter]
    fin_cases i <;> simp [grouped, single, Fin.sum_univ_three]

theorem grouped_good : Good grouped 1 := by
  refine ⟨fun i => ?_, one_pos, fun _ => Or.inr rfl, Matrix.PosSemidef.diagonal fun k => ?_⟩
  · fin_cases i
    · exact ⟨two_pos, 1, by norm_num, by simp [grouped]⟩
    · exact ⟨one_pos, 1, le_refl _, by simp [grouped]⟩
  · fin_cases k <;> simp

theorem single_good : Good single 1 := by
  refine ⟨fun i => ?_, one_pos, fun _ => Or.inr rfl, Matrix.PosSemidef.diagonal fun k => ?_⟩
  · fin_cases i
    · exact ⟨one_pos, 1, le_refl _, by simp [single]⟩
    · exact ⟨one_pos, 0, Nat.zero_le _, by simp [single]⟩
    · exact ⟨one_pos, 1, le_refl _, by simp [single]⟩
  · fin_cases k <;> simp

example (c : Fin 2 → ℝ) (k : ℕ) : (pass single)^[k] c = (pass grouped)^[k] c := (trials grouped_single grouped_good single_good c).2 k

end Verif.PInv
