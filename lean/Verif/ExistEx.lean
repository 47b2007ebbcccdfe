import Verif.Exist

/-!
# Cases for C147
-/

namespace Verif.Sep
open Verif Matrix Fl Fam

/-- A binary response 0 and 1, one column. -/
noncomputable def bin2 (c : Fin 2 → ℝ) (S : Matrix (Fin 1) (Fin 1) ℝ) : Pirls.In 2 1 :=
  ⟨fun _ => .binomial 1, .logit, ![0, 1], fun i _ => c i, 0, S⟩

theorem bin2_good (c : Fin 2 → ℝ) {S : Matrix (Fin 1) (Fin 1) ℝ} (hS : S.PosSemidef) : Pirls.Good (bin2 c S) 1 := by
  refine ⟨fun i => ⟨Nat.one_pos, ?_⟩, one_pos, fun _ => Or.inr rfl, hS⟩
  fin_cases i
  · exact ⟨0, by norm_num, by simp [bin2]⟩
  · exact ⟨1, le_rfl, by simp [bin2]⟩

theorem bin2_ident {c : Fin 2 → ℝ} (hc : c 0 ≠ 0) (S : Matrix (Fin 1) (Fin 1) ℝ) : Pirls.Ident (bin2 c S) := by
  intro v h _
  have := h 0
  funext a
  fin_cases a
  simpa [bin2, hc] using this

/-- An intercept: one response of each kind, not separated. -/
example : ∃! b, Pirls.next (bin2 1 0) b = b := by
  refine estimate_exists (bin2_good 1 PosSemidef.zero) (bin2_ident (by simp) 0) (fun _ => trivial) ?_
  rintro ⟨v, hv, -, h⟩
  have h0 := (h 0).2 (by simp [bin2])
  have h1 := (h 1).1 (by simp [bin2])
  simp [bin2] at h0 h1
  refine hv (funext fun a => ?_)
  rw [Subsingleton.elim a 0]
  exact le_antisymm h0 h1

/-- A covariate that is negative for the first and positive for the second response: separated. -/
theorem sep2 : Separated (bin2 ![-1, 1] 0) := by
  refine ⟨1, one_ne_zero, by simp [bin2], fun i => ?_⟩
  fin_cases i
  · exact ⟨fun h => absurd rfl h, fun _ => by simp [bin2]⟩
  · exact ⟨fun _ => by simp [bin2], fun h => absurd rfl h⟩

example (b : Fin 1 → ℝ) : Pirls.next (bin2 ![-1, 1] 0) b ≠ b :=
  separated_never (bin2_good _ PosSemidef.zero) (bin2_ident (by simp) 0) (fun _ => trivial) sep2 b

example (b : Fin 1 → ℝ) : ∃ b' u v, Pirls.pllk (bin2 ![-1, 1] 0) 1 b = fin u ∧ Pirls.pllk (bin2 ![-1, 1] 0) 1 b' = fin v ∧ u < v :=
  separated_no_max (bin2_good _ PosSemidef.zero) (bin2_ident (by simp) 0) (fun _ => trivial) sep2 b

/-- The same data with a ridge penalty. -/
example : ∃! b, Pirls.next (bin2 ![-1, 1] 1) b = b :=
  always (bin2_good _ PosSemidef.one) (bin2_ident (by simp) 1) (fun _ => trivial) (Or.inl fun v hv => by
    rwa [show (bin2 ![-1, 1] 1).S = 1 from rfl, one_mulVec] at hv)

/-- Counts of zero only: no estimate of the log mean. -/
noncomputable def zeros : Pirls.In 2 1 := ⟨fun _ => .poisson, .log, 0, fun _ _ => 1, 0, 0⟩

example : ¬∃ b, Pirls.next zeros b = b := by
  have hg : Pirls.Good zeros 1 := ⟨fun _ => ⟨0, by simp [zeros]⟩, one_pos, fun _ => Or.inr rfl, PosSemidef.zero⟩
  have hi : Pirls.Ident zeros := by
    intro v h _
    have := h 0
    funext a
    fin_cases a
    simpa [zeros] using this
  rw [exists_iff hg hi fun _ => trivial, not_not]
  exact ⟨-1, by simp, by simp [zeros], fun i => ⟨fun h => absurd rfl h, by simp [zeros]⟩⟩

/-- Gamma responses 1 and 2 with an intercept. -/
example : ∃! b, Pirls.next (⟨fun _ => .gamma, .log, ![1, 2], fun _ _ => 1, 0, 0⟩ : Pirls.In 2 1) b = b := by
  refine always (s := 1) ⟨fun i => ?_, one_pos, fun _ => Or.inr rfl, PosSemidef.zero⟩ (fun v h _ => ?_) (fun _ => trivial) (Or.inr fun _ => Or.inr rfl)
  · show (0 : ℝ) < ![1, 2] i
    fin_cases i <;> simp
  · have := h 0
    funext a
    fin_cases a
    simpa using this

end Verif.Sep
