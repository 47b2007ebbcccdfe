import Verif.HazExist
import Verif.LmlEx

/-!
# C149: examples

Two subjects observed at the same time, covariates 0 and 1.
-/

namespace Verif.HEx
open Verif Matrix Finset Haz

/-- An event for both subjects: no direction is monotone. -/
theorem both_none : ¬∃ v, Monotone (fun _ => (5 : ℝ)) (fun _ : Fin 2 => 0) (fun _ => 1) Lml.x01 0 v := by
  rintro ⟨v, hv, -, h⟩
  have h1 := h 0 one_ne_zero 1 le_rfl
  have h2 := h 1 one_ne_zero 0 le_rfl
  simp [Lml.x01] at h1 h2
  exact hv (by funext i; fin_cases i; exact le_antisymm h1 h2)

theorem both_ident : Ident (fun _ => (5 : ℝ)) (fun _ : Fin 2 => 0) (fun _ => 1) Lml.x01 0 := by
  intro v _ h
  have := h 0 one_ne_zero 1 le_rfl
  simp [Lml.x01] at this
  funext i
  fin_cases i
  exact this

example : ∃! c, Lml.step (Lml.hazIn 1 (fun _ : Fin 2 => 0) (fun _ => 1) Lml.x01 0 Ridge.cholC fun _ _ => 0) c = c :=
  estimate_exists Lml.data2 Ridge.cholC_spec PosSemidef.zero both_ident both_none

example {c d : Fin 1 → ℝ} (hf : Lml.step (Lml.hazIn 1 (fun _ : Fin 2 => 0) (fun _ => 1) Lml.x01 0 Ridge.cholC fun _ _ => 0) c = c) (hd : d ≠ c) :
    llk 1 (fun _ : Fin 2 => 0) (fun _ => 1) Lml.x01 d < llk 1 (fun _ : Fin 2 => 0) (fun _ => 1) Lml.x01 c := by
  simpa using estimate_is_max (noise := fun _ _ => 0) Lml.data2 Ridge.cholC_spec PosSemidef.zero both_ident hf hd

/-- An event only for the subject with covariate 1: the coefficient can grow for ever. -/
theorem last_monotone : Monotone (fun _ => (5 : ℝ)) (fun _ : Fin 2 => 0) ![0, 1] Lml.x01 0 ![1] := by
  refine ⟨by simp, by simp, fun i hi k _ => ?_⟩
  fin_cases i
  · simp at hi
  · fin_cases k <;> simp [Lml.x01]

theorem last_ident (S : Matrix (Fin 1) (Fin 1) ℝ) : Ident (fun _ => (5 : ℝ)) (fun _ : Fin 2 => 0) ![0, 1] Lml.x01 S := by
  intro v _ h
  have := h 1 (by simp) 0 le_rfl
  simp [Lml.x01] at this
  funext i
  fin_cases i
  exact this.symm

example (c : Fin 1 → ℝ) : Lml.step (Lml.hazIn 1 (fun _ : Fin 2 => 0) ![0, 1] Lml.x01 0 Ridge.cholC fun _ _ => 0) c ≠ c :=
  monotone_no_estimate Lml.data2 Ridge.cholC_spec PosSemidef.zero (last_ident 0) last_monotone c

example (c : Fin 1 → ℝ) : StrictMono fun t : ℝ => llk 1 (fun _ : Fin 2 => 0) ![0, 1] Lml.x01 (c + t • ![1]) -
    1 / 2 * ∑ i, ∑ j, (c + t • ![1] : Fin 1 → ℝ) i * (0 : Matrix (Fin 1) (Fin 1) ℝ) i j * (c + t • ![1] : Fin 1 → ℝ) j :=
  monotone_increases Lml.data2 PosSemidef.zero (last_ident 0) last_monotone c

/-- A penalty restores the estimate. -/
example : ∃! c, Lml.step (Lml.hazIn 1 (fun _ : Fin 2 => 0) ![0, 1] Lml.x01 1 Ridge.cholC fun _ _ => 0) c = c :=
  estimate_exists Lml.data2 Ridge.cholC_spec PosSemidef.one (last_ident 1) fun ⟨v, hv, h, _⟩ => hv (by simpa using h)

/-- Both sides of the equivalence are attained. -/
example : (∃ c, Lml.step (Lml.hazIn 1 (fun _ : Fin 2 => 0) (fun _ => 1) Lml.x01 0 Ridge.cholC fun _ _ => 0) c = c) ∧
    ¬∃ c, Lml.step (Lml.hazIn 1 (fun _ : Fin 2 => 0) ![0, 1] Lml.x01 0 Ridge.cholC fun _ _ => 0) c = c :=
  ⟨(exists_iff Lml.data2 Ridge.cholC_spec PosSemidef.zero both_ident).2 both_none,
    fun h => (exists_iff Lml.data2 Ridge.cholC_spec PosSemidef.zero (last_ident 0)).1 h ⟨_, last_monotone⟩⟩

end Verif.HEx
