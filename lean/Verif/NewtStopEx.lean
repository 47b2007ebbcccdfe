import Verif.NewtStop
import Verif.NewtConvEx

/-!
# C152: the coefficient loop close to the estimate, events for both of two subjects
-/

namespace Verif.NCv
open Verif Matrix Filter Topology Lml Coef

/-- Starts close to zero. -/
theorem both_stop : ∃ δ > 0, ∃ m > 0, ∀ (t : ℝ) (left : ℕ), |t| < δ → ∀ q w, phase gcfg (ext hz2) left 0 (start hz2 ![t]) = (q, w) →
    |q.coef 0| ≤ |t| ∧ (w = .converged → ∃ v, q.pen = .fin v ∧ m * q.coef 0 ^ 2 ≤ 1 / 10 ^ 9 * |v|) ∧ (w = .exhausted → |q.coef 0| ≤ (1 / 2) ^ left * |t|) := by
  obtain ⟨e, he, δ, hδ, m, hm, h⟩ := hazard_stop (chol := Ridge.cholC) (noise := fun _ _ => 0) data2 Ridge.cholC_spec PosSemidef.zero HEx.both_ident
    HEx.both_none
  simp only [Matrix.zero_apply, mul_zero, zero_mul, Finset.sum_const_zero, sub_zero] at he
  have e0 : e = 0 := by
    by_contra hne
    have := he 0 (Ne.symm hne)
    rw [← not_le, both_le] at this
    simp at this
  subst e0
  have hnorm : ∀ b : Fin 1 → ℝ, ‖b - 0‖ = |b 0| := fun b => by
    rw [Pi.norm_def]
    simp
  refine ⟨δ, hδ, m, hm, fun t left ht q w hq => ?_⟩
  have := h gcfg ![t] left rfl (calmH _) (by rw [hnorm]; exact ht) q w hq
  rw [hnorm, hnorm, sq_abs] at this
  exact this

/-- The estimate itself is returned as it is. -/
example : step hz2 0 = 0 := by
  funext i
  rw [Subsingleton.elim i 0, both_step]
  simp

end Verif.NCv
