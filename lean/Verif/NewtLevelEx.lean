import Verif.NewtLevel
import Verif.NewtLocalEx
import Verif.ConvLocalEx

/-!
# C148, C152: cases with values close to the maximum
-/

namespace Verif.NCv
open Verif Matrix Filter Topology Lml Coef

/-- Events for both subjects: starts whose log-likelihood is close to log (1/4), and there are others than the estimate. -/
theorem both_level : ∃ η > 0, (∀ t : ℝ, Real.log (2 + 2 * Real.cosh t) < Real.log 4 + η → Tendsto (fun k => (iter gcfg hz2 ![t] k).coef) atTop (𝓝 0)) ∧
    ∃ t : ℝ, t ≠ 0 ∧ Real.log (2 + 2 * Real.cosh t) < Real.log 4 + η := by
  obtain ⟨e, he, η, hη, h⟩ := hazard_level (chol := Ridge.cholC) (noise := fun _ _ => 0) data2 Ridge.cholC_spec PosSemidef.zero HEx.both_ident HEx.both_none
  simp only [Matrix.zero_apply, mul_zero, zero_mul, Finset.sum_const_zero, sub_zero] at he
  have e0 : e = 0 := by
    by_contra hne
    have := he 0 (Ne.symm hne)
    rw [← not_le, both_le] at this
    simp at this
  subst e0
  refine ⟨η, hη, fun t ht => ?_, ?_⟩
  · refine h gcfg ![t] 0 rfl (calmH _) _ _ (both_nice.val 0) ((pen_iter gcfg hz2 ![t] 0).trans (both_nice.val ![t])) ?_
    simp only [zero_mulVec, dotProduct_zero, mul_zero, sub_zero, both_llk, cons_val_fin_one, Pi.zero_apply, Real.cosh_zero]
    norm_num
    linarith
  · have hc : ContinuousAt (fun t : ℝ => Real.log (2 + 2 * Real.cosh t)) 0 := by
      refine ContinuousAt.log (by fun_prop) ?_
      have := Real.cosh_pos 0
      positivity
    have h4 : Real.log (2 + 2 * Real.cosh 0) < Real.log 4 + η := by
      rw [Real.cosh_zero]
      norm_num
      exact hη
    obtain ⟨δ, hδ, hb⟩ := Metric.eventually_nhds_iff.1 (hc.eventually (gt_mem_nhds h4))
    refine ⟨δ / 2, by positivity, hb ?_⟩
    rw [Real.dist_eq, sub_zero, abs_of_pos (by positivity)]
    linarith

end Verif.NCv

namespace Verif.Conv
open Verif Matrix Fl Fam Filter Topology Sep

/-- Responses 0 and 1, intercept. -/
example : ∃ e, Pirls.next coin ![0] = ![0] ∧ ∃ η > 0, ∀ (b : Fin 1 → ℝ) (k₀ : ℕ) (u v : ℝ), Pirls.pllk coin 1 e = fin u →
    Pirls.pllk coin 1 ((Pirls.pass coin)^[k₀] b) = fin v → u - η < v → Tendsto (fun k => (Pirls.pass coin)^[k] b) atTop (𝓝 e) := by
  obtain ⟨e, -, h⟩ := level_converges coin_good coin_ident (fun _ => rfl) coin_sep
  exact ⟨e, coin_zero, h⟩

end Verif.Conv
