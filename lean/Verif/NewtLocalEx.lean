import Verif.NewtLocal
import Verif.NewtConvEx

/-!
# C152: examples close to the estimate
-/

namespace Verif.NCv
open Verif Matrix Filter Topology Lml Coef

/-- Events for both subjects: iterations from small coefficients, zero excluded, converge to zero, faster than any geometric series. -/
theorem both_local : ∃ δ > 0, ∃ m > 0, ∀ t : ℝ, |t| < δ → Tendsto (fun k => (iter gcfg hz2 ![t] k).coef) atTop (𝓝 0) ∧
    (∀ k, (iter gcfg hz2 ![t] (k + 1)).coef = step hz2 (iter gcfg hz2 ![t] k).coef ∧ ∃ u v, (iter gcfg hz2 ![t] k).pen = .fin u ∧
      (iter gcfg hz2 ![t] (k + 1)).pen = .fin v ∧ m * ‖(iter gcfg hz2 ![t] k).coef‖ ^ 2 ≤ v - u) ∧
    ∀ κ > 0, ∀ᶠ k in atTop, ‖(iter gcfg hz2 ![t] (k + 1)).coef‖ ≤ κ * ‖(iter gcfg hz2 ![t] k).coef‖ := by
  obtain ⟨e, he, δ, hδ, m, hm, h⟩ := hazard_local (noise := fun _ _ => 0) data2 Ridge.cholC_spec PosSemidef.zero HEx.both_ident HEx.both_none
  simp only [Matrix.zero_apply, mul_zero, zero_mul, Finset.sum_const_zero, sub_zero] at he
  have e0 : e = 0 := by
    by_contra hne
    have := he 0 (Ne.symm hne)
    rw [← not_le, both_le] at this
    simp at this
  subst e0
  refine ⟨δ, hδ, m, hm, fun t ht => ?_⟩
  have := h gcfg ![t] 0 rfl (calmH _) (by
    show ‖![t] - 0‖ < δ
    rw [sub_zero, pi_norm_lt_iff hδ]
    intro i
    rw [Subsingleton.elim i 0]
    exact ht)
  simp only [sub_zero] at this
  exact ⟨this.1, fun k => this.2.1 k (Nat.zero_le k), this.2.2⟩

open Cls in
/-- Each of two classes once: iterations from small intercepts converge to zero, faster than any geometric series. -/
theorem coin1_local : ∃ δ > 0, ∃ m > 0, ∀ t : ℝ, |t| < δ → Tendsto (fun k => (iter cfg (coin1 (n := 2) ![0, 1]) (fun _ => t) k).coef) atTop (𝓝 0) ∧
    (∀ k, (iter cfg (coin1 (n := 2) ![0, 1]) (fun _ => t) (k + 1)).coef = step (coin1 ![0, 1]) (iter cfg (coin1 (n := 2) ![0, 1]) (fun _ => t) k).coef ∧
      ∃ u v, (iter cfg (coin1 (n := 2) ![0, 1]) (fun _ => t) k).pen = .fin u ∧ (iter cfg (coin1 (n := 2) ![0, 1]) (fun _ => t) (k + 1)).pen = .fin v ∧
        m * ‖(iter cfg (coin1 (n := 2) ![0, 1]) (fun _ => t) k).coef‖ ^ 2 ≤ v - u) ∧
    ∀ κ > 0, ∀ᶠ k in atTop, ‖(iter cfg (coin1 (n := 2) ![0, 1]) (fun _ => t) (k + 1)).coef‖ ≤ κ * ‖(iter cfg (coin1 (n := 2) ![0, 1]) (fun _ => t) k).coef‖ := by
  obtain ⟨e, he, δ, hδ, m, hm, h⟩ := multinomial_local (K := 1) (noise := fun _ _ => 0) (fullPat_holds (EtaBeta.mnFam 1) (fun _ => 1) _ _) Ridge.cholC_spec
    PosSemidef.zero (coin1_ident (n := 2) 0) coin1_seen
  have e0 : e = 0 := by
    by_contra hne
    have := he 0 (Ne.symm hne)
    have h1 : MEx.F (K := 1) (n := 2) (fun _ => 1) MEx.ones ![0, 1] 0 0 < MEx.F (K := 1) (n := 2) (fun _ => 1) MEx.ones ![0, 1] 0 e := this
    rw [coin1_F, coin1_F, neg_lt_neg_iff, Real.log_lt_log_iff (by have := Real.cosh_pos (co e); positivity) (by have := Real.cosh_pos (co 0); positivity)] at h1
    have h2 : co 0 = 0 := rfl
    have h3 := Real.one_le_cosh (co e)
    rw [h2, Real.cosh_zero] at h1
    linarith
  subst e0
  refine ⟨δ, hδ, m, hm, fun t ht => ?_⟩
  have := h cfg (fun _ => t) 0 rfl (calm2 _) (by
    show ‖(fun _ => t) - 0‖ < δ
    rw [sub_zero, pi_norm_lt_iff hδ]
    exact fun _ => ht)
  simp only [sub_zero] at this
  exact ⟨this.1, fun k => this.2.1 k (Nat.zero_le k), this.2.2⟩

/-- The steps do reduce the distance strictly: the first of them is not zero. -/
example {t : ℝ} (ht : t ≠ 0) : step hz2 ![t] ≠ ![t] := fun h => by
  have := congrFun h 0
  rw [both_step] at this
  simp at this
  exact ht this

end Verif.NCv
