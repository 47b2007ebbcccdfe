import Verif.ConvLocal
import Verif.ConvEx
import Mathlib.Analysis.SpecialFunctions.Trigonometric.DerivHyp

/-!
# C148: cases close to the estimate
-/

namespace Verif.Conv
open Verif Matrix Fl Fam Filter Topology Sep

/-- Responses 0 and 1: passes from small intercepts converge to zero, faster than any geometric series. -/
theorem coin_local : ∃ δ > 0, ∃ m > 0, ∀ t : ℝ, |t| < δ → Tendsto (fun k => (Pirls.pass coin)^[k] ![t]) atTop (𝓝 ![0]) ∧
    (∀ k, (Pirls.pass coin)^[k + 1] ![t] = Pirls.next coin ((Pirls.pass coin)^[k] ![t]) ∧ ∃ u v, Pirls.pllk coin 1 ((Pirls.pass coin)^[k] ![t]) = fin u ∧
      Pirls.pllk coin 1 ((Pirls.pass coin)^[k + 1] ![t]) = fin v ∧ m * ‖(Pirls.pass coin)^[k] ![t] - ![0]‖ ^ 2 ≤ v - u) ∧
    ∀ κ > 0, ∀ᶠ k in atTop, ‖(Pirls.pass coin)^[k + 1] ![t] - ![0]‖ ≤ κ * ‖(Pirls.pass coin)^[k] ![t] - ![0]‖ := by
  obtain ⟨e, he, δ, hδ, m, hm, h⟩ := local_converges coin_good coin_ident (fun _ => rfl) coin_sep
  have e0 : e = ![0] := by
    by_contra hne
    obtain ⟨u, v, h1, h2, h3⟩ := he _ (Ne.symm hne)
    obtain ⟨u', v', h4, h5, h6⟩ := Pirls.fixed_is_unique_max coin_good coin_ident (fun i => cov_strict (coin_cov i)) (adm coin_cov _) coin_zero
      (adm coin_cov e) hne
    rw [h2, fin_inj] at h4
    rw [h1, fin_inj] at h5
    linarith
  subst e0
  refine ⟨δ, hδ, m, hm, fun t ht => ?_⟩
  have := h ![t] 0 (by
    rw [Function.iterate_zero, id, pi_norm_lt_iff hδ]
    intro i
    rw [Subsingleton.elim i 0]
    simpa using ht)
  exact ⟨this.1, fun k => this.2.1 k (Nat.zero_le k), this.2.2⟩

/-- The first of these steps is not zero. -/
example {t : ℝ} (ht : t ≠ 0) : Pirls.next coin ![t] ≠ ![t] := fun h => by
  rw [coin_next] at h
  have := congrFun h 0
  simp only [cons_val_fin_one, sub_eq_self] at this
  exact ht (Real.sinh_eq_zero.1 this)

end Verif.Conv
