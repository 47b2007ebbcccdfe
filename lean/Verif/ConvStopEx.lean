import Verif.ConvStop
import Verif.ConvEx

/-!
# C148: the inner loop close to the estimate, responses 0 and 1 and an intercept
-/

namespace Verif.Conv
open Verif Matrix Fl Fam Filter Topology Sep

/-- Incoming intercepts close to zero. -/
theorem coin_inner : ∃ δ > 0, ∃ m > 0, ∀ t : ℝ, |t| < δ → ∀ M, ∃ b', Pirls.inner coin M ![t] = some b' ∧ |b' 0| ≤ |t| ∧
    (|b' 0| ≤ (1 / 2) ^ (M - 1) * |t| ∨ ∃ d, (Step.evalAt (Pirls.prob coin) b').pen = fin d ∧ m * b' 0 ^ 2 ≤ 1 / 10 ^ 9 * d) := by
  obtain ⟨e, he, δ, hδ, m, hm, h⟩ := inner_close coin_good coin_ident (fun _ => rfl) coin_sep
  have e0 : e = ![0] := by
    by_contra hne
    obtain ⟨u, v, h1, h2, h3⟩ := he _ (Ne.symm hne)
    obtain ⟨u', v', h4, h5, h6⟩ := Pirls.fixed_is_unique_max coin_good coin_ident (fun i => cov_strict (coin_cov i)) (adm coin_cov _) coin_zero
      (adm coin_cov e) hne
    rw [h2, fin_inj] at h4
    rw [h1, fin_inj] at h5
    linarith
  subst e0
  have hnorm : ∀ b : Fin 1 → ℝ, ‖b - ![0]‖ = |b 0| := fun b => by
    rw [Pi.norm_def]
    simp
  refine ⟨δ, hδ, m, hm, fun t ht M => ?_⟩
  obtain ⟨b', h1, h2, h3⟩ := h ![t] (by rw [hnorm]; exact ht) M
  rw [hnorm, hnorm] at h2 h3
  rw [sq_abs] at h3
  exact ⟨b', h1, h2, h3⟩

end Verif.Conv
