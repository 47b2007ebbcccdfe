import Verif.ConvLocal

/-!
# C148: what the inner loop returns close to the estimate

Model: `PirlsModel` (`inner`; gamm_solvers.py 2210-2292).
-/

namespace Verif.Conv
open Verif Matrix Fl Fam Filter Topology Sep

variable {N p : ℕ} {x : Pirls.In N p} {s : ℝ}

/-- A full step that does not lower the penalised log-likelihood is used. -/
theorem pass_full (hg : Pirls.Good x s) (hc : ∀ i, covered (x.fam i) x.lk) {b : Fin p → ℝ} (h : Pirls.PR x s b ≤ Pirls.PR x s (Pirls.next x b)) :
    Pirls.pass x b = Pirls.next x b := by
  have hnw := (Pirls.notWorse_iff hg (adm hc _) (adm hc _)).2 h
  rcases Pirls.pass_cases x b with ⟨j, -, h2, -, h4⟩ | ⟨-, h2⟩
  · rcases Nat.eq_zero_or_pos j with rfl | hj
    · rw [h2, Pirls.half_zero]
    · have := h4 0 hj
      rw [Pirls.half_zero] at this
      exact absurd hnw this
  · have := h2 0 (by norm_num)
    rw [Pirls.half_zero] at this
    exact absurd hnw this

/-- C148.  Families with their canonical link, data that are not separated, incoming coefficients close to the estimate: the inner loop returns
coefficients whose squared distance from the estimate is at most a multiple of its tolerance times the penalised deviance, or it has used all of its
passes, each of which has at least halved the distance. -/
theorem inner_close (hg : Pirls.Good x s) (hi : Pirls.Ident x) (hk : ∀ i, isCanonical (x.fam i) x.lk = true) (hn : ¬Separated x) :
    ∃ e, (∀ b, b ≠ e → ∃ u v, Pirls.pllk x s e = fin u ∧ Pirls.pllk x s b = fin v ∧ v < u) ∧
      ∃ δ > 0, ∃ m > 0, ∀ b, ‖b - e‖ < δ → ∀ M, ∃ b', Pirls.inner x M b = some b' ∧ ‖b' - e‖ ≤ ‖b - e‖ ∧
        (‖b' - e‖ ≤ (1 / 2) ^ (M - 1) * ‖b - e‖ ∨ ∃ d, (Step.evalAt (Pirls.prob x) b').pen = fin d ∧ m * ‖b' - e‖ ^ 2 ≤ 1 / 10 ^ 9 * d) := by
  have hc : ∀ i, covered (x.fam i) x.lk := fun i => canon_cov (hk i)
  obtain ⟨e, he, -⟩ := estimate_exists hg hi hc hn
  obtain ⟨m, hm, hall⟩ := NQ.step_close (loc hg hi hc hk) he
  obtain ⟨δ, hδ, hs⟩ := hall (1 / 2) (by norm_num)
  have hs0 := hg.pos
  refine ⟨e, fun b hb => Pirls.fixed_is_unique_max hg hi (fun i => cov_strict (hc i)) (adm hc e) he (adm hc b) hb, δ, hδ, 8 * m, by positivity,
    fun b hb M => ?_⟩
  have one : ∀ c, ‖c - e‖ < δ → ‖Pirls.pass x c - e‖ ≤ 1 / 2 * ‖c - e‖ ∧ m * ‖c - e‖ ^ 2 ≤ s * Pirls.PR x s (Pirls.pass x c) - s * Pirls.PR x s c :=
    fun c hcd => by
      obtain ⟨h1, h2⟩ := hs c hcd
      have h3 : 0 ≤ m * ‖c - e‖ ^ 2 := by positivity
      have h4 : Pirls.PR x s c ≤ Pirls.PR x s (Pirls.next x c) := le_of_mul_le_mul_left (by linarith) hs0
      rw [pass_full hg hc h4]
      exact ⟨h1, h2⟩
  have hin : ∀ k, ‖(Pirls.pass x)^[k] b - e‖ ≤ (1 / 2) ^ k * ‖b - e‖ ∧ ‖(Pirls.pass x)^[k] b - e‖ ≤ ‖b - e‖ := by
    intro k
    induction k with
    | zero => simp
    | succ k ih =>
      rw [Function.iterate_succ_apply']
      obtain ⟨h1, -⟩ := one _ (ih.2.trans_lt hb)
      refine ⟨?_, ?_⟩
      · rw [pow_succ]
        linarith [ih.1]
      · have := norm_nonneg ((Pirls.pass x)^[k] b - e)
        linarith [ih.2]
  obtain ⟨k, -, h2, h3⟩ := Pirls.inner_is_iterate x M b
  refine ⟨_, h2, (hin k).2, ?_⟩
  rcases h3 with h3 | ⟨k', d, d', h4, -, h5, h6, h7⟩
  · left
    rw [← h3]
    exact (hin k).1
  · right
    refine ⟨d, h5, ?_⟩
    obtain ⟨K, hK⟩ := Pirls.pen_eq hg
    rw [hK _ (adm hc _), fin_inj] at h5 h6
    obtain ⟨h8, h9⟩ := one _ ((hin k').2.trans_lt hb)
    have h14 : Pirls.pass x ((Pirls.pass x)^[k'] b) = (Pirls.pass x)^[k] b := by rw [h4, Function.iterate_succ_apply']
    rw [h14] at h8 h9
    have h10 := (abs_lt.1 h7).1
    have h11 := norm_nonneg ((Pirls.pass x)^[k] b - e)
    have h12 : (2 * ‖(Pirls.pass x)^[k] b - e‖) ^ 2 ≤ ‖(Pirls.pass x)^[k'] b - e‖ ^ 2 := pow_le_pow_left₀ (by positivity) (by linarith) 2
    have h13 := mul_le_mul_of_nonneg_left h12 hm.le
    rw [mul_pow] at h13
    linarith

end Verif.Conv
