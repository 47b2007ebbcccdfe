import Verif.Conv
import Verif.ExistEx
import Verif.SmoGlm
import Mathlib.Analysis.Complex.ExponentialBounds

/-!
# Cases for C148: two binary responses, one of each kind, and an intercept
-/

namespace Verif.Conv
open Verif Matrix Fl Fam Filter Topology Sep

/-- Responses 0 and 1, intercept. -/
noncomputable def coin : Pirls.In 2 1 := bin2 1 0

theorem coin_good : Pirls.Good coin 1 := bin2_good 1 PosSemidef.zero
theorem coin_ident : Pirls.Ident coin := bin2_ident (by simp) 0
theorem coin_cov : ∀ i, covered (coin.fam i) coin.lk := fun _ => trivial

theorem coin_sep : ¬Separated coin := by
  rintro ⟨v, hv, -, h⟩
  have h0 := (h 0).2 (by simp [coin, bin2])
  have h1 := (h 1).1 (by simp [coin, bin2])
  simp [coin, bin2] at h0 h1
  refine hv (funext fun a => ?_)
  rw [Subsingleton.elim a 0]
  exact le_antisymm h0 h1

theorem coin_next (c : ℝ) : Pirls.next coin ![c] = ![c - Real.sinh c] := by
  funext a
  fin_cases a
  show Pirls.next coin ![c] 0 = c - Real.sinh c
  have h := congrFun (Pirls.gram_step coin_good (adm coin_cov ![c]) (Pirls.gram_posdef coin_good coin_ident (adm coin_cov ![c]))) 0
  simp only [Matrix.mulVec, dotProduct, Fin.sum_univ_one, Fin.sum_univ_two, Pirls.gram_eq coin_good (adm coin_cov ![c]), Pirls.G, Pirls.wR,
    Pirls.uR, Pirls.uF, Pirls.eta, Pi.sub_apply] at h
  generalize Pirls.next coin ![c] 0 = q at h ⊢
  have he := Real.exp_pos c
  have e2 : Real.exp (-c) = (Real.exp c)⁻¹ := Real.exp_neg c
  rw [Real.sinh_eq, e2]
  simp [coin, bin2, LinkKind.fiR, LinkKind.d1R, FamKind.VR, Matrix.mulVec, dotProduct] at h
  generalize Real.exp c = E at h he ⊢
  have h1 : 1 + E ≠ 0 := by positivity
  have h2 : 1 - E / (1 + E) = 1 / (1 + E) := by field_simp; ring
  rw [h2] at h
  field_simp at h
  field_simp
  nlinarith

theorem coin_even (c : ℝ) : Pirls.PR coin 1 ![-c] = Pirls.PR coin 1 ![c] := by
  have he := Real.exp_pos c
  have e2 : Real.exp (-c) = (Real.exp c)⁻¹ := Real.exp_neg c
  simp only [Pirls.PR, Fin.sum_univ_two, Pirls.phi, Pirls.eta]
  simp [coin, bin2, LinkKind.fiR, FamKind.lR, Matrix.mulVec, dotProduct, e2]
  generalize Real.exp c = E at he ⊢
  have h1 : 1 + E ≠ 0 := by positivity
  have h2 : E⁻¹ / (1 + E⁻¹) = 1 - E / (1 + E) := by field_simp; ring
  rw [h2, sub_sub_cancel]
  ring

/-- Passes from ±c go back and forth if the proposal is the mirror image. -/
theorem coin_pass {c : ℝ} (hc : Real.sinh c = 2 * c) : Pirls.pass coin ![c] = ![-c] := by
  have e : Pirls.next coin ![c] = ![-c] := by rw [coin_next, hc]; congr 1; ring
  have hnw : Step.NotWorse (Step.evalAt (Pirls.prob coin) (Pirls.half ![c] (Pirls.next coin ![c]) 0)).pen
      (Step.evalAt (Pirls.prob coin) ![c]).pen := by
    rw [Pirls.half_zero, e, Pirls.notWorse_iff coin_good (adm coin_cov _) (adm coin_cov _), coin_even]
  rcases Pirls.pass_cases coin ![c] with ⟨j, h1, h2, h3, h4⟩ | ⟨h1, h2⟩
  · rcases Nat.eq_zero_or_pos j with rfl | hj
    · rw [h2, Pirls.half_zero, e]
    · exact absurd hnw (h4 0 hj)
  · exact absurd hnw (h2 0 (by norm_num))

theorem exists_mirror : ∃ c : ℝ, 1 < c ∧ Real.sinh c = 2 * c := by
  have hcont : ContinuousOn (fun c : ℝ => Real.sinh c - 2 * c) (Set.Icc 1 3) := (Real.continuous_sinh.sub (by fun_prop)).continuousOn
  have h1 : Real.sinh 1 - 2 * 1 < 0 := by
    rw [Real.sinh_eq]
    have := Real.exp_one_lt_d9
    have := Real.exp_pos (-1)
    linarith
  have h3 : 0 < Real.sinh 3 - 2 * 3 := by
    rw [Real.sinh_eq]
    have h := Real.exp_one_gt_d9
    have e : Real.exp 3 = Real.exp 1 ^ 3 := by rw [← Real.exp_nat_mul]; norm_num
    have h2 : (2.7 : ℝ) ^ 3 < Real.exp 1 ^ 3 := pow_lt_pow_left₀ (by linarith) (by norm_num) (by norm_num)
    have h4 : Real.exp (-3) < 1 := by rw [← Real.exp_zero]; exact Real.exp_lt_exp.2 (by norm_num)
    rw [e]
    norm_num at h2 ⊢
    linarith
  obtain ⟨c, hc, h0⟩ := intermediate_value_Ioo (by norm_num) hcont ⟨h1, h3⟩
  exact ⟨c, hc.1, by simpa [sub_eq_zero] using h0⟩

theorem coin_zero : Pirls.next coin ![0] = ![0] := by rw [coin_next, Real.sinh_zero, sub_zero]

/-- Other coefficients than zero have a positive penalised deviance, the same for both signs. -/
theorem coin_pen {c : ℝ} (hc : c ≠ 0) : ∃ d : ℝ, 0 < d ∧ (Step.evalAt (Pirls.prob coin) ![c]).pen = fin d ∧
    (Step.evalAt (Pirls.prob coin) ![-c]).pen = fin d := by
  obtain ⟨K, hK⟩ := Pirls.pen_eq coin_good
  obtain ⟨d0, h0, hd0⟩ := SmoG.dev_fin coin_good (adm coin_cov ![0])
  have h1 := SmoG.pen_dev coin_good (adm coin_cov ![0]) h0
  have h2 := Pirls.PR_lt coin_good (fun i => cov_strict (coin_cov i)) (adm coin_cov ![0]) (adm coin_cov ![c])
    (Pirls.gram_posdef coin_good coin_ident (adm coin_cov ![0])) ?_ (b' := ![c]) ?_
  · have h3 := hK ![0] (adm coin_cov _)
    rw [h1, fin_inj] at h3
    have hq : SmoG.quad coin.S ![0] = 0 := by simp [SmoG.quad, coin, bin2]
    refine ⟨K - 2 * 1 * Pirls.PR coin 1 ![c], ?_, hK _ (adm coin_cov _), by rw [hK _ (adm coin_cov _), coin_even]⟩
    linarith
  · have h := Pirls.gram_step coin_good (adm coin_cov ![0]) (Pirls.gram_posdef coin_good coin_ident (adm coin_cov ![0]))
    rw [coin_zero, sub_self, Matrix.mulVec_zero] at h
    exact h.symm
  · intro h
    exact hc (by simpa using congrFun h 0)

/-- C148.  The claim fails without further conditions.  Two responses, 0 and 1, and an intercept: the estimate is zero (probability one half),
the data are not separated.  Coefficients whose proposal is their mirror image are accepted, because the penalised deviance is not larger;
the next pass returns to them.  Passes never converge, and for every `max_inner` of at least three the inner loop stops with the
coefficients it began with, because the penalised deviance did not change. -/
theorem stop_wrong : Pirls.Good coin 1 ∧ Pirls.Ident coin ∧ (∀ i, covered (coin.fam i) coin.lk) ∧ ¬Separated coin ∧
    ∃ b : Fin 1 → ℝ, 1 < b 0 ∧ Pirls.next coin b ≠ b ∧ (∃ k : ℕ, 0 < k ∧ (Pirls.pass coin)^[k] b = b) ∧
      (∀ m : ℕ, 3 ≤ m → Pirls.inner coin m b = some b) ∧ ∀ l, ¬Tendsto (fun k => (Pirls.pass coin)^[k] b) atTop (𝓝 l) := by
  obtain ⟨c, h1, hs⟩ := exists_mirror
  have hs' : Real.sinh (-c) = 2 * -c := by rw [Real.sinh_neg, hs]; ring
  have p1 := coin_pass hs
  have p2 := coin_pass hs'
  rw [neg_neg] at p2
  have hne : (![-c] : Fin 1 → ℝ) ≠ ![c] := fun h => by
    have : -c = c := by simpa using congrFun h 0
    linarith
  refine ⟨coin_good, coin_ident, coin_cov, coin_sep, ![c], h1, ?_, ⟨2, by norm_num, ?_⟩, fun m hm => ?_, fun l hl => ?_⟩
  · rw [coin_next, hs, show c - 2 * c = -c by ring]
    exact hne
  · show Pirls.pass coin (Pirls.pass coin ![c]) = ![c]
    rw [p1, p2]
  · obtain ⟨d, hd, e1, e2⟩ := coin_pen (show c ≠ 0 by linarith)
    obtain ⟨q, rfl⟩ : ∃ q, m = q + 3 := ⟨m - 3, by omega⟩
    obtain ⟨r, a1, a2, a3⟩ := Pirls.accept_pass coin ![c]
    obtain ⟨r', b1, b2, b3⟩ := Pirls.accept_pass coin ![-c]
    rw [p1] at a2
    rw [p2] at b2
    rw [a2] at a3
    rw [b2] at b3
    show Pirls.loop coin (q + 3) (q + 2) 0 ![c] (Pirls.next coin ![c]) (Step.evalAt (Pirls.prob coin) ![c]).pen = some ![c]
    have hsm : Pirls.small r'.pen r.pen := by
      rw [a3, b3, e1, e2]
      show |d - d| < 1 / 10 ^ 9 * d
      rw [sub_self, abs_zero]
      positivity
    rw [Pirls.loop, a1]
    simp only [lt_irrefl, false_and, if_false]
    rw [a2, show r.pen = (Step.evalAt (Pirls.prob coin) ![-c]).pen by rw [a3], Pirls.loop, b1]
    rw [a3] at hsm
    simp only []
    rw [if_pos ⟨by norm_num, Or.inl hsm⟩, b2]
  · have hper : ∀ k, (Pirls.pass coin)^[2 * k] ![c] = ![c] := by
      intro k
      induction k with
      | zero => rfl
      | succ k ih =>
        rw [show 2 * (k + 1) = 2 * k + 1 + 1 by ring, Function.iterate_succ_apply', Function.iterate_succ_apply', ih, p1, p2]
    have t1 : Tendsto (fun k => (Pirls.pass coin)^[2 * k] ![c]) atTop (𝓝 l) :=
      hl.comp (tendsto_atTop_mono (fun k => by show k ≤ 2 * k; omega) tendsto_id)
    have t2 : Tendsto (fun k => (Pirls.pass coin)^[2 * k + 1] ![c]) atTop (𝓝 l) :=
      hl.comp (tendsto_atTop_mono (g := fun k : ℕ => 2 * k + 1) (fun k => by show k ≤ 2 * k + 1; omega) tendsto_id)
    simp only [hper, Function.iterate_succ_apply', p1] at t1 t2
    exact hne ((tendsto_nhds_unique tendsto_const_nhds t2).trans (tendsto_nhds_unique tendsto_const_nhds t1).symm)

example (b : Fin 1 → ℝ) : ∃ R, ∀ k, ‖(Pirls.pass coin)^[k] b‖ ≤ R := stays_bounded coin_good coin_cov coin_sep b

/-- One response 1 and an intercept: separated, every pass takes the whole step. -/
noncomputable def one : Pirls.In 1 1 := ⟨fun _ => .binomial 1, .logit, fun _ => 1, fun _ _ => 1, 0, 0⟩

theorem one_good : Pirls.Good one 1 :=
  ⟨fun _ => ⟨Nat.one_pos, 1, le_rfl, by simp [one]⟩, one_pos, fun _ => Or.inr rfl, PosSemidef.zero⟩

theorem one_ident : Pirls.Ident one := by
  intro v h _
  have := h 0
  funext a
  fin_cases a
  simpa [one] using this

theorem one_cov : ∀ i, covered (one.fam i) one.lk := fun _ => trivial

theorem one_sep : Separated one :=
  ⟨1, one_ne_zero, by simp [one], fun i => ⟨fun _ => by simp [one], fun h => absurd rfl h⟩⟩

theorem one_next (c : ℝ) : Pirls.next one ![c] = ![c + 1 + Real.exp (-c)] := by
  funext a
  fin_cases a
  show Pirls.next one ![c] 0 = c + 1 + Real.exp (-c)
  have h := congrFun (Pirls.gram_step one_good (adm one_cov ![c]) (Pirls.gram_posdef one_good one_ident (adm one_cov ![c]))) 0
  simp only [Matrix.mulVec, dotProduct, Fin.sum_univ_one, Pirls.gram_eq one_good (adm one_cov ![c]), Pirls.G, Pirls.wR,
    Pirls.uR, Pirls.uF, Pirls.eta, Pi.sub_apply] at h
  generalize Pirls.next one ![c] 0 = q at h ⊢
  have he := Real.exp_pos c
  rw [Real.exp_neg]
  simp [one, LinkKind.fiR, LinkKind.d1R, FamKind.VR, Matrix.mulVec, dotProduct] at h
  generalize Real.exp c = E at h he ⊢
  have h1 : 1 + E ≠ 0 := by positivity
  have h2 : 1 - E / (1 + E) = 1 / (1 + E) := by field_simp; ring
  rw [h2] at h
  field_simp at h
  field_simp
  nlinarith

theorem one_pass (c : ℝ) : Pirls.pass one ![c] = ![c + 1 + Real.exp (-c)] := by
  have hnw : Step.NotWorse (Step.evalAt (Pirls.prob one) (Pirls.half ![c] (Pirls.next one ![c]) 0)).pen
      (Step.evalAt (Pirls.prob one) ![c]).pen := by
    rw [Pirls.half_zero, one_next, Pirls.notWorse_iff one_good (adm one_cov _) (adm one_cov _)]
    simp only [Pirls.PR, Fin.sum_univ_one, Pirls.phi, Pirls.eta]
    simp [one, LinkKind.fiR, FamKind.lR, Matrix.mulVec, dotProduct]
    have h0 := Real.exp_pos c
    have h1 : Real.exp c ≤ Real.exp (c + 1 + Real.exp (-c)) := Real.exp_le_exp.2 (by have := Real.exp_pos (-c); linarith)
    refine Real.log_le_log (by positivity) ?_
    rw [div_le_div_iff₀ (by positivity) (by positivity)]
    nlinarith
  rcases Pirls.pass_cases one ![c] with ⟨j, h1, h2, h3, h4⟩ | ⟨h1, h2⟩
  · rcases Nat.eq_zero_or_pos j with rfl | hj
    · rw [h2, Pirls.half_zero, one_next]
    · exact absurd hnw (h4 0 hj)
  · exact absurd hnw (h2 0 (by norm_num))

theorem one_goes : Goes one fun k => (Pirls.pass one)^[k] ![0] := by
  refine ⟨fun k => Function.iterate_succ_apply' _ _ _, fun k h => ?_⟩
  simp only [] at h ⊢
  generalize (Pirls.pass one)^[k] ![0] = v at h ⊢
  rw [show v = ![v 0] from funext fun a => by rw [Subsingleton.elim a 0]; rfl] at h ⊢
  rw [one_pass] at h
  rw [one_next, h]

example (l : Fin 1 → ℝ) : ¬Tendsto (fun k => (Pirls.pass one)^[k] ![0]) atTop (𝓝 l) :=
  separated_no_limit one_good one_ident one_cov one_sep one_goes l

example : Tendsto (fun k => ‖(Pirls.pass one)^[k] ![0]‖) atTop atTop ∨ Ties one 1 fun k => (Pirls.pass one)^[k] ![0] :=
  separated_diverges one_good one_ident one_cov one_sep one_goes

/-- Gaussian model: all conditions are met from any start. -/
theorem line_goes (c : ℝ) : Goes Pirls.line fun k => (Pirls.pass Pirls.line)^[k] ![c] := by
  refine ⟨fun k => Function.iterate_succ_apply' _ _ _, fun k h => ?_⟩
  simp only [] at h ⊢
  generalize (Pirls.pass Pirls.line)^[k] ![c] = v at h ⊢
  rw [show v = ![v 0] from funext fun a => by rw [Subsingleton.elim a 0]; rfl] at h ⊢
  rw [Pirls.line_pass] at h
  rw [Pirls.line_next, h]

theorem line_sep : ¬Separated Pirls.line := by
  rintro ⟨v, hv, -, h⟩
  exact hv (Pirls.line_ident v h (by simpa [Pirls.line, Free] using h 0))

example (c : ℝ) : ∃ e, Pirls.next Pirls.line e = e ∧
    (∀ b', b' ≠ e → ∃ u v, Pirls.pllk Pirls.line 1 e = fin u ∧ Pirls.pllk Pirls.line 1 b' = fin v ∧ v < u) ∧
    Tendsto (fun k => (Pirls.pass Pirls.line)^[k] ![c]) atTop (𝓝 e) := by
  refine converges_partial Pirls.line_good Pirls.line_ident (fun _ => trivial) line_sep (line_goes c) ?_
  refine tendsto_const_nhds.congr' ?_
  filter_upwards [eventually_gt_atTop 0] with k hk
  obtain ⟨q, rfl⟩ : ∃ q, k = q + 1 := ⟨k - 1, by omega⟩
  have e : ∀ q, (Pirls.pass Pirls.line)^[q + 1] ![c] = ![1] := fun q => by
    rw [Function.iterate_succ_apply']
    generalize (Pirls.pass Pirls.line)^[q] ![c] = v
    rw [show v = ![v 0] from funext fun a => by rw [Subsingleton.elim a 0]; rfl, Pirls.line_pass]
  rw [e, e, sub_self]

end Verif.Conv
