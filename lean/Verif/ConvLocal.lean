import Verif.Conv
import Verif.NewtQuad

/-!
# C148: passes close to the estimate

Model: `PirlsModel` (`pass`; gamm_solvers.py 1798-1858, 2210-2292).
-/

namespace Verif.Conv
open Verif Matrix Fl Fam Filter Topology Sep

variable {N p : ℕ} {x : Pirls.In N p} {s : ℝ}

theorem canon_aR {fam : FamKind} {lk : LinkKind} (hc : isCanonical fam lk = true) {y eta : ℝ} (ho : fam.ok) :
    aR fam lk y (lk.fiR eta) = 1 := by
  unfold aR
  have : fam.dVR (lk.fiR eta) / fam.VR (lk.fiR eta) + lk.d2R (lk.fiR eta) / lk.d1R (lk.fiR eta) = 0 := by
    have hd := fi_mem lk eta
    generalize lk.fiR eta = m at hd
    cases fam <;> cases lk <;> simp [isCanonical] at hc
    · obtain ⟨h0, h1⟩ := hd
      have h1' : 0 < 1 - m := by linarith
      have hn : (0 : ℝ) < (_ : ℕ) := Nat.cast_pos.2 ho
      simp only [FamKind.dVR, FamKind.VR, LinkKind.d1R, LinkKind.d2R]
      field_simp
      ring
    · simp [FamKind.dVR, FamKind.VR, LinkKind.d1R, LinkKind.d2R]
    · have h0 : 0 < m := hd
      simp only [FamKind.dVR, FamKind.VR, LinkKind.d1R, LinkKind.d2R]
      field_simp
      ring
  rw [this]
  ring

theorem canon_cov {f : FamKind} {l : LinkKind} (h : isCanonical f l = true) : covered f l := by
  cases f <;> cases l <;> simp [isCanonical] at h <;> trivial

theorem canon_uF {f : FamKind} {l : LinkKind} (hk : isCanonical f l = true) {y e : ℝ} (ho : f.ok) (hm : l.fiR e ∈ f.dom) :
    HasDerivAt (Pirls.uF f l y) (-(1 / (l.d1R (l.fiR e) ^ 2 * f.VR (l.fiR e)))) e := by
  refine (Pirls.uF_deriv ho hm).congr_deriv ?_
  rw [canon_aR hk ho]

theorem eta_line (b v : Fin p → ℝ) (i : Fin N) (t : ℝ) : HasDerivAt (fun t : ℝ => Pirls.eta x (b + t • v) i) ((x.X *ᵥ v) i) t := by
  have e : (fun t : ℝ => Pirls.eta x (b + t • v) i) = fun t => Pirls.eta x b i + t * (x.X *ᵥ v) i := by
    funext t
    unfold Pirls.eta
    rw [mulVec_add, mulVec_smul]
    simp only [Pi.add_apply, Pi.smul_apply, smul_eq_mul]
    ring
  rw [e]
  simpa using ((hasDerivAt_id t).mul_const ((x.X *ᵥ v) i)).const_add (Pirls.eta x b i)

theorem loc (hg : Pirls.Good x s) (hi : Pirls.Ident x) (hc : ∀ i, covered (x.fam i) x.lk) (hk : ∀ i, isCanonical (x.fam i) x.lk = true) :
    NQ.Loc (fun b => s * Pirls.PR x s b) (Pirls.G x) (Pirls.gram x) (Pirls.next x) where
  lineF := fun b v t => by
    have hl : HasDerivAt (fun t : ℝ => b + t • v) v t := by
      simpa using ((hasDerivAt_id t).smul_const v).const_add b
    have hd := ((Pirls.PR_fderiv hg (adm hc (b + t • v))).comp_hasDerivAt t hl).const_mul s
    refine hd.congr_deriv ?_
    have hs := hg.pos.ne'
    simp only [_root_.sum_apply, _root_.smul_apply, ContinuousLinearMap.proj_apply, smul_eq_mul, dotProduct, Finset.mul_sum]
    refine Finset.sum_congr rfl fun a _ => ?_
    field_simp
  lineG := fun b v t => by
    rw [hasDerivAt_pi]
    intro a
    have h2 : HasDerivAt (fun t : ℝ => (x.S *ᵥ (b + t • v)) a) ((x.S *ᵥ v) a) t := by
      have e : (fun t : ℝ => (x.S *ᵥ (b + t • v)) a) = fun t => (x.S *ᵥ b) a + t * (x.S *ᵥ v) a := by
        funext t
        rw [mulVec_add, mulVec_smul]
        rfl
      rw [e]
      simpa using ((hasDerivAt_id t).mul_const ((x.S *ᵥ v) a)).const_add ((x.S *ᵥ b) a)
    have h1 : ∀ i ∈ Finset.univ, HasDerivAt (fun t : ℝ => Pirls.uR x (b + t • v) i * x.X i a) (-(Pirls.wR x (b + t • v) i) * (x.X *ᵥ v) i * x.X i a) t :=
      fun i _ => by
        have h3 := canon_uF (hk i) (y := x.y i) (ok_of_obs (hg.obs i)) ((adm hc (b + t • v)).mem i)
        exact (HasDerivAt.comp (h₂ := Pirls.uF (x.fam i) x.lk (x.y i)) t h3 (eta_line b v i t)).mul_const _
    refine ((HasDerivAt.fun_sum h1).sub h2).congr_deriv ?_
    have e2 : (Pirls.gram x (b + t • v) *ᵥ v) a = (∑ i, Pirls.wR x (b + t • v) i * (x.X *ᵥ v) i * x.X i a) + (x.S *ᵥ v) a := by
      simp only [mulVec, dotProduct, Pirls.gram_eq hg (adm hc _), add_mul, Finset.sum_add_distrib]
      congr 1
      simp only [Finset.sum_mul, Finset.mul_sum]
      rw [Finset.sum_comm]
      refine Finset.sum_congr rfl fun i _ => Finset.sum_congr rfl fun j _ => ?_
      ring
    rw [Pi.neg_apply, e2]
    simp only [neg_mul, Finset.sum_neg_distrib]
    ring
  cont := gram_cont hg hc
  pd := fun b v hv => by
    have := (Pirls.gram_posdef hg hi (adm hc b)).dotProduct_mulVec_pos hv
    simpa using this
  newton := fun b => Pirls.gram_step hg (adm hc b) (Pirls.gram_posdef hg hi (adm hc b))

/-- C148.  Families with their canonical link, data that are not separated: around the estimate there is a ball such that passes that come into it
once, from whatever start, use full steps from then on and converge to the estimate, faster than any geometric series; what the
penalised log-likelihood gains bounds the distance from the estimate. -/
theorem local_converges (hg : Pirls.Good x s) (hi : Pirls.Ident x) (hk : ∀ i, isCanonical (x.fam i) x.lk = true) (hn : ¬Separated x) :
    ∃ e, (∀ b, b ≠ e → ∃ u v, Pirls.pllk x s e = fin u ∧ Pirls.pllk x s b = fin v ∧ v < u) ∧
      ∃ δ > 0, ∃ m > 0, ∀ (b : Fin p → ℝ) (k₀ : ℕ), ‖(Pirls.pass x)^[k₀] b - e‖ < δ →
        Tendsto (fun k => (Pirls.pass x)^[k] b) atTop (𝓝 e) ∧
        (∀ k ≥ k₀, (Pirls.pass x)^[k + 1] b = Pirls.next x ((Pirls.pass x)^[k] b) ∧ ∃ u v, Pirls.pllk x s ((Pirls.pass x)^[k] b) = fin u ∧
          Pirls.pllk x s ((Pirls.pass x)^[k + 1] b) = fin v ∧ m * ‖(Pirls.pass x)^[k] b - e‖ ^ 2 ≤ v - u) ∧
        ∀ κ > 0, ∀ᶠ k in atTop, ‖(Pirls.pass x)^[k + 1] b - e‖ ≤ κ * ‖(Pirls.pass x)^[k] b - e‖ := by
  have hc : ∀ i, covered (x.fam i) x.lk := fun i => canon_cov (hk i)
  obtain ⟨e, he, -⟩ := estimate_exists hg hi hc hn
  obtain ⟨δ, hδ, m, hm, hs⟩ := NQ.seq_close (loc hg hi hc hk) he
  have hs0 := hg.pos
  refine ⟨e, fun b hb => Pirls.fixed_is_unique_max hg hi (fun i => cov_strict (hc i)) (adm hc e) he (adm hc b) hb, δ, hδ,
    m / s, by positivity, fun b k₀ h0 => ?_⟩
  suffices hk : ∀ k, s * Pirls.PR x s ((Pirls.pass x)^[k] b) ≤ s * Pirls.PR x s (Pirls.next x ((Pirls.pass x)^[k] b)) →
      (Pirls.pass x)^[k + 1] b = Pirls.next x ((Pirls.pass x)^[k] b) by
    obtain ⟨h1, h2, h3⟩ := hs (fun k => (Pirls.pass x)^[k] b) k₀ hk h0
    refine ⟨h1, fun k hk => ⟨(h2 k hk).1, _, _, Pirls.pllk_eq hg (adm hc _), Pirls.pllk_eq hg (adm hc _), ?_⟩, h3⟩
    have h4 := (h2 k hk).2
    rw [← mul_sub, mul_comm s, ← div_le_iff₀ hs0, mul_div_right_comm] at h4
    exact h4
  intro k hle
  have hle' := le_of_mul_le_mul_left hle hg.pos
  have hnw := (Pirls.notWorse_iff hg (adm hc _) (adm hc _)).2 hle'
  simp only [Function.iterate_succ_apply']
  rcases Pirls.pass_cases x ((Pirls.pass x)^[k] b) with ⟨j, -, h2, -, h4⟩ | ⟨-, h2⟩
  · rcases Nat.eq_zero_or_pos j with rfl | hj
    · rw [h2, Pirls.half_zero]
    · have := h4 0 hj
      rw [Pirls.half_zero] at this
      exact absurd hnw this
  · have := h2 0 (by norm_num)
    rw [Pirls.half_zero] at this
    exact absurd hnw this

end Verif.Conv
