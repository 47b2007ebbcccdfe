import Verif.GamLocal

/-!
# C148: two Gamma responses and an intercept, close to the estimate
-/

namespace Verif.Conv
open Verif Matrix Fl Fam Filter Topology Sep

/-- Responses 1 and 3. -/
noncomputable def gam2 : Pirls.In 2 1 := ⟨fun _ => .gamma, .log, ![1, 3], fun _ _ => 1, 0, 0⟩

theorem gam2_gam : Gam gam2 := ⟨fun _ => rfl, rfl⟩

theorem gam2_good : Pirls.Good gam2 1 :=
  ⟨fun i => by
    show ![(1 : ℝ), 3] i ∈ Set.Ioi (0 : ℝ)
    fin_cases i <;> simp, one_pos, fun _ => Or.inl rfl, PosSemidef.zero⟩

theorem gam2_ident : Pirls.Ident gam2 := by
  intro v h _
  funext j
  have := h 0
  simp [gam2] at this
  rw [Subsingleton.elim j 0]
  exact this

theorem gam2_next : Pirls.next gam2 ![Real.log 2] = ![Real.log 2] := by
  have hP := Pirls.gram_posdef gam2_good gam2_ident (adm gam2_gam.cov ![Real.log 2])
  have h := Pirls.gram_step gam2_good (adm gam2_gam.cov ![Real.log 2]) hP
  have hG : Pirls.G gam2 ![Real.log 2] = 0 := by
    funext a
    simp [Pirls.G, Pirls.uR, Pirls.uF, Pirls.eta, gam2, LinkKind.fiR, LinkKind.d1R, FamKind.VR, Matrix.mulVec, dotProduct, Real.exp_log]
    norm_num
  rw [hG] at h
  by_contra hne
  have := hP.dotProduct_mulVec_pos (sub_ne_zero.2 hne)
  rw [h] at this
  simp at this

/-- The estimated mean is 2, both responses are below 4. -/
theorem gam2_level : ∃ η > 0, ∀ (b : Fin 1 → ℝ) (k₀ : ℕ) (u v : ℝ), Pirls.pllk gam2 1 ![Real.log 2] = fin u →
    Pirls.pllk gam2 1 ((Pirls.pass gam2)^[k₀] b) = fin v → u - η < v → Tendsto (fun k => (Pirls.pass gam2)^[k] b) atTop (𝓝 ![Real.log 2]) := by
  obtain ⟨e, he, h⟩ := gamma_level_partial gam2_gam gam2_good gam2_ident
  have e0 : e = ![Real.log 2] := by
    by_contra hne
    obtain ⟨u, v, h1, h2, h3⟩ := he _ (Ne.symm hne)
    obtain ⟨u', v', h4, h5, h6⟩ := Pirls.fixed_is_unique_max gam2_good gam2_ident (fun i => cov_strict (gam2_gam.cov i)) (adm gam2_gam.cov _) gam2_next
      (adm gam2_gam.cov e) hne
    rw [h2, fin_inj] at h4
    rw [h1, fin_inj] at h5
    linarith
  subst e0
  obtain ⟨η, hη, m, -, H⟩ := h fun i => by
    fin_cases i <;> simp [gam2, Real.exp_log] <;> norm_num
  exact ⟨η, hη, fun b k₀ u v hu hv huv => (H b k₀ u v hu hv huv).1⟩

end Verif.Conv
