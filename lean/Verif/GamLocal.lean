import Verif.NewtDamp
import Verif.ConvStop

/-!
# C148: Gamma responses with the log link, close to the estimate

Model: `PirlsModel` (`pass`; gamm_solvers.py 1798-1858, 2210-2292).
-/

namespace Verif.Conv
open Verif Matrix Fl Fam Filter Topology Sep

variable {N p : ℕ} {x : Pirls.In N p} {s : ℝ}

theorem gam_uF (y e : ℝ) : HasDerivAt (Pirls.uF .gamma .log y) (-(y / Real.exp e)) e := by
  have h := Pirls.uF_deriv (fam := .gamma) (lk := .log) (y := y) (e := e) trivial (show Real.exp e ∈ Set.Ioi (0 : ℝ) from Real.exp_pos e)
  refine h.congr_deriv ?_
  have := Real.exp_pos e
  simp only [aR, FamKind.dVR, FamKind.VR, LinkKind.d1R, LinkKind.d2R, LinkKind.fiR]
  field_simp
  ring

/-- Minus the Hessian. -/
noncomputable def gamH (x : Pirls.In N p) (b : Fin p → ℝ) : Matrix (Fin p) (Fin p) ℝ :=
  Matrix.of fun a c => (∑ i, x.y i / Real.exp (Pirls.eta x b i) * x.X i a * x.X i c) + x.S a c

/-- The matrix of the normal equations. -/
def gamB (x : Pirls.In N p) : Matrix (Fin p) (Fin p) ℝ := Matrix.of fun a c => (∑ i, 1 * x.X i a * x.X i c) + x.S a c

theorem form_mul (w : Fin N → ℝ) (v : Fin p → ℝ) (a : Fin p) : ((Matrix.of fun a c => (∑ i, w i * x.X i a * x.X i c) + x.S a c) *ᵥ v) a =
    (∑ i, w i * (x.X *ᵥ v) i * x.X i a) + (x.S *ᵥ v) a := by
  simp only [mulVec, dotProduct, Matrix.of_apply, add_mul, Finset.sum_add_distrib]
  congr 1
  simp only [Finset.sum_mul, Finset.mul_sum]
  rw [Finset.sum_comm]
  exact Finset.sum_congr rfl fun i _ => Finset.sum_congr rfl fun j _ => by ring

theorem form_dot (w : Fin N → ℝ) (v u : Fin p → ℝ) : u ⬝ᵥ ((Matrix.of fun a c => (∑ i, w i * x.X i a * x.X i c) + x.S a c) *ᵥ v) =
    (∑ i, w i * (x.X *ᵥ v) i * (x.X *ᵥ u) i) + u ⬝ᵥ x.S *ᵥ v := by
  have e : ((Matrix.of fun a c => (∑ i, w i * x.X i a * x.X i c) + x.S a c) *ᵥ v) = fun a => (∑ i, w i * (x.X *ᵥ v) i * x.X i a) + (x.S *ᵥ v) a :=
    funext fun a => form_mul w v a
  rw [e]
  simp only [dotProduct, mul_add, Finset.sum_add_distrib, Finset.mul_sum]
  congr 1
  rw [Finset.sum_comm]
  refine Finset.sum_congr rfl fun i _ => ?_
  show _ = _ * ∑ a, x.X i a * u a
  rw [Finset.mul_sum]
  exact Finset.sum_congr rfl fun j _ => by ring

theorem form_pos (hS : x.S.PosSemidef) (hi : Pirls.Ident x) {w : Fin N → ℝ} (hw : ∀ i, 0 < w i) {v : Fin p → ℝ} (hv : v ≠ 0) :
    0 < (∑ i, w i * (x.X *ᵥ v) i * (x.X *ᵥ v) i) + v ⬝ᵥ x.S *ᵥ v := by
  have h1 : ∀ i ∈ Finset.univ, 0 ≤ w i * (x.X *ᵥ v) i * (x.X *ᵥ v) i := fun i _ => by
    rw [mul_assoc]
    exact mul_nonneg (hw i).le (mul_self_nonneg _)
  have h2 : 0 ≤ v ⬝ᵥ x.S *ᵥ v := by
    have := hS.dotProduct_mulVec_nonneg v
    simpa using this
  have h3 := Finset.sum_nonneg h1
  by_contra hcon
  have h4 : ∑ i, w i * (x.X *ᵥ v) i * (x.X *ᵥ v) i = 0 := by linarith
  have h5 : v ⬝ᵥ x.S *ᵥ v = 0 := by linarith
  refine hv (hi v (fun i => ?_) (by rw [Pirls.quad_eq]; exact h5))
  have h6 := (Finset.sum_eq_zero_iff_of_nonneg h1).1 h4 i (Finset.mem_univ i)
  rw [mul_assoc] at h6
  rcases mul_eq_zero.1 h6 with h7 | h7
  · exact absurd h7 (hw i).ne'
  · exact mul_self_eq_zero.1 h7

/-- Gamma responses, log link. -/
def Gam (x : Pirls.In N p) : Prop := (∀ i, x.fam i = .gamma) ∧ x.lk = .log

theorem Gam.cov (h : Gam x) (i : Fin N) : covered (x.fam i) x.lk := by
  rw [h.1 i, h.2]
  trivial

theorem Gam.sep (h : Gam x) (hi : Pirls.Ident x) : ¬Separated x := by
  rintro ⟨v, hv, h1, h2⟩
  refine hv (hi v (fun i => ?_) (by rw [Pirls.quad_eq, h1, dotProduct_zero]))
  have := h2 i
  rw [h.1 i] at this
  exact this

theorem Gam.y_pos (h : Gam x) (hg : Pirls.Good x s) (i : Fin N) : 0 < x.y i := by
  have := hg.obs i
  rw [h.1 i] at this
  exact this

theorem gam_gram (h : Gam x) (hg : Pirls.Good x s) (b : Fin p → ℝ) : Pirls.gram x b = gamB x := by
  ext a c
  rw [Pirls.gram_eq hg (adm h.cov b)]
  unfold gamB
  rw [Matrix.of_apply]
  congr 1
  refine Finset.sum_congr rfl fun i _ => ?_
  have : Pirls.wR x b i = 1 := by
    unfold Pirls.wR
    rw [h.1 i, h.2]
    have := Real.exp_pos (Pirls.eta x b i)
    simp only [FamKind.VR, LinkKind.d1R, LinkKind.fiR]
    field_simp
  rw [this]

theorem gam_loc (h : Gam x) (hg : Pirls.Good x s) (hi : Pirls.Ident x) :
    NQ.Loc (fun b => s * Pirls.PR x s b) (Pirls.G x) (gamH x) (fun b => b + (gamH x b)⁻¹ *ᵥ Pirls.G x b) := by
  have hpd : ∀ b v, v ≠ 0 → 0 < v ⬝ᵥ gamH x b *ᵥ v := fun b v hv => by
    unfold gamH
    rw [form_dot]
    exact form_pos hg.psd hi (fun i => div_pos (h.y_pos hg i) (Real.exp_pos _)) hv
  refine ⟨fun b v t => ?_, fun b v t => ?_, fun b => ?_, hpd, fun b => ?_⟩
  · have hl : HasDerivAt (fun t : ℝ => b + t • v) v t := by
      simpa using ((hasDerivAt_id t).smul_const v).const_add b
    have hd := ((Pirls.PR_fderiv hg (adm h.cov (b + t • v))).comp_hasDerivAt t hl).const_mul s
    refine hd.congr_deriv ?_
    have hs := hg.pos.ne'
    simp only [_root_.sum_apply, _root_.smul_apply, ContinuousLinearMap.proj_apply, smul_eq_mul, dotProduct, Finset.mul_sum]
    refine Finset.sum_congr rfl fun a _ => ?_
    field_simp
  · rw [hasDerivAt_pi]
    intro a
    have h2 : HasDerivAt (fun t : ℝ => (x.S *ᵥ (b + t • v)) a) ((x.S *ᵥ v) a) t := by
      have e : (fun t : ℝ => (x.S *ᵥ (b + t • v)) a) = fun t => (x.S *ᵥ b) a + t * (x.S *ᵥ v) a := by
        funext t
        rw [mulVec_add, mulVec_smul]
        rfl
      rw [e]
      simpa using ((hasDerivAt_id t).mul_const ((x.S *ᵥ v) a)).const_add ((x.S *ᵥ b) a)
    have h1 : ∀ i ∈ Finset.univ, HasDerivAt (fun t : ℝ => Pirls.uR x (b + t • v) i * x.X i a)
        (-(x.y i / Real.exp (Pirls.eta x (b + t • v) i)) * (x.X *ᵥ v) i * x.X i a) t := fun i _ => by
      have h3 := gam_uF (x.y i) (Pirls.eta x (b + t • v) i)
      rw [← h.1 i, ← h.2] at h3
      exact (HasDerivAt.comp (h₂ := Pirls.uF (x.fam i) x.lk (x.y i)) t h3 (eta_line b v i t)).mul_const _
    refine ((HasDerivAt.fun_sum h1).sub h2).congr_deriv ?_
    unfold gamH
    rw [Pi.neg_apply, form_mul]
    simp only [neg_mul, Finset.sum_neg_distrib]
    ring
  · refine continuousAt_pi.2 fun a => continuousAt_pi.2 fun c => ?_
    refine ContinuousAt.add ?_ continuousAt_const
    refine tendsto_finsetSum _ fun i _ => ?_
    have h1 : ContinuousAt (fun b => x.y i / Real.exp (Pirls.eta x b i)) b :=
      continuousAt_const.div (Real.continuous_exp.continuousAt.comp (Pirls.eta_cont b i)) (Real.exp_pos _).ne'
    exact (h1.mul continuousAt_const).mul continuousAt_const
  · have hP : (gamH x b).PosDef := by
      refine Matrix.PosDef.of_dotProduct_mulVec_pos ?_ fun v hv => by simpa using hpd b v hv
      ext a c
      simp only [Matrix.conjTranspose_apply, star_trivial, gamH, Matrix.of_apply]
      rw [Pirls.psd_symm hg.psd a c]
      congr 1
      exact Finset.sum_congr rfl fun i _ => by ring
    have hu : IsUnit (gamH x b).det := hP.isUnit.map Matrix.detMonoidHom
    rw [add_sub_cancel_left, mulVec_mulVec, Matrix.mul_nonsing_inv _ hu, one_mulVec]

/-- C148.  Gamma responses with the log link, every response below twice its estimated mean: passes whose penalised log-likelihood comes close enough
to its maximum once use full steps from then on and converge to the estimate, and what it gains bounds the distance. -/
theorem gamma_level_partial (h : Gam x) (hg : Pirls.Good x s) (hi : Pirls.Ident x) :
    ∃ e, (∀ b, b ≠ e → ∃ u v, Pirls.pllk x s e = fin u ∧ Pirls.pllk x s b = fin v ∧ v < u) ∧
      ((∀ i, x.y i < 2 * Real.exp ((∑ j, x.X i j * e j) + x.off i)) → ∃ η > 0, ∃ m > 0, ∀ (b : Fin p → ℝ) (k₀ : ℕ) (u v : ℝ),
        Pirls.pllk x s e = fin u → Pirls.pllk x s ((Pirls.pass x)^[k₀] b) = fin v → u - η < v →
          Tendsto (fun k => (Pirls.pass x)^[k] b) atTop (𝓝 e) ∧
          ∀ k ≥ k₀, (Pirls.pass x)^[k + 1] b = Pirls.next x ((Pirls.pass x)^[k] b) ∧ ∃ u v, Pirls.pllk x s ((Pirls.pass x)^[k] b) = fin u ∧
            Pirls.pllk x s ((Pirls.pass x)^[k + 1] b) = fin v ∧ m * ‖(Pirls.pass x)^[k] b - e‖ ^ 2 ≤ v - u) := by
  have hc := h.cov
  obtain ⟨e, he, -⟩ := estimate_exists hg hi hc (h.sep hi)
  have hs0 := hg.pos
  refine ⟨e, fun b hb => Pirls.fixed_is_unique_max hg hi (fun i => cov_strict (hc i)) (adm hc e) he (adm hc b) hb, fun hy => ?_⟩
  have hB : ∀ v, v ≠ 0 → 0 < v ⬝ᵥ gamB x *ᵥ v := fun v hv => by
    unfold gamB
    rw [form_dot (fun _ => 1)]
    exact form_pos hg.psd hi (fun _ => one_pos) hv
  have hT : ∀ c, gamB x *ᵥ (Pirls.next x c - c) = Pirls.G x c := fun c => by
    rw [← gam_gram h hg c]
    exact Pirls.gram_step hg (adm hc c) (Pirls.gram_posdef hg hi (adm hc c))
  have hG : Pirls.G x e = 0 := by rw [← hT, he, sub_self, mulVec_zero]
  obtain ⟨η, hη, m, hm, H⟩ := NQ.damp_seq (T := Pirls.next x) (B := gamB x) (gam_loc h hg hi) ((PR_cont hg hc).const_mul s) hG
    (fun v w => by
      unfold gamH
      rw [form_dot, form_dot]
      congr 1
      · exact Finset.sum_congr rfl fun i _ => by ring
      · simp only [dotProduct, mulVec, Finset.mul_sum]
        rw [Finset.sum_comm]
        refine Finset.sum_congr rfl fun i _ => Finset.sum_congr rfl fun j _ => ?_
        rw [Pirls.psd_symm hg.psd j i]
        ring)
    hB
    (fun v hv => by
      unfold gamH gamB
      rw [form_dot, form_dot (fun _ => 1)]
      have h1 := form_pos (w := fun i => 2 - x.y i / Real.exp (Pirls.eta x e i)) hg.psd hi (fun i => by
        have := hy i
        rw [Pirls.eta_def] at this
        rw [sub_pos, div_lt_iff₀ (Real.exp_pos _)]
        exact this) hv
      have h2 : 0 ≤ v ⬝ᵥ x.S *ᵥ v := by
        have := hg.psd.dotProduct_mulVec_nonneg v
        simpa using this
      simp only [sub_mul, Finset.sum_sub_distrib, mul_assoc, ← Finset.mul_sum] at h1
      simp only [mul_assoc, ← Finset.mul_sum, one_mul]
      linarith)
    hT (by
      show e + _ = e
      rw [hG, mulVec_zero, add_zero])
  refine ⟨η / s, by positivity, m / s, by positivity, fun b k₀ u v hu hv huv => ?_⟩
  rw [Pirls.pllk_eq hg (adm hc _), fin_inj] at hu hv
  have hr : ∀ k, (Pirls.pass x)^[k + 1] b = Pirls.pass x ((Pirls.pass x)^[k] b) := fun k => Function.iterate_succ_apply' _ _ _
  obtain ⟨h1, h2⟩ := H (fun k => (Pirls.pass x)^[k] b) k₀ (fun k hle => by
      show (Pirls.pass x)^[k + 1] b = _
      rw [hr]
      exact pass_full hg hc (le_of_mul_le_mul_left hle hs0))
    (fun a c hac => mul_le_mul_of_nonneg_left (mono (b := fun k => (Pirls.pass x)^[k] b) hg hc hr hac) hs0.le)
    (by
      show s * Pirls.PR x s e - η < s * Pirls.PR x s ((Pirls.pass x)^[k₀] b)
      rw [hu, hv]
      have := mul_lt_mul_of_pos_left huv hs0
      rw [mul_sub, mul_div_cancel₀ _ hs0.ne'] at this
      exact this)
  refine ⟨h1, fun k hk => ⟨(h2 k hk).1, _, _, Pirls.pllk_eq hg (adm hc _), Pirls.pllk_eq hg (adm hc _), ?_⟩⟩
  have h4 := (h2 k hk).2
  rw [← mul_sub, mul_comm s, ← div_le_iff₀ hs0, mul_div_right_comm] at h4
  exact h4

end Verif.Conv
