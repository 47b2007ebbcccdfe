import Verif.SmoGlm
import Verif.LmlEx

/-!
# Cases for C133
-/

namespace Verif.SmoG

open Verif Matrix Fl Fam Pirls Filter Topology

/-! ### A Poisson count of 3 with a ridge penalty on the log mean -/

noncomputable def ct (l : ℝ) : In 1 1 := ⟨fun _ => .poisson, .log, ![3], Matrix.of ![![1]], 0, 0 + l • 1⟩

theorem ct_good {l : ℝ} (hl : 0 ≤ l) : Good (ct l) 1 := by
  refine ⟨fun i => ⟨3, by fin_cases i; simp [ct]⟩, one_pos, fun _ => Or.inr rfl, ?_⟩
  show (0 + l • (1 : Matrix (Fin 1) (Fin 1) ℝ)).PosSemidef
  rw [zero_add]
  exact Matrix.PosSemidef.one.smul hl

theorem ct_ident (l : ℝ) : Ident (ct l) := by
  intro v h _
  have := h 0
  funext a
  fin_cases a
  simpa [ct] using this

theorem ct_adm (l : ℝ) (b : Fin 1 → ℝ) : Adm (ct l) b := adm_total (x := ct l) (fun _ => trivial) b

/-- The smoothing parameter for which `b` is the estimate. -/
theorem ct_fixed {b l : ℝ} (hl : 0 ≤ l) (h : 3 - Real.exp b = l * b) : next (ct l) ![b] = ![b] := by
  rw [fixed_iff_stationary (ct_good hl) (ct_ident l) (ct_adm l _)]
  have := grad_pllk (ct_good hl) (ct_adm l ![b])
  have hz : (fun a => G (ct l) ![b] a / 1) = 0 := by
    funext a
    fin_cases a
    have he : eta (ct l) ![b] 0 = b := by simp [eta, ct, Matrix.mulVec, dotProduct]
    have hS : (ct l).S = l • (1 : Matrix (Fin 1) (Fin 1) ℝ) := zero_add _
    simp only [G, uR, uF, Fin.sum_univ_one, hS]
    show ((_ : ℝ) - _) / 1 = 0
    rw [show eta (ct l) ![b] 0 = b from he]
    simp [ct, LinkKind.fiR, LinkKind.d1R, FamKind.VR, smul_mulVec]
    linarith
  rwa [hz] at this

theorem e_lt : Real.exp 1 < 2.7182818286 := Real.exp_one_lt_d9
theorem e_gt : 2.7182818283 < Real.exp 1 := Real.exp_one_gt_d9
theorem half_lt : Real.exp (1 / 2) < Real.exp 1 := Real.exp_lt_exp.2 (by norm_num)

/-- Estimates 1 and 1/2. -/
example : quad (1 : Matrix (Fin 1) (Fin 1) ℝ) ![1 / 2] ≤ quad 1 ![1] ∧ ∃ d d', deviance (ct (3 - Real.exp 1)) ![1] = fin d ∧
    deviance (ct (3 - Real.exp 1)) ![1 / 2] = fin d' ∧ d + quad 0 ![1] ≤ d' + quad 0 ![1 / 2] :=
  have h1 := e_lt
  have h2 := e_gt
  have h3 := half_lt
  smoother (x := ct (3 - Real.exp 1)) (x' := ct (6 - 2 * Real.exp (1 / 2))) ⟨rfl, rfl, rfl, rfl, rfl⟩ (ct_good (by linarith)) (ct_good (by linarith))
    (ct_ident _) (ct_ident _) (fun _ => trivial) (by linarith) (by linarith) rfl rfl (ct_adm _ _) (ct_adm _ _)
    (ct_fixed (by linarith) (by ring)) (ct_fixed (by linarith) (by ring))

/-- The penalty is at most the deviance of a mean of one. -/
example : ∃ d e, deviance (ct (3 - Real.exp 1)) ![1] = fin d ∧ deviance (ct (3 - Real.exp 1)) ![0] = fin e ∧
    d ≤ e + quad (ct (3 - Real.exp 1)).S ![0] ∧ (quad (ct (3 - Real.exp 1)).S ![0] = 0 → quad (ct (3 - Real.exp 1)).S ![1] ≤ e) :=
  have h1 := e_lt
  rough_bound (ct_good (by linarith)) (ct_ident _) (fun _ => trivial) (ct_adm _ _) (ct_fixed (by linarith) (by ring)) (ct_adm _ _)

/-- Estimates `1 / (k + 1)` tend to zero. -/
example : Tendsto (fun k : ℕ => quad (1 : Matrix (Fin 1) (Fin 1) ℝ) ![1 / ((k : ℝ) + 1)]) atTop (𝓝 0) := by
  have h1 := e_lt
  have hp : ∀ k : ℕ, (0 : ℝ) < (k : ℝ) + 1 := fun k => by positivity
  have hb : ∀ k : ℕ, Real.exp (1 / ((k : ℝ) + 1)) ≤ Real.exp 1 := fun k =>
    Real.exp_le_exp.2 (by rw [div_le_one (hp k)]; have : (0 : ℝ) ≤ k := k.cast_nonneg; linarith)
  have hl : ∀ k : ℕ, 0 ≤ (3 - Real.exp (1 / ((k : ℝ) + 1))) * ((k : ℝ) + 1) := fun k => mul_nonneg (by have := hb k; linarith) (hp k).le
  refine (null_limit (x := ct 0) (y := fun k : ℕ => ct ((3 - Real.exp (1 / ((k : ℝ) + 1))) * ((k : ℝ) + 1))) (fun k => ⟨rfl, rfl, rfl, rfl, rfl⟩)
    (fun k => ct_good (hl k)) (fun k => ct_ident _) (fun _ => trivial) Matrix.PosSemidef.zero Matrix.PosSemidef.one (fun k => rfl) ?_
    (fun k => ct_adm _ _) (fun k => ct_fixed (hl k) ?_) (u := 0) (ct_adm _ _) (by simp [quad]) (by simp [quad])).1
  · refine tendsto_atTop_mono (f := fun k : ℕ => (0.28 : ℝ) * k) (fun k => ?_) (tendsto_natCast_atTop_atTop.const_mul_atTop (by norm_num))
    have := hb k
    have hk : (0 : ℝ) ≤ k := k.cast_nonneg
    nlinarith
  · have := (hp k).ne'
    field_simp

/-! ### Proportional hazards: two subjects, the one with covariate 1 dies -/

/-- Penalised model. -/
noncomputable def hz (l : ℝ) : Lml.In 1 := Lml.hazIn 1 (fun _ : Fin 2 => 0) ![0, 1] Lml.x01 (0 + l • 1) Ridge.cholC fun _ _ => 0

theorem hz_vals (c : ℝ) : Haz.gammaP (fun _ : Fin 2 => 0) (Haz.gam Lml.x01 ![c]) 1 = 1 + Real.exp c ∧
    Haz.bp (fun _ : Fin 2 => 0) (Haz.gam Lml.x01 ![c]) Lml.x01 1 0 = Real.exp c ∧
    Haz.Ap (fun _ : Fin 2 => 0) (Haz.gam Lml.x01 ![c]) Lml.x01 1 0 0 = Real.exp c ∧ Haz.dj (fun _ : Fin 2 => 0) ![0, 1] 0 = 1 := by
  rw [Haz.gammaP_eq, Haz.bp_eq, Haz.Ap_eq]
  simp [Lml.x01, Haz.dj, Haz.ris, Haz.gam, Haz.eta, Fin.sum_univ_two]

theorem hz_grad (l c : ℝ) : (hz l).grad ![c] = fun _ => 1 - Real.exp c / (1 + Real.exp c) := by
  obtain ⟨h1, h2, -, h4⟩ := hz_vals c
  funext k
  rw [Subsingleton.elim k 0]
  show Haz.gradient _ _ _ _ _ _ = _
  unfold Haz.gradient
  rw [Haz.grad2_eq, Finset.sum_range_one, h1, h2, h4]
  simp [Lml.x01, sub_eq_add_neg]

theorem hz_diag {l : ℝ} (hl : 0 ≤ l) (c : ℝ) (i : Fin 1) :
    -Haz.hessian 1 (fun _ : Fin 2 => 0) ![0, 1] Lml.x01 ![c] i i + (0 + l • (1 : Matrix (Fin 1) (Fin 1) ℝ)) i i ≠ 0 := by
  obtain ⟨h1, h2, h3, h4⟩ := hz_vals c
  rw [Subsingleton.elim i 0]
  unfold Haz.hessian
  rw [Haz.hess_eq, Finset.sum_range_one, h1, h2, h3, h4]
  have he := Real.exp_pos c
  simp only [zero_add, Matrix.smul_apply, Matrix.one_apply_eq, smul_eq_mul, mul_one]
  refine ne_of_gt ?_
  have : 0 < Real.exp c / (1 + Real.exp c) ^ 2 := by positivity
  have e : Real.exp c / (1 + Real.exp c) - Real.exp c * Real.exp c / (1 + Real.exp c) ^ 2 = Real.exp c / (1 + Real.exp c) ^ 2 := by
    field_simp
    ring
  push_cast
  rw [one_mul]
  linarith

theorem hz_symm (l : ℝ) : (0 + l • (1 : Matrix (Fin 1) (Fin 1) ℝ)).IsSymm := by
  rw [zero_add]; exact (isSymm_one).smul l

theorem hz_fixed {l c : ℝ} (hl : 0 ≤ l) (h : 1 - Real.exp c / (1 + Real.exp c) = l * c) : Lml.step (hz l) ![c] = ![c] := by
  have s := Lml.haz_smooth (noise := fun _ _ => 0) Lml.data2 Ridge.cholC_spec (hz_symm l) (hz_diag hl c)
  refine (Lml.fixed_iff_stationary ⟨s.chol, s.hsym _, s.ssym, hz_diag hl c⟩ s.grad).2 ?_
  have := Lml.pllk_grad s.ssym s.grad
  have e : (hz l).grad ![c] - (0 + l • (1 : Matrix (Fin 1) (Fin 1) ℝ)) *ᵥ ![c] = 0 := by
    rw [hz_grad, zero_add, smul_mulVec, one_mulVec]
    funext k
    fin_cases k
    simp [h]
  exact e ▸ this

/-- Estimates 1 and 1/2. -/
example : quad (1 : Matrix (Fin 1) (Fin 1) ℝ) ![1 / 2] ≤ quad 1 ![1] ∧
    Haz.llk 1 (fun _ : Fin 2 => 0) ![0, 1] Lml.x01 ![1 / 2] - 1 / 2 * quad 0 ![1 / 2] ≤
      Haz.llk 1 (fun _ : Fin 2 => 0) ![0, 1] Lml.x01 ![1] - 1 / 2 * quad 0 ![1] := by
  have f : ∀ c : ℝ, 1 - Real.exp c / (1 + Real.exp c) = 1 / (1 + Real.exp c) := fun c => by
    have := Real.exp_pos c
    field_simp
    ring
  have p : ∀ c : ℝ, 0 < 1 / (1 + Real.exp c) := fun c => by have := Real.exp_pos c; positivity
  have lt : 1 / (1 + Real.exp 1) < 2 * (1 / (1 + Real.exp (1 / 2))) := by
    have h3 := half_lt
    have := one_div_lt_one_div_of_lt (by have := Real.exp_pos (1 / 2); linarith) (by linarith : 1 + Real.exp (1 / 2) < 1 + Real.exp 1)
    have := p (1 / 2)
    linarith
  exact smoother_hazard (l := 1 / (1 + Real.exp 1)) (t := 2 * (1 / (1 + Real.exp (1 / 2)))) (noise := fun _ _ => 0) Lml.data2 Ridge.cholC_spec
    Matrix.PosSemidef.zero Matrix.PosSemidef.one (p 1).le lt (hz_diag (p 1).le 1) (hz_diag (by have := p (1 / 2); linarith) (1 / 2))
    (hz_fixed (p 1).le (by rw [f]; ring)) (hz_fixed (by have := p (1 / 2); linarith) (by rw [f]; ring))

end Verif.SmoG
