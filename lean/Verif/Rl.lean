import Verif.RlSpec

/-!
# Restricted likelihood and the updates of smoothing and scale parameters (property C121)

`restricted` (RlSpec.lean) integrates the coefficients out of likelihood times improper prior.
-/

namespace Verif.Rl

open Matrix MeasureTheory ProbabilityTheory Real Verif.Reml Verif.LogDet

variable {N p K : ℕ} {x : In N p K}

/-- **C121.** The computed gradient is the gradient of the log restricted likelihood: for every direction `d`. -/
theorem gradient (h : Ok x) (hs : 0 < scale x) (d : Fin K → ℝ) :
    HasDerivAt (fun t : ℝ => restricted x.X x.y (penal x.S (fun j => x.lam j + t * d j)) (scale x)) (∑ j, d j * grad x j) 0 := by
  obtain ⟨G, hG, hl⟩ := h.lgdet
  set φ := scale x with hφ
  set T := penal x.S x.lam with hT
  set B := penal x.S d with hB
  set M := x.Xᵀ * x.X + T with hM
  set c := x.Xᵀ *ᵥ x.y with hc
  have hTp : T.PosSemidef := penal_psd h.psd h.pos
  have hsym : Bᵀ = B := by
    rw [hB]
    unfold penal
    rw [transpose_sum]
    exact Finset.sum_congr rfl fun j _ => by rw [transpose_smul, Wps.psd_symm (h.psd j)]
  have hkB : ∀ v, T *ᵥ v = 0 → B *ᵥ v = 0 := fun v hv => by
    have h0 := (penal_kernel h.psd h.pos v).1 hv
    rw [hB]
    unfold penal
    rw [Matrix.sum_mulVec]
    exact Finset.sum_eq_zero fun j _ => by rw [smul_mulVec, h0 j, smul_zero]
  have hker : ∀ t : ℝ, (∀ j, 0 < x.lam j + t * d j) → ∀ v, (T + t • B) *ᵥ v = 0 ↔ T *ᵥ v = 0 := fun t ht v => by
    rw [← penal_line, penal_kernel h.psd ht, penal_kernel h.psd h.pos]
  have hpos := line_pos h.pos d
  have d1 := log_pdet_line hTp hG hsym hkB (by
    filter_upwards [hpos] with t ht
    refine ⟨?_, fun v hv => (hker t ht v).1 hv⟩
    rw [← penal_line]
    exact penal_psd h.psd ht)
  have d2 := (hasDerivAt_det_line M B h.pd.det_pos.ne').log (by rw [zero_smul, add_zero]; exact h.pd.det_pos.ne')
  have d3 := quad_line (B := B) h.unit c
  have hd : HasDerivAt (fun t : ℝ => -(((N : ℝ) - p + T.rank) / 2) * Real.log (2 * π * φ) + Real.log (pdet (T + t • B)) / 2
      - Real.log (M + t • B).det / 2 - (∑ i, x.y i ^ 2 - c ⬝ᵥ ((M + t • B)⁻¹ *ᵥ c)) / (2 * φ))
      ((B * G).trace / 2 - M.det * (M⁻¹ * B).trace / (M + (0 : ℝ) • B).det / 2 - (-(-(c ⬝ᵥ ((M⁻¹ * B * M⁻¹) *ᵥ c)))) / (2 * φ)) 0 :=
    (((d1.div_const 2).const_add _).sub (d2.div_const 2)).sub ((d3.const_sub _).div_const _)
  have hev : (fun t : ℝ => restricted x.X x.y (penal x.S (fun j => x.lam j + t * d j)) φ) =ᶠ[nhds 0]
      fun t : ℝ => -(((N : ℝ) - p + T.rank) / 2) * Real.log (2 * π * φ) + Real.log (pdet (T + t • B)) / 2
      - Real.log (M + t • B).det / 2 - (∑ i, x.y i ^ 2 - c ⬝ᵥ ((M + t • B)⁻¹ *ᵥ c)) / (2 * φ) := by
    filter_upwards [hpos] with t ht
    have hp := penal_psd h.psd ht
    rw [restricted_inv x.X x.y hp (pd_other h.psd h.pos ht h.pd) hs]
    rw [penal_line] at hp
    rw [penal_line, rank_same hp hTp (hker t ht), ← add_assoc]
  refine (hd.congr_of_eventuallyEq hev).congr_deriv ?_
  rw [zero_smul, add_zero, mul_div_cancel_left₀ _ h.pd.det_pos.ne', neg_neg]
  have hMs : (M⁻¹)ᵀ = M⁻¹ := by
    rw [transpose_nonsing_inv, Wps.psd_symm h.pd.posSemidef]
  have hbq : ∀ A : Matrix (Fin p) (Fin p) ℝ, c ⬝ᵥ ((M⁻¹ * A * M⁻¹) *ᵥ c) = coef x ⬝ᵥ (A *ᵥ coef x) := fun A => by
    rw [h.coef_eq, ← mulVec_mulVec, ← mulVec_mulVec, dotProduct_mulVec, ← mulVec_transpose, hMs]
  rw [hbq]
  have e1 : (B * G).trace = ∑ j, d j * lgdetD x j := by
    rw [hB]
    unfold penal
    rw [Matrix.sum_mul, trace_sum]
    exact Finset.sum_congr rfl fun j _ => by rw [Matrix.smul_mul, trace_smul, smul_eq_mul, hl]
  have e2 : (M⁻¹ * B).trace = ∑ j, d j * bps x j := by
    rw [hB]
    unfold penal
    rw [Matrix.mul_sum, trace_sum]
    exact Finset.sum_congr rfl fun j _ => by rw [Matrix.mul_smul, trace_smul, smul_eq_mul, h.bps_eq]
  have e3 : coef x ⬝ᵥ (B *ᵥ coef x) = ∑ j, d j * bsb x j := by
    rw [hB]
    unfold penal
    rw [Matrix.sum_mulVec, dotProduct_sum]
    exact Finset.sum_congr rfl fun j _ => by rw [smul_mulVec, dotProduct_smul, smul_eq_mul]; rfl
  rw [e1, e2, e3, Finset.sum_div, Finset.sum_div, Finset.sum_div, ← Finset.sum_sub_distrib, ← Finset.sum_sub_distrib]
  refine Finset.sum_congr rfl fun j _ => ?_
  unfold grad Lam.gradLam
  rw [← hφ]
  ring

/-- **C121.** Derivative with respect to one smoothing parameter. -/
theorem gradient_at (h : Ok x) (hs : 0 < scale x) (j : Fin K) :
    HasDerivAt (fun l : ℝ => restricted x.X x.y (penal x.S (Function.update x.lam j l)) (scale x)) (grad x j) (x.lam j) := by
  have h1 := gradient h hs (Pi.single j 1)
  rw [Finset.sum_eq_single j (fun k _ hk => by rw [Pi.single_eq_of_ne hk, zero_mul]) (fun hj => absurd (Finset.mem_univ j) hj),
    Pi.single_eq_same, one_mul] at h1
  have h2 : HasDerivAt (fun l : ℝ => l - x.lam j) 1 (x.lam j) := (hasDerivAt_id _).sub_const _
  have h3 := HasDerivAt.comp (x.lam j) (h₂ := fun t : ℝ => restricted x.X x.y (penal x.S (fun k => x.lam k + t * (Pi.single j (1 : ℝ) : Fin K → ℝ) k)) (scale x))
    (by rw [sub_self]; exact h1) h2
  rw [mul_one] at h3
  refine h3.congr_of_eventuallyEq (Filter.Eventually.of_forall fun l => ?_)
  show restricted x.X x.y (penal x.S (Function.update x.lam j l)) (scale x)
    = restricted x.X x.y (penal x.S (fun k => x.lam k + (l - x.lam j) * (Pi.single j (1 : ℝ) : Fin K → ℝ) k)) (scale x)
  congr 2
  funext k
  by_cases hk : k = j
  · subst hk
    rw [Function.update_self, Pi.single_eq_same]
    ring
  · rw [Function.update_of_ne hk, Pi.single_eq_of_ne hk, mul_zero, add_zero]

/-- **C121.** Smoothing parameters that are not moved: the derivative is zero, or points out of the permitted range at its end. -/
theorem fixed_kkt (h : Ok x) (hs : 0 < scale x) {j : Fin K} (hr : Lam.InRange (x.lam j)) (h0 : step x j = 0) :
    ∃ g : ℝ, HasDerivAt (fun l : ℝ => restricted x.X x.y (penal x.S (Function.update x.lam j l)) (scale x)) g (x.lam j) ∧
      (1 / 10 ^ 7 < x.lam j → 0 ≤ g) ∧ (x.lam j < 10 ^ 7 → g ≤ 0) := by
  have := fs_zero hs hr (h.bsb_nonneg j) (h.trace_le j) h0
  exact ⟨grad x j, gradient_at h hs j, this.1, this.2⟩

theorem grad_zero (h : Ok x) (hs : 0 < scale x) {j : Fin K} (h1 : 1 / 10 ^ 7 < x.lam j) (h2 : x.lam j < 10 ^ 7) (h0 : step x j = 0) :
    grad x j = 0 := by
  have := fs_zero hs ⟨h1.le, h2.le⟩ (h.bsb_nonneg j) (h.trace_le j) h0
  exact le_antisymm (this.2 h2) (this.1 h1)

/-- **C121.** Conversely stationary smoothing parameters inside the range are not moved, unless all penalised coefficients are zero. -/
theorem stationary_fixed (hs : 0 < scale x) {j : Fin K} (hr : Lam.InRange (x.lam j)) (hb : 0 < bsb x j) (hg : grad x j = 0) :
    step x j = 0 := by
  have e : bsb x j = scale x * (lgdetD x j - bps x j) := by
    unfold grad Lam.gradLam at hg
    field_simp at hg
    linarith
  have hd : 0 < lgdetD x j - bps x j := by
    rw [e] at hb
    exact (mul_pos_iff_of_pos_left hs).1 hb
  unfold step Lam.fsStep
  dsimp only
  rw [max_eq_right hb.le, max_eq_right hd.le, if_neg (not_le.2 hb)]
  have : scale x * ((lgdetD x j - bps x j) / bsb x j) * x.lam j = x.lam j := by
    rw [e]
    field_simp
  rw [this, max_eq_left (show Lam.lo ≤ _ from hr.1), min_eq_left (show _ ≤ Lam.hi from hr.2), sub_self]

/-- **C121.** Relation between step and derivative, when the proposed value is inside the range. -/
theorem step_eq (h : Ok x) (hs : 0 < scale x) {j : Fin K} (hb : 0 < bsb x j)
    (hr : Lam.InRange (x.lam j * (1 + 2 * scale x * grad x j / bsb x j))) :
    step x j = x.lam j * (2 * scale x / bsb x j) * grad x j := by
  have hd : 0 ≤ lgdetD x j - bps x j := sub_nonneg.2 (h.trace_le j)
  have e : scale x * ((lgdetD x j - bps x j) / bsb x j) * x.lam j = x.lam j * (1 + 2 * scale x * grad x j / bsb x j) := by
    unfold grad Lam.gradLam
    field_simp
    ring
  unfold step Lam.fsStep
  dsimp only
  rw [max_eq_right hb.le, max_eq_right hd, if_neg (not_le.2 hb), e, max_eq_left (show Lam.lo ≤ _ from hr.1), min_eq_left (show _ ≤ Lam.hi from hr.2)]
  ring

/-- **C121.** Steps lead uphill: for the same scale every sufficiently short step in the proposed direction increases the restricted
likelihood. -/
theorem uphill (h : Ok x) (hs : 0 < scale x) (hr : ∀ j, Lam.InRange (x.lam j)) (hb : ∀ j, 0 < bsb x j) (hne : ∃ j, step x j ≠ 0) :
    ∃ ε : ℝ, 0 < ε ∧ ∀ t, 0 < t → t < ε →
      restricted x.X x.y (penal x.S x.lam) (scale x) < restricted x.X x.y (penal x.S (fun j => x.lam j + t * step x j)) (scale x) := by
  have hd := gradient h hs (step x)
  have hpos : 0 < ∑ j, step x j * grad x j := by
    obtain ⟨j, hj⟩ := hne
    exact Finset.sum_pos' (fun k _ => Lam.fs_direction _ _ _ _ _ hs (hr k) (Or.inl (hb k)))
      ⟨j, Finset.mem_univ j, fs_strict hs (hr j) (hb j) (h.trace_le j) hj⟩
  have hsl := (hasDerivAt_iff_tendsto_slope.1 hd).eventually (lt_mem_nhds hpos)
  rw [eventually_nhdsWithin_iff, Metric.eventually_nhds_iff] at hsl
  obtain ⟨ε, hε, hball⟩ := hsl
  refine ⟨ε, hε, fun t ht hte => ?_⟩
  have h1 := hball (y := t) (by rw [Real.dist_eq, sub_zero, abs_of_pos ht]; exact hte) ht.ne'
  rw [slope_def_field, sub_zero] at h1
  have h2 := (div_pos_iff_of_pos_right ht).1 h1
  simp only [zero_mul, add_zero] at h2
  exact sub_pos.1 h2

theorem scale_deriv (h : Ok x) {φ : ℝ} (hφ : 0 < φ) :
    HasDerivAt (fun f : ℝ => restricted x.X x.y (penal x.S x.lam) f)
      (-(((N : ℝ) - p + (penal x.S x.lam).rank) / 2) / φ
        + (∑ i, (x.y i - (x.X *ᵥ coef x) i) ^ 2 + coef x ⬝ᵥ (penal x.S x.lam *ᵥ coef x)) / (2 * φ ^ 2)) φ := by
  have hT := penal_psd h.psd h.pos
  set Q := ∑ i, (x.y i - (x.X *ᵥ coef x) i) ^ 2 + coef x ⬝ᵥ (penal x.S x.lam *ᵥ coef x) with hQ
  have d1 : HasDerivAt (fun f : ℝ => Real.log (2 * π * f)) (2 * π * 1 / (2 * π * φ)) φ :=
    ((hasDerivAt_id φ).const_mul (2 * π)).log (by positivity)
  have d2 : HasDerivAt (fun f : ℝ => Q / (2 * f)) ((0 * (2 * φ) - Q * (2 * 1)) / (2 * φ) ^ 2) φ :=
    (hasDerivAt_const φ Q).div ((hasDerivAt_id φ).const_mul 2) (by positivity)
  have hd := (((d1.const_mul (-(((N : ℝ) - p + (penal x.S x.lam).rank) / 2))).add_const (Real.log (pdet (penal x.S x.lam)) / 2)).sub_const
    (Real.log (x.Xᵀ * x.X + penal x.S x.lam).det / 2)).sub d2
  refine (hd.congr_of_eventuallyEq ?_).congr_deriv ?_
  · filter_upwards [lt_mem_nhds hφ] with f hf
    exact restricted_eq x.X x.y hT h.pd hf h.normal
  · field_simp
    ring

/-- **C121.** Estimated scale: the derivative of the restricted likelihood with respect to the log of the scale is minus the sum of
the derivatives with respect to the logs of the smoothing parameters. -/
theorem scale_identity (h : Ok x) (hk : x.known = none) (hs : 0 < scale x) :
    ∃ g : ℝ, HasDerivAt (fun f : ℝ => restricted x.X x.y (penal x.S x.lam) f) g (scale x) ∧
      scale x * g = -∑ j, x.lam j * grad x j := by
  refine ⟨_, scale_deriv h hs, ?_⟩
  obtain ⟨G, hG, hl⟩ := h.lgdet
  set φ := scale x with hφ
  set R := ∑ i, (x.y i - (x.X *ᵥ coef x) i) ^ 2 with hR
  have hTp := penal_psd h.psd h.pos
  have e1 : ∑ j, x.lam j * lgdetD x j = (penal x.S x.lam).rank := by
    have h1 := trace_rank (κ := Unit) (fun _ => penal x.S x.lam) (fun _ => hTp) (fun _ => 0) ()
      (fun k hk => absurd (Subsingleton.elim k ()) hk) G (by simp only [wsum, Finset.univ_unique, Finset.sum_singleton, Real.exp_zero, one_smul]; exact hG)
    rw [Real.exp_zero, one_mul] at h1
    rw [← h1]
    conv_rhs => unfold penal
    rw [Matrix.sum_mul, trace_sum]
    exact Finset.sum_congr rfl fun j _ => by rw [Matrix.smul_mul, trace_smul, smul_eq_mul, hl]
  have e2 : ∑ j, x.lam j * bsb x j = coef x ⬝ᵥ (penal x.S x.lam *ᵥ coef x) := by
    unfold penal
    rw [Matrix.sum_mulVec, dotProduct_sum]
    exact Finset.sum_congr rfl fun j _ => by rw [smul_mulVec, dotProduct_smul, smul_eq_mul]; rfl
  have e3 : φ = R / (N - edf x) := by
    rw [hφ, hR]
    unfold scale Scale.scaleA Scale.estScale Scale.totalEdf
    rw [hk]
    simp only [Option.getD_none, Option.getD_some, Pi.sub_apply, sq]
  have e4 : R = φ * (N - edf x) := by
    have h0 : (N : ℝ) - edf x ≠ 0 := fun h0 => by rw [h0, div_zero] at e3; exact hs.ne' e3
    rw [e3, div_mul_cancel₀ _ h0]
  have e5 : ∑ j, x.lam j * grad x j = (∑ j, x.lam j * lgdetD x j) / 2 - (∑ j, x.lam j * bps x j) / 2 - (∑ j, x.lam j * bsb x j) / (2 * φ) := by
    rw [Finset.sum_div, Finset.sum_div, Finset.sum_div, ← Finset.sum_sub_distrib, ← Finset.sum_sub_distrib]
    refine Finset.sum_congr rfl fun j _ => ?_
    unfold grad Lam.gradLam
    rw [← hφ]
    ring
  rw [e5, e1, e2, e4]
  unfold edf
  field_simp
  ring

/-- **C121.** When the updates no longer move the smoothing parameters (inside the permitted range), the restricted likelihood is
stationary in all smoothing parameters and in the scale, and no other scale gives a larger value for these smoothing parameters. -/
theorem fixed_stationary (h : Ok x) (hk : x.known = none) (hs : 0 < scale x)
    (hr : ∀ j, 1 / 10 ^ 7 < x.lam j ∧ x.lam j < 10 ^ 7) (h0 : ∀ j, step x j = 0) :
    (∀ j, HasDerivAt (fun l : ℝ => restricted x.X x.y (penal x.S (Function.update x.lam j l)) (scale x)) 0 (x.lam j)) ∧
    HasDerivAt (fun f : ℝ => restricted x.X x.y (penal x.S x.lam) f) 0 (scale x) ∧
    ∀ f, 0 < f → restricted x.X x.y (penal x.S x.lam) f ≤ restricted x.X x.y (penal x.S x.lam) (scale x) := by
  have hz : ∀ j, grad x j = 0 := fun j => grad_zero h hs (hr j).1 (hr j).2 (h0 j)
  obtain ⟨g, hg, hg2⟩ := scale_identity h hk hs
  have hg0 : g = 0 := by
    simp only [hz, mul_zero, Finset.sum_const_zero, neg_zero] at hg2
    exact (mul_eq_zero.1 hg2).resolve_left hs.ne'
  rw [hg0] at hg
  refine ⟨fun j => by have := gradient_at h hs j; rwa [hz j] at this, hg, fun f hf => ?_⟩
  have hu := (scale_deriv h hs).unique hg
  have hT := penal_psd h.psd h.pos
  rw [restricted_eq x.X x.y hT h.pd hf h.normal, restricted_eq x.X x.y hT h.pd hs h.normal]
  have hQ0 : 0 ≤ ∑ i, (x.y i - (x.X *ᵥ coef x) i) ^ 2 + coef x ⬝ᵥ (penal x.S x.lam *ᵥ coef x) :=
    add_nonneg (Finset.sum_nonneg fun i _ => sq_nonneg _) (by simpa using hT.dotProduct_mulVec_nonneg (coef x))
  set Q := ∑ i, (x.y i - (x.X *ᵥ coef x) i) ^ 2 + coef x ⬝ᵥ (penal x.S x.lam *ᵥ coef x) with hQ
  set a := ((N : ℝ) - p + (penal x.S x.lam).rank) / 2 with ha
  set φ := scale x with hφ
  have haQ : Q = 2 * φ * a := by
    field_simp at hu
    linarith
  have ha0 : 0 ≤ a := by
    by_contra hn
    push Not at hn
    have : 2 * φ * a < 0 := mul_neg_of_pos_of_neg (by positivity) hn
    linarith
  have hlog := Real.log_le_sub_one_of_pos (div_pos hs hf)
  rw [Real.log_div hs.ne' hf.ne'] at hlog
  have h2 : (0 : ℝ) < 2 * π := by positivity
  rw [Real.log_mul h2.ne' hf.ne', Real.log_mul h2.ne' hs.ne', haQ]
  have e1 : 2 * φ * a / (2 * f) = a * (φ / f) := by field_simp
  have e2 : 2 * φ * a / (2 * φ) = a := by field_simp
  rw [e1, e2]
  have := mul_le_mul_of_nonneg_left hlog ha0
  linarith

/-- **C121.** The value of `REML` (property C38) for a Gaussian additive model is the log of the restricted likelihood: one formula without
repeated penalties, coefficients that maximise the penalised likelihood, negative Hessian `X.T @ X / scale` (models.py 3316, 2792), no
dropped coefficients. -/
theorem reml_is_integral (f : ReparaAsm.Form) (hne : f.terms ≠ []) (hok : ReparaAsm.AllOK [f]) (rk : ReparaAsm.Term → ℕ)
    (hrk : ∀ t ∈ f.terms, RankOK rk t) (hrep : ∀ t ∈ f.terms, t.reps = 1) {φ : ℝ} (hφ : 0 < φ) (lib : Lib)
    (hch : ∀ t ∈ f.terms, CholOK lib φ rk t) (X : Matrix (Fin N) (Fin ([f].map ReparaAsm.Form.nCoef).sum) ℝ) (y : Fin N → ℝ) (b : ℕ → ℝ)
    (hT : (toM ([f].map ReparaAsm.Form.nCoef).sum (ReparaAsm.total ReparaAsm.Term.S (ReparaAsm.groupsOf 0 0 [f]))).PosSemidef)
    (hM : (Xᵀ * X + toM ([f].map ReparaAsm.Form.nCoef).sum (ReparaAsm.total ReparaAsm.Term.S (ReparaAsm.groupsOf 0 0 [f]))).PosDef)
    (hb : (Xᵀ * X + toM ([f].map ReparaAsm.Form.nCoef).sum (ReparaAsm.total ReparaAsm.Term.S (ReparaAsm.groupsOf 0 0 [f])))
      *ᵥ (fun i => b i) = Xᵀ *ᵥ y)
    (L : Matrix (Fin ([f].map ReparaAsm.Form.nCoef).sum) (Fin ([f].map ReparaAsm.Form.nCoef).sum) ℝ)
    (σ : Equiv.Perm (Fin ([f].map ReparaAsm.Form.nCoef).sum))
    (hP : lib.cholP _ (precond (hPen φ (φ⁻¹ • (Xᵀ * X)) (ReparaAsm.groupsOf 0 0 [f]) id)) = some (L, σ))
    (hL : CholOf (precond (hPen φ (φ⁻¹ • (Xᵀ * X)) (ReparaAsm.groupsOf 0 0 [f]) id)) L σ) :
    reml lib rk (∑ i, Real.log (gaussianPDFReal ((X *ᵥ fun i => b i) i) φ.toNNReal (y i))) φ (φ⁻¹ • (Xᵀ * X)) b
        (ReparaAsm.groupsOf 0 0 [f]) id
      = some (restricted X y (toM ([f].map ReparaAsm.Form.nCoef).sum (ReparaAsm.total ReparaAsm.Term.S (ReparaAsm.groupsOf 0 0 [f]))) φ) := by
  have hmp := mp_partial f hne hok rk hrk hrep φ hφ
  have hval := fun llk => reml_value (k := ([f].map ReparaAsm.Form.nCoef).sum) [f] (by simp) hok rk
    (fun g hg t ht => by rw [List.mem_singleton] at hg; subst hg; exact hrk t ht) φ llk hφ lib
    (fun g hg t ht => by rw [List.mem_singleton] at hg; subst hg; exact hch t ht) b (φ⁻¹ • (Xᵀ * X)) id L σ
  generalize hn : ([f].map ReparaAsm.Form.nCoef).sum = n at *
  generalize hgs : ReparaAsm.groupsOf 0 0 [f] = gs at *
  set T := toM n (ReparaAsm.total ReparaAsm.Term.S gs) with hTd
  have hov : toM n (Reml.over φ (ReparaAsm.total ReparaAsm.Term.S gs)) = φ⁻¹ • T := by
    ext i j
    show _ / φ = φ⁻¹ * _
    rw [div_eq_inv_mul]
    rfl
  have hpen : hPen φ (φ⁻¹ • (Xᵀ * X)) gs id = φ⁻¹ • (Xᵀ * X + T) := by
    unfold hPen
    rw [hov, submatrix_id_id, smul_add]
  have hTφ : (φ⁻¹ • T).PosSemidef := hT.smul (inv_pos.2 hφ).le
  have hq : quad n (ReparaAsm.total ReparaAsm.Term.S gs) b = (fun i : Fin n => b i) ⬝ᵥ (T *ᵥ fun i => b i) := by
    unfold quad
    rw [Finset.sum_range]
    simp only [dotProduct, mulVec]
    refine Finset.sum_congr rfl fun i _ => ?_
    rw [Finset.sum_range, Finset.mul_sum]
    exact Finset.sum_congr rfl fun j _ => by rw [mul_assoc]; rfl
  have hrk' : (φ⁻¹ • T).rank = T.rank := rank_same hTφ hT fun v => by
    rw [smul_mulVec, smul_eq_zero]
    exact ⟨fun h => h.resolve_left (inv_ne_zero hφ.ne'), Or.inr⟩
  have hnull := nullity_rank hTφ
  rw [hrk', Fintype.card_fin] at hnull
  rw [hov] at hmp
  rw [hval _ (by rw [hpen]; exact hM.smul (inv_pos.2 hφ)) hP hL, hpen, hov, hq, hmp, restricted_eq X y hT hM hφ hb,
    pdet_smul hT (inv_pos.2 hφ), det_smul, Fintype.card_fin]
  have hnr : (nullity (φ⁻¹ • T) : ℝ) = (n : ℝ) - T.rank := by
    have := congrArg (fun k : ℕ => (k : ℝ)) hnull
    push_cast at this
    linarith
  have hpd : ∀ i, Real.log (gaussianPDFReal ((X *ᵥ fun i => b i) i) φ.toNNReal (y i))
      = -(Real.log (2 * π * φ) / 2) - (y i - (X *ᵥ fun i => b i) i) ^ 2 / (2 * φ) := fun i => by
    have hp : 0 < √(2 * π * φ) := Real.sqrt_pos.2 (by positivity)
    rw [gaussianPDFReal_def, Real.coe_toNNReal _ hφ.le, Real.log_mul (by positivity) (by positivity), Real.log_exp, Real.log_inv,
      Real.log_sqrt (by positivity)]
    ring
  simp only [hpd]
  rw [Finset.sum_sub_distrib, Finset.sum_const, Finset.card_univ, Fintype.card_fin, nsmul_eq_mul, ← Finset.sum_div, hnr]
  have hp0 := pdet_pos hT
  have hd0 := hM.det_pos
  rw [Real.log_mul (by positivity) hp0.ne', Real.log_mul (by positivity) hd0.ne', Real.log_pow, Real.log_pow, Real.log_inv,
    Real.log_mul (by positivity : (2 : ℝ) * π ≠ 0) hφ.ne']
  congr 1
  ring

/-! ## Concrete cases -/

/-- Four observations, two coefficients of which the first is penalised. -/
noncomputable def demo : In 4 2 1 where
  X := !![1, 0; 0, 1; 0, 0; 0, 0]
  y := ![1, 5, 1, 0]
  S := fun _ => diagonal ![1, 0]
  D := fun _ => diagonal ![1, 0]
  lam := fun _ => 1
  useRank := fun _ => true
  rank := fun _ => 1
  pinv := 0
  Linv := diagonal ![1 / √2, 1]
  known := none

theorem demo_M : demo.Xᵀ * demo.X + penal demo.S demo.lam = diagonal ![2, 1] := by
  unfold penal
  ext i j
  fin_cases i <;> fin_cases j <;> simp [demo, Matrix.mul_apply, Fin.sum_univ_four] <;> norm_num

theorem demo_ok : Ok demo where
  root := fun j => by
    show diagonal ![(1 : ℝ), 0] = diagonal ![1, 0] * (diagonal ![1, 0])ᵀ
    rw [diagonal_transpose, diagonal_mul_diagonal]
    congr 1
    funext i
    fin_cases i <;> simp
  pos := fun _ => one_pos
  pd := by
    rw [demo_M]
    exact PosDef.diagonal fun i => by fin_cases i <;> simp
  inv := by
    rw [demo_M]
    show (diagonal ![1 / √2, 1])ᵀ * diagonal ![1 / √2, 1] * diagonal ![2, 1] = 1
    rw [diagonal_transpose, diagonal_mul_diagonal, diagonal_mul_diagonal, ← diagonal_one]
    congr 1
    funext i
    have h2 : (√2 : ℝ)⁻¹ * (√2)⁻¹ * 2 = 1 := by
      rw [← mul_inv, Real.mul_self_sqrt (by norm_num)]
      norm_num
    fin_cases i
    · simpa using h2
    · simp
  ginv := by simp [demo]
  rank := fun j _ => by
    refine ⟨?_, fun k hk => absurd (Subsingleton.elim k j) hk⟩
    show 1 = (diagonal ![(1 : ℝ), 0]).rank
    rw [rank_diagonal]
    have : Fintype.card {i : Fin 2 // ![(1 : ℝ), 0] i ≠ 0} = 1 := by
      rw [Fintype.card_eq_one_iff]
      refine ⟨⟨0, by simp⟩, fun ⟨i, hi⟩ => ?_⟩
      fin_cases i
      · rfl
      · simp at hi
    simpa using this.symm

theorem demo_coef : coef demo = ![1 / 2, 5] := by
  have hi : (diagonal ![(2 : ℝ), 1])⁻¹ = diagonal ![1 / 2, 1] := by
    refine inv_eq_left_inv ?_
    rw [diagonal_mul_diagonal, ← diagonal_one]
    congr 1
    funext i
    fin_cases i <;> simp
  rw [demo_ok.coef_eq, demo_M, hi]
  funext i
  rw [mulVec_diagonal]
  fin_cases i <;> simp [demo, mulVec, dotProduct, Fin.sum_univ_four]

theorem demo_bps (j : Fin 1) : bps demo j = 1 / 2 := by
  have hi : (diagonal ![(2 : ℝ), 1])⁻¹ = diagonal ![1 / 2, 1] := by
    refine inv_eq_left_inv ?_
    rw [diagonal_mul_diagonal, ← diagonal_one]
    congr 1
    funext i
    fin_cases i <;> simp
  rw [demo_ok.bps_eq, demo_M, hi]
  show (diagonal ![(1 : ℝ) / 2, 1] * diagonal ![1, 0]).trace = _
  rw [diagonal_mul_diagonal, trace_diagonal, Fin.sum_univ_two]
  simp

theorem demo_scale : scale demo = 1 / 2 := by
  unfold scale Scale.scaleA Scale.estScale Scale.totalEdf edf
  rw [demo_coef]
  simp only [demo_bps]
  simp [demo, mulVec, dotProduct, Fin.sum_univ_four]
  norm_num

theorem demo_bsb (j : Fin 1) : bsb demo j = 1 / 4 := by
  unfold bsb
  rw [demo_coef]
  show ![(1 : ℝ) / 2, 5] ⬝ᵥ (diagonal ![1, 0] *ᵥ ![1 / 2, 5]) = _
  simp [dotProduct, Fin.sum_univ_two, mulVec_diagonal]
  norm_num

theorem demo_step (j : Fin 1) : step demo j = 0 := by
  refine stationary_fixed (by rw [demo_scale]; norm_num) ⟨by show (1 : ℝ) / 10 ^ 7 ≤ 1; norm_num, by show (1 : ℝ) ≤ 10 ^ 7; norm_num⟩
    (by rw [demo_bsb]; norm_num) ?_
  unfold grad Lam.gradLam
  rw [demo_bsb, demo_bps, demo_scale]
  have : lgdetD demo j = 1 := by simp [lgdetD, demo]
  rw [this]
  norm_num

/-- The hypotheses of `fixed_stationary` are met: smoothing parameter one, scale one half. -/
example : HasDerivAt (fun f : ℝ => restricted demo.X demo.y (penal demo.S demo.lam) f) 0 (1 / 2) := by
  have := (fixed_stationary demo_ok rfl (by rw [demo_scale]; norm_num)
    (fun _ => ⟨by show (1 : ℝ) / 10 ^ 7 < 1; norm_num, by show (1 : ℝ) < 10 ^ 7; norm_num⟩) demo_step).2.1
  rwa [demo_scale] at this

/-- Two penalties on the same coefficient, with the pseudo-inverse of their sum. -/
noncomputable def demo2 (a : ℝ) : In 2 1 2 where
  X := !![1; 0]
  y := ![a, 1]
  S := fun _ => diagonal fun _ => 1
  D := fun _ => diagonal fun _ => 1
  lam := fun _ => 1
  useRank := fun _ => false
  rank := fun _ => 1
  pinv := diagonal fun _ => 1 / 2
  Linv := diagonal fun _ => 1 / √3
  known := some 1

theorem demo2_M (a : ℝ) : (demo2 a).Xᵀ * (demo2 a).X + penal (demo2 a).S (demo2 a).lam = diagonal fun _ => 3 := by
  unfold penal
  ext i j
  fin_cases i
  fin_cases j
  simp [demo2, Matrix.mul_apply, Fin.sum_univ_two, Matrix.ofNat_apply]
  norm_num

theorem demo2_ok (a : ℝ) : Ok (demo2 a) where
  root := fun j => by simp [demo2]
  pos := fun _ => one_pos
  pd := by
    rw [demo2_M]
    exact PosDef.diagonal fun _ => by norm_num
  inv := by
    rw [demo2_M]
    show (diagonal fun _ => 1 / √3)ᵀ * (diagonal fun _ => 1 / √3) * (diagonal fun _ => 3) = (1 : Matrix (Fin 1) (Fin 1) ℝ)
    rw [diagonal_transpose, diagonal_mul_diagonal, diagonal_mul_diagonal, ← diagonal_one]
    congr 1
    funext _
    have h2 : (√3 : ℝ)⁻¹ * (√3)⁻¹ * 3 = 1 := by
      rw [← mul_inv, Real.mul_self_sqrt (by norm_num)]
      norm_num
    simpa using h2
  ginv := by
    ext i j
    fin_cases i
    fin_cases j
    simp [demo2, Matrix.mul_apply, Matrix.ofNat_apply]
  rank := fun j hj => by simp [demo2] at hj

/-- The response 1, scale 1, smoothing parameters 1 and 1: the gradient is `1/4 - 1/6 - 1/18`. -/
example : HasDerivAt (fun l : ℝ => restricted (demo2 1).X (demo2 1).y (penal (demo2 1).S (Function.update (demo2 1).lam 0 l)) 1) (1 / 36) 1 := by
  have hs : scale (demo2 1) = 1 := rfl
  have h := gradient_at (demo2_ok 1) (by rw [hs]; exact one_pos) 0
  rw [hs] at h
  refine h.congr_deriv ?_
  have hi : (diagonal fun _ : Fin 1 => (3 : ℝ))⁻¹ = diagonal fun _ => 1 / 3 := by
    refine inv_eq_left_inv ?_
    rw [diagonal_mul_diagonal, ← diagonal_one]
    congr 1
    funext i
    norm_num
  have hc : coef (demo2 1) = fun _ => 1 / 3 := by
    rw [(demo2_ok 1).coef_eq, demo2_M, hi]
    funext i
    rw [mulVec_diagonal]
    fin_cases i
    simp [demo2, mulVec, dotProduct, Fin.sum_univ_two]
  have hb : bps (demo2 1) 0 = 1 / 3 := by
    rw [(demo2_ok 1).bps_eq, demo2_M, hi]
    show ((diagonal fun _ : Fin 1 => (1 : ℝ) / 3) * diagonal fun _ => 1).trace = _
    rw [diagonal_mul_diagonal, trace_diagonal]
    simp
  unfold grad Lam.gradLam
  have hl : lgdetD (demo2 1) 0 = 1 / 2 := by
    simp [lgdetD, demo2, Matrix.trace]
  have hq : bsb (demo2 1) 0 = 1 / 9 := by
    unfold bsb
    rw [hc]
    simp [demo2, dotProduct]
    norm_num
  rw [hl, hb, hq, hs]
  norm_num

theorem demoT : toM 3 (ReparaAsm.total ReparaAsm.Term.S (ReparaAsm.groupsOf 0 0 [⟨1, [exTerm 1]⟩])) = diagonal ![0, 4, 0] := by
  ext i j
  unfold toM
  rw [ReparaAsm.total_eq]
  fin_cases i <;> fin_cases j <;>
    norm_num [ReparaAsm.mPieces, ReparaAsm.fPieces, ReparaAsm.tsPieces, ReparaAsm.tPieces, ReparaAsm.seq, ReparaAsm.blk, ReparaAsm.lift,
      ReparaAsm.Piece.sz, exTerm, ReparaAsm.zero, Matrix.diagonal]

theorem demoM : (1 : Matrix (Fin 3) (Fin 3) ℝ)ᵀ * 1 + diagonal ![0, 4, 0] = diagonal ![1, 5, 1] := by
  rw [transpose_one, Matrix.one_mul, ← diagonal_one, diagonal_add]
  congr 1
  funext i
  fin_cases i <;> norm_num

theorem demoPen : hPen 1 ((1 : ℝ)⁻¹ • ((1 : Matrix (Fin 3) (Fin 3) ℝ)ᵀ * 1)) (ReparaAsm.groupsOf 0 0 [⟨1, [exTerm 1]⟩]) id
    = diagonal ![1, 5, 1] := by
  have : toM 3 (Reml.over 1 (ReparaAsm.total ReparaAsm.Term.S (ReparaAsm.groupsOf 0 0 [⟨1, [exTerm 1]⟩]))) = diagonal ![0, 4, 0] := by
    rw [← demoT]
    ext i j
    show _ / (1 : ℝ) = _
    rw [div_one]
    rfl
  unfold hPen
  rw [this, submatrix_id_id, inv_one, one_smul, demoM]

/-- The hypotheses of `reml_is_integral` are met: three observations with mean `β`, the second coefficient is penalised. -/
example : reml exLib (fun _ => 1) (∑ i, Real.log (gaussianPDFReal (((1 : Matrix (Fin 3) (Fin 3) ℝ) *ᵥ fun _ => 1) i) (1 : ℝ).toNNReal (![1, 5, 1] i))) 1
      ((1 : ℝ)⁻¹ • ((1 : Matrix (Fin 3) (Fin 3) ℝ)ᵀ * 1)) (fun _ => 1) (ReparaAsm.groupsOf 0 0 [⟨1, [exTerm 1]⟩]) id
    = some (restricted (1 : Matrix (Fin 3) (Fin 3) ℝ) ![1, 5, 1] (diagonal ![0, 4, 0]) 1) := by
  have hd : ∀ i j : Fin 3, i ≠ j → (Matrix.diagonal ![1, 5, 1] : Matrix (Fin 3) (Fin 3) ℝ) i j = 0 :=
    fun i j h => Matrix.diagonal_apply_ne _ h
  have hp : ∀ i : Fin 3, 0 < (Matrix.diagonal ![1, 5, 1] : Matrix (Fin 3) (Fin 3) ℝ) i i := by
    intro i; fin_cases i <;> norm_num
  have hpre := precond_diag _ hd hp
  have hps : (diagonal ![0, 4, 0] : Matrix (Fin 3) (Fin 3) ℝ).PosSemidef := PosSemidef.diagonal fun i => by fin_cases i <;> norm_num
  have hpd : (diagonal ![1, 5, 1] : Matrix (Fin 3) (Fin 3) ℝ).PosDef := PosDef.diagonal fun i => by fin_cases i <;> norm_num
  have hnorm : (diagonal ![1, 5, 1] : Matrix (Fin 3) (Fin 3) ℝ) *ᵥ (fun _ => (1 : ℝ)) = (1 : Matrix (Fin 3) (Fin 3) ℝ)ᵀ *ᵥ ![1, 5, 1] := by
    funext i
    rw [mulVec_diagonal, transpose_one, one_mulVec, mul_one]
  rw [← demoT]
  refine reml_is_integral (N := 3) ⟨1, [exTerm 1]⟩ (by simp) (exOK 1) (fun _ => 1) (fun t ht => ?_) (fun t ht => ?_) one_pos exLib (fun t ht => ?_)
    (1 : Matrix (Fin 3) (Fin 3) ℝ) ![1, 5, 1] (fun _ => 1) ?_ ?_ ?_
    (Matrix.diagonal fun i => Real.sqrt ((precond (Matrix.diagonal ![1, 5, 1] : Matrix (Fin 3) (Fin 3) ℝ)) i i)) 1 ?_ ?_
  · rw [List.mem_singleton] at ht
    subst ht
    exact exTerm_rank 1
  · rw [List.mem_singleton] at ht
    subst ht
    rfl
  · rw [List.mem_singleton] at ht
    subst ht
    refine ⟨_, rfl, ?_⟩
    have h := precond_diag (toM 1 (Reml.over 1 (exTerm 1).R)) (fun i j h => absurd (Subsingleton.elim i j) h)
      (fun i => by rw [Subsingleton.elim i 0]; norm_num [toM, Reml.over, exTerm])
    exact exChol _ h.1 h.2
  · erw [demoT]
    exact hps
  · erw [demoT, demoM]
    exact hpd
  · erw [demoT, demoM]
    exact hnorm
  · erw [demoPen]
    rfl
  · erw [demoPen]
    exact exChol _ hpre.1 hpre.2

end Verif.Rl
