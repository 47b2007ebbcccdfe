import Verif.LapSpec

/-!
# Laplace approximation and the smoothing parameter updates of GAMMLSS and general smooth models (property C122)
-/

namespace Verif.Lap

open Matrix MeasureTheory Real Verif.Reml Verif.LogDet

variable {p K : ℕ} {x : In p K} {H : Matrix (Fin p) (Fin p) ℝ} {l : (Fin p → ℝ) → ℝ}

/-- **C122.** Half the negative quadratic forms computed for the penalties are a subgradient of the maximal penalised log-likelihood. -/
theorem subgradient {S : Fin K → Matrix (Fin p) (Fin p) ℝ} {lam lam' : Fin K → ℝ} {b b' : Fin p → ℝ} (h' : Best l S lam' b') :
    pval l S lam b - (∑ j, (lam' j - lam j) * (b ⬝ᵥ (S j *ᵥ b))) / 2 ≤ pval l S lam' b' := by
  have := h' b
  rwa [pval_change l S lam lam' b] at this

/-- **C122.** The maximal penalised log-likelihood is convex in the smoothing parameters. -/
theorem value_convex {S : Fin K → Matrix (Fin p) (Fin p) ℝ} {b : (Fin K → ℝ) → Fin p → ℝ}
    (hb : ∀ lam, (∀ j, 0 < lam j) → Best l S lam (b lam)) :
    ConvexOn ℝ {lam : Fin K → ℝ | ∀ j, 0 < lam j} fun lam => pval l S lam (b lam) := by
  have hc : Convex ℝ {lam : Fin K → ℝ | ∀ j, 0 < lam j} := by
    intro u hu v hv s t hs ht hst j
    have h1 := hu j
    have h2 := hv j
    show 0 < s * u j + t * v j
    rcases hs.eq_or_lt with rfl | hs
    · rw [zero_add] at hst
      rw [hst]
      linarith
    · exact add_pos_of_pos_of_nonneg (mul_pos hs h1) (mul_nonneg ht h2.le)
  refine ⟨hc, fun u hu v hv s t hs ht hst => ?_⟩
  have hw := hc hu hv hs ht hst
  have h1 := subgradient (lam := s • u + t • v) (b := b (s • u + t • v)) (hb u hu)
  have h2 := subgradient (lam := s • u + t • v) (b := b (s • u + t • v)) (hb v hv)
  have h3 : s * ((∑ j, (u j - (s • u + t • v) j) * (b (s • u + t • v) ⬝ᵥ (S j *ᵥ b (s • u + t • v)))) / 2)
      + t * ((∑ j, (v j - (s • u + t • v) j) * (b (s • u + t • v) ⬝ᵥ (S j *ᵥ b (s • u + t • v)))) / 2) = 0 := by
    rw [← mul_div_assoc, ← mul_div_assoc, ← add_div, Finset.mul_sum, Finset.mul_sum, ← Finset.sum_add_distrib]
    rw [Finset.sum_eq_zero, zero_div]
    intro j _
    simp only [Pi.add_apply, Pi.smul_apply, smul_eq_mul]
    have : t = 1 - s := by linarith
    subst this
    ring
  have h4 := mul_le_mul_of_nonneg_left h1 hs
  have h5 := mul_le_mul_of_nonneg_left h2 ht
  show pval l S (s • u + t • v) (b (s • u + t • v)) ≤ s * pval l S u (b u) + t * pval l S v (b v)
  have h6 : (s + t) * pval l S (s • u + t • v) (b (s • u + t • v)) = pval l S (s • u + t • v) (b (s • u + t • v)) := by rw [hst, one_mul]
  linarith

/-- **C122.** A larger smoothing parameter never increases the quadratic form of its penalty. -/
theorem bsb_antitone {S : Fin K → Matrix (Fin p) (Fin p) ℝ} {lam : Fin K → ℝ} {j : Fin K} {u : ℝ} (hu : lam j < u) {b b' : Fin p → ℝ}
    (hb : Best l S lam b) (hb' : Best l S (Function.update lam j u) b') : b' ⬝ᵥ (S j *ᵥ b') ≤ b ⬝ᵥ (S j *ᵥ b) := by
  have h1 := subgradient (lam := lam) (b := b) hb'
  have h2 := subgradient (lam := Function.update lam j u) (b := b') hb
  have hs : ∀ c : Fin p → ℝ, ∑ k, (Function.update lam j u k - lam k) * (c ⬝ᵥ (S k *ᵥ c)) = (u - lam j) * (c ⬝ᵥ (S j *ᵥ c)) := fun c => by
    rw [Finset.sum_eq_single j (fun k _ hk => by rw [Function.update_of_ne hk, sub_self, zero_mul]) (fun hj => absurd (Finset.mem_univ j) hj),
      Function.update_self]
  have hs' : ∀ c : Fin p → ℝ, ∑ k, (lam k - Function.update lam j u k) * (c ⬝ᵥ (S k *ᵥ c)) = -((u - lam j) * (c ⬝ᵥ (S j *ᵥ c))) := fun c => by
    rw [← hs c, ← Finset.sum_neg_distrib]
    exact Finset.sum_congr rfl fun k _ => by ring
  rw [hs] at h1
  rw [hs'] at h2
  have h3 : (u - lam j) * (b' ⬝ᵥ (S j *ᵥ b')) ≤ (u - lam j) * (b ⬝ᵥ (S j *ᵥ b)) := by linarith
  exact le_of_mul_le_mul_left h3 (by linarith)

/-- **C122.** If the maximisers are continuous, the subgradient is the derivative: the change of the coefficients does not contribute. -/
theorem envelope {S : Fin K → Matrix (Fin p) (Fin p) ℝ} {lam d : Fin K → ℝ} {c : ℝ → Fin p → ℝ} (hc : ContinuousAt c 0)
    (hb : ∀ᶠ t in nhds (0 : ℝ), Best l S (fun j => lam j + t * d j) (c t)) :
    HasDerivAt (fun t => pval l S (fun j => lam j + t * d j) (c t)) (-(∑ j, d j * (c 0 ⬝ᵥ (S j *ᵥ c 0))) / 2) 0 := by
  set q : (Fin p → ℝ) → ℝ := fun β => -(∑ j, d j * (β ⬝ᵥ (S j *ᵥ β))) / 2 with hq
  have hq0 : ContinuousAt (fun t => q (c t)) 0 := by
    have : Continuous q := by
      rw [hq]
      unfold dotProduct mulVec dotProduct
      fun_prop
    exact this.continuousAt.comp hc
  have hb0 : Best l S lam (c 0) := by simpa using hb.self_of_nhds
  have hsum : ∀ (t : ℝ) (β : Fin p → ℝ), ∑ j, (lam j + t * d j - lam j) * (β ⬝ᵥ (S j *ᵥ β)) = -(2 * t * q β) := fun t β => by
    rw [hq]
    have : ∑ j, (lam j + t * d j - lam j) * (β ⬝ᵥ (S j *ᵥ β)) = t * ∑ j, d j * (β ⬝ᵥ (S j *ᵥ β)) := by
      rw [Finset.mul_sum]
      exact Finset.sum_congr rfl fun j _ => by ring
    rw [this]
    ring
  have hsum' : ∀ (t : ℝ) (β : Fin p → ℝ), ∑ j, (lam j - (lam j + t * d j)) * (β ⬝ᵥ (S j *ᵥ β)) = 2 * t * q β := fun t β => by
    rw [← neg_neg (2 * t * q β), ← hsum, ← Finset.sum_neg_distrib]
    exact Finset.sum_congr rfl fun j _ => by ring
  set f : ℝ → ℝ := fun t => pval l S (fun j => lam j + t * d j) (c t) with hf
  have hf0 : f 0 = pval l S lam (c 0) := by simp [hf]
  have hlo : ∀ᶠ t in nhds (0 : ℝ), t * q (c 0) ≤ f t - f 0 := by
    filter_upwards [hb] with t ht
    have := subgradient (lam := lam) (b := c 0) ht
    rw [hsum, ← hf0] at this
    show _ ≤ pval l S (fun j => lam j + t * d j) (c t) - f 0
    linarith
  have hhi : ∀ᶠ t in nhds (0 : ℝ), f t - f 0 ≤ t * q (c t) := by
    refine Filter.Eventually.of_forall fun t => ?_
    have := subgradient (lam := fun j => lam j + t * d j) (b := c t) hb0
    rw [hsum', ← hf0] at this
    show pval l S (fun j => lam j + t * d j) (c t) - f 0 ≤ _
    linarith
  rw [hasDerivAt_iff_isLittleO, Asymptotics.isLittleO_iff]
  intro ε hε
  have hcl : ∀ᶠ t in nhds (0 : ℝ), |q (c t) - q (c 0)| < ε := by
    have := Metric.continuousAt_iff'.1 hq0 ε hε
    simpa [Real.dist_eq] using this
  filter_upwards [hlo, hhi, hcl] with t h1 h2 h3
  show ‖f t - f 0 - (t - 0) * q (c 0)‖ ≤ ε * ‖t - 0‖
  rw [sub_zero, Real.norm_eq_abs, Real.norm_eq_abs, abs_of_nonneg (by linarith)]
  have h4 : t * (q (c t) - q (c 0)) ≤ |t| * |q (c t) - q (c 0)| := by
    rw [← abs_mul]
    exact le_abs_self _
  have h5 : |t| * |q (c t) - q (c 0)| ≤ |t| * ε := mul_le_mul_of_nonneg_left h3.le (abs_nonneg t)
  rw [mul_sub] at h4
  linarith

/-- **C122.** Concave log-likelihoods whose penalised version has a single maximiser have continuous maximisers. -/
theorem best_continuous {S : Fin K → Matrix (Fin p) (Fin p) ℝ} (hS : ∀ j, (S j).PosSemidef) (hl : ConcaveOn ℝ Set.univ l)
    {lam : Fin K → ℝ} (hlam : ∀ j, 0 < lam j) (d : Fin K → ℝ) {c : ℝ → Fin p → ℝ}
    (hb : ∀ᶠ t in nhds (0 : ℝ), Best l S (fun j => lam j + t * d j) (c t))
    (hu : ∀ β, β ≠ c 0 → pval l S lam β < pval l S lam (c 0)) : ContinuousAt c 0 := by
  have hlc : Continuous l := by
    have := hl.neg.continuousOn isOpen_univ
    rw [← continuousOn_univ]
    simpa using this.neg
  have hqc : ∀ m : Fin K → ℝ, Continuous fun β : Fin p → ℝ => β ⬝ᵥ (Rl.penal S m *ᵥ β) := fun m => by
    unfold dotProduct mulVec dotProduct
    fun_prop
  have hpc : Continuous (pval l S lam) := by
    unfold pval
    exact hlc.sub ((hqc lam).div_const 2)
  rw [Metric.continuousAt_iff']
  intro ε hε
  set K0 := Metric.sphere (c 0) (ε / 2) with hK0
  have hcomp : IsCompact K0 := isCompact_sphere _ _
  -- a gap on the sphere
  obtain ⟨δ, hδ, hgap⟩ : ∃ δ : ℝ, 0 < δ ∧ ∀ β ∈ K0, pval l S lam β ≤ pval l S lam (c 0) - δ := by
    rcases K0.eq_empty_or_nonempty with he | hne
    · exact ⟨1, one_pos, fun β hβ => by rw [he] at hβ; exact absurd hβ (Set.notMem_empty β)⟩
    · obtain ⟨m, hm, hmax⟩ := hcomp.exists_isMaxOn hne hpc.continuousOn
      have hne' : m ≠ c 0 := fun e => by
        rw [e, hK0, Metric.mem_sphere, dist_self] at hm
        linarith
      exact ⟨pval l S lam (c 0) - pval l S lam m, sub_pos.2 (hu m hne'), fun β hβ => by have := hmax hβ; simp only [Set.mem_setOf_eq] at this; linarith⟩
  -- a bound of the change of the penalty
  obtain ⟨B, hB⟩ : ∃ B : ℝ, ∀ β ∈ K0, |β ⬝ᵥ (Rl.penal S d *ᵥ β)| ≤ B := by
    obtain ⟨B, hB⟩ := hcomp.exists_bound_of_continuousOn (hqc d).continuousOn
    exact ⟨B, fun β hβ => hB β hβ⟩
  set B0 := |c 0 ⬝ᵥ (Rl.penal S d *ᵥ c 0)| with hB0
  have hsmall : ∀ᶠ t : ℝ in nhds 0, |t| * (|B| + B0) < δ := by
    have hcont : Continuous fun t : ℝ => |t| * (|B| + B0) := by fun_prop
    exact hcont.continuousAt.eventually (gt_mem_nhds (by simpa using hδ))
  filter_upwards [hb, hsmall, Rl.line_pos hlam d] with t ht hts htp
  by_contra hfar
  push Not at hfar
  -- a point of the segment on the sphere
  have hd0 : 0 < dist (c t) (c 0) := lt_of_lt_of_le hε hfar
  set s := ε / 2 / dist (c t) (c 0) with hs
  have hs0 : 0 < s := by positivity
  have hs1 : s ≤ 1 := by
    rw [hs, div_le_one hd0]
    linarith
  set m := s • c t + (1 - s) • c 0 with hm
  have hmK : m ∈ K0 := by
    rw [hK0, mem_sphere_iff_norm]
    have : m - c 0 = s • (c t - c 0) := by
      rw [hm]
      module
    rw [this, norm_smul, ← dist_eq_norm, Real.norm_eq_abs, abs_of_pos hs0, hs, div_mul_cancel₀ _ hd0.ne']
  have hpd : ∀ β, pval l S (fun j => lam j + t * d j) β = pval l S lam β - t * (β ⬝ᵥ (Rl.penal S d *ᵥ β)) / 2 := fun β => by
    unfold pval
    rw [Rl.penal_line, add_mulVec, dotProduct_add, smul_mulVec, dotProduct_smul, smul_eq_mul]
    ring
  -- concavity
  have hconc : min (pval l S (fun j => lam j + t * d j) (c t)) (pval l S (fun j => lam j + t * d j) (c 0))
      ≤ pval l S (fun j => lam j + t * d j) m := by
    have h1 := hl.2 (Set.mem_univ (c t)) (Set.mem_univ (c 0)) hs0.le (sub_nonneg.2 hs1) (by ring)
    rw [← hm, smul_eq_mul, smul_eq_mul] at h1
    have hT := Rl.penal_psd hS htp
    set T := Rl.penal S (fun j => lam j + t * d j) with hTd
    have h2 : m ⬝ᵥ (T *ᵥ m) = s * (c t ⬝ᵥ (T *ᵥ c t)) + (1 - s) * (c 0 ⬝ᵥ (T *ᵥ c 0)) - s * (1 - s) * ((c t - c 0) ⬝ᵥ (T *ᵥ (c t - c 0))) := by
      have hsym : c 0 ⬝ᵥ (T *ᵥ c t) = c t ⬝ᵥ (T *ᵥ c 0) := by
        rw [dotProduct_mulVec, ← mulVec_transpose, Wps.psd_symm hT, dotProduct_comm]
      rw [hm]
      simp only [mulVec_add, mulVec_sub, mulVec_smul, add_dotProduct, sub_dotProduct, dotProduct_add, dotProduct_sub, smul_dotProduct,
        dotProduct_smul, smul_eq_mul, hsym]
      ring
    have h3 : 0 ≤ (c t - c 0) ⬝ᵥ (T *ᵥ (c t - c 0)) := by simpa using hT.dotProduct_mulVec_nonneg (c t - c 0)
    have h4 : 0 ≤ s * (1 - s) * ((c t - c 0) ⬝ᵥ (T *ᵥ (c t - c 0))) := mul_nonneg (mul_nonneg hs0.le (sub_nonneg.2 hs1)) h3
    have h5 : s * pval l S (fun j => lam j + t * d j) (c t) + (1 - s) * pval l S (fun j => lam j + t * d j) (c 0)
        ≤ pval l S (fun j => lam j + t * d j) m := by
      unfold pval
      rw [← hTd, h2]
      linarith
    have h6 := mul_le_mul_of_nonneg_left (min_le_left (pval l S (fun j => lam j + t * d j) (c t)) (pval l S (fun j => lam j + t * d j) (c 0))) hs0.le
    have h7 := mul_le_mul_of_nonneg_left (min_le_right (pval l S (fun j => lam j + t * d j) (c t)) (pval l S (fun j => lam j + t * d j) (c 0)))
      (sub_nonneg.2 hs1)
    linarith
  rw [min_eq_right (ht (c 0)), hpd, hpd] at hconc
  have h8 := hgap m hmK
  have h9 : |t * (m ⬝ᵥ (Rl.penal S d *ᵥ m))| ≤ |t| * |B| := by
    rw [abs_mul]
    exact mul_le_mul_of_nonneg_left ((hB m hmK).trans (le_abs_self B)) (abs_nonneg t)
  have h10 : |t * (c 0 ⬝ᵥ (Rl.penal S d *ᵥ c 0))| = |t| * B0 := by rw [abs_mul]
  have h11 := neg_abs_le (t * (m ⬝ᵥ (Rl.penal S d *ᵥ m)))
  have h12 := le_abs_self (t * (c 0 ⬝ᵥ (Rl.penal S d *ᵥ c 0)))
  have : |t| * (|B| + B0) = |t| * |B| + |t| * B0 := by ring
  linarith

/-- **C122.** Derivative of the Laplace approximation along any direction `d`: the computed gradient, minus half the trace of the inverse
penalised Hessian times the change `Hd` of the negative Hessian. -/
theorem total_gradient {nH : (Fin p → ℝ) → Matrix (Fin p) (Fin p) ℝ} (h : Ok x (nH x.coef)) (d : Fin K → ℝ) {c : ℝ → Fin p → ℝ}
    (hc : ContinuousAt c 0) (h0 : c 0 = x.coef) (hb : ∀ᶠ t in nhds (0 : ℝ), Best l x.S (fun j => x.lam j + t * d j) (c t))
    {Hd : Matrix (Fin p) (Fin p) ℝ} (hH : ∀ i j, HasDerivAt (fun t => nH (c t) i j) (Hd i j) 0) :
    HasDerivAt (fun t : ℝ => laplace x.gamma l nH x.S (fun j => x.lam j + t * d j) (c t))
      (∑ j, d j * grad x j - ((nH x.coef + Rl.penal x.S x.lam)⁻¹ * Hd).trace / 2) 0 := by
  obtain ⟨G, hG, hlg⟩ := h.lgdet
  set T := Rl.penal x.S x.lam with hT
  set B := Rl.penal x.S d with hB
  set M := nH x.coef + T with hM
  have hTp : T.PosSemidef := Rl.penal_psd h.psd h.pos
  have hsym : Bᵀ = B := by
    rw [hB]
    unfold Rl.penal
    rw [transpose_sum]
    exact Finset.sum_congr rfl fun j _ => by rw [transpose_smul, Wps.psd_symm (h.psd j)]
  have hkB : ∀ v, T *ᵥ v = 0 → B *ᵥ v = 0 := fun v hv => by
    have h0 := (Rl.penal_kernel h.psd h.pos v).1 hv
    rw [hB]
    unfold Rl.penal
    rw [Matrix.sum_mulVec]
    exact Finset.sum_eq_zero fun j _ => by rw [smul_mulVec, h0 j, smul_zero]
  have hker : ∀ t : ℝ, (∀ j, 0 < x.lam j + t * d j) → ∀ v, (T + t • B) *ᵥ v = 0 ↔ T *ᵥ v = 0 := fun t ht v => by
    rw [← Rl.penal_line, Rl.penal_kernel h.psd ht, Rl.penal_kernel h.psd h.pos]
  have hpos := Rl.line_pos h.pos d
  have d1 := Rl.log_pdet_line hTp hG hsym hkB (by
    filter_upwards [hpos] with t ht
    refine ⟨?_, fun v hv => (hker t ht v).1 hv⟩
    rw [← Rl.penal_line]
    exact Rl.penal_psd h.psd ht)
  have hM0 : nH (c 0) + (T + (0 : ℝ) • B) = M := by rw [h0, zero_smul, add_zero]
  have d2' : HasDerivAt (fun t : ℝ => (nH (c t) + (T + t • B)).det) _ 0 := det_curve (M := fun t : ℝ => nH (c t) + (T + t • B)) (M' := Hd + B) (fun i j => by
    have e : HasDerivAt (fun t : ℝ => T i j + t * B i j) (1 * B i j) 0 := ((hasDerivAt_id (0 : ℝ)).mul_const _).const_add _
    rw [one_mul] at e
    exact (hH i j).add e) (by rw [hM0]; exact h.pd.det_pos.ne')
  have d2 := d2'.log (by rw [hM0]; exact h.pd.det_pos.ne')
  rw [hM0, mul_div_cancel_left₀ _ h.pd.det_pos.ne'] at d2
  have d3 := (envelope hc hb).const_mul x.gamma
  have hd := ((d3.add (d1.div_const 2)).sub (d2.div_const 2)).add_const (((p : ℝ) - T.rank) / 2 * Real.log (2 * π))
  have hev : (fun t : ℝ => laplace x.gamma l nH x.S (fun j => x.lam j + t * d j) (c t)) =ᶠ[nhds 0]
      fun t : ℝ => x.gamma * pval l x.S (fun j => x.lam j + t * d j) (c t) + Real.log (pdet (T + t • B)) / 2
        - Real.log (nH (c t) + (T + t • B)).det / 2 + ((p : ℝ) - T.rank) / 2 * Real.log (2 * π) := by
    filter_upwards [hpos] with t ht
    have hp := Rl.penal_psd h.psd ht
    rw [Rl.penal_line] at hp
    unfold laplace
    rw [Rl.penal_line, Rl.rank_same hp hTp (hker t ht)]
  refine (hd.congr_of_eventuallyEq hev).congr_deriv ?_
  have e1 : (B * G).trace = ∑ j, d j * lgdetD x j := by
    rw [hB]
    unfold Rl.penal
    rw [Matrix.sum_mul, trace_sum]
    exact Finset.sum_congr rfl fun j _ => by rw [Matrix.smul_mul, trace_smul, smul_eq_mul, hlg]
  have e2 : (M⁻¹ * B).trace = ∑ j, d j * ldetHS x j := by
    rw [hB]
    unfold Rl.penal
    rw [Matrix.mul_sum, trace_sum]
    exact Finset.sum_congr rfl fun j _ => by rw [Matrix.mul_smul, trace_smul, smul_eq_mul, h.ldet_eq]
  have e3 : ∑ j, d j * grad x j = (∑ j, d j * lgdetD x j) / 2 - (∑ j, d j * ldetHS x j) / 2 - (∑ j, d j * bsb x j) / 2 := by
    rw [Finset.sum_div, Finset.sum_div, Finset.sum_div, ← Finset.sum_sub_distrib, ← Finset.sum_sub_distrib]
    refine Finset.sum_congr rfl fun j _ => ?_
    unfold grad Lam.gradLam
    ring
  have e4 : ∑ j, d j * bsb x j = (∑ j, d j * (x.coef ⬝ᵥ (x.S j *ᵥ x.coef))) * x.gamma := by
    rw [Finset.sum_mul]
    exact Finset.sum_congr rfl fun j _ => by unfold bsb; ring
  rw [Matrix.mul_add, trace_add, e1, e2, e3, e4, h0]
  ring

/-- **C122.** The computed gradient is the gradient of the Laplace approximation with the negative Hessian held fixed. -/
theorem frozen_gradient (h : Ok x H) (d : Fin K → ℝ) {c : ℝ → Fin p → ℝ} (hc : ContinuousAt c 0) (h0 : c 0 = x.coef)
    (hb : ∀ᶠ t in nhds (0 : ℝ), Best l x.S (fun j => x.lam j + t * d j) (c t)) :
    HasDerivAt (fun t : ℝ => laplace x.gamma l (fun _ => H) x.S (fun j => x.lam j + t * d j) (c t)) (∑ j, d j * grad x j) 0 := by
  have := total_gradient (nH := fun _ => H) h d hc h0 hb (Hd := 0) fun i j => hasDerivAt_const _ _
  rwa [Matrix.mul_zero, trace_zero, zero_div, sub_zero] at this

theorem sign_zero_iff (r : ℝ) : Real.sign r = 0 ↔ r = 0 := Real.sign_eq_zero_iff

/-- The small step rule changes length, not direction. -/
theorem step_zero_iff (h : Ok x H) (j : Fin K) : step x j = 0 ↔ step0 x j = 0 := by
  unfold step
  split_ifs with h1
  · dsimp only
    have hl := h.pos j
    set r := step0 x j with hr
    have hm : min (|x.lam j| * 0.001) |r| ≤ x.lam j * 0.001 := by
      rw [abs_of_pos hl]
      exact min_le_left _ _
    have hm0 : 0 ≤ min (|x.lam j| * 0.001) |r| := le_min (by positivity) (abs_nonneg _)
    have hs : -1 ≤ Real.sign r := by
      rcases Real.sign_apply_eq r with h | h | h <;> rw [h] <;> norm_num
    have hge : 0 ≤ x.lam j + Real.sign r * min (|x.lam j| * 0.001) |r| := by
      have := mul_le_mul_of_nonneg_right hs hm0
      nlinarith
    rw [if_neg (not_lt.2 hge)]
    constructor
    · intro h0
      rcases mul_eq_zero.1 h0 with h2 | h2
      · exact Real.sign_eq_zero_iff.1 h2
      · by_contra hne
        have : 0 < min (|x.lam j| * 0.001) |r| := lt_min (mul_pos (abs_pos.2 hl.ne') (by norm_num)) (abs_pos.2 hne)
        linarith
    · intro h0
      rw [h0, Real.sign_zero, zero_mul]
  · exact Iff.rfl

/-- The step is the one proposed in the model of `correct_lambda_step_gamlss` used for C30, without extension and damping. -/
theorem step_is_delta (j : Fin K) (pl : ℝ) (ts : Lam.Term) (hl : ts.lam = x.lam j) (hf : ts.frozen = x.frozen j) (m : Lam.Method) (sn : ℝ) :
    (Lam.proposeL { extend := false, control := 1, method := m, outer := 1 }
      { lgdet := lgdetD x, ldet := ldetHS x, bsb := bsb x, penLlk := pl, nan := false, ridge := false } sn j ts).delta = step x j := by
  unfold Lam.proposeL step step0
  simp [hl, hf]

/-- **C122.** A larger value of `gamma` never leads to a larger proposal. -/
theorem gamma_antitone {x x' : In p K} (h : Ok x H) (hf : x' = { x with gamma := x'.gamma }) (hg : x.gamma ≤ x'.gamma) (j : Fin K) :
    step0 x' j ≤ step0 x j := by
  have hb0 : 0 ≤ x.coef ⬝ᵥ (x.S j *ᵥ x.coef) := by simpa using (h.psd j).dotProduct_mulVec_nonneg x.coef
  have e1 : lgdetD x' j = lgdetD x j := by rw [hf]; rfl
  have e2 : ldetHS x' j = ldetHS x j := by rw [hf]; rfl
  have e3 : bsb x' j = x.coef ⬝ᵥ (x.S j *ᵥ x.coef) * x'.gamma := by rw [hf]; rfl
  have e6 : bsb x j = x.coef ⬝ᵥ (x.S j *ᵥ x.coef) * x.gamma := rfl
  have e4 : x'.frozen = x.frozen := by rw [hf]
  have e5 : x'.lam = x.lam := by rw [hf]
  have hl := h.pos j
  have hgp := h.gpos
  unfold step0
  rw [e1, e2, e3, e4, e5, e6]
  split_ifs
  · exact le_rfl
  · unfold Lam.fsStep
    dsimp only
    refine sub_le_sub_right ?_ _
    rcases hb0.eq_or_lt with hz | hz
    · rw [← hz, zero_mul, zero_mul]
    · have p1 : 0 < x.coef ⬝ᵥ (x.S j *ᵥ x.coef) * x.gamma := mul_pos hz hgp
      have p2 : x.coef ⬝ᵥ (x.S j *ᵥ x.coef) * x.gamma ≤ x.coef ⬝ᵥ (x.S j *ᵥ x.coef) * x'.gamma := mul_le_mul_of_nonneg_left hg hz.le
      rw [max_eq_right p1.le, max_eq_right (p1.le.trans p2), if_neg (not_le.2 p1), if_neg (not_le.2 (p1.trans_le p2))]
      refine min_le_min_right _ (max_le_max_right _ ?_)
      rw [one_mul, one_mul]
      exact mul_le_mul_of_nonneg_right (div_le_div_of_nonneg_left (le_max_left _ _) p1 p2) hl.le

/-- **C122.** Smoothing parameters inside the range that are neither moved nor frozen: the gradient is zero. -/
theorem grad_zero (h : Ok x H) {j : Fin K} (hf : x.frozen j = false) (h1 : 1 / 10 ^ 7 < x.lam j) (h2 : x.lam j < 10 ^ 7)
    (h0 : step x j = 0) : grad x j = 0 := by
  have h3 := (step_zero_iff h j).1 h0
  unfold step0 at h3
  rw [hf, if_neg (by simp)] at h3
  exact fs_interior h1 h2 (h.bsb_nonneg j) h3

/-- **C122.** Smoothing parameters that are no longer moved: the Laplace approximation with the Hessian held fixed is stationary, in all
directions. -/
theorem fixed_stationary (h : Ok x H) (hf : ∀ j, x.frozen j = false) (hr : ∀ j, 1 / 10 ^ 7 < x.lam j ∧ x.lam j < 10 ^ 7)
    (hst : ∀ j, step x j = 0) (d : Fin K → ℝ) {c : ℝ → Fin p → ℝ} (hc : ContinuousAt c 0) (h0 : c 0 = x.coef)
    (hb : ∀ᶠ t in nhds (0 : ℝ), Best l x.S (fun j => x.lam j + t * d j) (c t)) :
    HasDerivAt (fun t : ℝ => laplace x.gamma l (fun _ => H) x.S (fun j => x.lam j + t * d j) (c t)) 0 0 := by
  have := frozen_gradient h d hc h0 hb
  simpa only [grad_zero h (hf _) (hr _).1 (hr _).2 (hst _), mul_zero, Finset.sum_const_zero] using this

/-- **C122.** Positive semi-definite Hessians never trigger the small step rule. -/
theorem no_small_step (h : Ok x H) (hH : H.PosSemidef) (j : Fin K) : step x j = step0 x j := by
  unfold step
  rw [if_neg (not_lt.2 (sub_nonneg.2 (h.trace_le hH j)))]

/-- **C122.** Steps lead uphill for the Laplace approximation with the Hessian held fixed. -/
theorem uphill (h : Ok x H) (hr : ∀ j, Lam.InRange (x.lam j)) (hbs : ∀ j, 0 < bsb x j) (hne : ∃ j, step x j ≠ 0) {c : ℝ → Fin p → ℝ}
    (hc : ContinuousAt c 0) (h0 : c 0 = x.coef) (hb : ∀ᶠ t in nhds (0 : ℝ), Best l x.S (fun j => x.lam j + t * step x j) (c t)) :
    ∃ ε : ℝ, 0 < ε ∧ ∀ t, 0 < t → t < ε →
      laplace x.gamma l (fun _ => H) x.S x.lam x.coef < laplace x.gamma l (fun _ => H) x.S (fun j => x.lam j + t * step x j) (c t) := by
  have hd := frozen_gradient h (step x) hc h0 hb
  have hnn : ∀ j, 0 ≤ step0 x j * grad x j := fun j => by
    unfold step0
    split_ifs
    · rw [zero_mul]
    · exact Lam.fs_direction _ _ _ _ _ one_pos (hr j) (Or.inl (hbs j))
  have hstr : ∀ j, step0 x j ≠ 0 → 0 < step0 x j * grad x j := fun j hj => by
    refine lt_of_le_of_ne (hnn j) fun e => ?_
    have hg := (mul_eq_zero.1 e.symm).resolve_left hj
    refine hj ?_
    unfold step0
    split_ifs
    · rfl
    · have e : bsb x j = lgdetD x j - ldetHS x j := by
        unfold grad Lam.gradLam at hg
        linarith
      have hpos : 0 < lgdetD x j - ldetHS x j := e ▸ hbs j
      unfold Lam.fsStep
      dsimp only
      rw [max_eq_right (hbs j).le, max_eq_right hpos.le, if_neg (not_le.2 (hbs j)), e, div_self hpos.ne', one_mul, one_mul,
        max_eq_left (show Lam.lo ≤ _ from (hr j).1), min_eq_left (show _ ≤ Lam.hi from (hr j).2), sub_self]
  have hmul : ∀ j, ∃ a : ℝ, 0 ≤ a ∧ step x j = a * step0 x j := fun j => by
    unfold step
    split_ifs with h1
    · dsimp only
      split_ifs with h2
      · exact ⟨0, le_rfl, by rw [zero_mul]⟩
      · by_cases hz : step0 x j = 0
        · exact ⟨0, le_rfl, by rw [hz, Real.sign_zero, zero_mul, zero_mul]⟩
        · refine ⟨min (|x.lam j| * 0.001) |step0 x j| / |step0 x j|, by positivity, ?_⟩
          generalize min (|x.lam j| * 0.001) |step0 x j| = m
          rcases lt_or_gt_of_ne hz with h3 | h3
          · rw [Real.sign_of_neg h3, abs_of_neg h3]
            field_simp
          · rw [Real.sign_of_pos h3, abs_of_pos h3]
            field_simp
    · exact ⟨1, zero_le_one, by rw [one_mul]⟩
  have hpos : 0 < ∑ j, step x j * grad x j := by
    obtain ⟨j, hj⟩ := hne
    refine Finset.sum_pos' (fun k _ => ?_) ⟨j, Finset.mem_univ j, ?_⟩
    · obtain ⟨a, ha, e⟩ := hmul k
      rw [e, mul_assoc]
      exact mul_nonneg ha (hnn k)
    · obtain ⟨a, ha, e⟩ := hmul j
      have hj0 : step0 x j ≠ 0 := fun h3 => hj ((step_zero_iff h j).2 h3)
      have ha0 : a ≠ 0 := fun h3 => hj (by rw [e, h3, zero_mul])
      rw [e, mul_assoc]
      exact mul_pos (lt_of_le_of_ne ha ha0.symm) (hstr j hj0)
  have hsl := (hasDerivAt_iff_tendsto_slope.1 hd).eventually (lt_mem_nhds hpos)
  rw [eventually_nhdsWithin_iff, Metric.eventually_nhds_iff] at hsl
  obtain ⟨ε, hε, hball⟩ := hsl
  refine ⟨ε, hε, fun t ht hte => ?_⟩
  have h1 := hball (y := t) (by rw [Real.dist_eq, sub_zero, abs_of_pos ht]; exact hte) ht.ne'
  rw [slope_def_field, sub_zero] at h1
  have h2 := (div_pos_iff_of_pos_right ht).1 h1
  simp only [zero_mul, add_zero, h0] at h2
  exact sub_pos.1 h2

/-- Maximisers of quadratic functions. -/
theorem quad_best {S : Fin K → Matrix (Fin p) (Fin p) ℝ} {lam : Fin K → ℝ} (hM : (H + Rl.penal S lam).PosDef) {a : ℝ} {g : Fin p → ℝ}
    (hl : ∀ β, l β = a + g ⬝ᵥ β - β ⬝ᵥ (H *ᵥ β) / 2) :
    (∀ β, pval l S lam β = pval l S lam ((H + Rl.penal S lam)⁻¹ *ᵥ g)
      - (β - (H + Rl.penal S lam)⁻¹ *ᵥ g) ⬝ᵥ ((H + Rl.penal S lam) *ᵥ (β - (H + Rl.penal S lam)⁻¹ *ᵥ g)) / 2) ∧
    ∀ b, Best l S lam b ↔ b = (H + Rl.penal S lam)⁻¹ *ᵥ g := by
  set M := H + Rl.penal S lam with hMd
  have hMs : Mᵀ = M := Wps.psd_symm hM.posSemidef
  have hu : IsUnit M.det := isUnit_iff_ne_zero.2 hM.det_pos.ne'
  have hq : ∀ β, pval l S lam β = a + g ⬝ᵥ β - β ⬝ᵥ (M *ᵥ β) / 2 := fun β => by
    unfold pval
    rw [hl, hMd, add_mulVec, dotProduct_add]
    ring
  set b0 := M⁻¹ *ᵥ g with hb0
  have hg : M *ᵥ b0 = g := by rw [hb0, mulVec_mulVec, mul_nonsing_inv _ hu, one_mulVec]
  have hsq : ∀ β, pval l S lam β = pval l S lam b0 - (β - b0) ⬝ᵥ (M *ᵥ (β - b0)) / 2 := fun β => by
    rw [hq, hq]
    have e1 : b0 ⬝ᵥ (M *ᵥ β) = g ⬝ᵥ β := by
      rw [dotProduct_mulVec, ← mulVec_transpose, hMs, hg]
    have e2 : β ⬝ᵥ (M *ᵥ b0) = g ⬝ᵥ β := by rw [hg, dotProduct_comm]
    have e3 : b0 ⬝ᵥ (M *ᵥ b0) = g ⬝ᵥ b0 := by rw [hg, dotProduct_comm]
    rw [mulVec_sub, dotProduct_sub, sub_dotProduct, sub_dotProduct, e1, e2, e3]
    ring
  refine ⟨hsq, fun b => ⟨fun hb => ?_, fun hb β => ?_⟩⟩
  · by_contra hne
    have h1 := hb b0
    rw [hsq b] at h1
    have h2 := hM.dotProduct_mulVec_pos (sub_ne_zero.2 hne)
    have h3 : 0 < (b - b0) ⬝ᵥ (M *ᵥ (b - b0)) := by simpa using h2
    linarith
  · rw [hb, hsq β]
    have h3 : 0 ≤ (β - b0) ⬝ᵥ (M *ᵥ (β - b0)) := by simpa using hM.posSemidef.dotProduct_mulVec_nonneg (β - b0)
    linarith

/-- **C122.** Quadratic log-likelihoods: the Laplace approximation is the log of the integral over the coefficients. -/
theorem laplace_exact {S : Fin K → Matrix (Fin p) (Fin p) ℝ} {lam : Fin K → ℝ} (hT : (Rl.penal S lam).PosSemidef)
    (hM : (H + Rl.penal S lam).PosDef) {a : ℝ} {g : Fin p → ℝ} (hl : ∀ β, l β = a + g ⬝ᵥ β - β ⬝ᵥ (H *ᵥ β) / 2) {b : Fin p → ℝ}
    (hb : Best l S lam b) :
    Real.log (∫ β : Fin p → ℝ, Real.exp (l β) * Rl.prior (Rl.penal S lam) 1 β) = laplace 1 l (fun _ => H) S lam b := by
  obtain ⟨hsq, hbest⟩ := quad_best hM hl
  have hbb := (hbest b).1 hb
  set T := Rl.penal S lam with hTd
  set M := H + T with hMd
  have hint : ∀ β : Fin p → ℝ, Real.exp (l β) * Rl.prior T 1 β
      = (√(pdet T) / √(2 * π) ^ T.rank * Real.exp (pval l S lam b)) * Real.exp (-(1 / 2) * ((β - b) ⬝ᵥ (M *ᵥ (β - b)))) := fun β => by
    unfold Rl.prior
    rw [inv_one, one_smul]
    have e : Real.exp (l β) * Real.exp (-(β ⬝ᵥ (T *ᵥ β)) / (2 * 1))
        = Real.exp (pval l S lam b) * Real.exp (-(1 / 2) * ((β - b) ⬝ᵥ (M *ᵥ (β - b)))) := by
      rw [← Real.exp_add, ← Real.exp_add]
      congr 1
      have h1 := hsq β
      have h2 : pval l S lam β = l β - β ⬝ᵥ (T *ᵥ β) / 2 := rfl
      rw [hbb]
      linarith
    calc _ = √(pdet T) / √(2 * π) ^ T.rank * (Real.exp (l β) * Real.exp (-(β ⬝ᵥ (T *ᵥ β)) / (2 * 1))) := by ring
      _ = _ := by rw [e]; ring
  simp only [hint]
  rw [integral_const_mul, Rl.gauss_int hM b]
  have h2 : (0 : ℝ) < 2 * π := by positivity
  have hs2 : 0 < √(2 * π) := Real.sqrt_pos.2 h2
  have hp0 : 0 < pdet T := Rl.pdet_pos hT
  have hd0 := hM.det_pos
  have hsp := Real.sqrt_pos.2 hp0
  have hsd := Real.sqrt_pos.2 hd0
  unfold laplace
  rw [← hTd, ← hMd, Real.log_mul (by positivity) (by positivity), Real.log_mul (by positivity) (by positivity), Real.log_exp,
    Real.log_div (by positivity) (by positivity), Real.log_pow, Real.log_div (by positivity) (by positivity), Real.log_pow,
    Real.log_sqrt h2.le, Real.log_sqrt hp0.le, Real.log_sqrt hd0.le]
  ring

/-- **C122.** Quadratic log-likelihoods: the computed gradient is the gradient of the log of the integral over the coefficients. -/
theorem quadratic_gradient (h : Ok x H) (hg1 : x.gamma = 1) (hH : H.PosSemidef) {a : ℝ} {g : Fin p → ℝ} (hl : ∀ β, l β = a + g ⬝ᵥ β - β ⬝ᵥ (H *ᵥ β) / 2)
    (hb : Best l x.S x.lam x.coef) (d : Fin K → ℝ) :
    HasDerivAt (fun t : ℝ => Real.log (∫ β : Fin p → ℝ, Real.exp (l β) * Rl.prior (Rl.penal x.S (fun j => x.lam j + t * d j)) 1 β))
      (∑ j, d j * grad x j) 0 := by
  obtain ⟨A, hA⟩ := Wald.cov_root hH
  have hA' : H = (Aᵀ)ᵀ * Aᵀ := by rw [hA, transpose_transpose]
  set c : ℝ → Fin p → ℝ := fun t => (H + Rl.penal x.S (fun j => x.lam j + t * d j))⁻¹ *ᵥ g with hc
  have hpd : ∀ᶠ t in nhds (0 : ℝ), (H + Rl.penal x.S (fun j => x.lam j + t * d j)).PosDef ∧
      (Rl.penal x.S (fun j => x.lam j + t * d j)).PosSemidef := by
    filter_upwards [Rl.line_pos h.pos d] with t ht
    refine ⟨?_, Rl.penal_psd h.psd ht⟩
    rw [hA']
    exact Rl.pd_other h.psd h.pos ht (by rw [← hA']; exact h.pd)
  have hbest : ∀ᶠ t in nhds (0 : ℝ), Best l x.S (fun j => x.lam j + t * d j) (c t) := by
    filter_upwards [hpd] with t ht
    exact ((quad_best ht.1 hl).2 _).2 rfl
  have h0 : c 0 = x.coef := by
    rw [((quad_best h.pd hl).2 _).1 hb, hc]
    simp
  have hcont : ContinuousAt c 0 := by
    refine continuousAt_pi.2 fun i => ?_
    have : HasDerivAt (fun t : ℝ => ∑ k, (H + Rl.penal x.S x.lam + t • Rl.penal x.S d)⁻¹ i k * g k) _ 0 :=
      HasDerivAt.fun_sum fun k _ => (Wps.hasDerivAt_inv_line (H + Rl.penal x.S x.lam) (Rl.penal x.S d)
        (isUnit_iff_ne_zero.2 h.pd.det_pos.ne') i k).mul_const (g k)
    refine this.continuousAt.congr (Filter.Eventually.of_forall fun t => ?_)
    show _ = ((H + Rl.penal x.S (fun j => x.lam j + t * d j))⁻¹ *ᵥ g) i
    rw [Rl.penal_line, ← add_assoc]
    rfl
  have hfg := frozen_gradient h d hcont h0 hbest
  rw [hg1] at hfg
  refine hfg.congr_of_eventuallyEq ?_
  filter_upwards [hpd, hbest] with t ht hbt
  exact laplace_exact ht.2 ht.1 hl hbt

/-- **C122.** Quadratic log-likelihoods: when the updates no longer move the smoothing parameters, the log of the integral over the
coefficients is stationary. -/
theorem quadratic_stationary (h : Ok x H) (hg1 : x.gamma = 1) (hH : H.PosSemidef) {a : ℝ} {g : Fin p → ℝ} (hl : ∀ β, l β = a + g ⬝ᵥ β - β ⬝ᵥ (H *ᵥ β) / 2)
    (hb : Best l x.S x.lam x.coef) (hf : ∀ j, x.frozen j = false) (hr : ∀ j, 1 / 10 ^ 7 < x.lam j ∧ x.lam j < 10 ^ 7)
    (hst : ∀ j, step x j = 0) (d : Fin K → ℝ) :
    HasDerivAt (fun t : ℝ => Real.log (∫ β : Fin p → ℝ, Real.exp (l β) * Rl.prior (Rl.penal x.S (fun j => x.lam j + t * d j)) 1 β)) 0 0 := by
  have := quadratic_gradient h hg1 hH hl hb d
  simpa only [grad_zero h (hf _) (hr _).1 (hr _).2 (hst _), mul_zero, Finset.sum_const_zero] using this

/-! ## A log-likelihood that is not quadratic -/

/-- A concave log-likelihood of one coefficient. -/
noncomputable def lQ (β : Fin 1 → ℝ) : ℝ := 2 / 3 * β 0 - β 0 ^ 4 / 24

/-- Its negative Hessian. -/
noncomputable def nHQ (β : Fin 1 → ℝ) : Matrix (Fin 1) (Fin 1) ℝ := !![β 0 ^ 2 / 2]

/-- A pass with smoothing parameter 1/2; the maximiser is 1. -/
noncomputable def demo : In 1 1 where
  coef := ![1]
  S := fun _ => !![1]
  D := fun _ => !![1]
  lam := ![1 / 2]
  frozen := fun _ => false
  useRank := fun _ => true
  rank := fun _ => 1
  pinv := 0
  LV := !![1]
  gamma := 1

theorem penal_demo (m : Fin 1 → ℝ) : Rl.penal demo.S m = !![m 0] := by
  unfold Rl.penal demo
  ext i j
  fin_cases i; fin_cases j
  simp

theorem sum_demo : nHQ demo.coef + Rl.penal demo.S demo.lam = 1 := by
  rw [penal_demo]
  ext i j
  fin_cases i; fin_cases j
  simp [nHQ, demo]
  norm_num

theorem demo_ok : Ok demo (nHQ demo.coef) where
  root := fun _ => by
    ext i j
    fin_cases i; fin_cases j
    simp [demo, Matrix.mul_apply]
  pos := fun j => by
    fin_cases j
    simp [demo]
  pd := by
    rw [sum_demo]
    exact PosDef.one
  inv := by
    rw [sum_demo]
    ext i j
    fin_cases i; fin_cases j
    simp [demo, Matrix.mul_apply]
  ginv := by simp [demo]
  gpos := one_pos
  rank := fun j _ => by
    refine ⟨?_, fun k hk => absurd (Subsingleton.elim k j) hk⟩
    have : demo.S j = 1 := by
      ext i k
      fin_cases i; fin_cases k
      simp [demo]
    rw [this, rank_one]
    rfl

theorem pval_demo (m : Fin 1 → ℝ) (β : Fin 1 → ℝ) : pval lQ demo.S m β = 2 / 3 * β 0 - β 0 ^ 4 / 24 - m 0 * β 0 ^ 2 / 2 := by
  unfold pval
  rw [penal_demo]
  simp [lQ, dotProduct, mulVec]
  ring

theorem best_demo {m : Fin 1 → ℝ} (hm : 0 < m 0) {b : Fin 1 → ℝ} (hb : 2 / 3 - b 0 ^ 3 / 6 - m 0 * b 0 = 0) (β : Fin 1 → ℝ) (hne : β ≠ b) :
    pval lQ demo.S m β < pval lQ demo.S m b := by
  have h1 : β 0 - b 0 ≠ 0 := fun e => hne (funext fun i => by rw [Subsingleton.elim i 0]; linarith)
  have h2 : 0 < (β 0 - b 0) ^ 2 := by positivity
  rw [pval_demo, pval_demo]
  have e : (2 / 3 * b 0 - b 0 ^ 4 / 24 - m 0 * b 0 ^ 2 / 2) - (2 / 3 * β 0 - β 0 ^ 4 / 24 - m 0 * β 0 ^ 2 / 2)
      = (2 / 3 - b 0 ^ 3 / 6 - m 0 * b 0) * (b 0 - β 0) + m 0 / 2 * (β 0 - b 0) ^ 2
        + (β 0 - b 0) ^ 2 * (2 * b 0 ^ 2 + (b 0 + β 0) ^ 2) / 24 := by ring
  rw [hb, zero_mul, zero_add] at e
  have h3 : 0 < m 0 / 2 * (β 0 - b 0) ^ 2 := by positivity
  have h4 : 0 ≤ (β 0 - b 0) ^ 2 * (2 * b 0 ^ 2 + (b 0 + β 0) ^ 2) / 24 := by positivity
  linarith

theorem concave_demo : ConcaveOn ℝ Set.univ lQ := by
  refine ⟨convex_univ, fun u _ v _ s t hs ht hst => ?_⟩
  have h4 := (Even.convexOn_pow (n := 4) (𝕜 := ℝ) (by decide)).2 (Set.mem_univ (u 0)) (Set.mem_univ (v 0)) hs ht hst
  simp only [smul_eq_mul] at h4
  unfold lQ
  simp only [Pi.add_apply, Pi.smul_apply, smul_eq_mul]
  linarith

theorem demo_grad : grad demo 0 = 0 := by
  unfold grad lgdetD ldetHS bsb Lam.gradLam demo
  simp [dotProduct, mulVec]
  norm_num

theorem demo_step : step demo 0 = 0 := by
  unfold step step0 lgdetD ldetHS bsb Lam.fsStep Lam.hi Lam.lo demo
  simp [dotProduct, mulVec]
  norm_num

/-- **C122.** The criterion with the Hessian held fixed is not the Laplace approximation: a concave log-likelihood with a single coefficient,
coefficients that maximise the penalised log-likelihood for all smoothing parameters close to the current one, a smoothing parameter
inside the permitted range that the updates no longer move, and the Laplace approximation still has derivative 1/2. -/
theorem laplace_stationary_wrong : ∃ (l : (Fin 1 → ℝ) → ℝ) (l1 : ℝ → ℝ) (nH : (Fin 1 → ℝ) → Matrix (Fin 1) (Fin 1) ℝ) (x : In 1 1)
    (c : ℝ → Fin 1 → ℝ), ConcaveOn ℝ Set.univ l ∧ (∀ s, HasDerivAt (fun r => l ![r]) (l1 s) s) ∧
      (∀ s, HasDerivAt l1 (-nH ![s] 0 0) s) ∧ Ok x (nH x.coef) ∧ x.gamma = 1 ∧ x.frozen 0 = false ∧ 1 / 10 ^ 7 < x.lam 0 ∧ x.lam 0 < 10 ^ 7 ∧ step x 0 = 0 ∧
      ContinuousAt c 0 ∧ c 0 = x.coef ∧ (∀ᶠ t in nhds (0 : ℝ), Best l x.S (fun j => x.lam j + t * 1) (c t)) ∧
      HasDerivAt (fun t : ℝ => laplace 1 l nH x.S (fun j => x.lam j + t * 1) (c t)) (1 / 2) 0 := by
  have hex : ∀ t : ℝ, ∃ b : ℝ, |t| < 1 / 4 → 2 / 3 - b ^ 3 / 6 - (1 / 2 + t) * b = 0 := by
    intro t
    by_cases ht : |t| < 1 / 4
    · have hcon : ContinuousOn (fun b : ℝ => 2 / 3 - b ^ 3 / 6 - (1 / 2 + t) * b) (Set.Icc 0 2) := by fun_prop
      have := intermediate_value_Icc' (by norm_num : (0 : ℝ) ≤ 2) hcon
      obtain ⟨b, _, hb⟩ := this (show (0 : ℝ) ∈ _ from ⟨by
        have := (abs_lt.1 ht).1
        norm_num
        linarith, by norm_num⟩)
      exact ⟨b, fun _ => hb⟩
    · exact ⟨0, fun h => absurd h ht⟩
  choose r hr using hex
  set c : ℝ → Fin 1 → ℝ := fun t => ![r t] with hc
  have hsm : ∀ᶠ t in nhds (0 : ℝ), |t| < 1 / 4 := by
    have : Continuous fun t : ℝ => |t| := by fun_prop
    exact this.continuousAt.eventually (gt_mem_nhds (by norm_num))
  have hpos : ∀ t : ℝ, |t| < 1 / 4 → 0 < demo.lam 0 + t * 1 := fun t ht => by
    have := (abs_lt.1 ht).1
    simp [demo]
    linarith
  have hbest : ∀ᶠ t in nhds (0 : ℝ), Best lQ demo.S (fun j => demo.lam j + t * 1) (c t) := by
    filter_upwards [hsm] with t ht β
    by_cases e : β = c t
    · rw [e]
    · refine (best_demo (m := fun j => demo.lam j + t * 1) (hpos t ht) (b := c t) ?_ β e).le
      have := hr t ht
      simpa [demo, hc] using this
  have hroot : (2 : ℝ) / 3 - (![1] : Fin 1 → ℝ) 0 ^ 3 / 6 - demo.lam 0 * (![1] : Fin 1 → ℝ) 0 = 0 := by
    simp [demo]
    norm_num
  have hl0 : 0 < demo.lam 0 := by simp [demo]
  have h0 : c 0 = demo.coef := by
    by_contra hne
    have h1 := best_demo hl0 (b := ![1]) hroot (c 0) hne
    have h2 := hbest.self_of_nhds ![1]
    simp only [zero_mul, add_zero] at h2
    exact absurd h1 (not_lt.2 h2)
  have hr0 : r 0 = 1 := by
    have := congrFun h0 0
    simpa [hc, demo] using this
  have hcont : ContinuousAt c 0 := by
    refine best_continuous demo_ok.psd concave_demo demo_ok.pos (fun _ => 1) hbest ?_
    rw [h0]
    exact best_demo hl0 (b := ![1]) hroot
  have hrc : ContinuousAt r 0 := by
    have := (continuousAt_pi.1 hcont) 0
    simpa [hc] using this
  have hder : HasDerivAt r (-1) 0 := by
    rw [hasDerivAt_iff_tendsto_slope]
    have hlim : Filter.Tendsto (fun t => -(r t) / (1 + (r t - 1) / 2 + (r t - 1) ^ 2 / 6)) (nhdsWithin 0 {0}ᶜ) (nhds (-1)) := by
      have hca : ContinuousAt (fun t => -(r t) / (1 + (r t - 1) / 2 + (r t - 1) ^ 2 / 6)) 0 := by
        refine ContinuousAt.div hrc.neg (by fun_prop) ?_
        rw [hr0]
        norm_num
      have := hca.tendsto.mono_left (nhdsWithin_le_nhds (s := {0}ᶜ))
      simpa [hr0] using this
    refine hlim.congr' ?_
    filter_upwards [nhdsWithin_le_nhds hsm, self_mem_nhdsWithin] with t ht hne
    have hne' : t ≠ 0 := hne
    rw [slope_def_field, sub_zero, hr0]
    have h1 := hr t ht
    have h2 : 0 < 1 + (r t - 1) / 2 + (r t - 1) ^ 2 / 6 := by nlinarith [sq_nonneg (r t - 1 + 3 / 2)]
    rw [div_eq_div_iff h2.ne' hne']
    nlinarith
  have hHd : ∀ i j, HasDerivAt (fun t => nHQ (c t) i j) ((!![-1] : Matrix (Fin 1) (Fin 1) ℝ) i j) 0 := by
    intro i j
    fin_cases i; fin_cases j
    have := (hder.pow 2).div_const 2
    rw [hr0] at this
    simpa [nHQ, hc] using this
  refine ⟨lQ, fun s => 2 / 3 - s ^ 3 / 6, nHQ, demo, c, concave_demo, fun s => ?_, fun s => ?_, demo_ok, rfl, rfl, ?_, ?_, demo_step, hcont, h0, hbest, ?_⟩
  · have := ((hasDerivAt_id s).const_mul (2 / 3)).sub (((hasDerivAt_id s).pow 4).div_const 24)
    refine (this.congr_deriv ?_).congr_of_eventuallyEq (Filter.Eventually.of_forall fun r => ?_)
    · simp
      ring
    · simp [lQ]
  · have := (((hasDerivAt_id s).pow 3).div_const 6).const_sub (2 / 3)
    refine this.congr_deriv ?_
    simp [nHQ]
    ring
  · simp [demo]
    norm_num
  · simp [demo]
    norm_num
  · have := total_gradient (l := lQ) demo_ok (fun _ => 1) hcont h0 hbest hHd
    refine this.congr_deriv ?_
    rw [sum_demo, Finset.univ_unique, Finset.sum_singleton, show (default : Fin 1) = 0 from rfl, demo_grad, inv_one, Matrix.one_mul]
    simp [trace]
    norm_num

/-! ## Examples -/

/-- A quadratic log-likelihood. -/
noncomputable def lG (g : ℝ) (β : Fin 1 → ℝ) : ℝ := 0 + ![g] ⬝ᵥ β - β ⬝ᵥ (!![1 / 2] *ᵥ β) / 2

theorem demo_H : nHQ demo.coef = !![1 / 2] := by
  ext i j
  fin_cases i; fin_cases j
  simp [nHQ, demo]

theorem half_psd : (!![1 / 2] : Matrix (Fin 1) (Fin 1) ℝ).PosSemidef := by
  have : (!![1 / 2] : Matrix (Fin 1) (Fin 1) ℝ) = (1 / 2 : ℝ) • 1 := by
    ext i j
    fin_cases i; fin_cases j
    simp
  rw [this]
  exact PosSemidef.one.smul (by norm_num)

theorem best_lG {g m : ℝ} (hm : 0 < m) : Best (lG g) demo.S ![m] ![g / (1 / 2 + m)] := by
  intro β
  unfold pval
  rw [penal_demo]
  simp [lG, dotProduct, mulVec]
  have h : 0 < 2⁻¹ + m := by positivity
  have e : g = g / (2⁻¹ + m) * (2⁻¹ + m) := by field_simp
  generalize g / (2⁻¹ + m) = u at *
  rw [e]
  nlinarith [mul_nonneg h.le (sq_nonneg (β 0 - u))]

-- the smoothing parameter 1/2 is a stationary point of the integral
example : HasDerivAt (fun t : ℝ => Real.log (∫ β : Fin 1 → ℝ, Real.exp (lG 1 β) * Rl.prior (Rl.penal demo.S (fun j => demo.lam j + t * 1)) 1 β)) 0 0 := by
  have hb := best_lG (g := 1) (m := 1 / 2) (by norm_num)
  norm_num at hb
  refine quadratic_stationary (l := lG 1) (by have := demo_ok; rwa [demo_H] at this) rfl half_psd (fun β => rfl) ?_ (fun _ => rfl) (fun j => ?_)
    (fun j => by rw [Subsingleton.elim j 0]; exact demo_step) fun _ => 1
  · simpa [demo] using hb
  · rw [Subsingleton.elim j 0]
    simp [demo]
    norm_num

-- a larger smoothing parameter shrinks the coefficient
example : (![1 / (1 / 2 + 2)] : Fin 1 → ℝ) ⬝ᵥ (demo.S 0 *ᵥ ![1 / (1 / 2 + 2)])
    ≤ (![1 / (1 / 2 + 1 / 2)] : Fin 1 → ℝ) ⬝ᵥ (demo.S 0 *ᵥ ![1 / (1 / 2 + 1 / 2)]) := by
  refine bsb_antitone (lam := ![1 / 2]) (u := 2) (by simp; norm_num) (best_lG (g := 1) (m := 1 / 2) (by norm_num)) ?_
  have := best_lG (g := 1) (m := 2) (by norm_num)
  have e : Function.update (![1 / 2] : Fin 1 → ℝ) 0 2 = ![2] := by
    funext i
    rw [Subsingleton.elim i 0]
    simp
  rwa [e]

/-- A larger coefficient: the smoothing parameter is reduced. -/
noncomputable def demo2 : In 1 1 := { demo with coef := ![2] }

theorem demo2_step : step demo2 0 = -3 / 8 := by
  unfold step step0 lgdetD ldetHS bsb Lam.fsStep Lam.hi Lam.lo demo2 demo
  simp [dotProduct, mulVec]
  norm_num

theorem demo2_ok : Ok demo2 !![1 / 2] := by
  have h := demo_ok
  rw [demo_H] at h
  exact ⟨h.root, h.pos, h.pd, h.inv, h.ginv, h.gpos, h.rank⟩

example : ∃ ε : ℝ, 0 < ε ∧ ∀ t, 0 < t → t < ε → laplace 1 (lG 2) (fun _ => !![1 / 2]) demo2.S demo2.lam demo2.coef
    < laplace 1 (lG 2) (fun _ => !![1 / 2]) demo2.S (fun j => demo2.lam j + t * step demo2 j) ![2 / (1 / 2 + (1 / 2 + t * (-3 / 8)))] := by
  refine uphill (l := lG 2) (c := fun t => ![2 / (1 / 2 + (1 / 2 + t * (-3 / 8)))]) demo2_ok (fun j => ?_) (fun j => ?_) ⟨0, ?_⟩ ?_ ?_ ?_
  · rw [Subsingleton.elim j 0]
    unfold Lam.InRange
    simp [demo2, demo]
    norm_num
  · rw [Subsingleton.elim j 0]
    simp [bsb, demo2, demo, dotProduct, mulVec]
  · rw [demo2_step]
    norm_num
  · refine continuousAt_pi.2 fun i => ?_
    rw [Subsingleton.elim i 0]
    show ContinuousAt (fun t : ℝ => 2 / (1 / 2 + (1 / 2 + t * (-3 / 8)))) 0
    exact ContinuousAt.div (by fun_prop) (by fun_prop) (by norm_num)
  · simp [demo2]
    norm_num
  · have hsm : ∀ᶠ t in nhds (0 : ℝ), t < 1 := gt_mem_nhds one_pos
    filter_upwards [hsm] with t ht
    have := best_lG (g := 2) (m := 1 / 2 + t * (-3 / 8)) (by linarith)
    have e : (fun j => demo2.lam j + t * step demo2 j) = ![1 / 2 + t * (-3 / 8)] := by
      funext j
      rw [Subsingleton.elim j 0, demo2_step]
      simp [demo2, demo]
    rw [e]
    exact this

end Verif.Lap
