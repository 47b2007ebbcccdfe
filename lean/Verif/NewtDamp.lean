import Verif.NewtLevel

/-!
# Steps with another matrix than minus the Hessian, close to a maximum

Used for C148 (Gamma responses, log link); no model definitions.
-/

namespace Verif.NQ
open Matrix Filter Topology

variable {p : ℕ} {F : (Fin p → ℝ) → ℝ} {g : (Fin p → ℝ) → Fin p → ℝ} {A : (Fin p → ℝ) → Matrix (Fin p) (Fin p) ℝ} {T T' : (Fin p → ℝ) → Fin p → ℝ}
  {B : Matrix (Fin p) (Fin p) ℝ}

/-- Bounds of a positive definite quadratic form. -/
theorem form_lower {Q : Matrix (Fin p) (Fin p) ℝ} (hQ : ∀ v, v ≠ 0 → 0 < v ⬝ᵥ Q *ᵥ v) : ∃ m > 0, ∀ v, m * ‖v‖ ^ 2 ≤ v ⬝ᵥ Q *ᵥ v := by
  have hcont : Continuous fun v : Fin p → ℝ => v ⬝ᵥ Q *ᵥ v := by
    simp only [dotProduct, mulVec]
    fun_prop
  have hs : ∀ v : Fin p → ℝ, v ≠ 0 → ‖v‖⁻¹ • v ∈ Metric.sphere (0 : Fin p → ℝ) 1 := fun v hv => by
    rw [mem_sphere_zero_iff_norm, norm_smul, norm_inv, norm_norm, inv_mul_cancel₀ (norm_pos_iff.2 hv).ne']
  rcases (Metric.sphere (0 : Fin p → ℝ) 1).eq_empty_or_nonempty with h0 | h0
  · refine ⟨1, one_pos, fun v => ?_⟩
    have : v = 0 := by
      by_contra hv
      have := hs v hv
      rw [h0] at this
      exact this
    rw [this]
    simp
  · obtain ⟨a, ha, hmin⟩ := (isCompact_sphere (0 : Fin p → ℝ) 1).exists_isMinOn h0 hcont.continuousOn
    refine ⟨a ⬝ᵥ Q *ᵥ a, hQ a fun h1 => ?_, fun v => ?_⟩
    · rw [h1] at ha
      simp at ha
    · by_cases hv : v = 0
      · rw [hv]
        simp
      have hv0 := norm_pos_iff.2 hv
      have e1 : v ⬝ᵥ Q *ᵥ v = ‖v‖ ^ 2 * ((‖v‖⁻¹ • v) ⬝ᵥ Q *ᵥ (‖v‖⁻¹ • v)) := by
        rw [mulVec_smul, dotProduct_smul, smul_dotProduct, smul_eq_mul, smul_eq_mul]
        field_simp
      have h1 : a ⬝ᵥ Q *ᵥ a ≤ (‖v‖⁻¹ • v) ⬝ᵥ Q *ᵥ (‖v‖⁻¹ • v) := hmin (hs v hv)
      rw [e1]
      have := sq_nonneg ‖v‖
      nlinarith

theorem mulVec_bound (Q : Matrix (Fin p) (Fin p) ℝ) : ∃ N > 0, ∀ v, ‖Q *ᵥ v‖ ≤ N * ‖v‖ := by
  refine ⟨∑ i, ∑ j, |Q i j| + 1, by positivity, fun v => ?_⟩
  refine (pi_norm_le_iff_of_nonneg (by positivity)).2 fun i => ?_
  rw [Real.norm_eq_abs]
  refine (Finset.abs_sum_le_sum_abs (fun j => Q i j * v j) Finset.univ).trans ?_
  have h1 : ∑ j, |Q i j * v j| ≤ ∑ j, |Q i j| * ‖v‖ := Finset.sum_le_sum fun j _ => by
    rw [abs_mul]
    exact mul_le_mul_of_nonneg_left (norm_le_pi_norm v j) (abs_nonneg _)
  rw [← Finset.sum_mul] at h1
  refine h1.trans (mul_le_mul_of_nonneg_right ?_ (norm_nonneg v))
  have := Finset.single_le_sum (f := fun i => ∑ j, |Q i j|) (fun i _ => Finset.sum_nonneg fun j _ => abs_nonneg _) (Finset.mem_univ i)
  have h2 : ∑ j, |Q i j| ≤ ∑ i, ∑ j, |Q i j| := this
  linarith

theorem size_d {m N P U D form Bn p : ℝ} (hm : 0 < m) (hU : 0 ≤ U) (hD : 0 ≤ D) (hN : 0 < N) (hP : 0 < P) (hpP : p ≤ P)
    (hBn0 : 0 ≤ Bn) (hBn : Bn ≤ N * U) (h1 : m * D ^ 2 ≤ form) (h2 : form ≤ p * (D * Bn)) : D ≤ P * N / m * U := by
  by_cases hz : D = 0
  · rw [hz]
    positivity
  have hdp : 0 < D := hD.lt_of_ne (Ne.symm hz)
  have h4 : p * (D * Bn) ≤ P * (D * (N * U)) := mul_le_mul hpP (mul_le_mul_of_nonneg_left hBn hD) (by positivity) hP.le
  have h5 : m * D * D ≤ P * N * U * D := by
    have e1 : m * D * D = m * D ^ 2 := by ring
    have e2 : P * N * U * D = P * (D * (N * U)) := by ring
    rw [e1, e2]
    linarith
  have h6 := le_of_mul_le_mul_right h5 hdp
  rw [div_mul_eq_mul_div, le_div_iff₀ hm]
  linarith

theorem size_u {m N P q ε U D form a b Rn Bn p : ℝ} (hm : 0 < m) (hU : 0 ≤ U) (hD : 0 ≤ D) (hN : 0 < N) (hP : 0 < P) (hp : 0 ≤ p) (hpP : p ≤ P)
    (hpε : p * ε ≤ q) (hq : q ≤ m / 2) (hBn0 : 0 ≤ Bn) (hBn : Bn ≤ N * D) (hRn : Rn ≤ ε * U) (h1 : m * U ^ 2 ≤ form) (h2 : form = a - b)
    (h3 : a ≤ p * (U * Rn)) (h4 : -(p * (U * Bn)) ≤ b) : U ≤ 2 * P * N / m * D := by
  by_cases hz : U = 0
  · rw [hz]
    positivity
  have hup : 0 < U := hU.lt_of_ne (Ne.symm hz)
  have h7 : p * (U * Rn) ≤ q * U ^ 2 := by
    have a1 := mul_le_mul_of_nonneg_left (mul_le_mul_of_nonneg_left hRn hU) hp
    have a2 := mul_le_mul_of_nonneg_right hpε (sq_nonneg U)
    have e1 : p * (U * (ε * U)) = p * ε * U ^ 2 := by ring
    linarith
  have h8 : p * (U * Bn) ≤ P * (U * (N * D)) := mul_le_mul hpP (mul_le_mul_of_nonneg_left hBn hU) (by positivity) hP.le
  have h9 : m / 2 * U * U ≤ P * N * D * U := by
    have a1 := mul_le_mul_of_nonneg_right hq (sq_nonneg U)
    have e1 : m / 2 * U * U = m / 2 * U ^ 2 := by ring
    have e2 : P * N * D * U = P * (U * (N * D)) := by ring
    rw [e1, e2]
    linarith
  have h10 := le_of_mul_le_mul_right h9 hup
  rw [div_mul_eq_mul_div, le_div_iff₀ hm]
  linarith

theorem damp_arith {κ C L q U D R gain : ℝ} (hκ : 0 < κ) (hU : 0 ≤ U) (hC : 0 < C) (hL : 0 < L)
    (hDU : D ≤ C * U) (hUD : U ≤ L * D) (hR : 0 ≤ R) (hRU : R ≤ (1 + C) * U) (hq0 : 0 ≤ q)
    (hq : q * (C + (1 + C) ^ 2 + 1) * L ^ 2 ≤ κ / 2) (hg : κ * D ^ 2 - q * (U * D) - q * R ^ 2 - q * U ^ 2 ≤ gain) :
    κ / 2 / L ^ 2 * U ^ 2 ≤ gain := by
  have h1 : U * D ≤ C * U ^ 2 := by nlinarith
  have h2 : R ^ 2 ≤ (1 + C) ^ 2 * U ^ 2 := by
    rw [← mul_pow]
    exact pow_le_pow_left₀ hR hRU 2
  have h3 : U ^ 2 ≤ L ^ 2 * D ^ 2 := by
    rw [← mul_pow]
    exact pow_le_pow_left₀ hU hUD 2
  have h4 : q * (U * D) + q * R ^ 2 + q * U ^ 2 ≤ q * (C + (1 + C) ^ 2 + 1) * U ^ 2 := by
    have a := mul_le_mul_of_nonneg_left h1 hq0
    have b := mul_le_mul_of_nonneg_left h2 hq0
    nlinarith
  have h5 : q * (C + (1 + C) ^ 2 + 1) * U ^ 2 ≤ κ / 2 * D ^ 2 := by
    have h0 : 0 ≤ q * (C + (1 + C) ^ 2 + 1) := by positivity
    have a := mul_le_mul_of_nonneg_left h3 h0
    have b := mul_le_mul_of_nonneg_right hq (sq_nonneg D)
    nlinarith
  have h6 : κ / 2 / L ^ 2 * U ^ 2 ≤ κ / 2 * D ^ 2 := by
    rw [div_mul_eq_mul_div, div_le_iff₀ (by positivity)]
    have := mul_le_mul_of_nonneg_left h3 (show (0 : ℝ) ≤ κ / 2 by positivity)
    nlinarith
  linarith

/-- Steps with a matrix above half of minus the Hessian at the maximum increase the function by at least a multiple of the squared distance. -/
theorem damp_gain (h : Loc F g A T') {e : Fin p → ℝ} (he : g e = 0) (hsym : ∀ v w, v ⬝ᵥ A e *ᵥ w = w ⬝ᵥ A e *ᵥ v)
    (hB : ∀ v, v ≠ 0 → 0 < v ⬝ᵥ B *ᵥ v) (h2 : ∀ v, v ≠ 0 → v ⬝ᵥ A e *ᵥ v < 2 * (v ⬝ᵥ B *ᵥ v)) (hT : ∀ c, B *ᵥ (T c - c) = g c) :
    ∃ δ > 0, ∃ m > 0, ∀ c, ‖c - e‖ < δ → m * ‖c - e‖ ^ 2 ≤ F (T c) - F c := by
  obtain ⟨mA, hmA, hA⟩ := form_lower (h.pd e)
  obtain ⟨mB, hmB, hBl⟩ := form_lower hB
  obtain ⟨κ, hκ, hκl⟩ := form_lower (Q := B - (1 / 2 : ℝ) • A e) fun v hv => by
    rw [sub_mulVec, smul_mulVec, dotProduct_sub, dotProduct_smul, smul_eq_mul]
    linarith [h2 v hv]
  obtain ⟨NA, hNA, hAu⟩ := mulVec_bound (A e)
  obtain ⟨NB, hNB, hBu⟩ := mulVec_bound B
  have hp0 : (0 : ℝ) ≤ p := Nat.cast_nonneg p
  set P : ℝ := p + 1 with hP
  have hPp : 0 < P := by positivity
  have hpP : (p : ℝ) ≤ P := by rw [hP]; linarith
  set C : ℝ := P * (NA + 1) / mB with hCd
  set L : ℝ := 2 * P * NB / mA with hLd
  have hC : 0 < C := by positivity
  have hL : 0 < L := by positivity
  obtain ⟨q, hq0, hq1, hq2, hq3⟩ : ∃ q : ℝ, 0 < q ∧ q ≤ P ∧ q ≤ mA / 2 ∧ q * (C + (1 + C) ^ 2 + 1) * L ^ 2 ≤ κ / 2 := by
    refine ⟨min P (min (mA / 2) (κ / 2 / ((C + (1 + C) ^ 2 + 1) * L ^ 2))), by positivity, min_le_left _ _, (min_le_right _ _).trans (min_le_left _ _), ?_⟩
    have h3 : min P (min (mA / 2) (κ / 2 / ((C + (1 + C) ^ 2 + 1) * L ^ 2))) ≤ κ / 2 / ((C + (1 + C) ^ 2 + 1) * L ^ 2) :=
      (min_le_right _ _).trans (min_le_right _ _)
    rw [le_div_iff₀ (by positivity)] at h3
    rw [mul_assoc]
    exact h3
  have hε : 0 < q / P := by positivity
  obtain ⟨δ, hδ, hn⟩ := nh_close h e hε
  have hpε : p * (q / P) ≤ q := by
    rw [← mul_div_assoc, div_le_iff₀ hPp, mul_comm]
    exact mul_le_mul_of_nonneg_left hpP hq0.le
  have hε1 : q / P ≤ 1 := (div_le_one hPp).2 hq1
  refine ⟨δ / (1 + C), by positivity, κ / 2 / L ^ 2, by positivity, fun c hcd => ?_⟩
  rw [lt_div_iff₀ (by positivity)] at hcd
  have ec : c = e + (c - e) := by rw [add_sub_cancel]
  have es : T c = e + (T c - e) := by rw [add_sub_cancel]
  set u := c - e with hu
  set r := T c - e with hr
  set d := T c - c with hd
  have hrd : r = u + d := by rw [hr, hu, hd]; abel
  have hu0 := norm_nonneg u
  have hd0 := norm_nonneg d
  have hr0 := norm_nonneg r
  have hud : ‖u‖ < δ := (le_mul_of_one_le_right hu0 (by linarith)).trans_lt hcd
  have hg := pg_close h he hn hud
  rw [← ec, ← hT c, ← hd] at hg
  -- size of the step
  have hBn : ‖B *ᵥ d‖ ≤ (NA + 1) * ‖u‖ := by
    have h3 : B *ᵥ d = (B *ᵥ d + A e *ᵥ u) - A e *ᵥ u := by abel
    rw [h3]
    refine (norm_sub_le _ _).trans ?_
    have h4 := hAu u
    have h5 := mul_le_mul_of_nonneg_right hε1 hu0
    linarith
  have hDU : ‖d‖ ≤ C * ‖u‖ :=
    size_d hmB hu0 hd0 (by positivity) hPp hpP (norm_nonneg _) hBn (hBl d) ((le_abs_self _).trans (dot_le d (B *ᵥ d)))
  have hUD : ‖u‖ ≤ L * ‖d‖ :=
    size_u (form := u ⬝ᵥ A e *ᵥ u) (a := u ⬝ᵥ (B *ᵥ d + A e *ᵥ u)) (b := u ⬝ᵥ B *ᵥ d) hmA hu0 hd0 hNB hPp hp0 hpP hpε hq2 (norm_nonneg _) (hBu d) hg (hA u)
      (by rw [dotProduct_add]; ring) ((le_abs_self _).trans (dot_le _ _)) ((neg_le_neg (dot_le u (B *ᵥ d))).trans (neg_abs_le _))
  have hRU : ‖r‖ ≤ (1 + C) * ‖u‖ := by
    rw [hrd]
    refine (norm_add_le _ _).trans ?_
    linarith
  have hrδ : ‖r‖ < δ := by
    refine hRU.trans_lt ?_
    linarith
  -- values
  have f1 := (abs_le.1 (F_close h he hε hn hud)).2
  have f2 := (abs_le.1 (F_close h he hε hn hrδ)).1
  rw [← ec] at f1
  rw [← es] at f2
  have hexp : r ⬝ᵥ A e *ᵥ r = u ⬝ᵥ A e *ᵥ u + 2 * (d ⬝ᵥ A e *ᵥ u) + d ⬝ᵥ A e *ᵥ d := by
    rw [hrd, mulVec_add, add_dotProduct, dotProduct_add, dotProduct_add, hsym u d]
    ring
  have hcr := (abs_le.1 ((dot_le d (B *ᵥ d + A e *ᵥ u)).trans (mul_le_mul_of_nonneg_left (mul_le_mul_of_nonneg_left hg hd0) hp0))).2
  rw [dotProduct_add] at hcr
  have hcr2 : (p : ℝ) * (‖d‖ * (q / P * ‖u‖)) ≤ q * (‖u‖ * ‖d‖) := by
    have := mul_le_mul_of_nonneg_right hpε (mul_nonneg hu0 hd0)
    have e3 : (p : ℝ) * (‖d‖ * (q / P * ‖u‖)) = p * (q / P) * (‖u‖ * ‖d‖) := by ring
    rw [e3]
    exact this
  have hk := hκl d
  rw [sub_mulVec, smul_mulVec, dotProduct_sub, dotProduct_smul, smul_eq_mul] at hk
  have e1 := mul_le_mul_of_nonneg_right hpε (sq_nonneg ‖u‖)
  have e2 := mul_le_mul_of_nonneg_right hpε (sq_nonneg ‖r‖)
  refine damp_arith hκ hu0 hC hL hDU hUD hr0 hRU hq0.le hq3 ?_
  linarith

/-- A sequence that never lowers `F`, takes every full step not lowering it, and has a value close enough to the maximum once, converges. -/
theorem damp_seq (h : Loc F g A T') (hF : Continuous F) {e : Fin p → ℝ} (he : g e = 0) (hsym : ∀ v w, v ⬝ᵥ A e *ᵥ w = w ⬝ᵥ A e *ᵥ v)
    (hB : ∀ v, v ≠ 0 → 0 < v ⬝ᵥ B *ᵥ v) (h2 : ∀ v, v ≠ 0 → v ⬝ᵥ A e *ᵥ v < 2 * (v ⬝ᵥ B *ᵥ v)) (hT : ∀ c, B *ᵥ (T c - c) = g c) (hf : T' e = e) :
    ∃ η > 0, ∃ m > 0, ∀ (b : ℕ → Fin p → ℝ) (k₀ : ℕ), (∀ k, F (b k) ≤ F (T (b k)) → b (k + 1) = T (b k)) → Monotone (fun k => F (b k)) →
      F e - η < F (b k₀) → Tendsto b atTop (𝓝 e) ∧ ∀ k ≥ k₀, b (k + 1) = T (b k) ∧ m * ‖b k - e‖ ^ 2 ≤ F (b (k + 1)) - F (b k) := by
  obtain ⟨δ, hδ, m, hm, hgain⟩ := damp_gain h he hsym hB h2 hT
  obtain ⟨η, hη, hl⟩ := level h hF hf hδ
  refine ⟨η, hη, m, hm, fun b k₀ full hmono h0 => ?_⟩
  have hstep : ∀ k ≥ k₀, b (k + 1) = T (b k) ∧ m * ‖b k - e‖ ^ 2 ≤ F (b (k + 1)) - F (b k) := fun k hk => by
    have h3 := hgain _ (hl _ (h0.trans_le (hmono hk)))
    have h4 : 0 ≤ m * ‖b k - e‖ ^ 2 := by positivity
    have h5 := full k (by linarith)
    exact ⟨h5, by rw [h5]; exact h3⟩
  refine ⟨?_, hstep⟩
  have hmax : ∀ c, F c ≤ F e := fun c => by
    by_cases hc : c - e = 0
    · rw [sub_eq_zero.1 hc]
    · have := falls h hf hc (show (0 : ℝ) ≤ 0 from le_rfl) (show (0 : ℝ) ≤ 1 from zero_le_one) zero_lt_one
      have h3 : F c < F e := by simpa using this
      exact h3.le
  rcases tendsto_atTop_of_monotone hmono with hL | ⟨Lim, hL⟩
  · obtain ⟨k, hk⟩ := (hL.eventually (eventually_gt_atTop (F e))).exists
    exact absurd hk (not_lt.2 (hmax _))
  · have hdiff : Tendsto (fun k => (F (b (k + 1)) - F (b k)) / m) atTop (𝓝 0) := by
      have := (((tendsto_add_atTop_iff_nat 1).2 hL).sub hL).div_const m
      rwa [sub_self, zero_div] at this
    have hsq : Tendsto (fun k => ‖b k - e‖ ^ 2) atTop (𝓝 0) := by
      refine squeeze_zero' (Eventually.of_forall fun k => sq_nonneg _) ?_ hdiff
      filter_upwards [eventually_ge_atTop k₀] with k hk
      rw [le_div_iff₀ hm, mul_comm]
      exact (hstep k hk).2
    rw [tendsto_iff_norm_sub_tendsto_zero]
    have := (Real.continuous_sqrt.tendsto 0).comp hsq
    rw [Real.sqrt_zero] at this
    refine this.congr fun k => ?_
    exact Real.sqrt_sq (norm_nonneg _)

end Verif.NQ
