import Mathlib.Analysis.Calculus.MeanValue
import Mathlib.Analysis.Calculus.Deriv.Pow
import Mathlib.Data.Matrix.Mul
import Mathlib.Topology.Instances.Matrix
import Mathlib.Analysis.Normed.Module.FiniteDimension

/-!
# Newton steps close to a maximum

Used for C148 and C152; no model definitions.
-/

namespace Verif.NQ
open Matrix Filter Topology

variable {p : ℕ} {F : (Fin p → ℝ) → ℝ} {g : (Fin p → ℝ) → Fin p → ℝ} {A : (Fin p → ℝ) → Matrix (Fin p) (Fin p) ℝ} {T : (Fin p → ℝ) → Fin p → ℝ}

/-- `g` is the gradient of `F`, `A` minus its Hessian, continuous and positive definite, `T` the Newton step. -/
structure Loc (F : (Fin p → ℝ) → ℝ) (g : (Fin p → ℝ) → Fin p → ℝ) (A : (Fin p → ℝ) → Matrix (Fin p) (Fin p) ℝ) (T : (Fin p → ℝ) → Fin p → ℝ) : Prop where
  lineF : ∀ c v s, HasDerivAt (fun s : ℝ => F (c + s • v)) (g (c + s • v) ⬝ᵥ v) s
  lineG : ∀ c v s, HasDerivAt (fun s : ℝ => g (c + s • v)) (-(A (c + s • v) *ᵥ v)) s
  cont : ∀ c, ContinuousAt A c
  pd : ∀ c v, v ≠ 0 → 0 < v ⬝ᵥ A c *ᵥ v
  newton : ∀ c, A c *ᵥ (T c - c) = g c

theorem dot_le (a b : Fin p → ℝ) : |a ⬝ᵥ b| ≤ p * (‖a‖ * ‖b‖) := by
  refine (Finset.abs_sum_le_sum_abs _ _).trans ?_
  have h : ∀ i ∈ Finset.univ, |a i * b i| ≤ ‖a‖ * ‖b‖ := fun i _ => by
    rw [abs_mul]
    exact mul_le_mul (norm_le_pi_norm a i) (norm_le_pi_norm b i) (abs_nonneg _) (norm_nonneg _)
  refine (Finset.sum_le_sum h).trans (le_of_eq ?_)
  simp

/-- Hessians of neighbouring coefficients are close. -/
theorem nh_close (h : Loc F g A T) (e : Fin p → ℝ) {ε : ℝ} (hε : 0 < ε) :
    ∃ δ > 0, ∀ c, ‖c - e‖ < δ → ∀ v, ‖A c *ᵥ v - A e *ᵥ v‖ ≤ ε * ‖v‖ := by
  have hc : ∀ i j, ∀ᶠ c in 𝓝 e, |A c i j - A e i j| < ε / (p + 1) := fun i j => by
    have h1 : ContinuousAt (fun c => A c i j) e := by
      exact continuousAt_pi.1 (continuousAt_pi.1 (h.cont e) i) j
    have := Metric.continuousAt_iff'.1 h1 (ε / (p + 1)) (by positivity)
    filter_upwards [this] with c hc
    rwa [Real.dist_eq] at hc
  have hc' : ∀ᶠ c in 𝓝 e, ∀ i j, |A c i j - A e i j| < ε / (p + 1) := by
    rw [eventually_all]
    intro i
    rw [eventually_all]
    exact hc i
  obtain ⟨δ, hδ, hb⟩ := Metric.eventually_nhds_iff.1 hc'
  refine ⟨δ, hδ, fun c hcd v => ?_⟩
  rw [← dist_eq_norm] at hcd
  have hk := hb hcd
  rw [← sub_mulVec]
  refine (pi_norm_le_iff_of_nonneg (by positivity)).2 fun i => ?_
  rw [Real.norm_eq_abs]
  refine (Finset.abs_sum_le_sum_abs (fun j => (A c - A e) i j * v j) Finset.univ).trans ?_
  have h1 : ∀ j ∈ Finset.univ, |(A c - A e) i j * v j| ≤ ε / (p + 1) * ‖v‖ := fun j _ => by
    rw [abs_mul]
    exact mul_le_mul (hk i j).le (norm_le_pi_norm v j) (abs_nonneg _) (by positivity)
  refine (Finset.sum_le_sum h1).trans ?_
  simp only [Finset.sum_const, Finset.card_univ, Fintype.card_fin, nsmul_eq_mul]
  have h2 : (p : ℝ) * (ε / (p + 1)) ≤ ε := by
    rw [← mul_div_assoc, div_le_iff₀ (by positivity)]
    nlinarith
  have := mul_le_mul_of_nonneg_right h2 (norm_nonneg v)
  linarith

/-- Smallest and largest curvature at the estimate. -/
theorem curvature (h : Loc F g A T) (e : Fin p → ℝ) : ∃ m M : ℝ, 0 < m ∧ m ≤ M ∧ ∀ v, m * ‖v‖ ^ 2 ≤ v ⬝ᵥ A e *ᵥ v ∧ v ⬝ᵥ A e *ᵥ v ≤ M * ‖v‖ ^ 2 := by
  have hcont : Continuous fun v : Fin p → ℝ => v ⬝ᵥ A e *ᵥ v := by
    simp only [dotProduct, mulVec]
    fun_prop
  rcases (Metric.sphere (0 : Fin p → ℝ) 1).eq_empty_or_nonempty with h0 | h0
  · refine ⟨1, 1, one_pos, le_rfl, fun v => ?_⟩
    have : v = 0 := by
      by_contra hv
      have hv0 := norm_pos_iff.2 hv
      have : ‖v‖⁻¹ • v ∈ Metric.sphere (0 : Fin p → ℝ) 1 := by
        rw [mem_sphere_zero_iff_norm, norm_smul, norm_inv, norm_norm, inv_mul_cancel₀ hv0.ne']
      rw [h0] at this
      exact this
    rw [this]
    simp
  · obtain ⟨a, ha, hmin⟩ := (isCompact_sphere (0 : Fin p → ℝ) 1).exists_isMinOn h0 hcont.continuousOn
    obtain ⟨b, hb, hmax⟩ := (isCompact_sphere (0 : Fin p → ℝ) 1).exists_isMaxOn h0 hcont.continuousOn
    refine ⟨a ⬝ᵥ A e *ᵥ a, b ⬝ᵥ A e *ᵥ b, h.pd e a fun h1 => ?_, hmin hb, fun v => ?_⟩
    · rw [h1] at ha
      simp at ha
    · by_cases hv : v = 0
      · rw [hv]
        simp
      have hv0 := norm_pos_iff.2 hv
      have hs : ‖v‖⁻¹ • v ∈ Metric.sphere (0 : Fin p → ℝ) 1 := by
        rw [mem_sphere_zero_iff_norm, norm_smul, norm_inv, norm_norm, inv_mul_cancel₀ hv0.ne']
      have e1 : v ⬝ᵥ A e *ᵥ v = ‖v‖ ^ 2 * ((‖v‖⁻¹ • v) ⬝ᵥ A e *ᵥ (‖v‖⁻¹ • v)) := by
        rw [mulVec_smul, dotProduct_smul, smul_dotProduct, smul_eq_mul, smul_eq_mul]
        field_simp
      have h1 : a ⬝ᵥ A e *ᵥ a ≤ (‖v‖⁻¹ • v) ⬝ᵥ A e *ᵥ (‖v‖⁻¹ • v) := hmin hs
      have h2 : (‖v‖⁻¹ • v) ⬝ᵥ A e *ᵥ (‖v‖⁻¹ • v) ≤ b ⬝ᵥ A e *ᵥ b := hmax hs
      rw [e1]
      have := sq_nonneg ‖v‖
      constructor <;> nlinarith

/-- First order expansion of the penalised gradient at the estimate. -/
theorem pg_close (h : Loc F g A T) {e : Fin p → ℝ} (he : g e = 0) {ε δ : ℝ}
    (hδ : ∀ c, ‖c - e‖ < δ → ∀ v, ‖A c *ᵥ v - A e *ᵥ v‖ ≤ ε * ‖v‖) {u : Fin p → ℝ} (hu : ‖u‖ < δ) :
    ‖g (e + u) + A e *ᵥ u‖ ≤ ε * ‖u‖ := by
  have hd : ∀ s ∈ Set.Icc (0 : ℝ) 1, HasDerivWithinAt (fun s : ℝ => g (e + s • u) + s • A e *ᵥ u) (-(A (e + s • u) *ᵥ u) + A e *ᵥ u) (Set.Icc 0 1) s := fun s _ => by
    have h1 : HasDerivAt (fun s : ℝ => s • A e *ᵥ u) (A e *ᵥ u) s := by
      have := (hasDerivAt_id s).smul_const (A e *ᵥ u)
      simpa using this
    exact ((h.lineG e u s).add h1).hasDerivWithinAt
  have hb : ∀ s ∈ Set.Icc (0 : ℝ) 1, ‖-(A (e + s • u) *ᵥ u) + A e *ᵥ u‖ ≤ ε * ‖u‖ := fun s hs => by
    rw [← norm_neg, neg_add, neg_neg, ← sub_eq_add_neg]
    refine hδ _ ?_ u
    rw [add_sub_cancel_left, norm_smul, Real.norm_eq_abs, abs_of_nonneg hs.1]
    exact (mul_le_of_le_one_left (norm_nonneg _) hs.2).trans_lt hu
  have := (convex_Icc (0 : ℝ) 1).norm_image_sub_le_of_norm_hasDerivWithin_le hd hb (Set.left_mem_Icc.2 zero_le_one) (Set.right_mem_Icc.2 zero_le_one)
  simpa [he] using this

/-- Second order expansion of the penalised log-likelihood at the estimate. -/
theorem F_close (h : Loc F g A T) {e : Fin p → ℝ} (he : g e = 0) {ε δ : ℝ} (hε : 0 < ε)
    (hδ : ∀ c, ‖c - e‖ < δ → ∀ v, ‖A c *ᵥ v - A e *ᵥ v‖ ≤ ε * ‖v‖) {u : Fin p → ℝ} (hu : ‖u‖ < δ) :
    |F (e + u) - F e + 1 / 2 * (u ⬝ᵥ A e *ᵥ u)| ≤ p * ε * ‖u‖ ^ 2 := by
  have hd : ∀ s ∈ Set.Icc (0 : ℝ) 1, HasDerivWithinAt (fun s : ℝ => F (e + s • u) + 1 / 2 * s ^ 2 * (u ⬝ᵥ A e *ᵥ u))
      (g (e + s • u) ⬝ᵥ u + s * (u ⬝ᵥ A e *ᵥ u)) (Set.Icc 0 1) s := fun s _ => by
    have h1 : HasDerivAt (fun s : ℝ => 1 / 2 * s ^ 2 * (u ⬝ᵥ A e *ᵥ u)) (s * (u ⬝ᵥ A e *ᵥ u)) s := by
      have := (((hasDerivAt_id s).pow 2).const_mul (1 / 2 : ℝ)).mul_const (u ⬝ᵥ A e *ᵥ u)
      refine this.congr_deriv ?_
      simp
    exact ((h.lineF e u s).add h1).hasDerivWithinAt
  have hb : ∀ s ∈ Set.Icc (0 : ℝ) 1, ‖g (e + s • u) ⬝ᵥ u + s * (u ⬝ᵥ A e *ᵥ u)‖ ≤ p * ε * ‖u‖ ^ 2 := fun s hs => by
    have e1 : g (e + s • u) ⬝ᵥ u + s * (u ⬝ᵥ A e *ᵥ u) = (g (e + s • u) + A e *ᵥ (s • u)) ⬝ᵥ u := by
      rw [add_dotProduct, mulVec_smul, smul_dotProduct, dotProduct_comm (A e *ᵥ u), smul_eq_mul]
    have hsu : ‖s • u‖ ≤ ‖u‖ := by
      rw [norm_smul, Real.norm_eq_abs, abs_of_nonneg hs.1]
      exact mul_le_of_le_one_left (norm_nonneg _) hs.2
    rw [e1, Real.norm_eq_abs]
    refine (dot_le _ _).trans ?_
    have h1 := (pg_close h he hδ (hsu.trans_lt hu)).trans (mul_le_mul_of_nonneg_left hsu hε.le)
    have h2 := mul_le_mul_of_nonneg_left (mul_le_mul_of_nonneg_right h1 (norm_nonneg u)) (Nat.cast_nonneg (α := ℝ) p)
    refine h2.trans (le_of_eq ?_)
    ring
  have := (convex_Icc (0 : ℝ) 1).norm_image_sub_le_of_norm_hasDerivWithin_le hd hb (Set.left_mem_Icc.2 zero_le_one) (Set.right_mem_Icc.2 zero_le_one)
  rw [Real.norm_eq_abs] at this
  norm_num at this
  convert this using 2
  norm_num
  ring

theorem arith {m M t q a b fe fc fs cu cr : ℝ} (hm : 0 < m) (hM : 0 < M) (ht0 : 0 < t) (ht2 : t ≤ 1 / 4) (ht3 : M * t ≤ m) (hq : q ≤ m * t / 4)
    (hq0 : 0 ≤ q) (ha0 : 0 ≤ a) (hb0 : 0 ≤ b) (hsq : b ≤ t ^ 2 * a) (f1 : fc - fe + 1 / 2 * cu ≤ q * a) (f2 : -(q * b) ≤ fs - fe + 1 / 2 * cr)
    (c1 : m * a ≤ cu) (c2 : cr ≤ M * b) : m / 4 * a ≤ fs - fc := by
  have h2 : M * t ^ 2 ≤ m / 4 := by
    have h3 : M * t * t ≤ m * (1 / 4) := mul_le_mul ht3 ht2 ht0.le hm.le
    rw [pow_two, ← mul_assoc]
    linarith
  have k1 : M * b ≤ m / 4 * a := by
    have h4 : M * b ≤ M * (t ^ 2 * a) := mul_le_mul_of_nonneg_left hsq hM.le
    have h5 := mul_le_mul_of_nonneg_right h2 ha0
    rw [mul_assoc] at h5
    linarith
  have k2 : q ≤ m / 16 := by
    have := mul_le_mul_of_nonneg_left ht2 hm.le
    linarith
  have k3 : q * a ≤ m / 16 * a := mul_le_mul_of_nonneg_right k2 ha0
  have k4 : q * b ≤ m / 16 * a := by
    have h1 : t ^ 2 ≤ 1 := pow_le_one₀ ht0.le (by linarith)
    have h3 := mul_le_mul_of_nonneg_right h1 ha0
    exact mul_le_mul k2 (by linarith) hb0 (by positivity)
  have k5 : 0 ≤ m * a := by positivity
  linarith

theorem close {m t q U R rc re : ℝ} (hm : 0 < m) (ht0 : 0 < t) (ht2 : t ≤ 1 / 4) (hq : q ≤ m * t / 4) (hU : 0 ≤ U) (hR : 0 ≤ R)
    (h3 : -(q * R ^ 2) ≤ rc - re) (h4 : rc ≤ 2 * q * (U * R)) (h5 : m * R ^ 2 ≤ re) : R ≤ t * U := by
  by_cases hz : R = 0
  · rw [hz]
    positivity
  have hrp : 0 < R := hR.lt_of_ne (Ne.symm hz)
  have h7 : (m - q) * R * R ≤ 2 * q * U * R := by
    have : (m - q) * R * R = m * R ^ 2 - q * R ^ 2 := by ring
    rw [this]
    linarith
  have h8 := le_of_mul_le_mul_right h7 hrp
  have h9 : m * (3 / 4) ≤ m - q := by
    have := mul_le_mul_of_nonneg_left ht2 hm.le
    linarith
  have h10 : m * (3 / 4 * R) ≤ m * (t / 2 * U) := by
    have h11 := mul_le_mul_of_nonneg_right h9 hR
    have h12 : 2 * q * U ≤ m * (t / 2) * U := mul_le_mul_of_nonneg_right (by linarith) hU
    linarith
  have h11 := le_of_mul_le_mul_left h10 hm
  have : 0 ≤ t * U := by positivity
  linarith

/-- Close to the maximum a Newton step reduces the distance by any factor and increases the function by at least a multiple of its square. -/
theorem step_close (h : Loc F g A T) {e : Fin p → ℝ} (hf : T e = e) : ∃ m > 0, ∀ κ > 0,
    ∃ δ > 0, ∀ c, ‖c - e‖ < δ → ‖T c - e‖ ≤ κ * ‖c - e‖ ∧ m * ‖c - e‖ ^ 2 ≤ F (T c) - F c := by
  have he : g e = 0 := by
    have := h.newton e
    rw [hf, sub_self, mulVec_zero] at this
    exact this.symm
  obtain ⟨m, M, hm, hmM, hc⟩ := curvature h e
  have hM : 0 < M := hm.trans_le hmM
  refine ⟨m / 4, by positivity, fun κ hκ => ?_⟩
  -- the factor used
  obtain ⟨t, ht0, ht1, ht2, ht3⟩ : ∃ t : ℝ, 0 < t ∧ t ≤ κ ∧ t ≤ 1 / 4 ∧ M * t ≤ m :=
    ⟨min κ (min (1 / 4) (m / M)), lt_min hκ (lt_min (by norm_num) (div_pos hm hM)), min_le_left _ _, (min_le_right _ _).trans (min_le_left _ _), by
      have : min κ (min (1 / 4) (m / M)) ≤ m / M := (min_le_right _ _).trans (min_le_right _ _)
      rwa [le_div_iff₀ hM, mul_comm] at this⟩
  have hp1 : (0 : ℝ) < p + 1 := by positivity
  have hε : 0 < m * t / 4 / (p + 1) := by positivity
  obtain ⟨δ, hδ, hn⟩ := nh_close h e hε
  set ε := m * t / 4 / (p + 1) with hεd
  have hq : p * ε ≤ m * t / 4 := by
    rw [hεd, ← mul_div_assoc, div_le_iff₀ hp1]
    have : 0 < m * t / 4 := by positivity
    nlinarith
  have hq0 : 0 ≤ p * ε := by positivity
  refine ⟨δ, hδ, fun c hcd => ?_⟩
  have ec : c = e + (c - e) := by rw [add_sub_cancel]
  have es : T c = e + (T c - e) := by rw [add_sub_cancel]
  set u := c - e with hu
  set r := T c - e with hr
  have hA : A c *ᵥ r = (g (e + u) + A e *ᵥ u) + (A c *ᵥ u - A e *ᵥ u) := by
    have h1 : A c *ᵥ (T c - c) = g c := h.newton c
    have h2 : r = (T c - c) + u := by rw [hr, hu]; abel
    rw [h2, mulVec_add, h1, ← ec]
    abel
  have hAn : ‖A c *ᵥ r‖ ≤ 2 * ε * ‖u‖ := by
    rw [hA]
    refine (norm_add_le _ _).trans ?_
    have h1 := pg_close h he hn hcd
    have h2 := hn c hcd u
    linarith
  have h1 : |r ⬝ᵥ A c *ᵥ r| ≤ 2 * (p * ε) * (‖u‖ * ‖r‖) := by
    refine (dot_le _ _).trans ?_
    have := mul_le_mul_of_nonneg_left (mul_le_mul_of_nonneg_left hAn (norm_nonneg r)) (Nat.cast_nonneg (α := ℝ) p)
    refine this.trans (le_of_eq ?_)
    ring
  have h2 : |r ⬝ᵥ (A c *ᵥ r - A e *ᵥ r)| ≤ p * ε * ‖r‖ ^ 2 := by
    refine (dot_le _ _).trans ?_
    have := mul_le_mul_of_nonneg_left (mul_le_mul_of_nonneg_left (hn c hcd r) (norm_nonneg r)) (Nat.cast_nonneg (α := ℝ) p)
    refine this.trans (le_of_eq ?_)
    ring
  rw [dotProduct_sub] at h2
  have h3 := (abs_le.1 h2).1
  have h4 := (abs_le.1 h1).2
  have h5 := (hc r).1
  have hu0 := norm_nonneg u
  have hr0 := norm_nonneg r
  have h6 : ‖r‖ ≤ t * ‖u‖ := close hm ht0 ht2 hq hu0 hr0 h3 h4 h5
  refine ⟨h6.trans (mul_le_mul_of_nonneg_right ht1 hu0), ?_⟩
  have hrd : ‖r‖ < δ := by
    have : t * ‖u‖ ≤ 1 * ‖u‖ := mul_le_mul_of_nonneg_right (by linarith) hu0
    linarith
  have f1 := (abs_le.1 (F_close h he hε hn hcd)).2
  have f2 := (abs_le.1 (F_close h he hε hn hrd)).1
  rw [← ec] at f1
  rw [← es] at f2
  have c1 := (hc u).1
  have c2 := (hc r).2
  have hsq : ‖r‖ ^ 2 ≤ t ^ 2 * ‖u‖ ^ 2 := by
    rw [← mul_pow]
    exact pow_le_pow_left₀ hr0 h6 2
  exact arith hm hM ht0 ht2 ht3 hq hq0 (sq_nonneg _) (sq_nonneg _) hsq f1 f2 c1 c2

/-- A sequence that takes every step not lowering `F` and comes close enough to the maximum once takes all of them from then on and
converges; what `F` gains bounds the distance. -/
theorem seq_close (h : Loc F g A T) {e : Fin p → ℝ} (hf : T e = e) : ∃ δ > 0, ∃ m > 0, ∀ (b : ℕ → Fin p → ℝ) (k₀ : ℕ),
    (∀ k, F (b k) ≤ F (T (b k)) → b (k + 1) = T (b k)) → ‖b k₀ - e‖ < δ → Tendsto b atTop (𝓝 e) ∧
      (∀ k ≥ k₀, b (k + 1) = T (b k) ∧ m * ‖b k - e‖ ^ 2 ≤ F (b (k + 1)) - F (b k)) ∧ ∀ κ > 0, ∀ᶠ k in atTop, ‖b (k + 1) - e‖ ≤ κ * ‖b k - e‖ := by
  obtain ⟨m, hm, hall⟩ := step_close h hf
  obtain ⟨δ, hδ, hs⟩ := hall (1 / 2) (by norm_num)
  have le_of : ∀ {c : Fin p → ℝ}, m * ‖c - e‖ ^ 2 ≤ F (T c) - F c → F c ≤ F (T c) := fun {c} hc => by
    have : 0 ≤ m * ‖c - e‖ ^ 2 := by positivity
    linarith
  refine ⟨δ, hδ, m, hm, fun b k₀ full h0 => ?_⟩
  have hin : ∀ j, ‖b (k₀ + j) - e‖ ≤ (1 / 2) ^ j * ‖b k₀ - e‖ := by
    intro j
    induction j with
    | zero => simp
    | succ j ih =>
      have hlt : ‖b (k₀ + j) - e‖ < δ := by
        refine (ih.trans (mul_le_of_le_one_left (norm_nonneg _) ?_)).trans_lt h0
        exact pow_le_one₀ (by norm_num) (by norm_num)
      obtain ⟨a1, a2⟩ := hs _ hlt
      have := full _ (le_of a2)
      rw [show k₀ + (j + 1) = k₀ + j + 1 by ring, this]
      refine a1.trans ?_
      rw [pow_succ]
      linarith
  have hnear : ∀ k ≥ k₀, ‖b k - e‖ < δ := fun k hk => by
    obtain ⟨j, rfl⟩ := Nat.exists_eq_add_of_le hk
    refine ((hin j).trans (mul_le_of_le_one_left (norm_nonneg _) ?_)).trans_lt h0
    exact pow_le_one₀ (by norm_num) (by norm_num)
  have hfull : ∀ k ≥ k₀, b (k + 1) = T (b k) := fun k hk => full k (le_of (hs _ (hnear k hk)).2)
  have ht : Tendsto b atTop (𝓝 e) := by
    rw [← tendsto_add_atTop_iff_nat k₀, tendsto_iff_norm_sub_tendsto_zero]
    have hz : Tendsto (fun j : ℕ => (1 / 2 : ℝ) ^ j * ‖b k₀ - e‖) atTop (𝓝 0) := by
      have := (tendsto_pow_atTop_nhds_zero_of_lt_one (by norm_num) (by norm_num : (1 / 2 : ℝ) < 1)).mul_const ‖b k₀ - e‖
      rwa [zero_mul] at this
    refine squeeze_zero (fun _ => norm_nonneg _) (fun j => ?_) hz
    rw [add_comm]
    exact hin j
  refine ⟨ht, fun k hk => ⟨hfull k hk, ?_⟩, fun κ hκ => ?_⟩
  · rw [hfull k hk]
    exact (hs _ (hnear k hk)).2
  obtain ⟨δ', hδ', hs'⟩ := hall κ hκ
  have h1 := (tendsto_iff_norm_sub_tendsto_zero.1 ht).eventually (gt_mem_nhds hδ')
  filter_upwards [h1, eventually_ge_atTop k₀] with k a b
  rw [hfull k b]
  exact (hs' _ a).1

end Verif.NQ
