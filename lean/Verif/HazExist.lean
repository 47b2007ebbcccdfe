import Verif.LmlFam
import Mathlib.Analysis.Calculus.LocalExtr.Basic
import Mathlib.Analysis.Calculus.Deriv.MeanValue

/-!
# C149: existence of estimates of proportional hazard models

Model: `HazardModel` (`PropHaz.llk`, `gradient`, `hessian`), Newton steps `Lml.step` on `Lml.hazIn`.
-/

namespace Verif.HEx
open Verif Matrix Finset Haz Filter Topology

variable {n p nt : ℕ} {ut : ℕ → ℝ} {r delta : Fin n → ℕ} {X : Fin n → Fin p → ℝ} {S : Matrix (Fin p) (Fin p) ℝ}

/-- Direction, not penalised, in which every event happens to one of those at risk whose predictor increases most. -/
def Monotone (ut : ℕ → ℝ) (r delta : Fin n → ℕ) (X : Fin n → Fin p → ℝ) (S : Matrix (Fin p) (Fin p) ℝ) (v : Fin p → ℝ) : Prop :=
  v ≠ 0 ∧ S *ᵥ v = 0 ∧ ∀ i, delta i ≠ 0 → ∀ k, ut (r i) ≤ ut (r k) → ∑ j, X k j * v j ≤ ∑ j, X i j * v j

/-- The coefficients are identified: without penalty, every direction changes the order of risks at some event. -/
def Ident (ut : ℕ → ℝ) (r delta : Fin n → ℕ) (X : Fin n → Fin p → ℝ) (S : Matrix (Fin p) (Fin p) ℝ) : Prop :=
  ∀ v : Fin p → ℝ, S *ᵥ v = 0 → (∀ i, delta i ≠ 0 → ∀ k, ut (r i) ≤ ut (r k) → ∑ j, X k j * v j = ∑ j, X i j * v j) → v = 0

/-! ### A function bounded by one that grows in every direction has a maximum -/

theorem exists_max_of {f T : (Fin p → ℝ) → ℝ} (hf : Continuous f) (hT : Continuous T) (hle : ∀ c, f c ≤ -T c)
    (hsc : ∀ (c : Fin p → ℝ) (t : ℝ), 1 ≤ t → t * T c ≤ T (t • c)) (hpos : ∀ c, c ≠ 0 → 0 < T c) : ∃ c, ∀ c', f c' ≤ f c := by
  have hm : ∃ m : ℝ, 0 < m ∧ ∀ u ∈ Metric.sphere (0 : Fin p → ℝ) 1, m ≤ T u := by
    rcases (Metric.sphere (0 : Fin p → ℝ) 1).eq_empty_or_nonempty with h | h
    · exact ⟨1, one_pos, fun u hu => by rw [h] at hu; exact hu.elim⟩
    · obtain ⟨u, hu, hmin⟩ := (isCompact_sphere (0 : Fin p → ℝ) 1).exists_isMinOn h hT.continuousOn
      refine ⟨T u, hpos u fun h0 => ?_, fun v hv => hmin hv⟩
      rw [h0] at hu
      simp at hu
  obtain ⟨m, hm0, hm⟩ := hm
  set R := max 1 (-f 0 / m) with hR
  have hR0 : 0 ≤ R := zero_le_one.trans (le_max_left _ _)
  obtain ⟨b, hb, hmax⟩ := (isCompact_closedBall (0 : Fin p → ℝ) R).exists_isMaxOn ⟨0, by simpa using hR0⟩ hf.continuousOn
  refine ⟨b, fun b' => ?_⟩
  by_cases h : b' ∈ Metric.closedBall (0 : Fin p → ℝ) R
  · exact hmax h
  · rw [mem_closedBall_zero_iff, not_le] at h
    have hb1 : 1 ≤ ‖b'‖ := (le_max_left _ _).trans h.le
    have hb0 : 0 < ‖b'‖ := by linarith
    have hu : ‖b'‖⁻¹ • b' ∈ Metric.sphere (0 : Fin p → ℝ) 1 := by
      rw [mem_sphere_zero_iff_norm, norm_smul, norm_inv, norm_norm, inv_mul_cancel₀ hb0.ne']
    have h1 := hsc (‖b'‖⁻¹ • b') _ hb1
    rw [smul_smul, mul_inv_cancel₀ hb0.ne', one_smul] at h1
    have h2 := mul_le_mul_of_nonneg_left (hm _ hu) hb0.le
    have h3 : -f 0 / m < ‖b'‖ := (le_max_right _ _).trans_lt h
    rw [div_lt_iff₀ hm0] at h3
    have h4 : f 0 ≤ f b := hmax (by simpa using hR0)
    have := hle b'
    linarith

/-! ### Log-likelihood and derivatives event by event -/

theorem risk_iff (h : Data nt ut r) (i k : Fin n) : ut (r i) ≤ ut (r k) ↔ r k < r i + 1 := by
  rw [h.le_iff (h.r_lt i) (h.r_lt k)]
  omega

theorem sum_dj (h : Data nt ut r) (delta : Fin n → ℕ) (f : ℕ → ℝ) : ∑ j ∈ range nt, dj r delta j * f j = ∑ i, (delta i : ℝ) * f (r i) := by
  unfold dj ris
  simp only [sum_mul]
  rw [← sum_fiberwise_of_maps_to (s := univ) (t := range nt) (g := r) fun i _ => mem_range.2 (h.r_lt i)]
  refine sum_congr rfl fun j _ => sum_congr rfl fun i hi => ?_
  rw [(mem_filter.1 hi).2]

theorem llk_eq (h : Data nt ut r) (c : Fin p → ℝ) :
    llk nt r delta X c = -∑ i, (delta i : ℝ) * Real.log (∑ k with ut (r i) ≤ ut (r k), Real.exp (eta X c k - eta X c i)) := by
  unfold llk
  rw [llk2_eq, sum_dj h, ← sub_eq_add_neg, ← sum_sub_distrib, ← sum_neg_distrib]
  refine sum_congr rfl fun i _ => ?_
  have e : ∑ k with ut (r i) ≤ ut (r k), Real.exp (eta X c k - eta X c i) = gammaP r (gam X c) (r i + 1) / Real.exp (eta X c i) := by
    rw [gammaP_eq, sum_div]
    refine sum_congr ?_ fun k _ => Real.exp_sub _ _
    ext k
    simp only [mem_filter, mem_univ, true_and, risk_iff h]
  rw [e, Real.log_div (gammaP_pos h _ (gam_pos X c) _ (h.r_lt i)).ne' (Real.exp_pos _).ne', Real.log_exp]
  ring

/-- Weighted mean of the changes of those at risk. -/
noncomputable def mean (r : Fin n → ℕ) (X : Fin n → Fin p → ℝ) (c v : Fin p → ℝ) (i : Fin n) : ℝ :=
  (∑ k with r k < r i + 1, gam X c k * eta X v k) / gammaP r (gam X c) (r i + 1)

theorem grad_dot (h : Data nt ut r) (c v : Fin p → ℝ) :
    ∑ k, v k * gradient nt r delta X c k = ∑ i, (delta i : ℝ) * (eta X v i - mean r X c v i) := by
  unfold gradient
  simp only [grad2_eq, mul_add, sum_add_distrib, mul_sub]
  rw [sum_sub_distrib, sub_eq_add_neg]
  congr 1
  · simp only [eta, mul_sum]
    rw [sum_comm]
    exact sum_congr rfl fun i _ => sum_congr rfl fun k _ => by ring
  · unfold mean
    rw [← sum_dj h delta fun j => (∑ k with r k < j + 1, gam X c k * eta X v k) / gammaP r (gam X c) (j + 1)]
    simp only [mul_neg, sum_neg_distrib, mul_sum, neg_inj]
    rw [sum_comm]
    refine sum_congr rfl fun j _ => ?_
    have hb : ∑ k, v k * bp r (gam X c) X (j + 1) k = ∑ i with r i < j + 1, gam X c i * eta X v i := by
      simp only [bp_eq, mul_sum]
      rw [sum_comm]
      refine sum_congr rfl fun i _ => ?_
      unfold eta
      rw [mul_sum]
      exact sum_congr rfl fun k _ => by ring
    rw [← hb, sum_div, mul_sum]
    exact sum_congr rfl fun k _ => by ring

theorem hess_quad (h : Data nt ut r) (c v : Fin p → ℝ) : ∑ k, ∑ l, v k * hessian nt r delta X c k l * v l =
    -∑ i, (delta i : ℝ) * ((∑ k with r k < r i + 1, gam X c k * (eta X v k - mean r X c v i) ^ 2) / gammaP r (gam X c) (r i + 1)) := by
  have e0 : ∑ i, (delta i : ℝ) * ((∑ k with r k < r i + 1, gam X c k * (eta X v k - mean r X c v i) ^ 2) / gammaP r (gam X c) (r i + 1)) =
      ∑ i, (delta i : ℝ) * ((∑ k with r k < r i + 1, gam X c k * eta X v k ^ 2) / gammaP r (gam X c) (r i + 1) -
        (∑ k with r k < r i + 1, gam X c k * eta X v k) ^ 2 / gammaP r (gam X c) (r i + 1) ^ 2) := by
    refine sum_congr rfl fun i _ => ?_
    congr 1
    have hG := (gammaP_pos h _ (gam_pos X c) _ (h.r_lt i)).ne'
    unfold mean
    have hs : ∑ k with r k < r i + 1, gam X c k = gammaP r (gam X c) (r i + 1) := (gammaP_eq _ _ _).symm
    generalize gammaP r (gam X c) (r i + 1) = G at hG hs ⊢
    set B := ∑ k with r k < r i + 1, gam X c k * eta X v k with hB
    have e : ∑ k with r k < r i + 1, gam X c k * (eta X v k - B / G) ^ 2 =
        (∑ k with r k < r i + 1, gam X c k * eta X v k ^ 2) - 2 * (B / G) * B + (B / G) ^ 2 * G := by
      rw [hB, ← hs, mul_sum, mul_sum, ← sum_sub_distrib, ← sum_add_distrib]
      exact sum_congr rfl fun k _ => by ring
    rw [e]
    field_simp
    ring
  rw [e0, ← sum_dj h delta fun j => (∑ k with r k < j + 1, gam X c k * eta X v k ^ 2) / gammaP r (gam X c) (j + 1) -
        (∑ k with r k < j + 1, gam X c k * eta X v k) ^ 2 / gammaP r (gam X c) (j + 1) ^ 2, ← sum_neg_distrib]
  unfold hessian
  simp only [hess_eq, mul_sum, sum_mul]
  rw [sum_congr rfl fun k _ => sum_comm, sum_comm]
  refine sum_congr rfl fun j _ => ?_
  have hb : ∑ k, v k * bp r (gam X c) X (j + 1) k = ∑ i with r i < j + 1, gam X c i * eta X v i := by
    simp only [bp_eq, mul_sum]
    rw [sum_comm]
    refine sum_congr rfl fun i _ => ?_
    unfold eta
    rw [mul_sum]
    exact sum_congr rfl fun k _ => by ring
  have hA : ∑ k, ∑ l, v k * Ap r (gam X c) X (j + 1) k l * v l = ∑ i with r i < j + 1, gam X c i * eta X v i ^ 2 := by
    simp only [Ap_eq, mul_sum, sum_mul]
    rw [sum_congr rfl fun k _ => sum_comm, sum_comm]
    refine sum_congr rfl fun i _ => ?_
    unfold eta
    rw [sq, sum_mul_sum, mul_sum]
    refine sum_congr rfl fun k _ => ?_
    rw [mul_sum]
    exact sum_congr rfl fun l _ => by ring
  rw [← hb, ← hA, sq (∑ k, v k * bp r (gam X c) X (j + 1) k), sum_mul_sum, Finset.sum_div, Finset.sum_div, ← sum_sub_distrib, mul_sum,
    ← sum_neg_distrib]
  refine sum_congr rfl fun k _ => ?_
  rw [Finset.sum_div, Finset.sum_div, ← sum_sub_distrib, mul_sum, ← sum_neg_distrib]
  exact sum_congr rfl fun l _ => by ring

/-! ### Derivatives along a line -/

theorem psd_symm (hS : S.PosSemidef) : S.IsSymm := by
  have := hS.isHermitian
  rwa [IsHermitian, conjTranspose_eq_transpose_of_trivial] at this

theorem dot_comm (hS : S.PosSemidef) (v w : Fin p → ℝ) : v ⬝ᵥ S *ᵥ w = w ⬝ᵥ S *ᵥ v := by
  rw [dotProduct_mulVec, ← mulVec_transpose, psd_symm hS, dotProduct_comm]

/-- The negative penalised Hessian is positive definite. -/
theorem curve_neg (h : Data nt ut r) (hS : S.PosSemidef) (hi : Ident ut r delta X S) (c : Fin p → ℝ) {v : Fin p → ℝ} (hv : v ≠ 0) :
    (∑ k, ∑ l, v k * hessian nt r delta X c k l * v l) - v ⬝ᵥ S *ᵥ v < 0 := by
  have h1 := (hessian_symm_negSemidef nt ut r h delta X c).2 v
  have h2 : 0 ≤ v ⬝ᵥ S *ᵥ v := hS.dotProduct_mulVec_nonneg v
  by_contra hcon
  have e2 : v ⬝ᵥ S *ᵥ v = 0 := by linarith
  have e1 : ∑ k, ∑ l, v k * hessian nt r delta X c k l * v l = 0 := by linarith
  refine hv (hi v ((hS.dotProduct_mulVec_zero_iff v).1 e2) fun i hd k hk => ?_)
  rw [hess_quad h, neg_eq_zero] at e1
  have hn : ∀ i, 0 ≤ ∑ k with r k < r i + 1, gam X c k * (eta X v k - mean r X c v i) ^ 2 := fun i =>
    sum_nonneg fun k _ => mul_nonneg (gam_pos X c k).le (sq_nonneg _)
  have hG := fun i => gammaP_pos h _ (gam_pos X c) _ (h.r_lt i)
  have h3 := (sum_eq_zero_iff_of_nonneg fun i _ => mul_nonneg (Nat.cast_nonneg (delta i)) (div_nonneg (hn i) (hG i).le)).1 e1 i (mem_univ i)
  have h4 : ∑ k with r k < r i + 1, gam X c k * (eta X v k - mean r X c v i) ^ 2 = 0 := by
    rcases mul_eq_zero.1 h3 with h3 | h3
    · exact absurd (Nat.cast_eq_zero.1 h3) hd
    · exact (div_eq_zero_iff.1 h3).resolve_right (hG i).ne'
  have h5 : ∀ k, r k < r i + 1 → eta X v k = mean r X c v i := fun k hk => by
    have := (sum_eq_zero_iff_of_nonneg fun k _ => mul_nonneg (gam_pos X c k).le (sq_nonneg _)).1 h4 k (mem_filter.2 ⟨mem_univ k, hk⟩)
    have := (mul_eq_zero.1 this).resolve_left (gam_pos X c k).ne'
    exact sub_eq_zero.1 (pow_eq_zero_iff (two_ne_zero) |>.1 this)
  exact (h5 k ((risk_iff h i k).1 hk)).trans (h5 i (by omega)).symm

/-- Derivative of the penalised log-likelihood at `c + t v` in direction `v`. -/
noncomputable def slope (nt : ℕ) (r delta : Fin n → ℕ) (X : Fin n → Fin p → ℝ) (S : Matrix (Fin p) (Fin p) ℝ) (c v : Fin p → ℝ) (t : ℝ) : ℝ :=
  (∑ k, v k * gradient nt r delta X (fun k => c k + t * v k) k) - (v ⬝ᵥ S *ᵥ c + t * (v ⬝ᵥ S *ᵥ v))

theorem slope_anti (h : Data nt ut r) (hS : S.PosSemidef) (hi : Ident ut r delta X S) (c : Fin p → ℝ) {v : Fin p → ℝ} (hv : v ≠ 0) :
    StrictAnti (slope nt r delta X S c v) := by
  have hd : ∀ t, HasDerivAt (slope nt r delta X S c v)
      ((∑ k, ∑ l, v k * hessian nt r delta X (fun k => c k + t * v k) k l * v l) - v ⬝ᵥ S *ᵥ v) t := by
    intro t
    have h1 : HasDerivAt (fun t => ∑ k, v k * gradient nt r delta X (fun k => c k + t * v k) k)
        (∑ l, v l * ∑ k, v k * hessian nt r delta X (fun k => c k + t * v k) k l) t :=
      HasDerivAt.fun_sum fun l _ => (gradient_hasDerivAt nt ut r h delta X c v t l).const_mul (v l)
    have h2 : HasDerivAt (fun t : ℝ => v ⬝ᵥ S *ᵥ c + t * (v ⬝ᵥ S *ᵥ v)) (v ⬝ᵥ S *ᵥ v) t := by
      simpa using ((hasDerivAt_id t).mul_const (v ⬝ᵥ S *ᵥ v)).const_add (v ⬝ᵥ S *ᵥ c)
    refine (h1.sub h2).congr_deriv ?_
    congr 1
    simp only [mul_sum]
    rw [sum_comm]
    exact sum_congr rfl fun k _ => sum_congr rfl fun l _ => by ring
  refine strictAnti_of_deriv_neg fun t => ?_
  rw [(hd t).deriv]
  exact curve_neg h hS hi _ hv

theorem slope_zero {c : Fin p → ℝ} (hc : gradient nt r delta X c = S *ᵥ c) (v : Fin p → ℝ) : slope nt r delta X S c v 0 = 0 := by
  unfold slope
  simp only [zero_mul, add_zero]
  rw [show (fun k => c k) = c from rfl, hc]
  exact sub_self _

theorem stationary_unique (h : Data nt ut r) (hS : S.PosSemidef) (hi : Ident ut r delta X S) {c c' : Fin p → ℝ}
    (hc : gradient nt r delta X c = S *ᵥ c) (hc' : gradient nt r delta X c' = S *ᵥ c') : c' = c := by
  by_contra hne
  have h1 := slope_anti h hS hi c (sub_ne_zero.2 hne) zero_lt_one
  rw [slope_zero hc] at h1
  have e : (fun k => c k + 1 * (c' - c) k) = c' := by funext k; simp
  have e2 : (c' - c) ⬝ᵥ S *ᵥ c + 1 * ((c' - c) ⬝ᵥ S *ᵥ (c' - c)) = (c' - c) ⬝ᵥ S *ᵥ c' := by
    rw [one_mul, ← dotProduct_add, ← mulVec_add, add_sub_cancel]
  unfold slope at h1
  rw [e, e2, hc'] at h1
  exact lt_irrefl _ (h1.trans_eq (sub_self _).symm)

theorem monotone_never (h : Data nt ut r) (hS : S.PosSemidef) (hi : Ident ut r delta X S) {v : Fin p → ℝ} (hm : Monotone ut r delta X S v)
    (c : Fin p → ℝ) : gradient nt r delta X c ≠ S *ᵥ c := by
  intro hc
  have h1 := slope_anti h hS hi c hm.1 zero_lt_one
  rw [slope_zero hc] at h1
  unfold slope at h1
  rw [grad_dot h, dot_comm hS, hm.2.1, dotProduct_zero, dotProduct_zero, mul_zero, add_zero, sub_zero] at h1
  refine absurd h1 (not_lt.2 (sum_nonneg fun i _ => ?_))
  by_cases hd : delta i = 0
  · rw [hd, Nat.cast_zero, zero_mul]
  · refine mul_nonneg (Nat.cast_nonneg _) (sub_nonneg.2 ?_)
    unfold mean
    rw [div_le_iff₀ (gammaP_pos h _ (gam_pos X _) _ (h.r_lt i)), gammaP_eq, mul_sum]
    refine sum_le_sum fun k hk => ?_
    rw [mul_comm]
    exact mul_le_mul_of_nonneg_right (hm.2.2 i hd k ((risk_iff h i k).2 (mem_filter.1 hk).2)) (gam_pos X _ k).le

/-! ### Existence -/

/-- What moving to `c` costs at least. -/
noncomputable def cost (ut : ℕ → ℝ) (r delta : Fin n → ℕ) (X : Fin n → Fin p → ℝ) (S : Matrix (Fin p) (Fin p) ℝ) (c : Fin p → ℝ) : ℝ :=
  (∑ i, (delta i : ℝ) * ((∑ k with ut (r i) ≤ ut (r k), max (eta X c k - eta X c i) 0) / n)) + 1 / 2 * (c ⬝ᵥ S *ᵥ c)

theorem pos_max (a : ℝ) : 0 ≤ max a 0 := le_max_right _ _

theorem cost_term (c : Fin p → ℝ) (i : Fin n) : 0 ≤ (∑ k with ut (r i) ≤ ut (r k), max (eta X c k - eta X c i) 0) / n :=
  div_nonneg (sum_nonneg fun _ _ => pos_max _) (Nat.cast_nonneg _)

theorem llk_le (h : Data nt ut r) (c : Fin p → ℝ) : llk nt r delta X c - 1 / 2 * (c ⬝ᵥ S *ᵥ c) ≤ -cost ut r delta X S c := by
  unfold cost
  rw [llk_eq h]
  have : ∑ i, (delta i : ℝ) * ((∑ k with ut (r i) ≤ ut (r k), max (eta X c k - eta X c i) 0) / n) ≤
      ∑ i, (delta i : ℝ) * Real.log (∑ k with ut (r i) ≤ ut (r k), Real.exp (eta X c k - eta X c i)) := by
    refine sum_le_sum fun i _ => mul_le_mul_of_nonneg_left ?_ (Nat.cast_nonneg _)
    set L := Real.log (∑ k with ut (r i) ≤ ut (r k), Real.exp (eta X c k - eta X c i)) with hL
    have hk : ∀ k, ut (r i) ≤ ut (r k) → eta X c k - eta X c i ≤ L := fun k hk => by
      rw [← Real.log_exp (eta X c k - eta X c i)]
      refine Real.log_le_log (Real.exp_pos _) ?_
      exact single_le_sum (f := fun k => Real.exp (eta X c k - eta X c i)) (fun _ _ => (Real.exp_pos _).le) (by simp [hk])
    have h0 : 0 ≤ L := by simpa using hk i le_rfl
    have hn : (0 : ℝ) < n := Nat.cast_pos.2 (Fin.pos i)
    rw [div_le_iff₀ hn]
    calc _ ≤ ∑ k with ut (r i) ≤ ut (r k), L := sum_le_sum fun k hk' => max_le (hk k (mem_filter.1 hk').2) h0
      _ = ((univ.filter fun k => ut (r i) ≤ ut (r k)).card : ℝ) * L := by rw [sum_const, nsmul_eq_mul]
      _ ≤ n * L := mul_le_mul_of_nonneg_right (by exact_mod_cast (card_le_univ _).trans_eq (Fintype.card_fin n)) h0
      _ = L * n := mul_comm _ _
  linarith

theorem eta_smul (X : Fin n → Fin p → ℝ) (t : ℝ) (c : Fin p → ℝ) (k : Fin n) : eta X (t • c) k = t * eta X c k := by
  unfold eta
  rw [mul_sum]
  exact sum_congr rfl fun j _ => by rw [Pi.smul_apply, smul_eq_mul]; ring

theorem cost_smul (hS : S.PosSemidef) (c : Fin p → ℝ) (t : ℝ) (ht : 1 ≤ t) : t * cost ut r delta X S c ≤ cost ut r delta X S (t • c) := by
  have h0 : 0 ≤ t := zero_le_one.trans ht
  have hq : 0 ≤ c ⬝ᵥ S *ᵥ c := hS.dotProduct_mulVec_nonneg c
  have e : ∀ i, (∑ k with ut (r i) ≤ ut (r k), max (eta X (t • c) k - eta X (t • c) i) 0) / n =
      t * ((∑ k with ut (r i) ≤ ut (r k), max (eta X c k - eta X c i) 0) / n) := fun i => by
    rw [← mul_div_assoc, mul_sum]
    congr 1
    exact sum_congr rfl fun k _ => by rw [eta_smul, eta_smul, ← mul_sub, mul_max_of_nonneg _ _ h0, mul_zero]
  unfold cost
  rw [mulVec_smul, dotProduct_smul, smul_dotProduct, smul_eq_mul, smul_eq_mul, mul_add, mul_sum]
  simp only [e]
  refine add_le_add (le_of_eq (sum_congr rfl fun i _ => by ring)) ?_
  nlinarith [mul_nonneg (mul_nonneg h0 (sub_nonneg.2 ht)) hq]

theorem cost_pos (hS : S.PosSemidef) (hn : ¬∃ v, Monotone ut r delta X S v) {c : Fin p → ℝ} (hc : c ≠ 0) : 0 < cost ut r delta X S c := by
  have hq : 0 ≤ c ⬝ᵥ S *ᵥ c := hS.dotProduct_mulVec_nonneg c
  have ht : ∀ i ∈ univ, 0 ≤ (delta i : ℝ) * ((∑ k with ut (r i) ≤ ut (r k), max (eta X c k - eta X c i) 0) / n) := fun i _ =>
    mul_nonneg (Nat.cast_nonneg _) (cost_term c i)
  have h1 := sum_nonneg ht
  by_contra hcon
  unfold cost at hcon
  have e1 : c ⬝ᵥ S *ᵥ c = 0 := by linarith
  have e2 := (sum_eq_zero_iff_of_nonneg ht).1 (by linarith)
  refine hn ⟨c, hc, (hS.dotProduct_mulVec_zero_iff c).1 e1, fun i hd k hk => ?_⟩
  have h3 := (mul_eq_zero.1 (e2 i (mem_univ i))).resolve_left (Nat.cast_ne_zero.2 hd)
  have hn' : (n : ℝ) ≠ 0 := Nat.cast_ne_zero.2 (Fin.pos i).ne'
  have h4 := (sum_eq_zero_iff_of_nonneg fun _ _ => pos_max _).1 ((div_eq_zero_iff.1 h3).resolve_right hn') k (by simp [hk])
  have h5 := le_max_left (eta X c k - eta X c i) 0
  rw [h4] at h5
  exact sub_nonpos.1 h5

theorem cost_cont : Continuous (cost ut r delta X S) := by
  unfold cost eta
  simp only [dotProduct, mulVec]
  fun_prop

theorem stationary_of_max (h : Data nt ut r) (hS : S.PosSemidef) {c : Fin p → ℝ}
    (hmax : ∀ c', llk nt r delta X c' - 1 / 2 * (c' ⬝ᵥ S *ᵥ c') ≤ llk nt r delta X c - 1 / 2 * (c ⬝ᵥ S *ᵥ c)) :
    gradient nt r delta X c = S *ᵥ c := by
  have key : ∀ v : Fin p → ℝ, ∑ k, v k * (gradient nt r delta X c k - (S *ᵥ c) k) = 0 := by
    intro v
    have h1 := llk_hasDerivAt nt ut r h delta X c v 0
    have hq : ∀ t : ℝ, (fun k => c k + t * v k : Fin p → ℝ) ⬝ᵥ S *ᵥ (fun k => c k + t * v k) =
        c ⬝ᵥ S *ᵥ c + 2 * t * (v ⬝ᵥ S *ᵥ c) + t ^ 2 * (v ⬝ᵥ S *ᵥ v) := by
      intro t
      have e : (fun k => c k + t * v k : Fin p → ℝ) = c + t • v := rfl
      rw [e, mulVec_add, mulVec_smul, add_dotProduct, dotProduct_add, dotProduct_add, dotProduct_smul, smul_dotProduct, dotProduct_smul,
        smul_dotProduct, dot_comm hS c v]
      simp only [smul_eq_mul]
      ring
    have h2 : HasDerivAt (fun t : ℝ => 1 / 2 * (c ⬝ᵥ S *ᵥ c + 2 * t * (v ⬝ᵥ S *ᵥ c) + t ^ 2 * (v ⬝ᵥ S *ᵥ v))) (v ⬝ᵥ S *ᵥ c) 0 := by
      have := (((((hasDerivAt_id (0 : ℝ)).const_mul 2).mul_const (v ⬝ᵥ S *ᵥ c)).const_add (c ⬝ᵥ S *ᵥ c)).add
        (((hasDerivAt_id (0 : ℝ)).pow 2).mul_const (v ⬝ᵥ S *ᵥ v))).const_mul (1 / 2 : ℝ)
      refine this.congr_deriv ?_
      simp
    have h3 := h1.sub h2
    have hloc : IsLocalMax (fun t : ℝ => llk nt r delta X (fun k => c k + t * v k) -
        1 / 2 * (c ⬝ᵥ S *ᵥ c + 2 * t * (v ⬝ᵥ S *ᵥ c) + t ^ 2 * (v ⬝ᵥ S *ᵥ v))) 0 := by
      refine Eventually.of_forall fun t => ?_
      have := hmax (fun k => c k + t * v k)
      rw [hq] at this
      simpa using this
    have h4 := hloc.hasDerivAt_eq_zero h3
    simp only [zero_mul, add_zero] at h4
    simp only [mul_sub, sum_sub_distrib]
    exact h4
  funext k
  have := key (Pi.single k 1)
  simpa [Pi.single_apply, sub_eq_zero] using this

theorem stationary_exists (h : Data nt ut r) (hS : S.PosSemidef) (hn : ¬∃ v, Monotone ut r delta X S v) :
    ∃ c, gradient nt r delta X c = S *ᵥ c := by
  have hcont : Continuous fun c => llk nt r delta X c - 1 / 2 * (c ⬝ᵥ S *ᵥ c) := by
    refine (Lml.haz_diff h).continuous.sub ?_
    simp only [dotProduct, mulVec]
    fun_prop
  obtain ⟨c, hmax⟩ := exists_max_of hcont cost_cont (llk_le h) (cost_smul hS) fun c hc => cost_pos hS hn hc
  exact ⟨c, stationary_of_max h hS hmax⟩

/-! ### Newton steps -/

section
variable {chol : Matrix (Fin p) (Fin p) ℝ → Option (Matrix (Fin p) (Fin p) ℝ × Equiv.Perm (Fin p))} {noise : ℕ → Fin p → ℝ}

theorem reg (h : Data nt ut r) (hch : Newton.CholSpec chol) (hS : S.PosSemidef) (hi : Ident ut r delta X S) (c : Fin p → ℝ) :
    Lml.Reg (Lml.hazIn nt r delta X S chol noise) c where
  chol := hch
  hsym := by
    ext i j
    exact (hessian_symm_negSemidef nt ut r h delta X c).1 _ _
  ssym := psd_symm hS
  diag := fun i => by
    have := curve_neg h hS hi c (v := Pi.single i 1) (by simp)
    simp [Pi.single_apply] at this
    exact (by linarith : 0 < -hessian nt r delta X c i i + S i i).ne'

theorem fixed_iff (h : Data nt ut r) (hch : Newton.CholSpec chol) (hS : S.PosSemidef) (hi : Ident ut r delta X S) (c : Fin p → ℝ) :
    Lml.step (Lml.hazIn nt r delta X S chol noise) c = c ↔ gradient nt r delta X c = S *ᵥ c := by
  have hr := reg (noise := noise) h hch hS hi c
  constructor
  · intro hf
    obtain ⟨-, -, h2⟩ := Lml.step_solves hr
    rw [hf, sub_self, mulVec_zero] at h2
    exact (sub_eq_zero.1 h2.symm)
  · intro hc
    refine (Lml.fixed_iff_stationary hr (Lml.haz_grad h c)).2 ?_
    have := Lml.pllk_grad hr.ssym (Lml.haz_grad (delta := delta) (X := X) (S := S) (chol := chol) (noise := noise) h c)
    rwa [show (Lml.hazIn nt r delta X S chol noise).grad c - (Lml.hazIn nt r delta X S chol noise).S *ᵥ c = 0 from sub_eq_zero.2 hc] at this

/-- C149.  A proportional hazard model has exactly one estimate if no unpenalised direction is monotone. -/
theorem estimate_exists (h : Data nt ut r) (hch : Newton.CholSpec chol) (hS : S.PosSemidef) (hi : Ident ut r delta X S)
    (hn : ¬∃ v, Monotone ut r delta X S v) : ∃! c, Lml.step (Lml.hazIn nt r delta X S chol noise) c = c := by
  obtain ⟨c, hc⟩ := stationary_exists h hS hn
  exact ⟨c, (fixed_iff h hch hS hi c).2 hc, fun c' hc' => stationary_unique h hS hi hc ((fixed_iff h hch hS hi c').1 hc')⟩

/-- C149.  At the estimate the penalised partial log-likelihood is larger than anywhere else. -/
theorem estimate_is_max (h : Data nt ut r) (hch : Newton.CholSpec chol) (hS : S.PosSemidef) (hi : Ident ut r delta X S) {c : Fin p → ℝ}
    (hf : Lml.step (Lml.hazIn nt r delta X S chol noise) c = c) {d : Fin p → ℝ} (hd : d ≠ c) :
    llk nt r delta X d - 1 / 2 * ∑ i, ∑ j, d i * S i j * d j < llk nt r delta X c - 1 / 2 * ∑ i, ∑ j, c i * S i j * c j := by
  have hm : ∀ e : Fin p → ℝ, llk nt r delta X e - 1 / 2 * ∑ i, ∑ j, e i * S i j * e j ≤
      llk nt r delta X c - 1 / 2 * ∑ i, ∑ j, c i * S i j * c j := fun e => by
    have := Lml.hazard_fixed_is_max h hch (psd_symm hS) (reg (noise := noise) h hch hS hi c).diag hf e
    have h2 : 0 ≤ ∑ i, ∑ j, (e i - c i) * S i j * (e j - c j) := by
      have := hS.dotProduct_mulVec_nonneg (e - c)
      rw [star_trivial, ← Lml.quad_eq] at this
      exact this
    linarith
  refine (hm d).lt_of_ne fun heq => ?_
  have hst := stationary_of_max h hS fun e => by
    have := (hm e).trans_eq heq.symm
    rwa [Lml.quad_eq, Lml.quad_eq] at this
  exact hd (stationary_unique h hS hi ((fixed_iff h hch hS hi c).1 hf) hst)

/-- C149.  It has none if there is such a direction: Newton steps never come to rest. -/
theorem monotone_no_estimate (h : Data nt ut r) (hch : Newton.CholSpec chol) (hS : S.PosSemidef) (hi : Ident ut r delta X S)
    {v : Fin p → ℝ} (hm : Monotone ut r delta X S v) (c : Fin p → ℝ) : Lml.step (Lml.hazIn nt r delta X S chol noise) c ≠ c := fun hf =>
  monotone_never h hS hi hm c ((fixed_iff h hch hS hi c).1 hf)

/-- C149.  Estimates exist exactly if no unpenalised direction is monotone. -/
theorem exists_iff (h : Data nt ut r) (hch : Newton.CholSpec chol) (hS : S.PosSemidef) (hi : Ident ut r delta X S) :
    (∃ c, Lml.step (Lml.hazIn nt r delta X S chol noise) c = c) ↔ ¬∃ v, Monotone ut r delta X S v :=
  ⟨fun ⟨c, hc⟩ ⟨_, hm⟩ => monotone_no_estimate h hch hS hi hm c hc, fun hn => (estimate_exists h hch hS hi hn).exists⟩

/-- C149.  Along a monotone direction the penalised log-likelihood increases strictly, however far one goes. -/
theorem monotone_increases (h : Data nt ut r) (hS : S.PosSemidef) (hi : Ident ut r delta X S) {v : Fin p → ℝ} (hm : Monotone ut r delta X S v)
    (c : Fin p → ℝ) : StrictMono fun t : ℝ => llk nt r delta X (c + t • v) - 1 / 2 * ∑ i, ∑ j, (c + t • v) i * S i j * (c + t • v) j := by
  have hq : ∀ t : ℝ, ∑ i, ∑ j, (c + t • v) i * S i j * (c + t • v) j = c ⬝ᵥ S *ᵥ c := fun t => by
    rw [Lml.quad_eq, mulVec_add, mulVec_smul, hm.2.1, smul_zero, add_zero, add_dotProduct, smul_dotProduct, dot_comm hS v c, hm.2.1,
      dotProduct_zero, smul_zero, add_zero]
  simp only [hq]
  have hsl : ∀ t : ℝ, ∑ k, v k * gradient nt r delta X (fun k => c k + t * v k) k = slope nt r delta X S c v t := fun t => by
    unfold slope
    rw [dot_comm hS v c, hm.2.1, dotProduct_zero, dotProduct_zero, mul_zero, add_zero, sub_zero]
  have hnn : ∀ t : ℝ, 0 ≤ slope nt r delta X S c v t := fun t => by
    rw [← hsl, grad_dot h]
    refine sum_nonneg fun i _ => ?_
    by_cases hd : delta i = 0
    · rw [hd, Nat.cast_zero, zero_mul]
    · refine mul_nonneg (Nat.cast_nonneg _) (sub_nonneg.2 ?_)
      unfold mean
      rw [div_le_iff₀ (gammaP_pos h _ (gam_pos X _) _ (h.r_lt i)), gammaP_eq, mul_sum]
      refine sum_le_sum fun k hk => ?_
      rw [mul_comm]
      exact mul_le_mul_of_nonneg_right (hm.2.2 i hd k ((risk_iff h i k).2 (mem_filter.1 hk).2)) (gam_pos X _ k).le
  refine strictMono_of_hasDerivAt_pos (f' := slope nt r delta X S c v) (fun t => ?_) fun t => ?_
  · rw [← hsl]
    exact (llk_hasDerivAt nt ut r h delta X c v t).sub_const _
  · exact (hnn (t + 1)).trans_lt (slope_anti h hS hi c hm.1 (lt_add_one t))

end

end Verif.HEx
