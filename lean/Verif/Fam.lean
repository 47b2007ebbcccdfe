import Verif.FamLemmas
import Mathlib.MeasureTheory.Integral.Bochner.Basic
import Mathlib.Analysis.Calculus.FDeriv.Add
import Mathlib.Analysis.Calculus.FDeriv.Linear

/-!
# Links, deviances, scores and working data of the exponential families (C15, C16, C17, C21)
-/

namespace Verif.Fam
open Verif Fl Filter Topology

/-! ### C15 -/

/-- **C15.** On the natural domain of the mean, a link and its inverse are mutually inverse. -/
theorem link_inverse (lk : LinkKind) :
    (∀ mu ∈ lk.dom, ∃ eta, lk.f (fin mu) = fin eta ∧ lk.fi (fin eta) = fin mu) ∧
    (∀ eta, ∃ mu ∈ lk.dom, lk.fi (fin eta) = fin mu ∧ lk.f (fin mu) = fin eta) := by
  refine ⟨fun mu h => ⟨lk.fR mu, f_eq h, by rw [fi_eq, fi_f h]⟩, fun eta => ?_⟩
  exact ⟨lk.fiR eta, fi_mem lk eta, fi_eq lk eta, by rw [f_eq (fi_mem lk eta), f_fi]⟩

/-- **C15.** `dy1` and `dy2` are the first and second derivatives of the link. -/
theorem link_derivs (lk : LinkKind) {mu : ℝ} (h : mu ∈ lk.dom) :
    HasFlDeriv lk.f (lk.dy1 (fin mu)) mu ∧ HasFlDeriv lk.dy1 (lk.dy2 (fin mu)) mu := by
  have hn : ∀ᶠ x in 𝓝 mu, x ∈ lk.dom := (dom_open lk).mem_nhds h
  exact ⟨⟨lk.fR, lk.d1R mu, d1_eq h, hn.mono fun x hx => f_eq hx, fR_deriv h⟩,
    ⟨lk.d1R, lk.d2R mu, d2_eq h, hn.mono fun x hx => d1_eq hx, d1R_deriv h⟩⟩

/-- **C15.** The inverse link has derivative `1 / dy1`. -/
theorem link_inverse_deriv (lk : LinkKind) (eta : ℝ) :
    ∃ mu ∈ lk.dom, lk.fi (fin eta) = fin mu ∧
      HasFlDeriv lk.fi (fin 1 / lk.dy1 (fin mu)) eta := by
  refine ⟨lk.fiR eta, fi_mem lk eta, fi_eq lk eta, lk.fiR, 1 / lk.d1R (lk.fiR eta), ?_,
    Eventually.of_forall fun x => fi_eq lk x, fiR_deriv lk eta⟩
  rw [d1_eq (fi_mem lk eta), fin_div (d1_pos (fi_mem lk eta)).ne']

example : (1 / 4 : ℝ) ∈ LinkKind.logit.dom := by constructor <;> norm_num
example : (-1 / 4 : ℝ) ∈ (LinkKind.logb (1 / 2)).dom := by
  show -(1 / 2 : ℝ) < -1 / 4; norm_num

/-! ### C16 -/

theorem lp_sat {fam : FamKind} {y s : ℝ} (hy : y ∈ fam.obs) (hs : 0 < s) :
    fam.lp y y s = fin (fam.lR y y s + fam.cR y s) := by
  by_cases hd : y ∈ fam.dom
  · exact lp_eq hy hs hd
  cases fam with
  | binomial n =>
    obtain ⟨hn, k, hk, rfl⟩ := hy
    have hn' : (0 : ℝ) < n := Nat.cast_pos.2 hn
    have hkk : (k : ℝ) / n * n = k := by field_simp
    have hk0 : k = 0 ∨ k = n := by
      by_contra hc
      push Not at hc
      apply hd
      have : 0 < k := Nat.pos_of_ne_zero hc.1
      have h2 : k < n := lt_of_le_of_ne hk hc.2
      refine ⟨by positivity, ?_⟩
      rw [div_lt_one hn']; exact_mod_cast h2
    rcases hk0 with rfl | rfl
    · simp [FamKind.lp, FamKind.lR, FamKind.cR, binomPmf, Fl.log]
    · have h1 : (k : ℝ) / k = 1 := div_self hn'.ne'
      simp [FamKind.lp, FamKind.lR, FamKind.cR, binomPmf, Fl.log, h1]
  | gaussian => exact absurd trivial hd
  | gamma => exact absurd hy hd
  | invGauss => exact absurd hy hd
  | poisson =>
    obtain ⟨k, rfl⟩ := hy
    have : k = 0 := by
      by_contra hc
      exact hd (show (0 : ℝ) < k from Nat.cast_pos.2 (Nat.pos_of_ne_zero hc))
    subst this
    simp [FamKind.lp, FamKind.lR, FamKind.cR, poissonPmf, Fl.log]

theorem D_eq {fam : FamKind} {y mu s : ℝ} (hy : y ∈ fam.obs) (hs : 0 < s) (hm : mu ∈ fam.dom)
    (h2 : fam.twopar = true ∨ s = 1) :
    fam.D (fin y) (fin mu) = fin (2 * s * (fam.lR y y s - fam.lR y mu s)) := by
  cases fam with
  | binomial n =>
    have hs1 : s = 1 := h2.resolve_left (by simp [FamKind.twopar])
    obtain ⟨hn, k, hk, rfl⟩ := hy
    obtain ⟨h0, h1⟩ := hm
    have hn' : (0 : ℝ) < n := Nat.cast_pos.2 hn
    have h1' : 0 < 1 - mu := by linarith
    have hkk : (k : ℝ) / n * n = k := by field_simp
    have e1 : (n : ℝ) - mu * n = n * (1 - mu) := by ring
    simp only [FamKind.D, FamKind.lR, fin_mul, fin_sub, hkk, hs1]
    rw [log_fin (show 0 < mu * n by positivity), e1, log_fin (show 0 < n * (1 - mu) by positivity),
      Real.log_mul h0.ne' hn'.ne', Real.log_mul hn'.ne' h1'.ne']
    have a1 : fin (k : ℝ) * Fl.clean (Fl.log (fin (k : ℝ)) - fin (Real.log mu + Real.log n))
        = fin (k * (Real.log (k / n) - Real.log mu)) := by
      rcases Nat.eq_zero_or_pos k with rfl | hk0
      · simp
      · have : (0 : ℝ) < k := Nat.cast_pos.2 hk0
        rw [log_fin this, fin_sub, clean_fin, fin_mul, Real.log_div this.ne' hn'.ne']
        congr 1; ring
    have a2 : fin ((n : ℝ) - k) * Fl.clean (Fl.log (fin ((n : ℝ) - k)) -
          fin (Real.log n + Real.log (1 - mu)))
        = fin (((n : ℝ) - k) * (Real.log (1 - k / n) - Real.log (1 - mu))) := by
      rcases Nat.eq_or_lt_of_le hk with rfl | hk0
      · simp
      · have : (0 : ℝ) < n - k := sub_pos.2 (Nat.cast_lt.2 hk0)
        have e : (1 : ℝ) - k / n = (n - k) / n := by field_simp
        rw [log_fin this, fin_sub, clean_fin, fin_mul, e, Real.log_div this.ne' hn'.ne']
        congr 1; ring
    rw [a1, a2, fin_add, fin_mul]
    congr 1; ring
  | gaussian =>
    simp only [FamKind.D, FamKind.lR, fin_sub, pow_fin]
    congr 1; field_simp; ring
  | gamma =>
    have hm' : 0 < mu := hm
    have hy' : 0 < y := hy
    simp only [FamKind.D, FamKind.lR, fin_sub]
    rw [fin_div hm'.ne', log_fin hy', log_fin hm', fin_sub, fin_neg, fin_add, fin_mul]
    congr 1; field_simp; ring
  | invGauss =>
    have hm' : 0 < mu := hm
    have hy' : 0 < y := hy
    simp only [FamKind.D, FamKind.lR, fin_sub, pow_fin, fin_mul]
    rw [fin_div (by positivity)]
    congr 1; field_simp; ring
  | poisson =>
    have hs1 : s = 1 := h2.resolve_left (by simp [FamKind.twopar])
    obtain ⟨k, rfl⟩ := hy
    have hm' : 0 < mu := hm
    simp only [FamKind.D, FamKind.lR, fin_sub, fin_mul, hs1]
    rcases Nat.eq_zero_or_pos k with rfl | hk0
    · have h0 : fin ((0 : ℕ) : ℝ) * (Fl.log (fin ((0 : ℕ) : ℝ)) - Fl.log (fin mu)) = nan := by
        rw [log_fin hm', Nat.cast_zero, log_zero, ninf_sub_fin]
        show Fl.mul (fin 0) ninf = nan
        simp [Fl.mul, infSign]
      rw [h0]; simp
    · have : (0 : ℝ) < k := Nat.cast_pos.2 hk0
      rw [log_fin this, log_fin hm', fin_sub, fin_mul, clean_fin, fin_mul, fin_sub]
      congr 1; ring

/-- Gibbs' inequality for one term. -/
theorem kl_term {y m : ℝ} (hy : 0 ≤ y) (hm : 0 < m) :
    0 ≤ y * Real.log y - y * Real.log m - y + m ∧
      (y * Real.log y - y * Real.log m - y + m = 0 → m = y) := by
  rcases hy.eq_or_lt with rfl | hy0
  · simp [hm.le]
  · have e : y * Real.log y - y * Real.log m - y + m = y * ((m / y - 1) - Real.log (m / y)) := by
      rw [Real.log_div hm.ne' hy0.ne']; field_simp; ring
    have h1 : Real.log (m / y) ≤ m / y - 1 := Real.log_le_sub_one_of_pos (by positivity)
    refine ⟨by rw [e]; exact mul_nonneg hy0.le (by linarith), fun h => ?_⟩
    rw [e] at h
    have h3 : m / y - 1 - Real.log (m / y) = 0 := (mul_eq_zero.1 h).resolve_left hy0.ne'
    by_contra hne
    have hne' : m / y ≠ 1 := fun hc => hne (by rwa [div_eq_one_iff_eq hy0.ne'] at hc)
    have := Real.log_lt_sub_one_of_pos (show 0 < m / y by positivity) hne'
    linarith

/-- **C16.** The unit deviance is a finite number, non-negative, and zero exactly at the saturated
fit.  Boundary observations (no success, only successes, zero counts) are included. -/
theorem deviance_nonneg {fam : FamKind} {y mu : ℝ} (hy : y ∈ fam.obs) (hm : mu ∈ fam.dom) :
    ∃ d, fam.D (fin y) (fin mu) = fin d ∧ 0 ≤ d ∧ (d = 0 ↔ mu = y) := by
  refine ⟨_, D_eq hy one_pos hm (Or.inr rfl), ?_⟩
  suffices h : 0 ≤ fam.lR y y 1 - fam.lR y mu 1 ∧ (fam.lR y y 1 - fam.lR y mu 1 = 0 → mu = y) by
    refine ⟨by linarith [h.1], fun h0 => h.2 (by linarith), fun h0 => by subst h0; ring⟩
  cases fam with
  | binomial n =>
    obtain ⟨hn, k, hk, rfl⟩ := hy
    obtain ⟨h0, h1⟩ := hm
    have hn' : (0 : ℝ) < n := Nat.cast_pos.2 hn
    have hkn : (k : ℝ) / n ≤ 1 := by rw [div_le_one hn']; exact_mod_cast hk
    have A := kl_term (show (0 : ℝ) ≤ (k : ℝ) / n by positivity) h0
    have B := kl_term (show (0 : ℝ) ≤ 1 - (k : ℝ) / n by linarith) (show 0 < 1 - mu by linarith)
    set q : ℝ := (k : ℝ) / n with hq
    have e : (FamKind.binomial n).lR q q 1 - (FamKind.binomial n).lR q mu 1 =
        n * ((q * Real.log q - q * Real.log mu - q + mu) +
          ((1 - q) * Real.log (1 - q) - (1 - q) * Real.log (1 - mu) - (1 - q) + (1 - mu))) := by
      simp only [FamKind.lR]; ring
    rw [e]
    refine ⟨mul_nonneg hn'.le (by linarith [A.1, B.1]), fun h => A.2 ?_⟩
    have := (mul_eq_zero.1 h).resolve_left hn'.ne'
    linarith [A.1, B.1]
  | gaussian =>
    have e : FamKind.gaussian.lR y y 1 - FamKind.gaussian.lR y mu 1 = (y - mu) ^ 2 / 2 := by
      simp only [FamKind.lR]; ring
    rw [e]
    refine ⟨by positivity, fun h => ?_⟩
    have : (y - mu) ^ 2 = 0 := by linarith
    have := pow_eq_zero_iff (two_ne_zero) |>.1 this
    linarith
  | gamma =>
    have hm' : 0 < mu := hm
    have hy' : 0 < y := hy
    have A := kl_term (show (0 : ℝ) ≤ 1 by norm_num) (show 0 < y / mu by positivity)
    have e : FamKind.gamma.lR y y 1 - FamKind.gamma.lR y mu 1 =
        1 * Real.log 1 - 1 * Real.log (y / mu) - 1 + y / mu := by
      simp only [FamKind.lR]
      rw [Real.log_div hy'.ne' hm'.ne', Real.log_one]; field_simp; ring
    rw [e]
    refine ⟨A.1, fun h => ?_⟩
    have := A.2 h
    rw [div_eq_one_iff_eq hm'.ne'] at this
    exact this.symm
  | invGauss =>
    have hm' : 0 < mu := hm
    have hy' : 0 < y := hy
    have e : FamKind.invGauss.lR y y 1 - FamKind.invGauss.lR y mu 1 =
        (y - mu) ^ 2 / (2 * mu ^ 2 * y) := by
      simp only [FamKind.lR]; ring
    rw [e]
    refine ⟨by positivity, fun h => ?_⟩
    rw [div_eq_zero_iff] at h
    rcases h with h | h
    · have := pow_eq_zero_iff (two_ne_zero) |>.1 h
      linarith
    · have : 0 < 2 * mu ^ 2 * y := by positivity
      linarith
  | poisson =>
    obtain ⟨k, rfl⟩ := hy
    have hm' : 0 < mu := hm
    have A := kl_term (Nat.cast_nonneg k : (0 : ℝ) ≤ k) hm'
    have e : FamKind.poisson.lR k k 1 - FamKind.poisson.lR k mu 1 =
        k * Real.log k - k * Real.log mu - k + mu := by
      simp only [FamKind.lR]; ring
    rw [e]; exact A

/-- **C16.** The unit deviance is the scale times twice the gap between the saturated
log-likelihood (the mean set to the observation) and the log-likelihood at the mean. -/
theorem deviance_is_gap {fam : FamKind} {y mu s : ℝ} (hy : y ∈ fam.obs) (hs : 0 < s)
    (hm : mu ∈ fam.dom) (h2 : fam.twopar = true ∨ s = 1) :
    ∃ d lsat l, fam.D (fin y) (fin mu) = fin d ∧ fam.lp y y s = fin lsat ∧ fam.lp y mu s = fin l ∧
      d = s * (2 * (lsat - l)) :=
  ⟨_, _, _, D_eq hy hs hm h2, lp_sat hy hs, lp_eq hy hs hm, by ring⟩

example : (0 : ℝ) ∈ (FamKind.binomial 3).obs ∧ (1 : ℝ) ∈ (FamKind.binomial 3).obs ∧
    (1 / 5 : ℝ) ∈ (FamKind.binomial 3).dom :=
  ⟨⟨by norm_num, 0, by norm_num, by norm_num⟩, ⟨by norm_num, 3, by norm_num, by norm_num⟩,
    by constructor <;> norm_num⟩
example : (0 : ℝ) ∈ FamKind.poisson.obs ∧ (7 : ℝ) ∈ FamKind.poisson.obs :=
  ⟨⟨0, by norm_num⟩, ⟨7, by norm_num⟩⟩

/-! ### C17 -/

theorem lpEta_eq {fam : FamKind} {lk : LinkKind} {y s eta : ℝ} (hy : y ∈ fam.obs) (hs : 0 < s)
    (hm : lk.fiR eta ∈ fam.dom) :
    lpEta fam lk y s (fin eta) = fin (fam.lR y (lk.fiR eta) s + fam.cR y s) := by
  simp only [lpEta, fi_eq]; exact lp_eq hy hs hm

theorem lEta_deriv {fam : FamKind} {lk : LinkKind} {y s eta : ℝ} (hy : y ∈ fam.obs) (hs : 0 < s)
    (hm : lk.fiR eta ∈ fam.dom) (h2 : fam.twopar = true ∨ s = 1) :
    HasDerivAt (fun e => fam.lR y (lk.fiR e) s + fam.cR y s)
      ((y - lk.fiR eta) / (lk.d1R (lk.fiR eta) * fam.VR (lk.fiR eta)) / s) eta := by
  have := ((lR_deriv hy hs hm h2).comp eta (fiR_deriv lk eta)).add_const (fam.cR y s)
  refine this.congr_deriv ?_
  have h1 := (d1_pos (fi_mem lk eta)).ne'
  have h3 := (V_pos (ok_of_obs hy) hm).ne'
  field_simp

theorem eta_dom_nhds {fam : FamKind} {lk : LinkKind} {eta : ℝ} (hm : lk.fiR eta ∈ fam.dom) :
    ∀ᶠ e in 𝓝 eta, lk.fiR e ∈ fam.dom :=
  (fiR_deriv lk eta).continuousAt.eventually ((fdom_open fam).mem_nhds hm)

theorem linpred_fderiv {N p : ℕ} (X : Fin N → Fin p → ℝ) (coef : Fin p → ℝ) (i : Fin N) :
    HasFDerivAt (fun c => linpred X c i)
      (∑ j, X i j • ContinuousLinearMap.proj (R := ℝ) (φ := fun _ : Fin p => ℝ) j) coef := by
  unfold linpred
  refine HasFDerivAt.fun_sum fun j _ => ?_
  exact ((ContinuousLinearMap.proj (R := ℝ) (φ := fun _ : Fin p => ℝ) j).hasFDerivAt).const_mul
    (X i j)

/-- **C17.** For every family and link, the gradient reported by `dllkdcoef` is finite and is the
gradient of the log-likelihood in the coefficients, whenever the observations are admissible and
the current means lie in the family's domain. -/
theorem score_correct {N p : ℕ} (fam : Fin N → FamKind) (lk : LinkKind) (y : Fin N → ℝ)
    (X : Fin N → Fin p → ℝ) (s : ℝ) (coef : Fin p → ℝ) (hs : 0 < s)
    (hy : ∀ i, y i ∈ (fam i).obs) (h2 : ∀ i, (fam i).twopar = true ∨ s = 1)
    (hm : ∀ i, ∃ mu ∈ (fam i).dom, lk.fi (fin (linpred X coef i)) = fin mu) :
    ∃ g : Fin p → ℝ, (∀ j, dllkdcoef fam lk y X s coef j = fin (g j)) ∧
      HasFlGrad (llkCoef fam lk y X s) g coef := by
  have hm' : ∀ i, lk.fiR (linpred X coef i) ∈ (fam i).dom := by
    intro i
    obtain ⟨mu, hmu, he⟩ := hm i
    rw [fi_eq, fin_inj] at he
    rwa [he]
  set G : Fin N → ℝ := fun i => (y i - lk.fiR (linpred X coef i)) /
    (lk.d1R (lk.fiR (linpred X coef i)) * (fam i).VR (lk.fiR (linpred X coef i))) with hG
  refine ⟨fun j => (∑ i, G i * X i j) / s, fun j => ?_, ?_⟩
  · unfold dllkdcoef
    have e : ∀ i, Fl.clean ((fin (y i) - lk.fi (fin (linpred X coef i))) /
        (lk.dy1 (lk.fi (fin (linpred X coef i))) * (fam i).V (lk.fi (fin (linpred X coef i)))))
          = fin (G i) := by
      intro i
      have h1 := (d1_pos (fi_mem lk (linpred X coef i)))
      have h3 := (V_pos (ok_of_obs (hy i)) (hm' i))
      rw [fi_eq, d1_eq (fi_mem lk _), V_eq (ok_of_obs (hy i)), fin_mul, fin_sub,
        fin_div (by positivity), clean_fin]
    simp only [e, fin_mul]
    rw [sum_fin, fin_div hs.ne']
  · refine ⟨fun c => ∑ i, ((fam i).lR (y i) (lk.fiR (linpred X c i)) s + (fam i).cR (y i) s),
      ?_, ?_⟩
    · have hc : ∀ᶠ c in 𝓝 coef, ∀ i, lk.fiR (linpred X c i) ∈ (fam i).dom := by
        rw [eventually_all]
        intro i
        exact (linpred_fderiv X coef i).continuousAt.eventually (eta_dom_nhds (hm' i))
      refine hc.mono fun c hc => ?_
      unfold llkCoef
      rw [← sum_fin]
      congr 1
      funext i
      exact lpEta_eq (hy i) hs (hc i)
    · have hd : HasFDerivAt (fun c => ∑ i, ((fam i).lR (y i) (lk.fiR (linpred X c i)) s +
          (fam i).cR (y i) s)) (∑ i, (G i / s) •
            (∑ j, X i j • ContinuousLinearMap.proj (R := ℝ) (φ := fun _ : Fin p => ℝ) j)) coef := by
        refine HasFDerivAt.fun_sum fun i _ => ?_
        exact (lEta_deriv (hy i) hs (hm' i) (h2 i)).comp_hasFDerivAt coef (linpred_fderiv X coef i)
      refine hd.congr_fderiv ?_
      ext v
      simp only [_root_.sum_apply, _root_.smul_apply,
        ContinuousLinearMap.proj_apply, smul_eq_mul, Finset.sum_div, Finset.sum_mul, Finset.mul_sum]
      rw [Finset.sum_comm]
      refine Finset.sum_congr rfl fun j _ => Finset.sum_congr rfl fun i _ => by ring

/-- A Poisson model with log link, two rows and one slope satisfies the hypotheses. -/
example : ∃ g : Fin 1 → ℝ, (∀ j, dllkdcoef (fun _ => .poisson) .log ![0, 3]
    (fun i _ => ![1, 2] i) 1 ![1 / 2] j = fin (g j)) ∧
    HasFlGrad (llkCoef (fun _ => .poisson) .log ![0, 3] (fun i _ => ![1, 2] i) 1) g ![1 / 2] := by
  refine score_correct _ _ _ _ _ _ one_pos ?_ (fun _ => Or.inr rfl) ?_
  · intro i; fin_cases i
    · exact ⟨0, by simp⟩
    · exact ⟨3, by simp⟩
  · intro i
    exact ⟨_, Real.exp_pos _, fi_eq _ _⟩

/-! ### C21 -/

theorem fisher_eq {fam : FamKind} {lk : LinkKind} {y eta : ℝ} (ho : fam.ok)
    (hm : lk.fiR eta ∈ fam.dom) :
    fisherZW fam lk (fin y) (lk.fi (fin eta)) (fin eta) =
      (fin (lk.d1R (lk.fiR eta) * (y - lk.fiR eta) + eta),
        fin (1 / (lk.d1R (lk.fiR eta) ^ 2 * fam.VR (lk.fiR eta)))) := by
  have h1 := d1_pos (fi_mem lk eta)
  have h3 := V_pos ho hm
  simp only [fisherZW, fi_eq]
  rw [d1_eq (fi_mem lk _), V_eq ho, fin_sub, fin_mul, fin_add, pow_fin, fin_mul,
    fin_div (by positivity)]

/-- **C21.** Fisher working data: finite, positive weight, and weight times (pseudo-response minus
predictor) is the scale times the derivative of the log-likelihood in the predictor. -/
theorem fisher_weights {fam : FamKind} {lk : LinkKind} {y s eta : ℝ} (hy : y ∈ fam.obs)
    (hs : 0 < s) (h2 : fam.twopar = true ∨ s = 1)
    (hm : ∃ mu ∈ fam.dom, lk.fi (fin eta) = fin mu) :
    ∃ z w, fisherZW fam lk (fin y) (lk.fi (fin eta)) (fin eta) = (fin z, fin w) ∧ 0 < w ∧
      HasFlDeriv (lpEta fam lk y s) (fin (w * (z - eta) / s)) eta := by
  have hm' : lk.fiR eta ∈ fam.dom := by
    obtain ⟨mu, hmu, he⟩ := hm
    rw [fi_eq, fin_inj] at he; rwa [he]
  have h1 := d1_pos (fi_mem lk eta)
  have h3 := V_pos (ok_of_obs hy) hm'
  refine ⟨_, _, fisher_eq (ok_of_obs hy) hm', by positivity, _, _, rfl,
    (eta_dom_nhds hm').mono fun e he => lpEta_eq hy hs he, ?_⟩
  refine (lEta_deriv hy hs hm' h2).congr_deriv ?_
  field_simp
  ring

/-- `a(mu)` of the Newton weights. -/
noncomputable def aR (fam : FamKind) (lk : LinkKind) (y m : ℝ) : ℝ :=
  1 + (y - m) * (fam.dVR m / fam.VR m + lk.d2R m / lk.d1R m)

theorem newton_w {fam : FamKind} {lk : LinkKind} {y eta : ℝ} (ho : fam.ok)
    (hm : lk.fiR eta ∈ fam.dom) :
    newtonZW fam lk (fin y) (lk.fi (fin eta)) (fin eta) =
      (fin (lk.d1R (lk.fiR eta) * (y - lk.fiR eta)) / fin (aR fam lk y (lk.fiR eta)) + fin eta,
        fin (aR fam lk y (lk.fiR eta) / (lk.d1R (lk.fiR eta) ^ 2 * fam.VR (lk.fiR eta)))) := by
  have h1 := d1_pos (fi_mem lk eta)
  have h3 := V_pos ho hm
  simp only [newtonZW, fi_eq]
  rw [d1_eq (fi_mem lk _), d2_eq (fi_mem lk _), V_eq ho, dV_eq ho, fin_sub, fin_div h3.ne',
    fin_div h1.ne']
  simp only [fin_add, fin_mul, pow_fin]
  rw [fin_div (show lk.d1R (lk.fiR eta) ^ 2 * fam.VR (lk.fiR eta) ≠ 0 by positivity)]
  rfl

/-- **C21.** Newton working data: the weight is minus the scale times the second derivative of the
log-likelihood in the predictor; if it is non-zero, the pseudo-response is finite and weight times
(pseudo-response minus predictor) is the scale times the first derivative; if it is zero the row is
flagged invalid. -/
theorem newton_weights {fam : FamKind} {lk : LinkKind} {y s eta : ℝ} (hy : y ∈ fam.obs)
    (hs : 0 < s) (h2 : fam.twopar = true ∨ s = 1)
    (hm : ∃ mu ∈ fam.dom, lk.fi (fin eta) = fin mu) :
    ∃ (z : Fl) (w : ℝ) (d1 : ℝ → ℝ),
      newtonZW fam lk (fin y) (lk.fi (fin eta)) (fin eta) = (z, fin w) ∧
      (∀ᶠ e in 𝓝 eta, HasFlDeriv (lpEta fam lk y s) (fin (d1 e)) e) ∧
      HasDerivAt d1 (-w / s) eta ∧
      (w ≠ 0 → ∃ z', z = fin z' ∧ w * (z' - eta) / s = d1 eta) ∧
      (w = 0 → invalid (newtonZW fam lk (fin y) (lk.fi (fin eta)) (fin eta))) := by
  have hm' : lk.fiR eta ∈ fam.dom := by
    obtain ⟨mu, hmu, he⟩ := hm
    rw [fi_eq, fin_inj] at he; rwa [he]
  have ho := ok_of_obs hy
  have h1 := d1_pos (fi_mem lk eta)
  have h3 := V_pos ho hm'
  set m := lk.fiR eta with hmdef
  refine ⟨_, _, fun e => (y - lk.fiR e) / (lk.d1R (lk.fiR e) * fam.VR (lk.fiR e)) / s,
    newton_w ho hm', ?_, ?_, ?_, ?_⟩
  · refine (eta_dom_nhds hm').mono fun e he => ?_
    exact ⟨_, _, rfl, (eta_dom_nhds he).mono fun e' he' => lpEta_eq hy hs he',
      lEta_deriv hy hs he h2⟩
  · have hmd : HasDerivAt lk.fiR (1 / lk.d1R m) eta := fiR_deriv lk eta
    have hnum := hmd.const_sub y
    have hden : HasDerivAt (fun e => lk.d1R (lk.fiR e) * fam.VR (lk.fiR e))
        (lk.d2R m * (1 / lk.d1R m) * fam.VR m + lk.d1R m * (fam.dVR m * (1 / lk.d1R m))) eta :=
      (HasDerivAt.comp (h₂ := lk.d1R) eta (d1R_deriv (fi_mem lk eta)) hmd).mul
        (HasDerivAt.comp (h₂ := fam.VR) eta (VR_deriv fam (lk.fiR eta)) hmd)
    have := (hnum.div hden (by rw [← hmdef]; positivity)).div_const s
    refine this.congr_deriv ?_
    rw [← hmdef]
    simp only [aR]
    field_simp
    ring
  · intro hw
    have ha : aR fam lk y m ≠ 0 := by
      intro hc; apply hw; rw [← hmdef, hc]; simp
    refine ⟨_, by rw [← hmdef, fin_div ha, fin_add], ?_⟩
    dsimp only
    rw [← hmdef]
    field_simp
    ring
  · intro hw
    have ha : aR fam lk y m = 0 := by
      rw [← hmdef] at hw
      rcases div_eq_zero_iff.1 hw with h | h
      · exact h
      · have : 0 < lk.d1R m ^ 2 * fam.VR m := by positivity
        exact absurd h this.ne'
    have hym : y - m ≠ 0 := by
      intro hc
      simp [aR, hc] at ha
    rw [newton_w ho hm', ← hmdef, ha]
    intro hv
    have hv1 : (fin (lk.d1R m * (y - m)) / fin 0 + fin eta).IsFin := hv.1
    have hne : lk.d1R m * (y - m) ≠ 0 := mul_ne_zero h1.ne' hym
    have e : fin (lk.d1R m * (y - m)) / fin 0 = infSign (lk.d1R m * (y - m)) := by
      show Fl.div _ _ = _
      simp [Fl.div]
    rw [e] at hv1
    unfold infSign at hv1
    split_ifs at hv1
    · exact hv1
    · exact hv1
    · rename_i a b; exact hne (le_antisymm (not_lt.1 a) (not_lt.1 b))

/-- **C21.** For the families flagged canonical, Fisher and Newton working data coincide. -/
theorem canonical_weights {fam : FamKind} {lk : LinkKind} (hc : isCanonical fam lk = true)
    {y eta : ℝ} (hy : y ∈ fam.obs) (hm : ∃ mu ∈ fam.dom, lk.fi (fin eta) = fin mu) :
    newtonZW fam lk (fin y) (lk.fi (fin eta)) (fin eta) =
      fisherZW fam lk (fin y) (lk.fi (fin eta)) (fin eta) := by
  have hm' : lk.fiR eta ∈ fam.dom := by
    obtain ⟨mu, hmu, he⟩ := hm
    rw [fi_eq, fin_inj] at he; rwa [he]
  have ho := ok_of_obs hy
  have ha : aR fam lk y (lk.fiR eta) = 1 := by
    unfold aR
    have : fam.dVR (lk.fiR eta) / fam.VR (lk.fiR eta) +
        lk.d2R (lk.fiR eta) / lk.d1R (lk.fiR eta) = 0 := by
      have hd := fi_mem lk eta
      generalize lk.fiR eta = m at hd hm'
      cases fam <;> cases lk <;> simp [isCanonical] at hc
      · obtain ⟨h0, h1⟩ := hd
        have h1' : 0 < 1 - m := by linarith
        have hn : (0 : ℝ) < (_ : ℕ) := Nat.cast_pos.2 ho
        simp only [FamKind.dVR, FamKind.VR, LinkKind.d1R, LinkKind.d2R]
        field_simp; ring
      · simp [FamKind.dVR, FamKind.VR, LinkKind.d1R, LinkKind.d2R]
      · have h0 : 0 < m := hd
        simp only [FamKind.dVR, FamKind.VR, LinkKind.d1R, LinkKind.d2R]
        field_simp; ring
    rw [this]; ring
  rw [newton_w ho hm', fisher_eq ho hm', ha, fin_div one_ne_zero, fin_add]
  simp

/-- **C21.** The Fisher weight is the mean of the Newton weight over any distribution of the
observation with the fitted mean. -/
theorem fisher_is_expected_newton {fam : FamKind} {lk : LinkKind} (ho : fam.ok) {eta mu : ℝ}
    (hmu : lk.fi (fin eta) = fin mu) (hm : mu ∈ fam.dom) (P : MeasureTheory.Measure ℝ)
    [MeasureTheory.IsProbabilityMeasure P] (hi : MeasureTheory.Integrable (fun y => y) P)
    (hmean : ∫ y, y ∂P = mu) (y0 : ℝ) :
    ∃ wF : ℝ, (fisherZW fam lk (fin y0) (lk.fi (fin eta)) (fin eta)).2 = fin wF ∧
      ∃ wN : ℝ → ℝ, (∀ y, (newtonZW fam lk (fin y) (lk.fi (fin eta)) (fin eta)).2 = fin (wN y)) ∧
        ∫ y, wN y ∂P = wF := by
  rw [fi_eq, fin_inj] at hmu
  subst hmu
  refine ⟨_, by rw [fisher_eq ho hm], fun y => aR fam lk y (lk.fiR eta) /
    (lk.d1R (lk.fiR eta) ^ 2 * fam.VR (lk.fiR eta)), fun y => by rw [newton_w ho hm], ?_⟩
  rw [MeasureTheory.integral_div]
  congr 1
  unfold aR
  have hi2 : MeasureTheory.Integrable (fun y : ℝ => y - lk.fiR eta) P :=
    hi.sub (MeasureTheory.integrable_const _)
  rw [MeasureTheory.integral_add (MeasureTheory.integrable_const _) (hi2.mul_const _),
    MeasureTheory.integral_mul_const, MeasureTheory.integral_sub hi
      (MeasureTheory.integrable_const _), hmean]
  simp

/-- **C21.** Working data are refused exactly if no row has finite pseudo-data and weight; otherwise the flag marks the
rows where one of them is not finite, pseudo-data are finite exactly for unmarked rows, and there unchanged, as are all
weights. -/
theorem working_data {N : ℕ} (zw : Fin N → Fl × Fl) :
    (workingData zw = none ↔ ∀ i, ¬((zw i).1.IsFin ∧ (zw i).2.IsFin)) ∧
    ∀ r, workingData zw = some r → (∃ i, ¬ r.2.2 i) ∧ ∀ i, (r.2.2 i ↔ ¬((zw i).1.IsFin ∧ (zw i).2.IsFin)) ∧
      ((r.1 i).IsFin ↔ ¬ r.2.2 i) ∧ (¬ r.2.2 i → r.1 i = (zw i).1) ∧ r.2.1 i = (zw i).2 := by
  unfold workingData
  by_cases h : ∀ i, invalid (zw i)
  · rw [if_pos h]
    exact ⟨⟨fun _ => h, fun _ => rfl⟩, fun r hr => by cases hr⟩
  · rw [if_neg h]
    refine ⟨⟨fun hh => (by cases hh), fun hh => absurd hh h⟩, fun r hr => ?_⟩
    simp only [Option.some.injEq] at hr
    subst hr
    refine ⟨not_forall.1 h, fun i => ⟨Iff.rfl, ?_, fun hi => if_neg hi, rfl⟩⟩
    dsimp only
    by_cases hi : invalid (zw i)
    · rw [if_pos hi]
      exact ⟨fun hh => absurd hh (by simp [Fl.IsFin]), fun hh => absurd hi hh⟩
    · rw [if_neg hi]
      refine ⟨fun _ => hi, fun _ => ?_⟩
      unfold invalid at hi
      exact (not_not.1 hi).1

/-- Two rows, the second with infinite weight. -/
example : ∃ r, workingData (fun i : Fin 2 => if i = 0 then (.fin 1, .fin 2) else (.fin 1, .pinf)) = some r ∧
    ¬ r.2.2 0 ∧ r.2.2 1 := by
  have h := working_data (fun i : Fin 2 => if i = 0 then ((.fin 1, .fin 2) : Fl × Fl) else (.fin 1, .pinf))
  cases hw : workingData (fun i : Fin 2 => if i = 0 then ((.fin 1, .fin 2) : Fl × Fl) else (.fin 1, .pinf)) with
  | none =>
    have := h.1.1 hw 0
    simp [Fl.IsFin] at this
  | some r =>
    refine ⟨r, rfl, ?_, ?_⟩
    · rw [((h.2 r hw).2 0).1]
      simp [Fl.IsFin]
    · rw [((h.2 r hw).2 1).1]
      simp [Fl.IsFin]

/-- **C21.** The weighted least squares problem assembled by `update_PIRLS` is the scoring
equation: the gradient of its residual sum at the current coefficients,
`Xbᵀ (yb - Xb coef)`, is the scale times the reported (and true) score. -/
theorem pirls_normal_eq {N p : ℕ} (fam : Fin N → FamKind) (lk : LinkKind) (y : Fin N → ℝ)
    (X : Fin N → Fin p → ℝ) (s : ℝ) (coef : Fin p → ℝ) (hs : 0 < s)
    (hy : ∀ i, y i ∈ (fam i).obs)
    (hm : ∀ i, ∃ mu ∈ (fam i).dom, lk.fi (fin (linpred X coef i)) = fin mu) (j : Fin p) :
    let zw := fun i => fisherZW (fam i) lk (fin (y i)) (lk.fi (fin (linpred X coef i)))
      (fin (linpred X coef i))
    ∃ g, dllkdcoef fam lk y X s coef j = fin g ∧
      (List.zipWith (fun xb yb => xb j * (yb - ∑ k, xb k * coef k)) (pirlsX zw X)
        (pirlsY zw)).sum = s * g := by
  intro zw
  have hm' : ∀ i, lk.fiR (linpred X coef i) ∈ (fam i).dom := by
    intro i
    obtain ⟨mu, hmu, he⟩ := hm i
    rw [fi_eq, fin_inj] at he
    rwa [he]
  have hzw : ∀ i, zw i = _ := fun i => fisher_eq (lk := lk) (y := y i) (ok_of_obs (hy i)) (hm' i)
  have hval : validRows zw = List.finRange N := by
    unfold validRows
    rw [List.filter_eq_self]
    intro i _
    simp [invalid, hzw i, IsFin]
  set G : Fin N → ℝ := fun i => (y i - lk.fiR (linpred X coef i)) /
    (lk.d1R (lk.fiR (linpred X coef i)) * (fam i).VR (lk.fiR (linpred X coef i))) with hG
  refine ⟨(∑ i, G i * X i j) / s, ?_, ?_⟩
  · unfold dllkdcoef
    have e : ∀ i, Fl.clean ((fin (y i) - lk.fi (fin (linpred X coef i))) /
        (lk.dy1 (lk.fi (fin (linpred X coef i))) * (fam i).V (lk.fi (fin (linpred X coef i)))))
          = fin (G i) := by
      intro i
      have h1 := (d1_pos (fi_mem lk (linpred X coef i)))
      have h3 := (V_pos (ok_of_obs (hy i)) (hm' i))
      rw [fi_eq, d1_eq (fi_mem lk _), V_eq (ok_of_obs (hy i)), fin_mul, fin_sub,
        fin_div (by positivity), clean_fin]
    simp only [e, fin_mul]
    rw [sum_fin, fin_div hs.ne']
  · unfold pirlsX pirlsY
    rw [hval, List.zipWith_map, List.zipWith_self]
    rw [mul_div_cancel₀ _ hs.ne', ← List.ofFn_eq_map, List.sum_ofFn]
    refine Finset.sum_congr rfl fun i _ => ?_
    rw [hzw i]
    simp only [val_fin]
    have h1 := (d1_pos (fi_mem lk (linpred X coef i)))
    have h3 := (V_pos (ok_of_obs (hy i)) (hm' i))
    set d := lk.d1R (lk.fiR (linpred X coef i))
    set v := (fam i).VR (lk.fiR (linpred X coef i))
    have e2 : ∑ k, Real.sqrt (1 / (d ^ 2 * v)) * X i k * coef k
        = Real.sqrt (1 / (d ^ 2 * v)) * linpred X coef i := by
      unfold linpred; rw [Finset.mul_sum]; exact Finset.sum_congr rfl fun k _ => by ring
    rw [e2]
    have hsq : Real.sqrt (1 / (d ^ 2 * v)) * Real.sqrt (1 / (d ^ 2 * v)) = 1 / (d ^ 2 * v) :=
      Real.mul_self_sqrt (by positivity)
    have : Real.sqrt (1 / (d ^ 2 * v)) * X i j * (Real.sqrt (1 / (d ^ 2 * v)) *
        (d * (y i - lk.fiR (linpred X coef i)) + linpred X coef i) -
          Real.sqrt (1 / (d ^ 2 * v)) * linpred X coef i) =
        (Real.sqrt (1 / (d ^ 2 * v)) * Real.sqrt (1 / (d ^ 2 * v))) * X i j *
          (d * (y i - lk.fiR (linpred X coef i))) := by ring
    have hGi : G i = (y i - lk.fiR (linpred X coef i)) / (d * v) := rfl
    rw [this, hsq, hGi]
    field_simp

end Verif.Fam
