import Verif.RhoLemmas
import Mathlib.Tactic.NormNum
import Mathlib.LinearAlgebra.Matrix.Notation

/-!
# Theorems about priors, weights and corrected degrees of freedom (properties C50, C68)
-/

namespace Verif.Rho

open Matrix

/-! ## Priors -/

/-- C50: the joint uniform prior is minus infinity exactly outside the box. -/
theorem mv_support (a b : ℝ) {k : ℕ} (rho : Fin k → ℝ) : mvLogpdf a b rho = ⊥ ↔ ∃ i, rho i ∉ Set.Icc a b := by
  unfold mvLogpdf
  constructor
  · intro h
    by_contra hc
    push Not at hc
    rw [if_neg] at h
    · exact EReal.coe_ne_bot _ h
    · rintro (⟨i, hi⟩ | ⟨i, hi⟩)
      · exact absurd (hc i).1 (not_le.2 hi)
      · exact absurd (hc i).2 (not_le.2 hi)
  · rintro ⟨i, hi⟩
    rw [if_pos]
    rw [Set.mem_Icc, not_and_or, not_le, not_le] at hi
    exact hi.imp (fun h => ⟨i, h⟩) (fun h => ⟨i, h⟩)

example : mvLogpdf (-1) 2 ![0, 3] = ⊥ := (mv_support _ _ _).2 ⟨1, by norm_num⟩

/-- C50: the joint uniform prior is a probability density. -/
theorem mv_density (a b : ℝ) (h : a < b) (k : ℕ) : ∫⁻ rho : Fin k → ℝ, EReal.exp (mvLogpdf a b rho) = 1 := by
  have h1 : ∀ rho : Fin k → ℝ, EReal.exp (mvLogpdf a b rho) =
      (Set.Icc (fun _ => a) (fun _ => b)).indicator (fun _ => ENNReal.ofReal (Real.exp (∑ _i : Fin k, -Real.log (b - a)))) rho := by
    intro rho
    by_cases hr : rho ∈ Set.Icc (fun _ => a) (fun _ => b)
    · rw [Set.indicator_of_mem hr, mvLogpdf, if_neg]
      · rw [EReal.exp_coe, Finset.sum_const, Finset.card_univ, Fintype.card_fin, nsmul_eq_mul]
      · rintro (⟨i, hi⟩ | ⟨i, hi⟩)
        · exact absurd (hr.1 i) (not_le.2 hi)
        · exact absurd (hr.2 i) (not_le.2 hi)
    · rw [Set.indicator_of_notMem hr, (mv_support a b rho).2, EReal.exp_bot]
      by_contra hc
      push Not at hc
      exact hr ⟨fun i => (hc i).1, fun i => (hc i).2⟩
  rw [MeasureTheory.lintegral_congr h1, MeasureTheory.lintegral_indicator measurableSet_Icc, MeasureTheory.setLIntegral_const]
  exact box_integral (fun _ => a) (fun _ => b) fun _ => h

example : ∫⁻ rho : Fin 2 → ℝ, EReal.exp (mvLogpdf (-1) 2 rho) = 1 := mv_density _ _ (by norm_num) _

/-- C50: the centred prior is minus infinity exactly outside its box. -/
theorem c_support {k : ℕ} (lo up rho : Fin k → ℝ) : cLogpdf lo up rho = ⊥ ↔ ∃ i, rho i ∉ Set.Icc (lo i) (up i) := by
  rw [cLogpdf_eq]
  have h : (∃ i, rho i < lo i ∨ up i < rho i) ↔ ∃ i, rho i ∉ Set.Icc (lo i) (up i) := by
    simp only [Set.mem_Icc, not_and_or, not_le]
  by_cases hc : ∃ i, rho i < lo i ∨ up i < rho i
  · rw [if_pos hc]; exact ⟨fun _ => h.1 hc, fun _ => rfl⟩
  · rw [if_neg hc]; exact ⟨fun h' => absurd h' (EReal.coe_ne_bot _), fun h' => absurd (h.2 h') hc⟩

/-- C50: the centred prior is a probability density and gives positive density to its centre, if every centre is strictly within the
overall limits. -/
theorem c_density (a b c : ℝ) (hc : 0 < c) {k : ℕ} (mrho : Fin k → ℝ) (hm : ∀ i, a < mrho i ∧ mrho i < b) :
    (∫⁻ rho : Fin k → ℝ, EReal.exp (cLogpdf (cLow a c mrho) (cUp b c mrho) rho) = 1) ∧
      cLogpdf (cLow a c mrho) (cUp b c mrho) mrho ≠ ⊥ ∧
      ∀ rho, cLogpdf (cLow a c mrho) (cUp b c mrho) rho ≠ ⊥ → ∀ i, |rho i - mrho i| ≤ c ∧ rho i ∈ Set.Icc a b := by
  have hlt : ∀ i, cLow a c mrho i < cUp b c mrho i := by
    intro i
    obtain ⟨h1, h2⟩ := hm i
    rw [cLow, cUp, max_lt_iff, lt_min_iff, lt_min_iff]
    refine ⟨⟨?_, ?_⟩, ?_, ?_⟩ <;> linarith
  refine ⟨?_, ?_, ?_⟩
  · set lo := cLow a c mrho
    set up := cUp b c mrho
    have h1 : ∀ rho : Fin k → ℝ, EReal.exp (cLogpdf lo up rho) =
        (Set.Icc lo up).indicator (fun _ => ENNReal.ofReal (Real.exp (∑ i : Fin k, -Real.log (up i - lo i)))) rho := by
      intro rho
      rw [cLogpdf_eq]
      by_cases hr : ∃ i, rho i < lo i ∨ up i < rho i
      · rw [if_pos hr, Set.indicator_of_notMem, EReal.exp_bot]
        exact fun h => (not_out lo up rho).2 h hr
      · rw [if_neg hr, Set.indicator_of_mem ((not_out lo up rho).1 hr), EReal.exp_coe]
    rw [MeasureTheory.lintegral_congr h1, MeasureTheory.lintegral_indicator measurableSet_Icc, MeasureTheory.setLIntegral_const]
    exact box_integral lo up hlt
  · rw [Ne, c_support]
    rintro ⟨i, hi⟩
    apply hi
    obtain ⟨h1, h2⟩ := hm i
    rw [cLow, cUp, Set.mem_Icc, max_le_iff, le_min_iff]
    refine ⟨⟨?_, ?_⟩, ?_, ?_⟩ <;> linarith
  · intro rho hr i
    have hi : rho i ∈ Set.Icc (cLow a c mrho i) (cUp b c mrho i) := by
      by_contra hn
      exact hr ((c_support _ _ _).2 ⟨i, hn⟩)
    rw [cLow, cUp, Set.mem_Icc, max_le_iff, le_min_iff] at hi
    obtain ⟨⟨h1, h2⟩, h3, h4⟩ := hi
    exact ⟨abs_le.2 ⟨by linarith, by linarith⟩, h2, h4⟩

example : ∫⁻ rho : Fin 2 → ℝ, EReal.exp (cLogpdf (cLow (-16) 2 ![3, -15]) (cUp 16 2 ![3, -15]) rho) = 1 :=
  (c_density (-16) 16 2 (by norm_num) _ (by intro i; fin_cases i <;> norm_num)).1

/-- C50, part: projection into the joint prior's box works if the box contains zero, and then leaves valid values alone.  Missing: boxes
that do not contain zero, see `mv_valid_wrong`. -/
theorem mv_valid_partial (a b : ℝ) (ha : a ≤ 0) (hb : 0 ≤ b) {k : ℕ} (rho : Fin k → ℝ) :
    mvLogpdf a b (mvValid a b rho) ≠ ⊥ ∧ ∀ i, rho i ∈ Set.Icc a b → mvValid a b rho i = rho i := by
  constructor
  · rw [Ne, mv_support]
    rintro ⟨i, hi⟩
    apply hi
    unfold mvValid
    dsimp only
    split_ifs <;> constructor <;> linarith
  · intro i hi
    unfold mvValid
    dsimp only
    rw [if_neg (not_lt.2 hi.1), if_neg (not_lt.2 hi.2)]

example : mvValid (-10) 5 ![-20, 3, 7] = ![-9, 3, 9 / 2] := by
  ext i; fin_cases i <;> simp [mvValid] <;> norm_num

/-- C50, negation: with a positive lower limit the projected value of a too small parameter is outside the prior's support. -/
theorem mv_valid_wrong (a b : ℝ) (ha : 0 < a) (hab : a ≤ b) {k : ℕ} (rho : Fin k → ℝ) (i : Fin k) (hi : rho i < a) :
    mvLogpdf a b (mvValid a b rho) = ⊥ := by
  rw [mv_support]
  refine ⟨i, fun h => ?_⟩
  unfold mvValid at h
  dsimp only at h
  rw [if_pos hi, if_neg (by linarith)] at h
  have := h.1
  linarith

example : mvLogpdf 1 5 (mvValid 1 5 ![0, 2]) = ⊥ := mv_valid_wrong 1 5 (by norm_num) (by norm_num) _ 0 (by norm_num)

/-- C50, part: projection into the centred box works if every interval contains zero. -/
theorem c_valid_partial {k : ℕ} (lo up rho : Fin k → ℝ) (h : ∀ i, lo i ≤ 0 ∧ 0 ≤ up i) :
    cLogpdf lo up (cValid lo up rho) ≠ ⊥ ∧ ∀ i, rho i ∈ Set.Icc (lo i) (up i) → cValid lo up rho i = rho i := by
  constructor
  · rw [Ne, c_support]
    rintro ⟨i, hi⟩
    apply hi
    obtain ⟨h1, h2⟩ := h i
    unfold cValid
    split_ifs <;> constructor <;> linarith
  · intro i hi
    unfold cValid
    rw [if_neg (not_lt.2 hi.2), if_neg (not_lt.2 hi.1)]

/-- C50, negation: under the centred prior with any estimate above the width `c`, a value too small by any amount is moved to a value
that is still outside the support; below `-c` the same happens to values that are too large. -/
theorem c_valid_wrong (a b c : ℝ) (hc : 0 < c) {k : ℕ} (mrho rho : Fin k → ℝ) (hm : ∀ i, a < mrho i ∧ mrho i < b) (i : Fin k)
    (h : (c < mrho i ∧ rho i < cLow a c mrho i) ∨ (mrho i < -c ∧ cUp b c mrho i < rho i)) :
    cLogpdf (cLow a c mrho) (cUp b c mrho) (cValid (cLow a c mrho) (cUp b c mrho) rho) = ⊥ := by
  obtain ⟨h1, h2⟩ := hm i
  have hlt : cLow a c mrho i < cUp b c mrho i := by
    rw [cLow, cUp, max_lt_iff, lt_min_iff, lt_min_iff]
    refine ⟨⟨?_, ?_⟩, ?_, ?_⟩ <;> linarith
  rw [c_support]
  refine ⟨i, fun hi => ?_⟩
  rcases h with ⟨h3, h4⟩ | ⟨h3, h4⟩
  · have hpos : 0 < cLow a c mrho i := lt_of_lt_of_le (by linarith) (le_max_left (mrho i - c) a)
    unfold cValid at hi
    rw [if_neg (by linarith), if_pos h4] at hi
    have := hi.1
    linarith
  · have hneg : cUp b c mrho i < 0 := lt_of_le_of_lt (min_le_left (mrho i + c) b) (by linarith)
    unfold cValid at hi
    rw [if_pos h4] at hi
    have := hi.2
    linarith

example : cLogpdf (cLow (-16) 2 ![5]) (cUp 16 2 ![5]) (cValid (cLow (-16) 2 ![5]) (cUp 16 2 ![5]) ![1]) = ⊥ :=
  c_valid_wrong (-16) 16 2 (by norm_num) _ _ (by intro i; fin_cases i; norm_num) 0 (Or.inl ⟨by norm_num, by simp [cLow]; norm_num⟩)

/-! ## Weights -/

/-- C68: if some sample has a finite score the weights exist, are non-negative, add up to one, vanish exactly for the samples with
score minus infinity, and have ratios equal to the exponentials of the differences of scores. -/
theorem softmax_spec {m : ℕ} (s : Fin m → Option ℝ) (h : ∃ i, s i ≠ none) : ∃ w : Fin m → ℝ,
    (∀ i, softmax s i = some (w i)) ∧ (∀ i, 0 ≤ w i) ∧ ∑ i, w i = 1 ∧ (∀ i, w i = 0 ↔ s i = none) ∧
      ∀ i j x y, s i = some x → s j = some y → w i = Real.exp (x - y) * w j := by
  have hne : ∑ j, expO (s j) ≠ 0 := by
    rw [Ne, sum_expO_eq_zero]; intro hc; obtain ⟨i, hi⟩ := h; exact hi (hc i)
  have hpos : 0 < ∑ j, expO (s j) := lt_of_le_of_ne (Finset.sum_nonneg fun j _ => expO_nonneg _) hne.symm
  refine ⟨fun i => expO (s i) / ∑ j, expO (s j), fun i => by rw [softmax, if_neg hne], fun i => div_nonneg (expO_nonneg _) hpos.le,
    ?_, ?_, ?_⟩
  · rw [← Finset.sum_div, div_self hne]
  · intro i
    rw [div_eq_zero_iff, or_iff_left hne, expO_eq_zero]
  · intro i j x y hx hy
    dsimp only
    rw [hx, hy, expO, expO, mul_div_assoc', ← Real.exp_add, sub_add_cancel]

/-- C68: without any finite score there are no weights (the code gets nan). -/
theorem softmax_none {m : ℕ} (s : Fin m → Option ℝ) (h : ∀ i, s i = none) (i : Fin m) : softmax s i = none := by
  rw [softmax, if_pos ((sum_expO_eq_zero s).2 h)]

/-- C68: with a prior, a sample counts exactly if it lies within the support of the prior, and then in proportion to likelihood times
prior density over proposal density. -/
theorem importance_weights {m : ℕ} (reml logq : Fin m → ℝ) (logp : Fin m → EReal) (htop : ∀ i, logp i ≠ ⊤)
    (h : ∃ i, logp i ≠ ⊥) : ∃ w : Fin m → ℝ, ∃ c : ℝ, 0 < c ∧ (∀ i, softmax (fun i => score (reml i) (logp i) (logq i)) i = some (w i)) ∧
      ∑ i, w i = 1 ∧ (∀ i, w i = 0 ↔ logp i = ⊥) ∧
      ∀ i, ENNReal.ofReal (w i) = ENNReal.ofReal (c * (Real.exp (reml i) / Real.exp (logq i))) * EReal.exp (logp i) := by
  have hs : ∀ i, score (reml i) (logp i) (logq i) = none ↔ logp i = ⊥ := by
    intro i; unfold score; split_ifs with hi <;> simp [hi]
  obtain ⟨i₀, hi₀⟩ := h
  have hex : ∃ i, score (reml i) (logp i) (logq i) ≠ none := ⟨i₀, fun hc => hi₀ ((hs i₀).1 hc)⟩
  obtain ⟨w, h1, h2, h3, h4, h5⟩ := softmax_spec _ hex
  have hw0 : 0 < w i₀ := lt_of_le_of_ne (h2 i₀) (fun hc => hi₀ ((hs i₀).1 ((h4 i₀).1 hc.symm)))
  refine ⟨w, w i₀ * Real.exp (-(reml i₀ + (logp i₀).toReal - logq i₀)), mul_pos hw0 (Real.exp_pos _), h1, h3,
    fun i => (h4 i).trans (hs i), ?_⟩
  intro i
  by_cases hi : logp i = ⊥
  · rw [(h4 i).2 ((hs i).2 hi), hi, EReal.exp_bot, mul_zero, ENNReal.ofReal_zero]
  · have hv : score (reml i) (logp i) (logq i) = some (reml i + (logp i).toReal - logq i) := by rw [score, if_neg hi]
    have hv0 : score (reml i₀) (logp i₀) (logq i₀) = some (reml i₀ + (logp i₀).toReal - logq i₀) := by rw [score, if_neg hi₀]
    have h6 := h5 i i₀ _ _ hv hv0
    obtain ⟨x, hx⟩ : ∃ x : ℝ, logp i = (x : EReal) := ⟨(logp i).toReal, (EReal.coe_toReal (htop i) hi).symm⟩
    rw [h6, hx, EReal.exp_coe, ← ENNReal.ofReal_mul (mul_nonneg (mul_nonneg (h2 i₀) (Real.exp_pos _).le)
      (div_nonneg (Real.exp_pos _).le (Real.exp_pos _).le)), EReal.toReal_coe, ← Real.exp_sub]
    congr 1
    rw [mul_assoc, mul_assoc, ← Real.exp_add, ← Real.exp_add, mul_comm]
    congr 2
    ring

example : ∃ w : Fin 2 → ℝ, (∀ i, softmax ![some 0, none] i = some (w i)) ∧ w 1 = 0 := by
  obtain ⟨w, h1, -, -, h4, -⟩ := softmax_spec ![some 0, none] ⟨0, by simp⟩
  exact ⟨w, h1, (h4 1).2 rfl⟩

/-- C68: without importance weights every sample has weight one over their number. -/
theorem uniform_weights (m : ℕ) (i : Fin m) : softmax (fun _ : Fin m => some (1 : ℝ)) i = some (1 / (m : ℝ)) := by
  have hm : (m : ℝ) ≠ 0 := by
    have := i.pos
    exact_mod_cast this.ne'
  have hs : ∑ _j : Fin m, expO (some (1 : ℝ)) = m * Real.exp 1 := by simp [expO]
  rw [softmax, hs, if_neg (mul_ne_zero hm (Real.exp_pos 1).ne'), expO]
  congr 1
  field_simp

/-! ## Covariances from weighted samples -/

variable {n : Type} [Fintype n]

/-- C68: the covariance of the log smoothing parameters is positive semi-definite. -/
theorem updateVp_posSemidef {m : ℕ} (ep : n → ℝ) (w : Fin m → ℝ) (hw : ∀ r, 0 ≤ w r) (x : Fin m → n → ℝ) :
    (updateVp ep w x).PosSemidef :=
  posSemidef_wsum w hw _ fun _ => posSemidef_vecMulVec _

/-- C68: it is the variance under the weights: second moment minus the product of means, and every linear combination has as variance
the weighted mean of squared deviations. -/
theorem updateVp_variance {m : ℕ} (w : Fin m → ℝ) (hs : ∑ r, w r = 1) (x : Fin m → n → ℝ) (i j : n) :
    updateVp (wmean w x) w x i j = (∑ r, w r * (x r i * x r j)) - (∑ r, w r * x r i) * ∑ r, w r * x r j := by
  rw [scatter w hs]
  simp [Matrix.sum_apply, vecMulVec_apply, wmean]

/-- C68: the covariance of the coefficients is within plus between variance, so it is positive semi-definite and at least the mean of
the covariances given the samples. -/
theorem cov_total {m : ℕ} (w : Fin m → ℝ) (hw : ∀ r, 0 ≤ w r) (hs : ∑ r, w r = 1) (V : Fin m → Matrix n n ℝ)
    (hV : ∀ r, (V r).PosSemidef) (coef : Fin m → n → ℝ) :
    (covJ3 w V coef).PosSemidef ∧ (covJ3 w V coef - ∑ r, w r • V r).PosSemidef := by
  have h : covJ3 w V coef = (∑ r, w r • V r) + updateVp (wmean w coef) w coef := by
    rw [scatter w hs, covJ3]; abel
  have h2 := updateVp_posSemidef (wmean w coef) w hw coef
  rw [h]
  exact ⟨(posSemidef_wsum w hw V hV).add h2, by rw [add_sub_cancel_left]; exact h2⟩

example : (covJ3 ![1 / 2, 1 / 2] (fun _ => (1 : Matrix (Fin 2) (Fin 2) ℝ)) ![![1, 2], ![3, 4]]).PosSemidef :=
  (cov_total _ (by intro r; fin_cases r <;> norm_num) (by simp [Fin.sum_univ_two]; norm_num) _ (fun _ => PosSemidef.one) _).1

variable [DecidableEq n]

/-- C68: with an exact eigendecomposition of a positive semi-definite covariance the root reproduces it, and the regularised version is
positive semi-definite, never larger, and at most one hundred in every direction. -/
theorem root_spec (Vp U : Matrix n n ℝ) (e : n → ℝ) (hU : Uᵀ * U = 1) (hV : Vp = U * diagonal e * Uᵀ) (hp : Vp.PosSemidef) :
    fromRoot U (fun i => rootD (e i)) = Vp ∧ (fromRoot U fun i => rootR (e i)).PosSemidef ∧
      (Vp - fromRoot U fun i => rootR (e i)).PosSemidef ∧ ((100 : ℝ) • (1 : Matrix n n ℝ) - fromRoot U fun i => rootR (e i)).PosSemidef := by
  have hfr : ∀ d : n → ℝ, fromRoot U d = U * diagonal (fun i => d i * d i) * Uᵀ := by
    intro d
    rw [fromRoot, transpose_mul, transpose_transpose, diagonal_transpose, ← diagonal_mul_diagonal]
    simp only [Matrix.mul_assoc]
  have hpsd : ∀ d : n → ℝ, (∀ i, 0 ≤ d i) → (U * diagonal d * Uᵀ).PosSemidef := by
    intro d hd
    have := (PosSemidef.diagonal (n := n) (d := d) hd).mul_mul_conjTranspose_same U
    rwa [conjTranspose_eq_transpose_of_trivial] at this
  have he : ∀ i, 0 ≤ e i := by
    have h1 : diagonal e = Uᵀ * Vp * U := by
      rw [hV]
      calc diagonal e = Uᵀ * U * diagonal e * (Uᵀ * U) := by rw [hU, Matrix.one_mul, Matrix.mul_one]
        _ = _ := by simp only [Matrix.mul_assoc]
    have h2 := hp.conjTranspose_mul_mul_same U
    rw [conjTranspose_eq_transpose_of_trivial, ← h1] at h2
    exact posSemidef_diagonal_iff.1 h2
  have hU2 : U * Uᵀ = 1 := mul_eq_one_comm.1 hU
  have hsub : ∀ d d' : n → ℝ, U * diagonal d * Uᵀ - U * diagonal d' * Uᵀ = U * diagonal (fun i => d i - d' i) * Uᵀ := by
    intro d d'
    rw [← Matrix.sub_mul, ← Matrix.mul_sub, diagonal_sub]
  have hR : ∀ i, rootR (e i) * rootR (e i) ≤ e i ∧ rootR (e i) * rootR (e i) ≤ 100 := by
    intro i
    unfold rootR
    split_ifs with hi
    · have hs : 0 < √(e i) := Real.sqrt_pos.2 hi
      have hinv : 0 < 1 / √(e i) := by positivity
      have h0 : 0 < 1 / (1 / √(e i) + 1 / 10) := by positivity
      have h1 : 1 / (1 / √(e i) + 1 / 10) ≤ √(e i) := by
        rw [div_le_iff₀ (by positivity), mul_add, mul_one_div_cancel hs.ne']
        linarith
      have h2 : 1 / (1 / √(e i) + 1 / 10) ≤ 10 := by
        rw [div_le_iff₀ (by positivity)]
        linarith
      constructor
      · calc _ ≤ √(e i) * √(e i) := mul_self_le_mul_self h0.le h1
          _ = e i := Real.mul_self_sqrt hi.le
      · calc _ ≤ (10 : ℝ) * 10 := mul_self_le_mul_self h0.le h2
          _ = 100 := by norm_num
    · constructor
      · simpa using he i
      · norm_num
  refine ⟨?_, ?_, ?_, ?_⟩
  · rw [hfr, hV]
    congr 3
    ext i
    unfold rootD
    split_ifs with hi
    · exact Real.mul_self_sqrt hi.le
    · have := he i
      rw [mul_zero]; linarith
  · rw [hfr]; exact hpsd _ fun i => mul_self_nonneg _
  · rw [hfr, hV, hsub]; exact hpsd _ fun i => sub_nonneg.2 (hR i).1
  · have h100 : (100 : ℝ) • (1 : Matrix n n ℝ) = U * diagonal (fun _ => (100 : ℝ)) * Uᵀ := by
      rw [← Matrix.smul_one_eq_diagonal, Matrix.mul_smul, Matrix.mul_one, Matrix.smul_mul, hU2]
    rw [hfr, h100, hsub]; exact hpsd _ fun i => sub_nonneg.2 (hR i).2

example : fromRoot (1 : Matrix (Fin 2) (Fin 2) ℝ) (fun i => rootD (![4, 0] i)) = diagonal ![4, 0] :=
  (root_spec (diagonal ![4, 0]) 1 ![4, 0] (by simp) (by simp)
    (PosSemidef.diagonal (by intro i; fin_cases i <;> simp))).1

/-! ## Corrected degrees of freedom -/

/-- C50: the corrected total never exceeds twice the uncorrected total minus the trace of the squared smoother matrix, and with
`formT1` the second total is that bound plus the correction. -/
theorem total_le (V nH ucF : Matrix n n ℝ) (e : ℝ) (t1 : Bool) :
    (correct V nH ucF e t1).2.1 ≤ 2 * e - (ucF * ucF).trace ∧
      (correct V nH ucF e t1).2.1 ≤ (V * nH).trace ∧
      (correct V nH ucF e t1).2.2.2 = 2 * e - (ucF * ucF).trace + (if t1 then (correct V nH ucF e t1).2.1 - e else 0) := by
  unfold correct
  dsimp only
  rw [bound_eq]
  refine ⟨?_, ?_, ?_⟩
  · split_ifs with h
    · exact le_rfl
    · exact not_lt.1 h
  · split_ifs with h
    · exact h.le
    · exact le_rfl
  · cases t1 <;> simp

/-- C50: correcting never lowers the total, for each of the three ways to correct.  `P` is the covariance given the estimate,
`H` the negative Hessian there and `S` the penalty. -/
theorem total_ge (H S P V nH : Matrix n n ℝ) (t1 : Bool) (hH : H.PosSemidef) (hS : S.PosSemidef) (hPs : Pᵀ = P)
    (hP : P * (H + S) = 1) (hV : (P * H).trace ≤ (V * nH).trace) :
    (P * H).trace ≤ (correct V nH (P * H) (P * H).trace t1).2.1 := by
  unfold correct
  dsimp only
  rw [bound_eq]
  split_ifs with h
  · have := trace_sq_le H S P (P * H) hH hS hPs hP rfl
    linarith
  · exact hV

/-- C50: the first way (a sum of the covariance given the estimate and positive semi-definite corrections). -/
theorem first_ge (H P C : Matrix n n ℝ) (hH : H.PosSemidef) (hC : C.PosSemidef) : (P * H).trace ≤ ((C + P) * H).trace := by
  rw [Matrix.add_mul, trace_add]
  have := trace_mul_nonneg C H hC hH
  linarith

/-- C50: the second way never lowers the trace. -/
theorem second_ge {k : Type} [Fintype k] {m : ℕ} (w : Fin m → ℝ) (V : Fin m → Matrix n n ℝ) (nH H P : Matrix n n ℝ)
    (Vcr : Matrix k n ℝ) (hn : nH.PosSemidef) (hH : H.PosSemidef) :
    (P * H).trace ≤ ((pickJ2 w V nH H P Vcr (P * H).trace).1 * (pickJ2 w V nH H P Vcr (P * H).trace).2).trace := by
  have hC : (Vcrᵀ * Vcr).PosSemidef := by
    have := posSemidef_conjTranspose_mul_self Vcr
    rwa [conjTranspose_eq_transpose_of_trivial] at this
  unfold pickJ2
  dsimp only
  split_ifs with h
  · rw [add_comm]; exact first_ge H P _ hH hC
  · rw [Matrix.add_mul, trace_add]
    have := trace_mul_nonneg _ nH hC hn
    linarith [not_lt.1 h]

/-- C50: the third way is never below the first way. -/
theorem third_ge {m : ℕ} (w : Fin m → ℝ) (V : Fin m → Matrix n n ℝ) (coef : Fin m → n → ℝ) (nH H Vlb : Matrix n n ℝ) :
    (Vlb * H).trace ≤ ((pickJ3 w V coef nH H Vlb).1 * (pickJ3 w V coef nH H Vlb).2).trace := by
  unfold pickJ3
  dsimp only
  split_ifs with h
  · exact le_rfl
  · exact not_lt.1 h

/-- C50: the expected degrees of freedom are never below those of the model. -/
theorem expected_ge {k : Type} [Fintype k] {m : ℕ} (J3 : Bool) (w edfs : Fin m → ℝ) (coef : Fin m → n → ℝ) (nH : Matrix n n ℝ)
    (Vcr : Matrix k n ℝ) (e : ℝ) (hn : nH.PosSemidef) : e ≤ expectedEdf J3 w edfs coef nH Vcr e := by
  have ht : 0 ≤ (Vcr * nH * Vcrᵀ).trace := by
    have := hn.mul_mul_conjTranspose_same Vcr
    rw [conjTranspose_eq_transpose_of_trivial] at this
    exact this.trace_nonneg
  have hm := le_max_left e (∑ r, w r * edfs r)
  unfold expectedEdf
  dsimp only
  split_ifs with h1 h2
  · linarith
  · linarith [not_lt.1 h2]
  · linarith

/-- C50, part: the degrees of freedom per coefficient add up to the total, provided the second bias corrected version is not requested or
the bound is not enforced.  Missing: the other case, see `edf_alias`. -/
theorem edf_sum_partial (V nH ucF : Matrix n n ℝ) (t1 : Bool)
    (h : t1 = false ∨ (V * nH).trace ≤ 2 * ucF.trace - (ucF * ucF).trace) :
    ∑ j, (correct V nH ucF ucF.trace t1).1 j = (correct V nH ucF ucF.trace t1).2.1 ∧
      ∑ j, (correct V nH ucF ucF.trace t1).2.2.1 j = (correct V nH ucF ucF.trace t1).2.2.2 := by
  have hb : ∑ j, (2 * ucF j j - ∑ i, ucF i j * ucFᵀ i j) = bound ucF ucF.trace := by
    rw [Finset.sum_sub_distrib, ← Finset.mul_sum]; rfl
  have hF : ∑ j, (V * nH) j j = (V * nH).trace := rfl
  have hU : ∑ j, ucF j j = ucF.trace := rfl
  rw [← bound_eq] at h
  unfold correct
  dsimp only
  rcases h with rfl | h
  · by_cases hc : (V * nH).trace > bound ucF ucF.trace
    · simp only [if_pos hc, Bool.false_eq_true, if_false, hb, and_self]
    · simp only [if_neg hc, Bool.false_eq_true, if_false, hb, hF, and_self]
  · have hc : ¬ (V * nH).trace > bound ucF ucF.trace := not_lt.2 h
    cases t1
    · simp only [if_neg hc, Bool.false_eq_true, if_false, hb, hF, and_self]
    · simp only [if_neg hc, if_true, Finset.sum_add_distrib, Finset.sum_sub_distrib, ← Finset.mul_sum, hF, hU, true_and]
      rfl

/-- C50, negation: when the bound is enforced and the bias corrected version is requested, the values per coefficient are overwritten:
they add up to the total plus the amount `tr F - tr F²`, which is more than the total unless that amount is zero. -/
theorem edf_alias (V nH ucF : Matrix n n ℝ) (h : 2 * ucF.trace - (ucF * ucF).trace < (V * nH).trace) :
    ∑ j, (correct V nH ucF ucF.trace true).1 j = (correct V nH ucF ucF.trace true).2.1 + (ucF.trace - (ucF * ucF).trace) := by
  have hb : ∑ j, (2 * ucF j j - ∑ i, ucF i j * ucFᵀ i j) = bound ucF ucF.trace := by
    rw [Finset.sum_sub_distrib, ← Finset.mul_sum]; rfl
  have hU : ∑ j, ucF j j = ucF.trace := rfl
  have hc : (V * nH).trace > bound ucF ucF.trace := by rw [bound_eq]; exact h
  unfold correct
  dsimp only
  simp only [if_pos hc, if_true, Finset.sum_add_distrib, Finset.sum_sub_distrib (f := fun j => 2 * ucF j j - ∑ i, ucF i j * ucFᵀ i j), hb,
    hU]
  rw [bound_eq]; ring

/-- One coefficient, `H = S = 1`: the total is `3/4` but the reported value is one. -/
example : (correct !![(2 : ℝ)] !![1] !![1 / 2] (1 / 2) true).1 0 = 1 ∧ (correct !![(2 : ℝ)] !![1] !![1 / 2] (1 / 2) true).2.1 = 3 / 4 := by
  have hb : bound !![(1 / 2 : ℝ)] (1 / 2) = 3 / 4 := by simp [bound]; norm_num
  have ht : (!![(2 : ℝ)] * !![1]).trace > bound !![(1 / 2 : ℝ)] (1 / 2) := by rw [hb]; simp [Matrix.trace_fin_one]; norm_num
  unfold correct
  dsimp only
  rw [if_pos ht, if_pos ht, hb]
  simp
  norm_num

example : (!![(1 / 2 : ℝ)] * !![1]).trace ≤ (correct !![(2 : ℝ)] !![1] (!![(1 / 2 : ℝ)] * !![1]) (!![(1 / 2 : ℝ)] * !![1]).trace true).2.1 := by
  have h1 : (!![(1 : ℝ)]).PosSemidef := by
    have : (!![(1 : ℝ)]) = (1 : Matrix (Fin 1) (Fin 1) ℝ) := by ext i j; fin_cases i; fin_cases j; rfl
    rw [this]; exact PosSemidef.one
  refine total_ge !![1] !![1] !![1 / 2] !![2] !![1] true h1 h1 ?_ ?_ ?_
  · ext i j; fin_cases i; fin_cases j; rfl
  · ext i j; fin_cases i; fin_cases j; simp; norm_num
  · simp [Matrix.trace_fin_one]; norm_num

/-- C68: this regularised covariance is another one than that of the other grid types, which add one tenth to the eigenvalues of the
precision (`compute_Vp_WPS` 3299-3303): variance one hundred becomes twenty-five here and one hundred elevenths there. -/
theorem regularised_wrong : ∃ e : ℝ, 0 < e ∧ rootR e * rootR e = 25 ∧
    (1 / √(1 / e + 1 / 10)) * (1 / √(1 / e + 1 / 10)) = 100 / 11 := by
  refine ⟨100, by norm_num, ?_, ?_⟩
  · have h : √(100 : ℝ) = 10 := by
      rw [show (100 : ℝ) = 10 * 10 by norm_num]
      exact Real.sqrt_mul_self (by norm_num)
    rw [rootR, if_pos (by norm_num), h]
    norm_num
  · rw [div_mul_div_comm, Real.mul_self_sqrt (by norm_num)]
    norm_num

end Verif.Rho
