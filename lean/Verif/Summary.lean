import Verif.SummaryLemmas

/-!
# Tests of parametric terms (property C85)
-/

namespace Verif.Summary

open Matrix Finset MeasureTheory ProbabilityTheory WithLp Predict

/-- A fitted model: coefficients laid out by formula; one formula for a GAMM, scale 1 for the other models; the linear
coefficients come first in formula `par`. -/
structure Fitted (P : Par) (w : List ℕ) (par : ℕ) : Prop where
  laid : Laid P.M w
  inRange : par < P.M.nform
  scale_nonneg : 0 ≤ P.M.scale
  gamm : P.isFamily = true → P.M.nform = 1 ∧ P.M.extra = false
  other : P.isFamily = false → P.M.scale = 1
  linear : P.nj ≤ w.getD par 0

theorem scale_eq {P : Par} {w : List ℕ} {par : ℕ} (h : Fitted P w par) : scale P = P.M.scale := by
  unfold scale
  cases hf : P.isFamily
  · rw [if_neg (by simp), h.other hf]
  · rw [if_pos rfl]

theorem coefs_eq {P : Par} {w : List ℕ} {par : ℕ} (h : Fitted P w par) :
    coefs P par = some ((w.take par).sum, (w.take (par + 1)).sum) := by
  have hc := h.laid.count
  have hp := h.inRange
  have hb := block_laid h.laid (par := par) (by omega)
  unfold coefs
  cases hf : P.isFamily
  · rw [if_neg (by simp)]
    rw [← hb]
    unfold block
    by_cases h1 : 1 < P.M.nform ∨ P.M.extra = true
    · rw [if_pos h1]
    · rw [if_neg h1]
      push Not at h1
      have hx : P.M.extra = false := by
        cases hM : P.M.extra
        · rfl
        · exact absurd hM h1.2
      rw [hx] at hc
      simp only [Bool.false_eq_true, if_false] at hc
      have hlen : P.M.split.length = w.length - 1 := by rw [h.laid.split, splitIdx_length]
      unfold piece
      have h0 : par = 0 := by omega
      rw [if_pos (by omega), if_pos h0, if_neg (by omega)]
  · rw [if_pos rfl]
    obtain ⟨h1, h2⟩ := h.gamm hf
    rw [← hb]
    unfold block
    rw [if_neg (by rw [h1, h2]; simp)]

theorem parametric_eq {P : Par} {w : List ℕ} {par : ℕ} (h : Fitted P w par) (ncdf : ℝ → ℝ) (tcdf : ℤ → ℝ → ℝ) :
    parametric ncdf tcdf P par = some ((List.range P.nj).map (line ncdf tcdf P (w.take par).sum)) := by
  have hpl : par < w.length := by have := h.laid.count; have := h.inRange; omega
  unfold parametric
  rw [coefs_eq h]
  show some ((List.range (min P.nj ((w.take (par + 1)).sum - (w.take par).sum))).map _) = _
  have hl := h.linear
  rw [List.getD_eq_getElem _ _ hpl] at hl
  rw [block_width hpl, min_eq_left hl]

theorem pos_lt {P : Par} {w : List ℕ} {par : ℕ} (h : Fitted P w par) {j : ℕ} (hj : j < P.nj) : (w.take par).sum + j < P.M.p := by
  have hpl : par < w.length := by have := h.laid.count; have := h.inRange; omega
  have h1 := take_sum_le w (par + 1)
  have hl := h.linear
  rw [List.getD_eq_getElem _ _ hpl] at hl
  rw [List.sum_take_succ w par hpl, ← h.laid.total] at h1
  omega

theorem vbj_eq {P : Par} {w : List ℕ} {par : ℕ} (h : Fitted P w par) {j : ℕ} (hj : j < P.nj) :
    vbj P (w.take par).sum j = Var[fun β => entry β ((w.take par).sum + j); posterior P.M] := by
  rw [marginal_var P.M h.scale_nonneg (pos_lt h hj)]
  unfold vbj
  rw [scale_eq h, mul_comm]

/-- **C85.** `print_parametric_terms` prints one line for each linear coefficient of the formula asked for, in order. The
statistic is the estimate divided by its posterior standard deviation. If no scale parameter was estimated, the p-value is
the posterior probability that the coefficient is at least as far from its estimate as zero is. -/
theorem parametric_rows {P : Par} {w : List ℕ} {par : ℕ} (h : Fitted P w par) (tcdf : ℤ → ℝ → ℝ) :
    ∃ rows, parametric (cdf (gaussianReal 0 1)) tcdf P par = some rows ∧ rows.length = P.nj ∧
      ∀ j r, rows[j]? = some r → 0 < Var[fun β => entry β ((w.take par).sum + j); posterior P.M] →
        r.coef = P.M.coef ((w.take par).sum + j) ∧
        r.stat = r.coef / √Var[fun β => entry β ((w.take par).sum + j); posterior P.M] ∧
        ((P.isFamily && P.twopar) = false →
          r.p = (posterior P.M).real {β | |r.coef| ≤ |entry β ((w.take par).sum + j) - r.coef|}) := by
  refine ⟨_, parametric_eq h _ tcdf, by rw [List.length_map, List.length_range], fun j r hr hv => ?_⟩
  rw [List.getElem?_map, Option.map_eq_some_iff] at hr
  obtain ⟨j', hj', rfl⟩ := hr
  rw [List.getElem?_eq_some_iff] at hj'
  obtain ⟨hlt, hje⟩ := hj'
  rw [List.getElem_range] at hje
  subst hje
  rw [List.length_range] at hlt
  have hvar := vbj_eq h hlt
  refine ⟨rfl, ?_, fun htwo => ?_⟩
  · show (SignType.sign (P.M.coef _) : ℝ) * ts P _ j = P.M.coef _ / _
    unfold ts
    rw [hvar, abs_div, abs_of_pos (Real.sqrt_pos.2 hv), ← mul_div_assoc, sign_mul_abs]
  · show (1 - (if (P.isFamily && P.twopar) = true then _ else _)) * 2 = (posterior P.M).real {β | |P.M.coef _| ≤ |_ - P.M.coef _|}
    rw [if_neg (by rw [htwo]; simp)]
    haveI := nullSingletonClass_gaussianReal (μ := 0) (v := 1) one_ne_zero
    rw [two_tail _ std_symm' (t := ts P (w.take par).sum j) (abs_nonneg _)]
    have hm := marginal P.M h.scale_nonneg (pos_lt h hlt)
    rw [← marginal_var P.M h.scale_nonneg (pos_lt h hlt)] at hm
    have e := normal_dev (m := P.M.coef ((w.take par).sum + j)) (c := |P.M.coef ((w.take par).sum + j)|) hv
    rw [← hm] at e
    unfold Measure.real at e ⊢
    rw [Measure.map_apply (entry_measurable _) (measurableSet_le (by fun_prop) (by fun_prop))] at e
    rw [show {β : EuclideanSpace ℝ (Fin P.M.p) | |P.M.coef ((w.take par).sum + j)| ≤ |entry β ((w.take par).sum + j)
      - P.M.coef ((w.take par).sum + j)|} = (fun β => entry β ((w.take par).sum + j)) ⁻¹'
        {x | |P.M.coef ((w.take par).sum + j)| ≤ |x - P.M.coef ((w.take par).sum + j)|} from rfl, e]
    unfold ts
    rw [abs_div, hvar, abs_of_pos (Real.sqrt_pos.2 hv)]

/-- **C85.** With an estimated scale, the p-value is the probability of a statistic at least as large in absolute value
under the law whose distribution function is used, if it is symmetric and has no point masses, as Student's laws are. -/
theorem parametric_rows_t {P : Par} {w : List ℕ} {par : ℕ} (h : Fitted P w par) (ncdf : ℝ → ℝ) (tcdf : ℤ → ℝ → ℝ)
    (μ : Measure ℝ) [IsProbabilityMeasure μ] [NullSingletonClass μ] (hsym : μ.map Neg.neg = μ) (ht : tcdf P.dof = cdf μ)
    (htwo : (P.isFamily && P.twopar) = true) :
    ∃ rows, parametric ncdf tcdf P par = some rows ∧ rows.length = P.nj ∧
      ∀ j r, rows[j]? = some r → 0 < Var[fun β => entry β ((w.take par).sum + j); posterior P.M] →
        r.p = μ.real {x | |P.M.coef ((w.take par).sum + j) / √Var[fun β => entry β ((w.take par).sum + j); posterior P.M]| ≤ |x|} := by
  refine ⟨_, parametric_eq h ncdf tcdf, by rw [List.length_map, List.length_range], fun j r hr hv => ?_⟩
  rw [List.getElem?_map, Option.map_eq_some_iff] at hr
  obtain ⟨j', hj', rfl⟩ := hr
  rw [List.getElem?_eq_some_iff] at hj'
  obtain ⟨hlt, hje⟩ := hj'
  rw [List.getElem_range] at hje
  subst hje
  rw [List.length_range] at hlt
  show (1 - (if (P.isFamily && P.twopar) = true then _ else _)) * 2 = _
  rw [if_pos htwo, ht, two_tail μ hsym (t := ts P (w.take par).sum j) (abs_nonneg _)]
  unfold ts
  rw [vbj_eq h hlt]

/-- Row of the identity matrix: the data row whose predictor is coefficient `j`. -/
def unit (k : ℕ) (j : Fin k) : Matrix (Fin 1) (Fin k) ℝ := Matrix.of fun _ i => if i = j then 1 else 0

/-- **C85.** Without an estimated scale, the test of a coefficient and the interval of `predict` for it agree: the p-value
is below `alpha` exactly if the `1 - alpha` interval around the estimate does not contain zero. -/
theorem parametric_dual {P : Par} {w : List ℕ} {par k : ℕ} (h : Fitted P w par) (tcdf : ℤ → ℝ → ℝ) {ppf : ℝ → ℝ} {alpha : ℝ}
    (hq : cdf (gaussianReal 0 1) (ppf (1 - alpha / 2)) = 1 - alpha / 2) (hk : w[par]? = some k) (j : Fin k) (hj : (j : ℕ) < P.nj)
    (hv : 0 < Var[fun β => entry β ((w.take par).sum + j); posterior P.M]) (htwo : (P.isFamily && P.twopar) = false) :
    ∃ rows r pred b, parametric (cdf (gaussianReal 0 1)) tcdf P par = some rows ∧ rows[(j : ℕ)]? = some r ∧
      predict ppf P.M par (unit k j) alpha = some (pred, b) ∧ pred 0 = r.coef ∧ (r.p < alpha ↔ b 0 < |pred 0|) := by
  have hpl : par < w.length := by have := h.laid.count; have := h.inRange; omega
  have hk' : w[par] = k := by rw [List.getElem?_eq_getElem hpl] at hk; exact Option.some.inj hk
  have hin := h.inRange
  refine ⟨_, line (cdf (gaussianReal 0 1)) tcdf P (w.take par).sum j, (unit k j).mulVec (bcoef P.M (w.take par).sum k),
    band ppf P.M (w.take par).sum (unit k j) alpha, parametric_eq h _ tcdf, ?_, ?_, ?_⟩
  · rw [List.getElem?_map, List.getElem?_range hj]; rfl
  · unfold predict
    rw [if_neg (by omega), block_laid h.laid hpl]
    show (if _ = _ then _ else _) = _
    rw [if_pos (by rw [block_width hpl, hk'])]
  have hpred : (unit k j).mulVec (bcoef P.M (w.take par).sum k) 0 = P.M.coef ((w.take par).sum + j) := by
    simp [unit, Matrix.mulVec, dotProduct, bcoef]
  have hvar : Predict.variance P.M (w.take par).sum (unit k j) 0
      = Var[fun β => entry β ((w.take par).sum + j); posterior P.M] := by
    rw [marginal_var P.M h.scale_nonneg (pos_lt h hj)]
    unfold Predict.variance
    simp [unit, Matrix.mul_apply, blvi, mul_sum]
    refine sum_congr rfl fun l _ => ?_
    ring
  refine ⟨hpred, ?_⟩
  rw [hpred]
  show (1 - (if (P.isFamily && P.twopar) = true then _ else _)) * 2 < alpha ↔ _
  rw [if_neg (by rw [htwo]; simp)]
  unfold band ts
  rw [hvar, vbj_eq h hj, abs_div, abs_of_pos (Real.sqrt_pos.2 hv)]
  have hs := Real.sqrt_pos.2 hv
  constructor
  · intro hlt
    have h1 : cdf (gaussianReal 0 1) (ppf (1 - alpha / 2))
        < cdf (gaussianReal 0 1) (|P.M.coef ((w.take par).sum + j)| / √Var[fun β => entry β ((w.take par).sum + j); posterior P.M]) := by
      rw [hq]; linarith
    have h2 := lt_of_not_ge fun hge => absurd (monotone_cdf _ hge) (not_le.2 h1)
    rwa [lt_div_iff₀ hs] at h2
  · intro hlt
    rw [← lt_div_iff₀ hs] at hlt
    have h1 := cdf_std_lt hlt
    rw [hq] at h1
    linarith

/-- **C85.** Stars are in agreement with the legend printed below the lines. -/
theorem stars_legend (p : ℝ) :
    (stars p = " ***" ↔ p < 0.001) ∧ (stars p = " **" ↔ 0.001 ≤ p ∧ p < 0.01) ∧ (stars p = " *" ↔ 0.01 ≤ p ∧ p < 0.05) ∧
    (stars p = " ." ↔ 0.05 ≤ p ∧ p < 0.1) ∧ (stars p = "" ↔ 0.1 ≤ p) := by
  unfold stars
  by_cases h1 : p < 0.001
  · rw [if_pos h1]
    refine ⟨by simpa using h1, ?_, ?_, ?_, ?_⟩ <;> constructor <;> intro h <;> first | exact absurd h (by decide) | (exfalso; norm_num at *; linarith)
  rw [if_neg h1]
  by_cases h2 : p < 0.01
  · rw [if_pos h2]
    refine ⟨?_, ⟨fun _ => ⟨not_lt.1 h1, h2⟩, fun _ => rfl⟩, ?_, ?_, ?_⟩ <;> constructor <;> intro h <;> first | exact absurd h (by decide) | (exfalso; norm_num at *; linarith)
  rw [if_neg h2]
  by_cases h3 : p < 0.05
  · rw [if_pos h3]
    refine ⟨?_, ?_, ⟨fun _ => ⟨not_lt.1 h2, h3⟩, fun _ => rfl⟩, ?_, ?_⟩ <;> constructor <;> intro h <;> first | exact absurd h (by decide) | (exfalso; norm_num at *; linarith)
  rw [if_neg h3]
  by_cases h4 : p < 0.1
  · rw [if_pos h4]
    refine ⟨?_, ?_, ?_, ⟨fun _ => ⟨not_lt.1 h3, h4⟩, fun _ => rfl⟩, ?_⟩ <;> constructor <;> intro h <;> first | exact absurd h (by decide) | (exfalso; norm_num at *; linarith)
  rw [if_neg h4]
  refine ⟨?_, ?_, ?_, ?_, ⟨fun _ => not_lt.1 h4, fun _ => rfl⟩⟩ <;> constructor <;> intro h <;> first | exact absurd h (by decide) | (exfalso; norm_num at *; linarith)

/-! ### A case meeting the hypotheses -/

/-- Two formulas with 2 and 3 coefficients, the second with two linear coefficients. -/
noncomputable def demo : Par where
  M := { p := 5, q := 5, coef := fun i => i, lvi := fun l i => if (l : ℕ) = i then 1 / 2 else 0, scale := 1, nform := 2,
         extra := false, split := [2] }
  isFamily := false
  twopar := false
  nj := 2
  dof := 0

theorem demo_fitted : Fitted demo [2, 3] 1 where
  laid := ⟨rfl, rfl, rfl, by decide⟩
  inRange := by decide
  scale_nonneg := zero_le_one
  gamm h := by cases h
  other _ := rfl
  linear := by decide

theorem demo_var : 0 < Var[fun β => entry β (([2, 3].take 1).sum + 1); posterior demo.M] := by
  rw [marginal_var demo.M zero_le_one (show ([2, 3].take 1).sum + 1 < 5 by decide)]
  show 0 < (1 : ℝ) * ∑ l : Fin 5, (if (l : ℕ) = ([2, 3].take 1).sum + 1 then (1 / 2 : ℝ) else 0) * (if (l : ℕ) = ([2, 3].take 1).sum + 1 then (1 / 2 : ℝ) else 0)
  rw [Fin.sum_univ_five]
  norm_num

example : ∃ rows, parametric (cdf (gaussianReal 0 1)) (fun _ _ => 0) demo 1 = some rows ∧ rows.length = 2 ∧
    ∀ r, rows[1]? = some r → r.coef = 3 ∧ r.p = (posterior demo.M).real {β | |r.coef| ≤ |entry β 3 - r.coef|} := by
  obtain ⟨rows, h1, h2, h3⟩ := parametric_rows demo_fitted fun _ _ => 0
  exact ⟨rows, h1, h2, fun r hr => ⟨(h3 1 r hr demo_var).1.trans (by norm_num [demo]), (h3 1 r hr demo_var).2.2 rfl⟩⟩

end Verif.Summary
