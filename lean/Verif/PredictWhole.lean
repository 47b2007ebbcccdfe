import Verif.Predict
import Mathlib.Tactic.FieldSimp
import Mathlib.Tactic.FinCases

/-!
# Whole-function intervals (property C84)
-/

namespace Verif.Predict

open Matrix Finset MeasureTheory ProbabilityTheory WithLp

/-- Deviation of the predictor of the block starting at `s` from its estimate, for one draw. -/
noncomputable def deviation {n k : ℕ} (M : Fit) (s : ℕ) (X : Matrix (Fin n) (Fin k) ℝ) (z : Fin M.q → ℝ) (r : Fin n) : ℝ :=
  X.mulVec (Mvn.sampleLI (some (bcoef M s k)) M.scale none (blvi M s k) z) r - X.mulVec (bcoef M s k) r

/-- When columns with sum zero are zero columns, selecting columns changes nothing. -/
theorem fpost_eq {n k : ℕ} (M : Fit) (s : ℕ) (X : Matrix (Fin n) (Fin k) ℝ) (useTerms : Bool)
    (hcol : useTerms = true → ∀ j, ∑ r, X r j = 0 → ∀ r, X r j = 0) (z : Fin M.q → ℝ) (r : Fin n) :
    fpost M s X useTerms z r = |deviation M s X z r| := by
  unfold fpost deviation
  congr 1
  have hp : ∀ (use : List (Fin k)) i, post M s use z i
      = (Mvn.Cs M.scale none (blvi M s k)).mulVec z (use.get i) := by
    intro use i
    show (0 : ℝ) + _ = _
    rw [zero_add]
    rfl
  have hsum : ∀ use : List (Fin k), ∑ i, X r (use.get i) * post M s use z i
      = (use.map fun j => X r j * (Mvn.Cs M.scale none (blvi M s k)).mulVec z j).sum := by
    intro use
    simp only [hp]
    rw [← List.sum_ofFn]
    congr 1
    conv_rhs => rw [← List.ofFn_get use, List.map_ofFn]
    rfl
  rw [hsum]
  have e : (X.mulVec (Mvn.sampleLI (some (bcoef M s k)) M.scale none (blvi M s k) z) r - X.mulVec (bcoef M s k) r)
      = ∑ j, X r j * (Mvn.Cs M.scale none (blvi M s k)).mulVec z j := by
    show X.mulVec (bcoef M s k + (Mvn.Cs M.scale none (blvi M s k)).mulVec z) r - _ = _
    rw [Matrix.mulVec_add, Pi.add_apply, add_sub_cancel_left]
    rfl
  rw [e]
  have hall : ∑ j, X r j * (Mvn.Cs M.scale none (blvi M s k)).mulVec z j
      = ((List.finRange k).map fun j => X r j * (Mvn.Cs M.scale none (blvi M s k)).mulVec z j).sum := by
    rw [← List.ofFn_eq_map, List.sum_ofFn]
  rw [hall]
  unfold usePost
  cases useTerms with
  | false => rfl
  | true =>
    simp only [if_true]
    classical
    generalize (Mvn.Cs M.scale none (blvi M s k)).mulVec z = c
    induction List.finRange k with
    | nil => rfl
    | cons a l ih =>
      by_cases ha : ∑ r, X r a = 0
      · rw [List.filter_cons_of_neg (by simpa using ha), ih, List.map_cons, List.sum_cons, hcol rfl a ha r, zero_mul, zero_add]
      · rw [List.filter_cons_of_pos (by simpa using ha), List.map_cons, List.map_cons, List.sum_cons, List.sum_cons, ih]

/-- The adjustment for positive half widths. -/
theorem bmadq_fin {n m k : ℕ} (qinf : (Fin (n + 1) → Fl) → ℝ → Fl) (M : Fit) (s : ℕ) (X : Matrix (Fin (m + 1)) (Fin k) ℝ)
    (useTerms : Bool) {b : Fin (m + 1) → ℝ} (hb : ∀ r, 0 < b r) (alpha : ℝ) (zs : Fin (n + 1) → Fin M.q → ℝ) :
    ∃ a : Fin (n + 1) → ℝ, bmadq qinf M s X useTerms b alpha zs = .fin (quantile a (1 - alpha)) ∧
      ∀ i, (∀ r, fpost M s X useTerms (zs i) r ≤ a i * b r) ∧ ∃ r, fpost M s X useTerms (zs i) r = a i * b r := by
  have h1 : ∀ i, ∃ a, rowMax (fun r => Fl.fin (fpost M s X useTerms (zs i) r) / Fl.fin (b r)) = Fl.fin a ∧
      (∀ r, fpost M s X useTerms (zs i) r ≤ a * b r) ∧ ∃ r, fpost M s X useTerms (zs i) r = a * b r := by
    intro i
    have e : (fun r => Fl.fin (fpost M s X useTerms (zs i) r) / Fl.fin (b r))
        = fun r => Fl.fin (fpost M s X useTerms (zs i) r / b r) := funext fun r => Fl.fin_div (hb r).ne'
    rw [e]
    obtain ⟨a, ha, h2, r0, h3⟩ := rowMax_fin fun r => fpost M s X useTerms (zs i) r / b r
    refine ⟨a, ha, fun r => (div_le_iff₀ (hb r)).1 (h2 r), r0, ?_⟩
    rw [← h3, div_mul_cancel₀ _ (hb r0).ne']
  choose a ha h2 using h1
  refine ⟨a, ?_, h2⟩
  have hfun : (fun i => rowMax fun r => Fl.fin (fpost M s X useTerms (zs i) r) / Fl.fin (b r)) = fun i => Fl.fin (a i) :=
    funext ha
  unfold bmadq
  rw [hfun]
  unfold flQuantile
  rw [if_neg (by rintro ⟨i, hi⟩; cases hi), if_pos (show ∀ i, (Fl.fin (a i)).IsFin from fun i => trivial)]
  rfl

/-- **C84, what holds** for positive pointwise half widths and when every column of the model matrix summing to zero is
zero (or `use_terms` is not given): the returned half widths are a common multiple of the pointwise ones, at least
`⌊n (1 - alpha)⌋ + 1` of the `n + 1` sampled functions lie within them over the whole range, and the band is no wider than
that: at least `n - ⌊n (1 - alpha)⌋` of the sampled functions reach its boundary or leave it. -/
theorem whole_covers_partial {n m k : ℕ} {ppf : ℝ → ℝ} (qinf : (Fin (n + 1) → Fl) → ℝ → Fl) {M : Fit} {par : ℕ}
    {X : Matrix (Fin (m + 1)) (Fin k) ℝ} {useTerms : Bool} {alpha : ℝ} (zs : Fin (n + 1) → Fin M.q → ℝ)
    {pred : Fin (m + 1) → ℝ} {b : Fin (m + 1) → ℝ} (hpred : predict ppf M par X alpha = some (pred, b)) (hb : ∀ r, 0 < b r)
    (ha0 : 0 ≤ alpha) (ha1 : alpha ≤ 1) (hcol : useTerms = true → ∀ j, ∑ r, X r j = 0 → ∀ r, X r j = 0) :
    ∃ (β : Fin (n + 1) → Fin k → ℝ) (c : Fin (m + 1) → ℝ) (a : ℝ),
      (∀ i, samplePost M par k false (zs i) = some (β i)) ∧
      predictWhole ppf qinf M par X useTerms alpha zs = some (pred, fun r => .fin (c r)) ∧ (∀ r, c r = b r * a) ∧
      ⌊(n : ℝ) * (1 - alpha)⌋₊ + 1 ≤ (univ.filter fun i => ∀ r, |X.mulVec (β i) r - pred r| ≤ c r).card ∧
      n - ⌊(n : ℝ) * (1 - alpha)⌋₊ ≤ (univ.filter fun i => ∃ r, c r ≤ |X.mulVec (β i) r - pred r|).card := by
  unfold predict at hpred
  by_cases hp : M.nform ≤ par
  · rw [if_pos hp] at hpred; cases hpred
  rw [if_neg hp] at hpred
  cases hbl : block M par with
  | none => rw [hbl] at hpred; cases hpred
  | some se =>
    obtain ⟨s, e⟩ := se
    rw [hbl] at hpred
    by_cases hk : e - s = k
    · simp only [hk, if_true, Option.some.injEq, Prod.mk.injEq] at hpred
      obtain ⟨rfl, rfl⟩ := hpred
      obtain ⟨a, h1, h2⟩ := bmadq_fin qinf M s X useTerms hb alpha zs
      refine ⟨fun i => Mvn.sampleLI (some (bcoef M s k)) M.scale none (blvi M s k) (zs i),
        fun r => band ppf M s X alpha r * quantile a (1 - alpha), quantile a (1 - alpha), fun i => ?_, ?_, fun r => rfl, ?_, ?_⟩
      · unfold samplePost
        rw [if_neg hp, hbl]
        simp only [hk, if_true]
        rfl
      · unfold predictWhole
        rw [if_neg hp, hbl]
        simp only [hk, if_true]
        congr 2
        funext r
        unfold adjust
        rw [h1]
        rfl
      · refine le_trans (quantile_lower a (sub_nonneg.2 ha1) ?_) (card_le_card fun i hi => ?_)
        · have : ⌊(n : ℝ) * (1 - alpha)⌋₊ ≤ n := by
            refine Nat.floor_le_of_le ?_
            nlinarith [Nat.cast_nonneg (α := ℝ) n]
          omega
        · rw [mem_filter] at hi ⊢
          refine ⟨mem_univ _, fun r => ?_⟩
          have h3 := (h2 i).1 r
          rw [fpost_eq M s X useTerms hcol] at h3
          refine le_trans h3 ?_
          rw [mul_comm]
          exact mul_le_mul_of_nonneg_left hi.2 (hb r).le
      · refine le_trans (quantile_upper a (sub_nonneg.2 ha1)) (card_le_card fun i hi => ?_)
        rw [mem_filter] at hi ⊢
        obtain ⟨r, hr⟩ := (h2 i).2
        refine ⟨mem_univ _, r, ?_⟩
        rw [fpost_eq M s X useTerms hcol] at hr
        show _ ≤ |deviation M s X (zs i) r|
        rw [hr, mul_comm]
        exact mul_le_mul_of_nonneg_left hi.2 (hb r).le
    · simp only [hk, if_false] at hpred
      cases hpred

/-- The share of sampled functions within the band is above `1 - alpha` less `(1 - alpha) / (n + 1)`. -/
theorem whole_share {n : ℕ} {alpha : ℝ} {c : ℕ} (h : ⌊(n : ℝ) * (1 - alpha)⌋₊ + 1 ≤ c) :
    (1 - alpha) * (n + 1) - (1 - alpha) < c := by
  have h1 := Nat.lt_floor_add_one ((n : ℝ) * (1 - alpha))
  have h2 : ((⌊(n : ℝ) * (1 - alpha)⌋₊ + 1 : ℕ) : ℝ) ≤ c := by exact_mod_cast h
  push_cast at h2
  linarith

/-- **C84 fails** when `use_terms` is given and every column sums to zero, as for a linear effect over a grid symmetric
around zero: no coefficient is sampled and the half widths are 0, whatever the posterior. -/
theorem whole_collapses {n m k : ℕ} (qinf : (Fin (n + 1) → Fl) → ℝ → Fl) (M : Fit) (s : ℕ) (X : Matrix (Fin (m + 1)) (Fin k) ℝ)
    {b : Fin (m + 1) → ℝ} (hb : ∀ r, 0 < b r) (alpha : ℝ) (zs : Fin (n + 1) → Fin M.q → ℝ) (hcol : ∀ j, ∑ r, X r j = 0)
    (r : Fin (m + 1)) : adjust qinf M s X true b alpha zs r = .fin 0 := by
  obtain ⟨a, h1, h2⟩ := bmadq_fin qinf M s X true hb alpha zs
  have huse : usePost true X = [] := by
    unfold usePost
    rw [if_pos rfl, List.filter_eq_nil_iff]
    intro j _
    simp [hcol j]
  have h0 : ∀ i r, fpost M s X true (zs i) r = 0 := by
    intro i r
    unfold fpost
    rw [abs_eq_zero]
    refine sum_eq_zero fun i' _ => ?_
    have hlt := i'.isLt
    have h0 : (usePost true X).length = 0 := by rw [huse]; rfl
    omega
  have ha : a = fun _ => 0 := by
    funext i
    obtain ⟨r, hr⟩ := (h2 i).2
    rw [h0] at hr
    rcases mul_eq_zero.1 hr.symm with h | h
    · exact h
    · exact absurd h (hb r).ne'
  unfold adjust
  rw [h1, ha, Fl.fin_mul]
  simp [quantile]

/-- **C84 fails** when some row of the model matrix is zero, as for a linear effect at the value zero: the interval is
`nan` in every row. -/
theorem whole_nan {n m k : ℕ} (ppf : ℝ → ℝ) (qinf : (Fin (n + 1) → Fl) → ℝ → Fl) (M : Fit) (s : ℕ) (X : Matrix (Fin (m + 1)) (Fin k) ℝ)
    (useTerms : Bool) (alpha : ℝ) (zs : Fin (n + 1) → Fin M.q → ℝ) (r0 : Fin (m + 1)) (hrow : ∀ j, X r0 j = 0)
    (r : Fin (m + 1)) : adjust qinf M s X useTerms (band ppf M s X alpha) alpha zs r = .nan := by
  have hb : band ppf M s X alpha r0 = 0 := by
    unfold band variance
    have : (X * (blvi M s k)ᵀ * (M.scale • blvi M s k) * Xᵀ) r0 r0 = 0 := by
      rw [Matrix.mul_apply]
      refine sum_eq_zero fun j _ => ?_
      rw [Matrix.transpose_apply, hrow, mul_zero]
    rw [this, Real.sqrt_zero, mul_zero]
  have hf : ∀ i, fpost M s X useTerms (zs i) r0 = 0 := by
    intro i
    unfold fpost
    rw [abs_eq_zero]
    exact sum_eq_zero fun j _ => by rw [hrow, zero_mul]
  have hq : bmadq qinf M s X useTerms (band ppf M s X alpha) alpha zs = .nan := by
    unfold bmadq flQuantile
    rw [if_pos]
    refine ⟨0, rowMax_nan _ r0 ?_⟩
    rw [hf, hb]
    show Fl.div (.fin 0) (.fin 0) = .nan
    simp [Fl.div, Fl.infSign]
  unfold adjust
  rw [hq]
  rfl

/-! ### Cases -/

/-- There are normal quantiles. -/
theorem exists_quantile {u : ℝ} (h0 : 0 < u) (h1 : u < 1) : ∃ t, cdf (gaussianReal 0 1) t = u := by
  have hc : Continuous (cdf (gaussianReal 0 1)) := by
    rw [continuous_iff_continuousAt]
    intro x
    rw [(monotone_cdf _).continuousAt_iff_leftLim_eq_rightLim, (cdf (gaussianReal 0 1)).rightLim_eq]
    have h2 := (cdf (gaussianReal 0 1)).measure_singleton x
    have h3 := nullSingletonClass_gaussianReal (μ := 0) (v := 1) one_ne_zero
    rw [measure_cdf, measure_singleton] at h2
    have h4 := ENNReal.ofReal_eq_zero.1 h2.symm
    have h5 := (monotone_cdf (gaussianReal 0 1)).leftLim_le (le_refl x)
    linarith
  refine mem_range_of_exists_le_of_exists_ge hc ?_ ?_
  · exact ((tendsto_cdf_atBot _).eventually (ge_mem_nhds h0)).exists
  · exact ((tendsto_cdf_atTop _).eventually (le_mem_nhds h1)).exists

/-- A model with two formulas (an intercept; an intercept and a slope). -/
noncomputable def demo : Fit where
  p := 3
  q := 3
  coef := fun i => if i = 0 then 5 else if i = 1 then 1 else 2
  lvi := fun l i => if (l : ℕ) = i then 1 else if (l : ℕ) < i then 1 / 2 else 0
  scale := 4
  nform := 2
  extra := false
  split := [1]

theorem demo_laid : Laid demo [1, 2] := ⟨rfl, rfl, rfl, by decide⟩

/-- Predictions of the second formula at 1 and 3. -/
example : ∃ (ppf : ℝ → ℝ) (pred b : Fin 2 → ℝ), predict ppf demo 1 (!![1, 1; 1, 3] : Matrix (Fin 2) (Fin 2) ℝ) (1 / 20) = some (pred, b) ∧
    pred 0 = 3 ∧ pred 1 = 7 ∧
    posterior demo {β | |linpred (!![1, 1; 1, 3] : Matrix (Fin 2) (Fin 2) ℝ) 1 β 1 - 7| ≤ b 1} = ENNReal.ofReal (19 / 20) := by
  obtain ⟨t, ht⟩ := exists_quantile (u := 1 - 1 / 20 / 2) (by norm_num) (by norm_num)
  obtain ⟨pred, b, h, hr⟩ := predict_covers (ppf := fun _ => t) (X := (!![1, 1; 1, 3] : Matrix (Fin 2) (Fin 2) ℝ)) demo_laid
    (by norm_num [demo]) (par := 1) (by decide) (by rfl) (alpha := 1 / 20) (by norm_num) (by norm_num) ht
  have htpos := (std_central ht (by norm_num) (by norm_num)).1
  have e0 : pred 0 = 3 := by rw [(hr 0).1]; simp [Fin.sum_univ_two, demo]; norm_num
  have e1 : pred 1 = 7 := by rw [(hr 1).1]; simp [Fin.sum_univ_two, demo]; norm_num
  refine ⟨_, pred, b, h, e0, e1, ?_⟩
  have hb : 0 < b 1 := by
    have h' := h
    unfold predict at h'
    rw [if_neg (by decide), block_laid demo_laid (by decide)] at h'
    have h'' := (Prod.mk.inj (Option.some.inj (show some _ = some _ from h'))).2
    rw [← h'']
    refine mul_pos htpos (Real.sqrt_pos.2 ?_)
    rw [variance_eq _ (by norm_num [demo])]
    show 0 < ∑ l : Fin 3, (√(4 : ℝ) * ∑ j : Fin 2, (!![1, 1; 1, 3] : Matrix (Fin 2) (Fin 2) ℝ) 1 j * demo.lvi l (1 + j)) *
      (√(4 : ℝ) * ∑ j : Fin 2, (!![1, 1; 1, 3] : Matrix (Fin 2) (Fin 2) ℝ) 1 j * demo.lvi l (1 + j))
    refine Finset.sum_pos' (fun l _ => mul_self_nonneg _) ⟨1, mem_univ _, mul_self_pos.2 (ne_of_gt (mul_pos (by norm_num) ?_))⟩
    have e1 : demo.lvi (1 : Fin 3) 1 = 1 := by
      show (if 1 = 1 then (1 : ℝ) else if 1 < 1 then 1 / 2 else 0) = 1
      norm_num
    have e2 : demo.lvi (1 : Fin 3) 2 = 1 / 2 := by
      show (if 1 = 2 then (1 : ℝ) else if 1 < 2 then 1 / 2 else 0) = 1 / 2
      norm_num
    rw [Fin.sum_univ_two]
    show 0 < (1 : ℝ) * demo.lvi (1 : Fin 3) 1 + 3 * demo.lvi (1 : Fin 3) 2
    rw [e1, e2]
    norm_num
  have h2 := (hr 1).2.2.1 hb
  rw [e1] at h2
  have h3 : (1 : ℝ) - 1 / 20 = 19 / 20 := by norm_num
  rw [h3] at h2
  exact h2

/-- One formula with a single slope. -/
noncomputable def slope : Fit where
  p := 1
  q := 1
  coef := fun _ => 0
  lvi := fun _ _ => 1
  scale := 1
  nform := 1
  extra := false
  split := []

theorem slope_var {n : ℕ} (X : Matrix (Fin n) (Fin 1) ℝ) (r : Fin n) : variance slope 0 X r = X r 0 * X r 0 := by
  rw [variance_eq _ (by norm_num [slope])]
  show ∑ l : Fin 1, (√(1 : ℝ) * ∑ j : Fin 1, X r j * 1) * (√(1 : ℝ) * ∑ j : Fin 1, X r j * 1) = _
  simp

theorem slope_dev {n : ℕ} (X : Matrix (Fin n) (Fin 1) ℝ) (z : Fin 1 → ℝ) (r : Fin n) : deviation slope 0 X z r = X r 0 * z 0 := by
  show (∑ j : Fin 1, X r j * ((0 : ℝ) + ∑ l : Fin 1, (√(1 : ℝ) * 1) * z l)) - (∑ j : Fin 1, X r j * 0) = _
  simp

theorem slope_band {n : ℕ} {t : ℝ} (X : Matrix (Fin n) (Fin 1) ℝ) (hX : ∀ r, |X r 0| = 1) (alpha : ℝ) (r : Fin n) :
    band (fun _ => t) slope 0 X alpha r = t := by
  unfold band
  have : X r 0 * X r 0 = 1 := by rw [← abs_mul_abs_self, hX]; norm_num
  rw [slope_var, this]
  simp

/-- **C84 fails**: with two samples and `alpha = 1/4` the level of the interval is 3/4, but only one of the two sampled
functions lies within it. -/
theorem whole_level_wrong {t : ℝ} (ht : 0 < t) (qinf : (Fin 2 → Fl) → ℝ → Fl) :
    let zs : Fin 2 → Fin 1 → ℝ := ![![1], ![2]]
    let X : Matrix (Fin 1) (Fin 1) ℝ := 1
    ∃ c : Fin 1 → ℝ, predictWhole (fun _ => t) qinf slope 0 X false (1 / 4) zs = some (0, fun r => .fin (c r)) ∧
      (univ.filter fun i => ∀ r, |deviation slope 0 X (zs i) r| ≤ c r).card < (1 - 1 / 4 : ℝ) * 2 := by
  intro zs X
  have hpr : predict (fun _ => t) slope 0 X (1 / 4) = some (X.mulVec (bcoef slope 0 1), band (fun _ => t) slope 0 X (1 / 4)) := rfl
  have hX : ∀ r, |X r 0| = 1 := by intro r; fin_cases r; simp [X]
  have hbd : ∀ r, band (fun _ => t) slope 0 X (1 / 4) r = t := slope_band X hX (1 / 4)
  obtain ⟨β, c, a, h1, h2, h3, h4, h5⟩ := whole_covers_partial (n := 1) (useTerms := false) qinf zs hpr
    (fun r => by rw [hbd]; exact ht) (by norm_num) (by norm_num) (by simp)
  have hp0 : X.mulVec (bcoef slope 0 1) = 0 := by
    funext r
    simp [X, bcoef, slope]
  rw [hp0] at h2
  refine ⟨c, h2, ?_⟩
  have hdev : ∀ i r, deviation slope 0 X (zs i) r = zs i 0 := by
    intro i r
    rw [slope_dev]
    fin_cases r
    simp [X]
  have hβ : ∀ i r, X.mulVec (β i) r - X.mulVec (bcoef slope 0 1) r = zs i 0 := by
    intro i r
    have : β i = Mvn.sampleLI (some (bcoef slope 0 1)) slope.scale none (blvi slope 0 1) (zs i) :=
      (Option.some.inj (show some _ = some (β i) from h1 i)).symm
    rw [this]
    exact hdev i r
  have hfl : ⌊((1 : ℕ) : ℝ) * (1 - 1 / 4)⌋₊ = 0 := by
    rw [Nat.floor_eq_zero]; norm_num
  -- the half width is 7/4
  have hc : c 0 < 2 := by
    have hq := (Prod.mk.inj (Option.some.inj (show some _ = some _ from h2))).2
    have hq0 := congrFun hq 0
    obtain ⟨a', k1, k2⟩ := bmadq_fin (n := 1) qinf slope 0 X false (b := band (fun _ => t) slope 0 X (1 / 4))
      (fun r => by rw [hbd]; exact ht) (1 / 4) zs
    unfold adjust at hq0
    rw [k1, hbd, Fl.fin_mul] at hq0
    have hq1 : t * quantile a' (1 - 1 / 4) = c 0 := Fl.fin.inj hq0
    have hai : ∀ i, a' i = zs i 0 / t := by
      intro i
      obtain ⟨r, hr⟩ := (k2 i).2
      have hr' := (fpost_eq slope 0 X false (by simp) (zs i) r).symm.trans hr
      rw [hdev, hbd] at hr'
      have hz : |zs i 0| = zs i 0 := by
        fin_cases i <;> simp [zs]
      rw [hz] at hr'
      rw [hr', mul_div_cancel_right₀ _ ht.ne']
    have ha0 : a' 0 = 1 / t := by rw [hai]; simp [zs]
    have ha1 : a' 1 = 2 / t := by rw [hai]; simp [zs]
    have hmono : Monotone a' := by
      intro i j hij
      have h12 : 1 / t ≤ 2 / t := by gcongr; norm_num
      fin_cases i <;> fin_cases j <;> simp_all
    have hs : Tuple.sort a' = Equiv.refl _ := Tuple.sort_eq_refl_iff_monotone.2 hmono
    have hqv : quantile a' (1 - 1 / 4) = 7 / 4 / t := by
      unfold quantile
      rw [hs, hfl]
      simp only [Equiv.refl_apply]
      have e0 : (⟨min 0 1, Nat.lt_succ_of_le (min_le_right _ _)⟩ : Fin 2) = 0 := rfl
      have e1 : (⟨min (0 + 1) 1, Nat.lt_succ_of_le (min_le_right _ _)⟩ : Fin 2) = 1 := rfl
      rw [e0, e1, ha0, ha1]
      push_cast
      field_simp
      norm_num
    rw [← hq1, hqv]
    field_simp
    norm_num
  have hsub : (univ.filter fun i => ∀ r, |deviation slope 0 X (zs i) r| ≤ c r) ⊆ {0} := by
    intro i hi
    rw [mem_filter] at hi
    have := hi.2 0
    rw [hdev] at this
    fin_cases i
    · simp
    · exfalso
      simp [zs] at this
      linarith
  have := card_le_card hsub
  rw [card_singleton] at this
  have h6 : ((univ.filter fun i => ∀ r, |deviation slope 0 X (zs i) r| ≤ c r).card : ℝ) ≤ 1 := by exact_mod_cast this
  refine lt_of_le_of_lt h6 ?_
  norm_num

/-- A slope predicted at -1 and 1 with `use_terms` given: the pointwise half widths are positive, the whole-function
half widths are 0, so that no sampled function with a slope different from 0 lies within the interval. -/
theorem whole_collapses_demo {n : ℕ} {t : ℝ} (ht : 0 < t) (qinf : (Fin (n + 1) → Fl) → ℝ → Fl) (zs : Fin (n + 1) → Fin 1 → ℝ)
    (hz : ∀ i, zs i 0 ≠ 0) :
    let X : Matrix (Fin 2) (Fin 1) ℝ := !![-1; 1]
    (∀ r, 0 < band (fun _ => t) slope 0 X (1 / 20) r) ∧
    predictWhole (fun _ => t) qinf slope 0 X true (1 / 20) zs = some (0, fun _ => .fin 0) ∧
    ∀ i, ¬ ∀ r, |deviation slope 0 X (zs i) r| ≤ 0 := by
  intro X
  have hX : ∀ r, |X r 0| = 1 := by intro r; fin_cases r <;> simp [X]
  have hbd : ∀ r, 0 < band (fun _ => t) slope 0 X (1 / 20) r := fun r => by rw [slope_band X hX]; exact ht
  refine ⟨hbd, ?_, fun i hi => ?_⟩
  · have hp0 : X.mulVec (bcoef slope 0 1) = 0 := by
      funext r
      simp [bcoef, slope, Matrix.mulVec, dotProduct]
    show some (X.mulVec (bcoef slope 0 1), adjust qinf slope 0 X true _ (1 / 20) zs) = _
    rw [hp0]
    congr 2
    funext r
    refine whole_collapses qinf slope 0 X hbd _ zs (fun j => ?_) r
    fin_cases j
    simp [Fin.sum_univ_two, X]
  · have := hi 1
    have hd : deviation slope 0 X (zs i) 1 = zs i 0 := by
      rw [slope_dev]
      simp [X]
    rw [hd] at this
    exact hz i (abs_nonpos_iff.1 this)

end Verif.Predict
