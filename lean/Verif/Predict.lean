import Verif.PredictLemmas
import Mathlib.Topology.Order.LeftRightLim

/-!
# Predictions with intervals (properties C83 and C84)
-/

namespace Verif.Predict

open Matrix Finset MeasureTheory ProbabilityTheory WithLp

/-- The coefficients are laid out as after fitting: formula `k` has `w k` coefficients, extra coefficients come last. -/
structure Laid (M : Fit) (w : List ℕ) : Prop where
  split : M.split = splitIdx w
  total : M.p = w.sum
  count : w.length = M.nform + (if M.extra then 1 else 0)
  some_formula : 0 < M.nform

/-- Entry of a coefficient vector. -/
noncomputable def entry {p : ℕ} (β : EuclideanSpace ℝ (Fin p)) (i : ℕ) : ℝ := if h : i < p then β.ofLp ⟨i, h⟩ else 0

/-- Posterior of all coefficients: normal around the estimates with covariance `scale lvi.T lvi`. -/
noncomputable def posterior (M : Fit) : Measure (EuclideanSpace ℝ (Fin M.p)) :=
  multivariateGaussian (toLp 2 fun i => M.coef i) (M.scale • ((blvi M 0 M.p)ᵀ * blvi M 0 M.p))

/-- Value of the additive predictor of the formula whose coefficients start at `s`. -/
noncomputable def linpred {n k p : ℕ} (X : Matrix (Fin n) (Fin k) ℝ) (s : ℕ) (β : EuclideanSpace ℝ (Fin p)) (r : Fin n) : ℝ :=
  ∑ j, X r j * entry β (s + j)

/-- The block of formula `par`. -/
theorem block_laid {M : Fit} {w : List ℕ} (h : Laid M w) {par : ℕ} (hp : par < w.length) :
    block M par = some ((w.take par).sum, (w.take (par + 1)).sum) := by
  have hlen : M.split.length = w.length - 1 := by rw [h.split, splitIdx_length]
  unfold block
  by_cases hb : 1 < M.nform ∨ M.extra = true
  · rw [if_pos hb]
    unfold piece
    rw [if_pos (by omega)]
    congr 1
    refine Prod.ext ?_ ?_
    · show (if par = 0 then 0 else M.split.getD (par - 1) 0) = _
      by_cases h0 : par = 0
      · rw [if_pos h0, h0]; rfl
      · rw [if_neg h0, h.split, splitIdx_getD _ _ (by omega)]
        congr 2
        omega
    · show (if par < M.split.length then M.split.getD par 0 else M.p) = _
      by_cases h0 : par < M.split.length
      · rw [if_pos h0, h.split, splitIdx_getD _ _ (by omega)]
      · rw [if_neg h0, h.total, List.take_of_length_le (show w.length ≤ par + 1 by omega)]
  · rw [if_neg hb]
    push Not at hb
    have h1 := h.count
    have h2 := h.some_formula
    have hx : M.extra = false := by
      have := hb.2
      cases hM : M.extra
      · rfl
      · exact absurd hM this
    rw [hx] at h1
    simp only [Bool.false_eq_true, if_false] at h1
    obtain rfl : par = 0 := by omega
    rw [h.total, List.take_of_length_le (show w.length ≤ 0 + 1 by omega)]
    rfl

theorem block_width {w : List ℕ} {par : ℕ} (hp : par < w.length) :
    (w.take (par + 1)).sum - (w.take par).sum = w[par] := by
  rw [List.sum_take_succ w par hp]
  omega

theorem take_sum_le (w : List ℕ) (i : ℕ) : (w.take i).sum ≤ w.sum := by
  conv_rhs => rw [← List.take_append_drop i w, List.sum_append]
  omega

/-- **C83.** `get_pars` returns the coefficients of the formula asked for. -/
theorem getPars_block {M : Fit} {w : List ℕ} (h : Laid M w) {par : ℕ} (hp : par < w.length) :
    getPars M par = some ((List.range w[par]).map fun j => M.coef ((w.take par).sum + j)) := by
  unfold getPars
  have h1 := h.count
  rw [if_neg (by omega), block_laid h hp]
  show some ((List.range ((w.take (par + 1)).sum - (w.take par).sum)).map _) = _
  rw [block_width hp]

/-- One draw of all coefficients. -/
noncomputable def fullDraw (M : Fit) (z : Fin M.q → ℝ) : EuclideanSpace ℝ (Fin M.p) :=
  toLp 2 ((fun i : Fin M.p => M.coef i) + (√M.scale • (blvi M 0 M.p)ᵀ).mulVec z)

theorem fullDraw_law (M : Fit) (hs : 0 ≤ M.scale) : (Mvn.std M.q).map (fullDraw M) = posterior M := by
  have h := Mvn.affine_law (m := M.p) (q := M.q) (fun i => M.coef i) (√M.scale • (blvi M 0 M.p)ᵀ)
  unfold posterior
  have e : (√M.scale • (blvi M 0 M.p)ᵀ) * (√M.scale • (blvi M 0 M.p)ᵀ)ᵀ = M.scale • ((blvi M 0 M.p)ᵀ * blvi M 0 M.p) := by
    rw [Matrix.transpose_smul, Matrix.transpose_transpose, Matrix.smul_mul, Matrix.mul_smul, smul_smul,
      Real.mul_self_sqrt hs]
  rw [e] at h
  exact h

theorem fullDraw_measurable (M : Fit) : Measurable (fullDraw M) := by
  unfold fullDraw
  have h1 : Measurable (fun z : Fin M.q → ℝ => (fun i : Fin M.p => M.coef i) + (√M.scale • (blvi M 0 M.p)ᵀ).mulVec z) := by
    refine measurable_pi_iff.2 fun i => ?_
    show Measurable fun z : Fin M.q → ℝ => M.coef i + ∑ j, (√M.scale • (blvi M 0 M.p)ᵀ) i j * z j
    fun_prop
  fun_prop

theorem fullDraw_entry (M : Fit) (z : Fin M.q → ℝ) {i : ℕ} (hi : i < M.p) :
    entry (fullDraw M z) i = M.coef i + ∑ l, √M.scale * M.lvi l i * z l := by
  unfold entry fullDraw
  rw [dif_pos hi]
  show M.coef i + ∑ l, (√M.scale • (blvi M 0 M.p)ᵀ) ⟨i, hi⟩ l * z l = _
  congr 1
  refine sum_congr rfl fun l _ => ?_
  simp [blvi]

/-- **C83.** `sample_post` draws the coefficients of the formula asked for from the posterior: for every vector of
standard normals it returns the formula's part of one and the same draw of all coefficients, which has the posterior as
its law; with `deviations` the estimates are subtracted. -/
theorem samplePost_draw {M : Fit} {w : List ℕ} (h : Laid M w) (hs : 0 ≤ M.scale) {par : ℕ} (hp : par < M.nform) :
    ∃ draw : (Fin M.q → ℝ) → EuclideanSpace ℝ (Fin M.p), (Mvn.std M.q).map draw = posterior M ∧
      ∀ z, (∃ β, samplePost M par (w.getD par 0) false z = some β ∧ ∀ j, β j = entry (draw z) ((w.take par).sum + j)) ∧
        ∃ δ, samplePost M par (w.getD par 0) true z = some δ ∧
          ∀ j, δ j = entry (draw z) ((w.take par).sum + j) - M.coef ((w.take par).sum + j) := by
  refine ⟨fullDraw M, fullDraw_law M hs, fun z => ?_⟩
  have hpl : par < w.length := by have := h.count; omega
  have hin : ∀ j : Fin (w.getD par 0), (w.take par).sum + j < M.p := by
    intro j
    have h1 := take_sum_le w (par + 1)
    rw [List.sum_take_succ w par hpl, ← h.total] at h1
    have h2 := lt_of_lt_of_eq j.isLt (List.getD_eq_getElem _ _ hpl)
    omega
  have hb : ∀ dev : Bool, samplePost M par (w.getD par 0) dev z =
      some (Mvn.sampleLI (if dev then none else some (bcoef M (w.take par).sum (w.getD par 0))) M.scale none
        (blvi M (w.take par).sum (w.getD par 0)) z) := by
    intro dev
    unfold samplePost
    rw [if_neg (by omega), block_laid h hpl]
    show (if _ = _ then _ else _) = _
    rw [if_pos (by rw [block_width hpl, List.getD_eq_getElem _ _ hpl])]
  have hC : ∀ j : Fin (w.getD par 0), (Mvn.Cs M.scale none (blvi M (w.take par).sum (w.getD par 0))).mulVec z j
      = ∑ l, √M.scale * M.lvi l ((w.take par).sum + j) * z l := by
    intro j
    show ∑ l, (√M.scale • (blvi M (w.take par).sum (w.getD par 0))ᵀ) j l * z l = _
    refine sum_congr rfl fun l _ => ?_
    simp [blvi]
  refine ⟨⟨_, hb false, fun j => ?_⟩, ⟨_, hb true, fun j => ?_⟩⟩
  · rw [fullDraw_entry M z (hin j), ← hC j]
    rfl
  · rw [fullDraw_entry M z (hin j), ← hC j]
    show (0 : ℝ) + _ = _
    ring

/-- The deviation of the predictor from its estimate as a combination of the draws. -/
theorem linpred_fullDraw {n k : ℕ} (M : Fit) (X : Matrix (Fin n) (Fin k) ℝ) (s : ℕ) (hin : s + k ≤ M.p) (r : Fin n)
    (z : Fin M.q → ℝ) :
    linpred X s (fullDraw M z) r = X.mulVec (bcoef M s k) r
      + (fun l => √M.scale * ∑ j, X r j * M.lvi l (s + j)) ⬝ᵥ z := by
  unfold linpred
  have h1 : ∀ j : Fin k, X r j * entry (fullDraw M z) (s + j) = X r j * M.coef (s + j)
      + ∑ l, X r j * (√M.scale * M.lvi l (s + j) * z l) := by
    intro j
    rw [fullDraw_entry M z (by have := j.isLt; omega), mul_add, mul_sum]
  rw [sum_congr rfl fun j _ => h1 j, sum_add_distrib]
  congr 1
  rw [sum_comm]
  unfold dotProduct
  refine sum_congr rfl fun l _ => ?_
  dsimp only
  rw [mul_sum, sum_mul]
  exact sum_congr rfl fun j _ => by ring

theorem variance_eq {n k : ℕ} (M : Fit) (hs : 0 ≤ M.scale) (s : ℕ) (X : Matrix (Fin n) (Fin k) ℝ) (r : Fin n) :
    variance M s X r = (fun l => √M.scale * ∑ j, X r j * M.lvi l (s + j)) ⬝ᵥ fun l => √M.scale * ∑ j, X r j * M.lvi l (s + j) := by
  unfold variance
  rw [Matrix.mul_smul, Matrix.smul_mul, Matrix.smul_apply, Matrix.mul_assoc (X * _)]
  have e : blvi M s k * Xᵀ = (X * (blvi M s k)ᵀ)ᵀ := by rw [Matrix.transpose_mul, Matrix.transpose_transpose]
  rw [e, Matrix.mul_apply, smul_eq_mul, mul_sum]
  unfold dotProduct
  refine sum_congr rfl fun l _ => ?_
  have h2 : (X * (blvi M s k)ᵀ) r l = ∑ j, X r j * M.lvi l (s + j) := rfl
  rw [Matrix.transpose_apply, h2]
  have h3 := Real.mul_self_sqrt hs
  linear_combination (-(∑ j, X r j * M.lvi l (s + j)) * (∑ j, X r j * M.lvi l (s + j))) * h3

theorem core_cover {n k : ℕ} (ppf : ℝ → ℝ) (M : Fit) (hs : 0 ≤ M.scale) (s : ℕ) (hin : s + k ≤ M.p)
    (X : Matrix (Fin n) (Fin k) ℝ) {alpha : ℝ} (ha : 0 < alpha) (ha1 : alpha < 1)
    (hq : cdf (gaussianReal 0 1) (ppf (1 - alpha / 2)) = 1 - alpha / 2) (r : Fin n) :
    0 ≤ band ppf M s X alpha r ∧
    (0 < band ppf M s X alpha r →
      posterior M {β | |linpred X s β r - X.mulVec (bcoef M s k) r| ≤ band ppf M s X alpha r} = ENNReal.ofReal (1 - alpha)) ∧
    (band ppf M s X alpha r = 0 → posterior M {β | linpred X s β r = X.mulVec (bcoef M s k) r} = 1) := by
  have htpos := (std_central hq ha ha1).1
  have hmeas : Measurable fun β : EuclideanSpace ℝ (Fin M.p) => linpred X s β r := by
    unfold linpred
    refine Finset.measurable_sum _ fun j _ => Measurable.const_mul ?_ _
    unfold entry
    by_cases h : s + (j : ℕ) < M.p
    · simp only [dif_pos h]; fun_prop
    · simp only [dif_neg h]; fun_prop
  refine ⟨mul_nonneg htpos.le (Real.sqrt_nonneg _), fun hb => ?_, fun hb => ?_⟩
  · have hv : 0 < variance M s X r := by
      unfold band at hb
      exact Real.sqrt_pos.1 (pos_of_mul_pos_right hb htpos.le)
    rw [← fullDraw_law M hs, Measure.map_apply (fullDraw_measurable M)
      (measurableSet_le (by fun_prop) (by fun_prop))]
    rw [variance_eq M hs] at hv
    rw [← std_cover _ hq ha ha1 hv]
    congr 1
    ext z
    simp only [Set.mem_preimage, Set.mem_ofPred_eq]
    rw [linpred_fullDraw M X s hin, add_sub_cancel_left]
    unfold band
    rw [variance_eq M hs]
  · have hv : variance M s X r ≤ 0 := by
      unfold band at hb
      rcases mul_eq_zero.1 hb with h | h
      · exact absurd h htpos.ne'
      · exact Real.sqrt_eq_zero'.1 h
    rw [← fullDraw_law M hs, Measure.map_apply (fullDraw_measurable M)
      (measurableSet_eq_fun (by fun_prop) (by fun_prop))]
    rw [variance_eq M hs] at hv
    have hz : (fun l => √M.scale * ∑ j, X r j * M.lvi l (s + j)) = 0 :=
      dotProduct_self_eq_zero.1 (le_antisymm hv (sum_nonneg fun l _ => mul_self_nonneg _))
    have : fullDraw M ⁻¹' {β | linpred X s β r = X.mulVec (bcoef M s k) r} = Set.univ := by
      ext z
      simp only [Set.mem_preimage, Set.mem_ofPred_eq, Set.mem_univ, iff_true]
      rw [linpred_fullDraw M X s hin, hz, zero_dotProduct, add_zero]
    rw [this, measure_univ]

/-- **C83.** `predict` returns the value of the additive predictor at the estimates, and an interval holding the
predictor with posterior probability `1 - alpha`, separately for every row (a half width of 0 is returned only when the
predictor has no posterior uncertainty). The number of columns must be the number of coefficients of the formula. -/
theorem predict_covers {n k : ℕ} {ppf : ℝ → ℝ} {M : Fit} {w : List ℕ} (h : Laid M w) (hs : 0 ≤ M.scale) {par : ℕ}
    (hp : par < M.nform) {X : Matrix (Fin n) (Fin k) ℝ} (hk : w[par]? = some k) {alpha : ℝ} (ha : 0 < alpha) (ha1 : alpha < 1)
    (hq : cdf (gaussianReal 0 1) (ppf (1 - alpha / 2)) = 1 - alpha / 2) :
    ∃ pred b, predict ppf M par X alpha = some (pred, b) ∧ ∀ r,
      pred r = ∑ j, X r j * M.coef ((w.take par).sum + j) ∧ 0 ≤ b r ∧
      (0 < b r → posterior M {β | |linpred X (w.take par).sum β r - pred r| ≤ b r} = ENNReal.ofReal (1 - alpha)) ∧
      (b r = 0 → posterior M {β | linpred X (w.take par).sum β r = pred r} = 1) := by
  have hpl : par < w.length := by have := h.count; omega
  have hk' : w[par] = k := by rw [List.getElem?_eq_getElem hpl] at hk; exact Option.some.inj hk
  have hin : (w.take par).sum + k ≤ M.p := by
    have h1 := take_sum_le w (par + 1)
    rw [List.sum_take_succ w par hpl, ← h.total] at h1
    omega
  refine ⟨X.mulVec (bcoef M (w.take par).sum k), band ppf M (w.take par).sum X alpha, ?_, fun r => ⟨rfl, ?_⟩⟩
  · unfold predict
    rw [if_neg (by omega), block_laid h hpl]
    show (if _ = _ then _ else _) = _
    rw [if_pos (by rw [block_width hpl, hk'])]
  · exact core_cover ppf M hs _ hin X ha ha1 hq r

/-- **C83.** `predict_diff` returns the difference of the two predictions and an interval holding the difference of the
predictors with posterior probability `1 - alpha`. -/
theorem predictDiff_covers {n k : ℕ} {ppf : ℝ → ℝ} {M : Fit} {w : List ℕ} (h : Laid M w) (hs : 0 ≤ M.scale) {par : ℕ}
    (hp : par < M.nform) {X1 X2 : Matrix (Fin n) (Fin k) ℝ} (hk : w[par]? = some k) {alpha : ℝ} (ha : 0 < alpha)
    (ha1 : alpha < 1) (hq : cdf (gaussianReal 0 1) (ppf (1 - alpha / 2)) = 1 - alpha / 2) :
    ∃ d b pred1 pred2 b1 b2, predictDiff ppf M par X1 X2 alpha = some (d, b) ∧
      predict ppf M par X1 alpha = some (pred1, b1) ∧ predict ppf M par X2 alpha = some (pred2, b2) ∧ ∀ r,
      d r = pred1 r - pred2 r ∧ 0 ≤ b r ∧
      (0 < b r → posterior M {β | |linpred X1 (w.take par).sum β r - linpred X2 (w.take par).sum β r - d r| ≤ b r}
        = ENNReal.ofReal (1 - alpha)) ∧
      (b r = 0 → posterior M {β | linpred X1 (w.take par).sum β r - linpred X2 (w.take par).sum β r = d r} = 1) := by
  have hpl : par < w.length := by have := h.count; omega
  have hk' : w[par] = k := by rw [List.getElem?_eq_getElem hpl] at hk; exact Option.some.inj hk
  have hin : (w.take par).sum + k ≤ M.p := by
    have h1 := take_sum_le w (par + 1)
    rw [List.sum_take_succ w par hpl, ← h.total] at h1
    omega
  obtain ⟨pred1, b1, h1, h1'⟩ := predict_covers (X := X1) h hs hp hk ha ha1 hq
  obtain ⟨pred2, b2, h2, h2'⟩ := predict_covers (X := X2) h hs hp hk ha ha1 hq
  refine ⟨(X1 - X2).mulVec (bcoef M (w.take par).sum k), band ppf M (w.take par).sum (X1 - X2) alpha, pred1, pred2, b1, b2, ?_,
    h1, h2, fun r => ⟨?_, ?_⟩⟩
  · unfold predictDiff
    rw [if_neg (by omega), block_laid h hpl]
    show (if _ = _ then _ else _) = _
    rw [if_pos (by rw [block_width hpl, hk'])]
  · rw [(h1' r).1, (h2' r).1, ← sum_sub_distrib]
    show ∑ j, (X1 - X2) r j * bcoef M (w.take par).sum k j = _
    exact sum_congr rfl fun j _ => by rw [Matrix.sub_apply]; unfold bcoef; ring
  · have := core_cover ppf M hs _ hin (X1 - X2) ha ha1 hq r
    have e : ∀ β : EuclideanSpace ℝ (Fin M.p), linpred (X1 - X2) (w.take par).sum β r
        = linpred X1 (w.take par).sum β r - linpred X2 (w.take par).sum β r := by
      intro β
      unfold linpred
      rw [← sum_sub_distrib]
      exact sum_congr rfl fun j _ => by rw [Matrix.sub_apply]; ring
    simp only [e] at this
    exact this

/-- Asking for a formula that does not exist raises. -/
theorem predict_error {n k : ℕ} (ppf : ℝ → ℝ) (M : Fit) (par : ℕ) (hp : M.nform ≤ par) (X : Matrix (Fin n) (Fin k) ℝ) (alpha : ℝ) :
    predict ppf M par X alpha = none ∧ predictDiff ppf M par X X alpha = none := by
  unfold predict predictDiff
  rw [if_pos hp, if_pos hp]
  exact ⟨rfl, rfl⟩

end Verif.Predict
