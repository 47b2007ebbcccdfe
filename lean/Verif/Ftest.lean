import Verif.FtestRatio

/-!
# F tests of smooth terms and approximate p-values (property C117)

Theorems on the model of `approx_smooth_p_values` in `WaldModel.lean` (src/mssm/src/python/utils.py 1317-1326, 1373-1515), for
what C86 leaves open: integer degrees of freedom with an estimated scale, and the approximation used when Davies' method
reports a fault. The distribution functions of scipy are assumed to be exact (`FCdf`, `BetaCdf`, `GammaCdf`).
-/

namespace Verif.Ftest

open Real MeasureTheory ProbabilityTheory Matrix Verif.Wald

/-- Chi-square law with `d` degrees of freedom, `d` any positive number. -/
noncomputable def chi2 (d : ℝ) : Measure ℝ := gammaMeasure (d / 2) (1 / 2)

/-- `scp.stats.f.cdf(c, a, b)`: an F variable is the ratio of two independent chi-square variables divided by their degrees of
freedom. -/
def FCdf (L : Lib) : Prop :=
  ∀ a b c : ℝ, 0 < a → 0 < b → L.fcdf c a b = ((chi2 a).prod (chi2 b)).real {y | y.1 / a < c * (y.2 / b)}

/-- `scp.stats.beta.cdf(x, a, b)`. -/
def BetaCdf (L : Lib) : Prop := ∀ a b x : ℝ, 0 < a → 0 < b → L.beta x a b = (betaMeasure a b).real (Set.Iio x)

/-- `scp.stats.gamma.cdf(x, a, scale=2)`. -/
def GammaCdf (L : Lib) : Prop := ∀ a x : ℝ, 0 < a → L.gamma x a = (gammaMeasure a (1 / 2)).real (Set.Iio x)

theorem chi2_prob {d : ℝ} (hd : 0 < d) : IsProbabilityMeasure (chi2 d) := isProbabilityMeasure_gammaMeasure (by positivity) (by norm_num)

theorem chi2_pos {d : ℝ} : ∀ᵐ x ∂(chi2 d), 0 < x := by
  have h : chi2 d (Set.Iic 0) = 0 := by
    unfold chi2 gammaMeasure
    rw [withDensity_apply _ measurableSet_Iic, setLIntegral_congr (Iio_ae_eq_Iic (μ := volume)).symm]
    exact lintegral_gammaPDF_of_nonpos le_rfl
  rw [ae_iff]
  convert h using 2
  ext x
  simp

section Int

variable {m p : ℕ} {R : Matrix (Fin (m + 1)) (Fin p) ℝ} {V : Matrix (Fin p) (Fin p) ℝ} {U : Matrix (Fin (m + 1)) (Fin (m + 1)) ℝ}
  {s : Fin (m + 1) → ℝ}

theorem int_value (L : Lib) {k : ℕ} (hk : 0 < k) (hU : ∀ j : Fin (m + 1), (j : ℕ) < k → U 0 j ≠ 0) (force : Bool) (rsdf : ℝ)
    (σ : Fin (m + 1) → ℝ) (f : Fin (m + 1) → ℝ) :
    test L true force rsdf U σ k f = some (1 - L.fcdf (waldInt U σ k f / k) k rsdf, waldInt U σ k f / k) := by
  obtain ⟨κ, rfl⟩ : ∃ κ, k = κ + 1 := ⟨k - 1, by omega⟩
  unfold test
  rw [Nat.floor_natCast]
  dsimp only
  rw [if_pos (sub_self _), stats_int hU]
  unfold intCase
  simp only [if_true, max_self]
  congr 2
  ring

/-- Joint law of the statistic and an independent variable. -/
theorem joint_law (hE : Eig R V U s) {k : ℕ} (hk : 0 < k) (h : k ≤ m + 1) (hs : ∀ j : Fin k, 0 < s (Fin.castLE h j)) {b : ℝ} (hb : 0 < b) :
    ((null V).prod (chi2 b)).map (fun y => (waldInt U s k (fval R y.1), y.2)) = (chi2 k).prod (chi2 b) := by
  have := chi2_prob hb
  have := null_prob (V := V)
  have hl := law_int hE h hs
  rw [chi_gamma hk] at hl
  have hm := waldInt_measurable (R := R) (U := U) (s := s) k
  have hid : chi2 b = (chi2 b).map id := Measure.map_id.symm
  have hk2 : chi2 k = (null V).map fun β => waldInt U s k (fval R β) := hl.symm
  conv_rhs => rw [hid, hk2]
  rw [Measure.map_prod_map _ _ hm measurable_id]
  rfl

theorem f_tail (hE : Eig R V U s) {L : Lib} (hL : FCdf L) {k : ℕ} (hk : 0 < k) (h : k ≤ m + 1) (hs : ∀ j : Fin k, 0 < s (Fin.castLE h j))
    {b : ℝ} (hb : 0 < b) (c : ℝ) :
    1 - L.fcdf c k b = ((null V).prod (chi2 b)).real {y | c * (y.2 / b) ≤ waldInt U s k (fval R y.1) / k} := by
  have := chi2_prob hb
  have := null_prob (V := V)
  have hkr : (0 : ℝ) < k := by exact_mod_cast hk
  have := chi2_prob hkr
  have hms : MeasurableSet {y : ℝ × ℝ | y.1 / k < c * (y.2 / b)} := measurableSet_lt (by fun_prop) (by fun_prop)
  rw [hL k b c hkr hb, ← probReal_compl_eq_one_sub hms, ← joint_law hE hk h hs hb, map_measureReal_apply ?_ hms.compl]
  · congr 1
    ext y
    simp
  · exact ((waldInt_measurable k).comp measurable_fst).prodMk measurable_snd

/-- **C117.** Integer degrees of freedom `k`, estimated scale. The returned p-value is the probability under the null hypothesis
that the statistic is at least as large as the one observed, times an independent chi-square variable with `rsdf` degrees of freedom
over `rsdf`, and the returned statistic is the observed one over `k`. -/
theorem p_int_estimated (hE : Eig R V U s) {L : Lib} (hL : FCdf L) {k : ℕ} (hk : 0 < k) (h : k ≤ m + 1)
    (hs : ∀ j : Fin k, 0 < s (Fin.castLE h j)) (hU : ∀ j : Fin (m + 1), (j : ℕ) < k → U 0 j ≠ 0) (force : Bool) {rsdf : ℝ} (hb : 0 < rsdf)
    (β : EuclideanSpace ℝ (Fin p)) :
    test L true force rsdf U s k (fval R β)
      = some (((null V).prod (chi2 rsdf)).real {y | waldInt U s k (fval R β) * (y.2 / rsdf) ≤ waldInt U s k (fval R y.1)},
          waldInt U s k (fval R β) / k) := by
  rw [int_value L hk hU, f_tail hE hL hk h hs hb]
  have hkr : (0 : ℝ) < k := by exact_mod_cast hk
  congr 3
  ext y
  show waldInt U s k (fval R β) / (k : ℝ) * (y.2 / rsdf) ≤ waldInt U s k (fval R y.1) / (k : ℝ)
    ↔ waldInt U s k (fval R β) * (y.2 / rsdf) ≤ waldInt U s k (fval R y.1)
  rw [div_mul_eq_mul_div, div_le_div_iff_of_pos_right hkr]

/-- **C117.** The F test is valid. With an estimated scale the covariance matrix of the coefficients is proportional to the
estimate. If the estimate is the true scale times a chi-square variable with `rsdf` degrees of freedom over `rsdf`, independent of the
coefficients, then the eigenvalues are those of the true covariance times this factor, and the probability of a p-value at most `α` is at
most `α`. -/
theorem p_int_estimated_valid (hE : Eig R V U s) {L : Lib} (hL : FCdf L) {k : ℕ} (hk : 0 < k) (h : k ≤ m + 1)
    (hs : ∀ j : Fin k, 0 < s (Fin.castLE h j)) (hU : ∀ j : Fin (m + 1), (j : ℕ) < k → U 0 j ≠ 0) (force : Bool) {rsdf : ℝ} (hb : 0 < rsdf)
    {α : ℝ} (hα : 0 ≤ α) :
    ((null V).prod (chi2 rsdf)).real
      {y | ∃ p T, test L true force rsdf U (fun j => s j * (y.2 / rsdf)) k (fval R y.1) = some (p, T) ∧ p ≤ α} ≤ α := by
  have hp1 := chi2_prob hb
  have hp2 := null_prob (V := V)
  have hkr : (0 : ℝ) < k := by exact_mod_cast hk
  obtain ⟨F, hF⟩ : ∃ F : EuclideanSpace ℝ (Fin p) × ℝ → ℝ, F = fun y => waldInt U s k (fval R y.1) / k / (y.2 / rsdf) := ⟨_, rfl⟩
  have hFm : Measurable F := by
    rw [hF]
    exact (((waldInt_measurable k).comp measurable_fst).div_const _).div (measurable_snd.div_const _)
  have hpos : ∀ᵐ y ∂((null V).prod (chi2 rsdf)), 0 < y.2 := by
    have := chi2_pos (d := rsdf)
    exact Measure.quasiMeasurePreserving_snd.ae this
  have : IsProbabilityMeasure (((null V).prod (chi2 rsdf)).map F) := Measure.isProbabilityMeasure_map hFm.aemeasurable
  have htail : ∀ c, 1 - L.fcdf c k rsdf = (((null V).prod (chi2 rsdf)).map F).real (Set.Ici c) := by
    intro c
    rw [f_tail hE hL hk h hs hb, map_measureReal_apply hFm measurableSet_Ici]
    refine measureReal_congr ?_
    filter_upwards [hpos] with y hy
    have hq : 0 < y.2 / rsdf := div_pos hy hb
    refine propext ?_
    show c * (y.2 / rsdf) ≤ waldInt U s k (fval R y.1) / k ↔ c ≤ F y
    rw [hF]
    exact (le_div_iff₀ hq).symm
  have hscale : ∀ y : EuclideanSpace ℝ (Fin p) × ℝ, waldInt U (fun j => s j * (y.2 / rsdf)) k (fval R y.1) / k = F y := by
    intro y
    rw [hF]
    unfold waldInt
    show _ = (∑ j ∈ Finset.univ.filter (fun j : Fin (m + 1) => (j : ℕ) < k), (raw U j ⬝ᵥ fval R y.1) ^ 2 / s j) / k / (y.2 / rsdf)
    rw [div_right_comm (∑ j ∈ Finset.univ.filter (fun j : Fin (m + 1) => (j : ℕ) < k), (raw U j ⬝ᵥ fval R y.1) ^ 2 / s j) (k : ℝ) (y.2 / rsdf),
      Finset.sum_div _ _ (y.2 / rsdf)]
    congr 1
    exact Finset.sum_congr rfl fun j _ => (div_div ((raw U j ⬝ᵥ fval R y.1) ^ 2) (s j) (y.2 / rsdf)).symm
  have hset : {y : EuclideanSpace ℝ (Fin p) × ℝ | ∃ p T, test L true force rsdf U (fun j => s j * (y.2 / rsdf)) k (fval R y.1) = some (p, T) ∧ p ≤ α}
      = F ⁻¹' {t | (((null V).prod (chi2 rsdf)).map F).real (Set.Ici t) ≤ α} := by
    ext y
    simp only [Set.mem_ofPred_eq, Set.mem_preimage, int_value L hk hU, hscale, htail, Option.some.injEq, Prod.mk.injEq]
    constructor
    · rintro ⟨p, t, ⟨rfl, _⟩, hp⟩
      exact hp
    · intro hp
      exact ⟨_, _, ⟨rfl, rfl⟩, hp⟩
  rw [hset]
  have hms : MeasurableSet {t : ℝ | (((null V).prod (chi2 rsdf)).map F).real (Set.Ici t) ≤ α} := by
    refine Set.OrdConnected.measurableSet ⟨?_⟩
    intro a ha b _ c hc
    exact le_trans (measureReal_mono (Set.Ici_subset_Ici.2 hc.1)) ha
  rw [← map_measureReal_apply hFm hms]
  exact tail_valid _ hα

end Int

/-- Whole degrees of freedom: `chi2` is the law of the sum of squares of `n` standard normal variables. -/
theorem chi2_normal {n : ℕ} (hn : 0 < n) : chi2 n = chi (List.replicate n 1) := (chi_gamma hn).symm

section Approx

variable {m p : ℕ} {R : Matrix (Fin (m + 1)) (Fin p) ℝ} {V : Matrix (Fin p) (Fin p) ℝ} {U : Matrix (Fin (m + 1)) (Fin (m + 1)) ℝ}
  {s : Fin (m + 1) → ℝ}

/-- **C117.** When the approximation replaces Davies' method. -/
theorem fallback_iff (force : Bool) (c1 c2 : ℕ) :
    fallback force c1 c2 = true ↔ (c1 ≠ 0 ∨ c2 ≠ 0 ∨ force = true) ∧ ¬ (c1 = 2 ∧ c2 = 2) := by
  unfold fallback
  simp only [Bool.and_eq_true, Bool.or_eq_true, decide_eq_true_eq, Nat.pos_iff_ne_zero]
  tauto

/-- The statistic is not negative. -/
theorem wald_nonneg {κ : ℕ} (u : Fin (κ + 2) → Fin (m + 1) → ℝ) (σ : Fin (κ + 2) → ℝ) {v : ℝ} (h0 : 0 ≤ v) (h1 : v ≤ 1)
    (f : Fin (m + 1) → ℝ) : 0 ≤ wald u σ v f := by
  unfold wald
  dsimp only
  have hs : 0 ≤ ∑ j : Fin κ, ((u j.castSucc.castSucc ⬝ᵥ f) / √(σ j.castSucc.castSucc)) ^ 2 := Finset.sum_nonneg fun j _ => sq_nonneg _
  generalize (u (Fin.last κ).castSucc ⬝ᵥ f) / √(σ (Fin.last κ).castSucc) = a
  generalize (u (Fin.last (κ + 1)) ⬝ᵥ f) / √(σ (Fin.last (κ + 1))) = b
  have hq : √(v * (1 - v) / 2) ^ 2 = v * (1 - v) / 2 := sq_sqrt (by have := mul_nonneg h0 (sub_nonneg.2 h1); linarith)
  generalize √(v * (1 - v) / 2) = q at hq
  have e : a ^ 2 + 2 * q * a * b + v * b ^ 2 = (a + q * b) ^ 2 + (v - q ^ 2) * b ^ 2 := by ring
  have h2 : 0 ≤ v - q ^ 2 := by rw [hq]; nlinarith
  have := mul_nonneg h2 (sq_nonneg b)
  have := sq_nonneg (a + q * b)
  linarith

/-- **C117.** Known scale, degrees of freedom not whole, and the approximation is used: the p-value is the mean of the upper tail
probabilities of the two statistics for a chi-square law with `r` degrees of freedom. -/
theorem p_approx_known {L : Lib} (hL : GammaCdf L) {r : ℝ} {κ : ℕ} (hk : ⌊r⌋₊ = κ + 1) (hr : r ≠ (κ + 1 : ℕ)) (h : κ + 2 ≤ m + 1)
    (hs : ∀ j : Fin (κ + 2), 0 < s (Fin.castLE h j)) (hU : ∀ j : Fin (κ + 2), U 0 (Fin.castLE h j) ≠ 0) (force : Bool) (rsdf : ℝ)
    (f : Fin (m + 1) → ℝ) {T1 T2 : ℝ}
    (hT1 : T1 = wald (fun j => fixed U (Fin.castLE h j)) (fun j => s (Fin.castLE h j)) (r - (κ + 1 : ℕ)) f)
    (hT2 : T2 = wald (fun j => raw U (Fin.castLE h j)) (fun j => s (Fin.castLE h j)) (r - (κ + 1 : ℕ)) f)
    (hf : fallback force (L.davies (lb (κ + 1) (r - (κ + 1 : ℕ))) (nn (κ + 1)) T1).2
      (L.davies (lb (κ + 1) (r - (κ + 1 : ℕ))) (nn (κ + 1)) T2).2 = true) :
    test L false force rsdf U s r f = some (((chi2 r).real (Set.Ici T1) + (chi2 r).real (Set.Ici T2)) / 2, max T1 T2) := by
  have hr0 : 0 < r := by
    by_contra hn
    rw [Nat.floor_of_nonpos (not_lt.1 hn)] at hk
    omega
  have := chi2_prob hr0
  unfold test
  rw [hk]
  dsimp only
  rw [if_neg (sub_ne_zero.2 hr), dif_pos h, stats_wald h hs hU, ← hT1, ← hT2]
  unfold nonCase
  dsimp only
  rw [if_neg Bool.false_ne_true, if_pos hf]
  dsimp only
  have e : ∀ t, 1 - L.gamma t (r / 2) = (chi2 r).real (Set.Ici t) := by
    intro t
    rw [hL _ _ (half_pos hr0), ← Set.compl_Iio, probReal_compl_eq_one_sub measurableSet_Iio]
    rfl
  rw [e, e]

/-- **C117.** Estimated scale, degrees of freedom not whole, and the approximation is used: the p-value is the mean, over the two
statistics, of the probability that a chi-square variable with `r` degrees of freedom is at least the statistic times an independent
chi-square variable with `rsdf` degrees of freedom over `rsdf`: the tail of an F law with `r` and `rsdf` degrees of freedom. -/
theorem p_approx_estimated {L : Lib} (hL : BetaCdf L) {r : ℝ} {κ : ℕ} (hk : ⌊r⌋₊ = κ + 1) (hr : r ≠ (κ + 1 : ℕ)) (h : κ + 2 ≤ m + 1)
    (hs : ∀ j : Fin (κ + 2), 0 < s (Fin.castLE h j)) (hU : ∀ j : Fin (κ + 2), U 0 (Fin.castLE h j) ≠ 0) (force : Bool) {rsdf : ℝ}
    (hb : 0 < rsdf) (f : Fin (m + 1) → ℝ) {T1 T2 : ℝ}
    (hT1 : T1 = wald (fun j => fixed U (Fin.castLE h j)) (fun j => s (Fin.castLE h j)) (r - (κ + 1 : ℕ)) f)
    (hT2 : T2 = wald (fun j => raw U (Fin.castLE h j)) (fun j => s (Fin.castLE h j)) (r - (κ + 1 : ℕ)) f)
    (hf : fallback force (L.davies (lb (κ + 1) (r - (κ + 1 : ℕ)) ++ [-T1 / rsdf]) (nn (κ + 1) ++ [rsdf]) 0).2
      (L.davies (lb (κ + 1) (r - (κ + 1 : ℕ)) ++ [-T2 / rsdf]) (nn (κ + 1) ++ [rsdf]) 0).2 = true) :
    test L true force rsdf U s r f
      = some ((((chi2 r).prod (chi2 rsdf)).real {y | T1 * (y.2 / rsdf) ≤ y.1} + ((chi2 r).prod (chi2 rsdf)).real {y | T2 * (y.2 / rsdf) ≤ y.1}) / 2,
          max (T1 / r) (T2 / r)) := by
  have hr0 : 0 < r := by
    by_contra hn
    rw [Nat.floor_of_nonpos (not_lt.1 hn)] at hk
    omega
  have hv0 : 0 ≤ r - (κ + 1 : ℕ) := by
    have := Nat.floor_le hr0.le
    rw [hk] at this
    linarith
  have hv1 : r - (κ + 1 : ℕ) ≤ 1 := by
    have := Nat.lt_floor_add_one r
    rw [hk] at this
    linarith
  have hp1 := chi2_prob hr0
  have hp2 := chi2_prob hb
  have e : ∀ t, 0 ≤ t → 1 - L.beta (r * (t / r) / rsdf / (1 + r * (t / r) / rsdf)) (r / 2) (rsdf / 2)
      = ((chi2 r).prod (chi2 rsdf)).real {y | t * (y.2 / rsdf) ≤ y.1} := by
    intro t ht
    have ht' : 0 ≤ t / rsdf := div_nonneg ht hb.le
    have hms : MeasurableSet {y : ℝ × ℝ | y.1 < t / rsdf * y.2} := measurableSet_lt (by fun_prop) (by fun_prop)
    rw [mul_div_cancel₀ t hr0.ne', hL _ _ _ (half_pos hr0) (half_pos hb)]
    have hl := ratio_law (half_pos hr0) (half_pos hb) (show (0 : ℝ) < 1 / 2 by norm_num) ht'
    unfold Measure.real
    rw [← hl]
    show 1 - ((chi2 r).prod (chi2 rsdf)).real {y | y.1 < t / rsdf * y.2} = ((chi2 r).prod (chi2 rsdf)).real _
    rw [← probReal_compl_eq_one_sub hms]
    congr 1
    ext y
    show ¬ (y.1 < t / rsdf * y.2) ↔ t * (y.2 / rsdf) ≤ y.1
    rw [not_lt, div_mul_eq_mul_div, mul_div_assoc]
  unfold test
  rw [hk]
  dsimp only
  rw [if_neg (sub_ne_zero.2 hr), dif_pos h, stats_wald h hs hU, ← hT1, ← hT2]
  unfold nonCase
  dsimp only
  rw [if_pos rfl, if_pos hf]
  dsimp only
  rw [e T1 (by rw [hT1]; exact wald_nonneg _ _ hv0 hv1 f), e T2 (by rw [hT2]; exact wald_nonneg _ _ hv0 hv1 f)]

theorem v_sq {v : ℝ} (h0 : 0 ≤ v) (h1 : v ≤ 1) : v1 v + v2 v = 1 + v ∧ v1 v ^ 2 + v2 v ^ 2 = 1 + v ∧ 0 ≤ v2 v ∧ v1 v = (1 + v + √(1 - v ^ 2)) / 2 := by
  have hq : √(1 - v ^ 2) ^ 2 = 1 - v ^ 2 := sq_sqrt (by nlinarith)
  have hn : 0 ≤ √(1 - v ^ 2) := sqrt_nonneg _
  have e1 : v1 v = (1 + v + √(1 - v ^ 2)) / 2 := by
    unfold v1
    rw [sqrt_eq_rpow]
    ring
  have e2 : v2 v = (1 + v - √(1 - v ^ 2)) / 2 := by
    unfold v2
    rw [e1]
    ring
  refine ⟨by unfold v2; ring, ?_, ?_, e1⟩
  · rw [e1, e2]
    linear_combination hq / 2
  · rw [e2]
    have : √(1 - v ^ 2) ≤ 1 + v := by
      rw [sqrt_le_left (by linarith)]
      nlinarith
    linarith

/-- Law of the statistics under the null hypothesis. -/
theorem law_both (hE : Eig R V U s) {κ : ℕ} (h : κ + 2 ≤ m + 1) (hs : ∀ j : Fin (κ + 2), 0 < s (Fin.castLE h j))
    (hU : ∀ j : Fin (κ + 2), U 0 (Fin.castLE h j) ≠ 0) {v : ℝ} (h0 : 0 < v) (h1 : v < 1) (T : EuclideanSpace ℝ (Fin p) → ℝ)
    (hT : T = (fun β => wald (fun j => fixed U (Fin.castLE h j)) (fun j => s (Fin.castLE h j)) v (fval R β))
      ∨ T = fun β => wald (fun j => raw U (Fin.castLE h j)) (fun j => s (Fin.castLE h j)) v (fval R β)) :
    Measurable T ∧ (null V).map T = chi (List.replicate κ 1 ++ [v1 v, v2 v]) := by
  rcases hT with rfl | rfl
  · exact ⟨fval_wald_measurable _ _ _, wald_law hE h hs (fun j => SignType.sign (U 0 (Fin.castLE h j))) (fun j => sign_sq (hU j)) h0 h1⟩
  · refine ⟨fval_wald_measurable _ _ _, ?_⟩
    have := wald_law hE h hs (fun _ => 1) (fun _ => by norm_num) h0 h1
    simp only [mul_one] at this
    exact this

/-- **C117.** The chi-square law used in the approximation has the mean and the variance of the statistics under the null
hypothesis. -/
theorem approx_moments (hE : Eig R V U s) {κ : ℕ} (h : κ + 2 ≤ m + 1) (hs : ∀ j : Fin (κ + 2), 0 < s (Fin.castLE h j))
    (hU : ∀ j : Fin (κ + 2), U 0 (Fin.castLE h j) ≠ 0) {v : ℝ} (h0 : 0 < v) (h1 : v < 1) (T : EuclideanSpace ℝ (Fin p) → ℝ)
    (hT : T = (fun β => wald (fun j => fixed U (Fin.castLE h j)) (fun j => s (Fin.castLE h j)) v (fval R β))
      ∨ T = fun β => wald (fun j => raw U (Fin.castLE h j)) (fun j => s (Fin.castLE h j)) v (fval R β)) :
    ∫ β, T β ∂(null V) = ∫ x, x ∂(chi2 ((κ + 1 : ℕ) + v)) ∧ Var[T; null V] = Var[id; chi2 ((κ + 1 : ℕ) + v)]
      ∧ ∫ x, x ∂(chi2 ((κ + 1 : ℕ) + v)) = (κ + 1 : ℕ) + v ∧ Var[id; chi2 ((κ + 1 : ℕ) + v)] = 2 * ((κ + 1 : ℕ) + v) := by
  obtain ⟨hm, hl⟩ := law_both hE h hs hU h0 h1 T hT
  obtain ⟨es, eq, _⟩ := v_sq h0.le h1.le
  have hr : 0 < ((κ + 1 : ℕ) + v) / 2 := by positivity
  have a1 : ∫ x, x ∂(chi2 ((κ + 1 : ℕ) + v)) = (κ + 1 : ℕ) + v := by
    unfold chi2
    rw [gamma_mean hr (by norm_num)]
    ring
  have a2 : Var[id; chi2 ((κ + 1 : ℕ) + v)] = 2 * ((κ + 1 : ℕ) + v) := by
    unfold chi2
    rw [gamma_variance hr (by norm_num)]
    ring
  have b1 : ∫ β, T β ∂(null V) = (κ + 1 : ℕ) + v := by
    have : ∫ x, x ∂((null V).map T) = ∫ β, T β ∂(null V) := integral_map hm.aemeasurable (by fun_prop)
    rw [← this, hl, chi_mean]
    simp only [List.sum_append, List.sum_replicate, List.sum_cons, List.sum_nil, nsmul_eq_mul, mul_one, add_zero]
    push_cast
    linarith
  have b2 : Var[T; null V] = 2 * ((κ + 1 : ℕ) + v) := by
    have : Var[id; (null V).map T] = Var[T; null V] := variance_map measurable_id.aemeasurable hm.aemeasurable
    rw [← this, hl, chi_variance]
    simp only [List.map_append, List.map_replicate, List.map_cons, List.map_nil, List.sum_append, List.sum_replicate, List.sum_cons, List.sum_nil,
      nsmul_eq_mul, add_zero]
    push_cast
    linarith
  exact ⟨b1.trans a1.symm, b2.trans a2.symm, a1, a2⟩

/-- **C117, what fails (1).** It is an approximation: the law of the statistics under the null hypothesis is never the chi-square law with
`r` degrees of freedom, if `r` is not whole. -/
theorem approx_not_exact (hE : Eig R V U s) {κ : ℕ} (h : κ + 2 ≤ m + 1) (hs : ∀ j : Fin (κ + 2), 0 < s (Fin.castLE h j))
    (hU : ∀ j : Fin (κ + 2), U 0 (Fin.castLE h j) ≠ 0) {v : ℝ} (h0 : 0 < v) (h1 : v < 1) (T : EuclideanSpace ℝ (Fin p) → ℝ)
    (hT : T = (fun β => wald (fun j => fixed U (Fin.castLE h j)) (fun j => s (Fin.castLE h j)) v (fval R β))
      ∨ T = fun β => wald (fun j => raw U (Fin.castLE h j)) (fun j => s (Fin.castLE h j)) v (fval R β)) :
    ∃ c, (null V).real {β | c ≤ T β} ≠ (chi2 ((κ + 1 : ℕ) + v)).real (Set.Ici c) := by
  obtain ⟨hm, hl⟩ := law_both hE h hs hU h0 h1 T hT
  obtain ⟨es, eq, hv2, ev⟩ := v_sq h0.le h1.le
  have hr : 0 < ((κ + 1 : ℕ) + v) / 2 := by positivity
  have := null_prob (V := V)
  have hp := chi2_prob (d := (κ + 1 : ℕ) + v) (by positivity)
  have hpm : IsProbabilityMeasure ((null V).map T) := Measure.isProbabilityMeasure_map hm.aemeasurable
  by_contra hc
  push Not at hc
  have heq : (null V).map T = chi2 ((κ + 1 : ℕ) + v) := by
    refine Measure.ext_of_Ici _ _ fun c => ?_
    have := hc c
    rw [← measureReal_eq_measureReal_iff, ← this, map_measureReal_apply hm measurableSet_Ici]
    rfl
  rw [hl] at heq
  have hv1 : 1 < v1 v := by
    rw [ev]
    have : 1 - v < √(1 - v ^ 2) := by
      rw [lt_sqrt (by linarith)]
      nlinarith
    linarith
  have hv21 : v2 v ≤ v1 v := by
    by_contra hn
    push Not at hn
    nlinarith
  let u0 : ℝ := 1 / (2 * v1 v)
  have hu0 : 0 < u0 := by positivity
  have hu01 : u0 < 1 / 2 := by
    show 1 / (2 * v1 v) < 1 / 2
    exact one_div_lt_one_div_of_lt (by norm_num) (by linarith)
  -- equality of the two moment generating functions
  have hmgf : ∀ u, 0 < u → u < u0 → (1 - 2 * u) ^ κ * ((1 - 2 * u * v1 v) * (1 - 2 * u * v2 v)) = (1 - 2 * u) ^ ((κ + 1 : ℕ) + v) := by
    intro u hu hlt
    have huv : 2 * u * v1 v < 1 := by
      have : u * (2 * v1 v) < 1 := by
        rw [← lt_div_iff₀ (by positivity)]
        exact hlt
      linarith
    have huv2 : 2 * u * v2 v < 1 := lt_of_le_of_lt (mul_le_mul_of_nonneg_left hv21 (by linarith)) huv
    have hu1 : 2 * u < 1 := by linarith
    have hcond : ∀ a ∈ List.replicate κ (1 : ℝ) ++ [v1 v, v2 v], 2 * u * a < 1 := by
      intro a ha
      rcases List.mem_append.1 ha with ha | ha
      · rw [List.eq_of_mem_replicate ha]; linarith
      · simp only [List.mem_cons, List.not_mem_nil, or_false] at ha
        rcases ha with rfl | rfl
        · exact huv
        · exact huv2
    have e1 := (Qf.chi_mgf _ hcond).2
    rw [heq] at e1
    unfold chi2 at e1
    rw [(gamma_mgf hr (by norm_num) (by linarith)).2] at e1
    have hp1 : 0 < 1 - 2 * u := by linarith
    have hp2 : 0 < 1 - 2 * u * v1 v := by linarith
    have hp3 : 0 < 1 - 2 * u * v2 v := by linarith
    have e : (1 / 2 : ℝ) / (1 / 2 - u) = (1 - 2 * u)⁻¹ := by
      have : (1 / 2 - u : ℝ) ≠ 0 := by linarith
      field_simp
    rw [e, rpow_def_of_pos (inv_pos.2 hp1), log_inv] at e1
    have e2 := exp_injective e1
    simp only [List.map_append, List.map_replicate, List.map_cons, List.map_nil, List.sum_append, List.sum_replicate, List.sum_cons, List.sum_nil,
      nsmul_eq_mul, add_zero, mul_one] at e2
    rw [rpow_def_of_pos hp1, ← exp_log (mul_pos (pow_pos hp1 κ) (mul_pos hp2 hp3)), log_mul (pow_pos hp1 κ).ne' (mul_pos hp2 hp3).ne',
      log_mul hp2.ne' hp3.ne', log_pow]
    congr 1
    linarith
  have hne : (nhdsWithin u0 (Set.Iio u0)).NeBot := inferInstance
  have hcont1 : Filter.Tendsto (fun u : ℝ => (1 - 2 * u) ^ κ * ((1 - 2 * u * v1 v) * (1 - 2 * u * v2 v))) (nhdsWithin u0 (Set.Iio u0))
      (nhds ((1 - 2 * u0) ^ κ * ((1 - 2 * u0 * v1 v) * (1 - 2 * u0 * v2 v)))) :=
    ((by fun_prop : Continuous fun u : ℝ => (1 - 2 * u) ^ κ * ((1 - 2 * u * v1 v) * (1 - 2 * u * v2 v))).tendsto u0).mono_left nhdsWithin_le_nhds
  have hcont2 : Filter.Tendsto (fun u : ℝ => (1 - 2 * u) ^ ((κ + 1 : ℕ) + v)) (nhdsWithin u0 (Set.Iio u0)) (nhds ((1 - 2 * u0) ^ ((κ + 1 : ℕ) + v))) := by
    have hb : ContinuousAt (fun u : ℝ => 1 - 2 * u) u0 := by fun_prop
    have : ContinuousAt (fun u : ℝ => (1 - 2 * u) ^ ((κ + 1 : ℕ) + v)) u0 := hb.rpow_const (Or.inl (by linarith))
    exact this.tendsto.mono_left nhdsWithin_le_nhds
  have heq2 : (fun u : ℝ => (1 - 2 * u) ^ κ * ((1 - 2 * u * v1 v) * (1 - 2 * u * v2 v)))
      =ᶠ[nhdsWithin u0 (Set.Iio u0)] fun u : ℝ => (1 - 2 * u) ^ ((κ + 1 : ℕ) + v) := by
    have : Set.Ioo 0 u0 ∈ nhdsWithin u0 (Set.Iio u0) := Ioo_mem_nhdsLT hu0
    filter_upwards [this] with u hu
    exact hmgf u hu.1 hu.2
  have hlim := tendsto_nhds_unique (hcont1.congr' heq2) hcont2
  have hz : 1 - 2 * u0 * v1 v = 0 := by
    show 1 - 2 * (1 / (2 * v1 v)) * v1 v = 0
    field_simp
    ring
  rw [hz, zero_mul, mul_zero] at hlim
  have hpos := rpow_pos_of_pos (show 0 < 1 - 2 * u0 by linarith) ((κ + 1 : ℕ) + v)
  linarith

/-- **C117, what fails (2).** "force_approx: Whether or not the p-value should be forced to be approximated" (1167-1170). If Davies'
method reports a round-off fault for both statistics, the option has no effect and the p-values are those of Davies' method. -/
theorem force_wrong {L : Lib} (hL : ∀ ws ns c, (L.davies ws ns c).2 = 2) (twopar : Bool) (rsdf r : ℝ) (f : Fin (m + 1) → ℝ) :
    test L twopar true rsdf U s r f = test L twopar false rsdf U s r f := by
  unfold test nonCase
  simp only [hL]
  rfl

/-- **C117.** Otherwise the option makes the p-values and statistics independent of what Davies' method returns. -/
theorem force_partial {L L' : Lib} (h1 : L.fcdf = L'.fcdf) (h2 : L.chi2 = L'.chi2) (h3 : L.beta = L'.beta) (h4 : L.gamma = L'.gamma)
    (hL : ∀ ws ns c, (L.davies ws ns c).2 ≠ 2) (hL' : ∀ ws ns c, (L'.davies ws ns c).2 ≠ 2) (twopar : Bool) (rsdf r : ℝ)
    (f : Fin (m + 1) → ℝ) : test L twopar true rsdf U s r f = test L' twopar true rsdf U s r f := by
  have hf : ∀ ws ns c ws' ns' c', fallback true (L.davies ws ns c).2 (L.davies ws' ns' c').2 = true := fun ws ns c _ _ _ =>
    (fallback_iff _ _ _).2 ⟨Or.inr (Or.inr rfl), fun h => hL ws ns c h.1⟩
  have hf' : ∀ ws ns c ws' ns' c', fallback true (L'.davies ws ns c).2 (L'.davies ws' ns' c').2 = true := fun ws ns c _ _ _ =>
    (fallback_iff _ _ _).2 ⟨Or.inr (Or.inr rfl), fun h => hL' ws ns c h.1⟩
  unfold test nonCase intCase
  simp only [hf, hf', h1, h2, h3, h4, if_true]

end Approx

/-! ## Examples -/

/-- Exact distribution functions, Davies' method always failing. -/
noncomputable def lib (code : ℕ) : Lib where
  fcdf c a b := ((chi2 a).prod (chi2 b)).real {y | y.1 / a < c * (y.2 / b)}
  chi2 c k := (chi2 k).real (Set.Iio c)
  beta x a b := (betaMeasure a b).real (Set.Iio x)
  gamma x a := (gammaMeasure a (1 / 2)).real (Set.Iio x)
  davies _ _ _ := (-1, code)

theorem lib_f (c : ℕ) : FCdf (lib c) := fun _ _ _ _ _ => rfl
theorem lib_beta (c : ℕ) : BetaCdf (lib c) := fun _ _ _ _ _ => rfl
theorem lib_gamma (c : ℕ) : GammaCdf (lib c) := fun _ _ _ => rfl

/-- One degree of freedom, `15 / 2` residual degrees of freedom. -/
example {α : ℝ} (hα : 0 ≤ α) :
    ((null (uA * Matrix.diagonal sAB * uAᵀ)).prod (chi2 (15 / 2))).real
      {y | ∃ p T, test (lib 4) true false (15 / 2) uA (fun j => sAB j * (y.2 / (15 / 2))) (1 : ℕ)
        (fval (m := 1) (1 : Matrix (Fin 2) (Fin 2) ℝ) y.1) = some (p, T) ∧ p ≤ α} ≤ α :=
  p_int_estimated_valid demo_eig (lib_f 4) (by norm_num) (by norm_num) (fun j => by fin_cases j; simp [sAB])
    (fun j hj => by fin_cases j <;> simp [uA] at *) false (by norm_num) hα

example (β : EuclideanSpace ℝ (Fin 2)) : ∃ p T, test (lib 4) true false (15 / 2) uA sAB (1 : ℕ)
    (fval (m := 1) (1 : Matrix (Fin 2) (Fin 2) ℝ) β) = some (p, T) :=
  ⟨_, _, p_int_estimated demo_eig (lib_f 4) (by norm_num) (by norm_num) (fun j => by fin_cases j; simp [sAB])
    (fun j hj => by fin_cases j <;> simp [uA] at *) false (by norm_num) β⟩

/-- One and a half degrees of freedom, a fault of Davies' method. -/
example (f : Fin 2 → ℝ) : ∃ p T, test (m := 1) (lib 4) false false 7 uA sAB (3 / 2) f = some (p, T) :=
  ⟨_, _, p_approx_known (lib_gamma 4) floor_demo (by norm_num) (le_refl 2) sAB_pos uA_ne false 7 f rfl rfl rfl⟩

example (f : Fin 2 → ℝ) : ∃ p T, test (m := 1) (lib 4) true false 7 uA sAB (3 / 2) f = some (p, T) :=
  ⟨_, _, p_approx_estimated (lib_beta 4) floor_demo (by norm_num) (le_refl 2) sAB_pos uA_ne false (by norm_num) f rfl rfl rfl⟩

example : ∃ c, (null (uA * Matrix.diagonal sAB * uAᵀ)).real {β | c ≤ wald (fun j : Fin (0 + 2) => fixed uA (Fin.castLE (le_refl 2) j))
    (fun j => sAB (Fin.castLE (le_refl 2) j)) (1 / 2) (fval (m := 1) (1 : Matrix (Fin 2) (Fin 2) ℝ) β)}
      ≠ (chi2 ((0 + 1 : ℕ) + 1 / 2)).real (Set.Ici c) :=
  approx_not_exact demo_eig (le_refl 2) sAB_pos uA_ne (by norm_num) (by norm_num) _ (Or.inl rfl)

example : Var[fun β => wald (fun j : Fin (0 + 2) => raw uA (Fin.castLE (le_refl 2) j)) (fun j => sAB (Fin.castLE (le_refl 2) j)) (1 / 2)
    (fval (m := 1) (1 : Matrix (Fin 2) (Fin 2) ℝ) β); null (uA * Matrix.diagonal sAB * uAᵀ)] = 3 := by
  have h := approx_moments demo_eig (le_refl 2) sAB_pos uA_ne (v := 1 / 2) (by norm_num) (by norm_num) _ (Or.inr rfl)
  rw [h.2.1, h.2.2.2]
  norm_num

/-- Codes 2 and 2: the option is ignored. -/
example : test (m := 1) (lib 2) true true 7 uA sAB (3 / 2) 0 = test (m := 1) (lib 2) true false 7 uA sAB (3 / 2) 0 :=
  force_wrong (fun _ _ _ => rfl) true 7 (3 / 2) 0

example (f : Fin 2 → ℝ) : test (m := 1) (lib 4) true true 7 uA sAB (3 / 2) f = test (m := 1) (lib 3) true true 7 uA sAB (3 / 2) f :=
  force_partial (L := lib 4) (L' := lib 3) rfl rfl rfl rfl (fun _ _ _ => (by norm_num : (4 : ℕ) ≠ 2)) (fun _ _ _ => (by norm_num : (3 : ℕ) ≠ 2)) true 7 (3 / 2) f

end Verif.Ftest
