import Verif.FtestLemmas

/-!
# Ratio of two gamma variables (for C117)
-/

namespace Verif.Ftest

open Real MeasureTheory ProbabilityTheory

theorem gamma_Iio {a r : ℝ} {c : ℝ} (hc : 0 ≤ c) {y : ℝ} (hy : 0 < y) :
    gammaMeasure a r (Set.Iio (c * y)) = ∫⁻ s in Set.Ioo 0 c, ENNReal.ofReal y * gammaPDF a r (s * y) := by
  unfold gammaMeasure
  rw [withDensity_apply _ measurableSet_Iio]
  have hm : Measurable (gammaPDF a r) := (measurable_gammaPDFReal a r).ennreal_ofReal
  have hsplit : Set.Iio (c * y) = Set.Iio 0 ∪ Set.Ico 0 (c * y) := (Set.Iio_union_Ico_eq_Iio (mul_nonneg hc hy.le)).symm
  rw [hsplit, lintegral_union measurableSet_Ico (by
    rw [Set.disjoint_left]
    intro x h1 h2
    exact absurd h2.1 (not_le.2 h1)), lintegral_gammaPDF_of_nonpos le_rfl, zero_add,
    setLIntegral_congr (Ioo_ae_eq_Ico (μ := volume)).symm]
  have hi : Set.Ioo 0 (c * y) = (fun s => s * y) '' Set.Ioo 0 c := by
    rw [Set.image_mul_right_Ioo _ _ hy, zero_mul]
  rw [hi, lintegral_image_eq_lintegral_abs_deriv_mul measurableSet_Ioo (f' := fun _ => y)
    (fun x _ => ((hasDerivAt_mul_const y).hasDerivWithinAt)) (by
      intro x _ z _ h
      exact mul_right_cancel₀ hy.ne' h)]
  rw [abs_of_pos hy]

/-- Density of the ratio of two independent gamma variables. -/
theorem ratio_inner {a b r s : ℝ} (ha : 0 < a) (hb : 0 < b) (hr : 0 < r) (hs : 0 < s) :
    ∫⁻ y in Set.Ioi 0, gammaPDF b r y * (ENNReal.ofReal y * gammaPDF a r (s * y)) = ENNReal.ofReal (s ^ (a - 1) * (1 + s) ^ (-(a + b)) / beta a b) := by
  have hab : 0 < a + b := by linarith
  have h1s : 0 < 1 + s := by linarith
  have hrs : 0 < r * (1 + s) := mul_pos hr h1s
  have hG1 := Gamma_pos_of_pos ha
  have hG2 := Gamma_pos_of_pos hb
  have hG3 := Gamma_pos_of_pos hab
  let C : ℝ := r ^ b / Gamma b * (r ^ a / Gamma a) * s ^ (a - 1)
  have hC : 0 < C := by
    have := rpow_pos_of_pos hr a
    have := rpow_pos_of_pos hr b
    have := rpow_pos_of_pos hs (a - 1)
    positivity
  have hval : ∫ y in Set.Ioi 0, C * (y ^ (a + b - 1) * exp (-(r * (1 + s) * y))) = s ^ (a - 1) * (1 + s) ^ (-(a + b)) / beta a b := by
    rw [integral_const_mul, integral_rpow_mul_exp_neg_mul_Ioi hab hrs, div_rpow zero_le_one hrs.le, one_rpow, mul_rpow hr.le h1s.le, rpow_neg h1s.le,
      rpow_add hr]
    unfold beta
    have := (rpow_pos_of_pos hr a).ne'
    have := (rpow_pos_of_pos hr b).ne'
    have := (rpow_pos_of_pos h1s (a + b)).ne'
    simp only [C]
    field_simp
  have hpos : 0 < s ^ (a - 1) * (1 + s) ^ (-(a + b)) / beta a b :=
    div_pos (mul_pos (rpow_pos_of_pos hs _) (rpow_pos_of_pos h1s _)) (beta_pos ha hb)
  have hint : Integrable (fun y => C * (y ^ (a + b - 1) * exp (-(r * (1 + s) * y)))) (volume.restrict (Set.Ioi 0)) := by
    by_contra hn
    rw [integral_undef hn] at hval
    linarith
  rw [← hval, ofReal_integral_eq_lintegral_ofReal hint]
  · refine setLIntegral_congr_fun measurableSet_Ioi fun y hy => ?_
    have hy' : (0 : ℝ) < y := hy
    rw [gammaPDF_of_nonneg hy'.le, gammaPDF_of_nonneg (mul_pos hs hy').le, ← ENNReal.ofReal_mul hy'.le, ← ENNReal.ofReal_mul]
    · congr 1
      rw [mul_rpow hs.le hy'.le, show a + b - 1 = (a - 1) + ((b - 1) + 1) by ring, rpow_add hy', rpow_add_one hy'.ne',
        show -(r * (1 + s) * y) = -(r * y) + -(r * (s * y)) by ring, exp_add]
      simp only [C]
      ring
    · have := rpow_pos_of_pos hr b
      have := rpow_pos_of_pos hy' (b - 1)
      positivity
  · refine (ae_restrict_iff' measurableSet_Ioi).2 (Filter.Eventually.of_forall fun y hy => ?_)
    have hy' : (0 : ℝ) < y := hy
    have := rpow_pos_of_pos hy' (a + b - 1)
    show 0 ≤ C * (y ^ (a + b - 1) * exp (-(r * (1 + s) * y)))
    positivity

theorem beta_Iio {a b t : ℝ} (ht : 0 ≤ t) :
    betaMeasure a b (Set.Iio (t / (1 + t))) = ∫⁻ s in Set.Ioo 0 t, ENNReal.ofReal (s ^ (a - 1) * (1 + s) ^ (-(a + b)) / beta a b) := by
  unfold betaMeasure
  rw [withDensity_apply _ measurableSet_Iio]
  have h1t : 0 < 1 + t := by linarith
  have hw : 0 ≤ t / (1 + t) := by positivity
  have hsplit : Set.Iio (t / (1 + t)) = Set.Iio 0 ∪ Set.Ico 0 (t / (1 + t)) := (Set.Iio_union_Ico_eq_Iio hw).symm
  have hz : ∫⁻ x in Set.Iio 0, betaPDF a b x = 0 :=
    setLIntegral_eq_zero measurableSet_Iio fun x (hx : x < 0) => betaPDF_eq_zero_of_nonpos hx.le
  rw [hsplit, lintegral_union measurableSet_Ico (by
    rw [Set.disjoint_left]
    intro x h1 h2
    exact absurd h2.1 (not_le.2 h1)), hz, zero_add,
    setLIntegral_congr (Ioo_ae_eq_Ico (μ := volume)).symm]
  have hi : Set.Ioo 0 (t / (1 + t)) = (fun s => s / (1 + s)) '' Set.Ioo 0 t := by
    ext w
    constructor
    · rintro ⟨h0, h1⟩
      have hw1 : w < 1 := lt_of_lt_of_le h1 (by rw [div_le_one h1t]; linarith)
      have h1w : 0 < 1 - w := by linarith
      refine ⟨w / (1 - w), ⟨by positivity, ?_⟩, ?_⟩
      · rw [div_lt_iff₀ h1w]
        rw [lt_div_iff₀ h1t] at h1
        linarith
      · show w / (1 - w) / (1 + w / (1 - w)) = w
        field_simp
        ring
    · rintro ⟨s, ⟨h0, h1⟩, rfl⟩
      have : 0 < 1 + s := by linarith
      refine ⟨by positivity, ?_⟩
      show s / (1 + s) < t / (1 + t)
      rw [div_lt_div_iff₀ this h1t]
      linarith
  have hd : ∀ s ∈ Set.Ioo 0 t, HasDerivWithinAt (fun s : ℝ => s / (1 + s)) (1 / (1 + s) ^ 2) (Set.Ioo 0 t) s := by
    intro s hs
    have h1s : (1 + s : ℝ) ≠ 0 := by linarith [hs.1]
    have := ((hasDerivAt_id s).div ((hasDerivAt_id s).const_add 1) h1s).hasDerivWithinAt (s := Set.Ioo 0 t)
    have e : 1 / (1 + s) ^ 2 = (1 * (1 + s) - s * 1) / (1 + s) ^ 2 := by ring
    rw [e]
    exact this
  rw [hi, lintegral_image_eq_lintegral_abs_deriv_mul measurableSet_Ioo hd (by
      intro x hx z hz h
      have h1 : (1 + x : ℝ) ≠ 0 := by linarith [hx.1]
      have h2 : (1 + z : ℝ) ≠ 0 := by linarith [hz.1]
      have h' : x / (1 + x) = z / (1 + z) := h
      rw [div_eq_div_iff h1 h2] at h'
      linarith)]
  refine setLIntegral_congr_fun measurableSet_Ioo fun s hs => ?_
  have h1s : 0 < 1 + s := by linarith [hs.1]
  have hs0 := hs.1
  rw [betaPDF_of_pos_lt_one (by positivity) (by rw [div_lt_one h1s]; linarith), abs_of_pos (by positivity), ← ENNReal.ofReal_mul (by positivity)]
  congr 1
  have e1 : 1 - s / (1 + s) = (1 + s)⁻¹ := by field_simp; ring
  rw [e1, div_rpow hs0.le h1s.le, inv_rpow h1s.le, show -(a + b) = -(a - 1) + (-(b - 1) + -2) by ring, rpow_add h1s, rpow_add h1s, rpow_neg h1s.le,
    rpow_neg h1s.le, rpow_neg h1s.le, show (2 : ℝ) = ((2 : ℕ) : ℝ) by norm_num, rpow_natCast]
  have := (rpow_pos_of_pos h1s (a - 1)).ne'
  have := (rpow_pos_of_pos h1s (b - 1)).ne'
  field_simp

/-- The ratio of two independent gamma variables with the same rate, in terms of the beta law. -/
theorem ratio_law {a b r t : ℝ} (ha : 0 < a) (hb : 0 < b) (hr : 0 < r) (ht : 0 ≤ t) :
    ((gammaMeasure a r).prod (gammaMeasure b r)) {y | y.1 < t * y.2} = betaMeasure a b (Set.Iio (t / (1 + t))) := by
  have p1 := isProbabilityMeasure_gammaMeasure ha hr
  have p2 := isProbabilityMeasure_gammaMeasure hb hr
  have hms : MeasurableSet {y : ℝ × ℝ | y.1 < t * y.2} := measurableSet_lt (by fun_prop) (by fun_prop)
  rw [Measure.prod_apply_symm hms, beta_Iio ht]
  have hmb : Measurable (gammaPDF b r) := (measurable_gammaPDFReal b r).ennreal_ofReal
  have hma : Measurable (gammaPDF a r) := (measurable_gammaPDFReal a r).ennreal_ofReal
  have hF : Measurable fun y : ℝ => gammaMeasure a r ((fun x => (x, y)) ⁻¹' {y : ℝ × ℝ | y.1 < t * y.2}) := measurable_measure_prodMk_right hms
  conv_lhs => rw [show gammaMeasure b r = volume.withDensity (gammaPDF b r) from rfl]
  rw [lintegral_withDensity_eq_lintegral_mul _ hmb hF]
  have e1 : ∫⁻ y, (gammaPDF b r * fun y : ℝ => gammaMeasure a r ((fun x => (x, y)) ⁻¹' {y : ℝ × ℝ | y.1 < t * y.2})) y
      = ∫⁻ y in Set.Ioi 0, ∫⁻ s in Set.Ioo 0 t, gammaPDF b r y * (ENNReal.ofReal y * gammaPDF a r (s * y)) := by
    rw [← lintegral_add_compl _ measurableSet_Ici, Set.compl_Ici, setLIntegral_congr (Ioi_ae_eq_Ici (μ := volume)).symm]
    have z : ∫⁻ y in Set.Iio 0, (gammaPDF b r * fun y : ℝ => gammaMeasure a r ((fun x => (x, y)) ⁻¹' {y : ℝ × ℝ | y.1 < t * y.2})) y = 0 := by
      refine setLIntegral_eq_zero measurableSet_Iio fun y (hy : y < 0) => ?_
      simp [gammaPDF_of_neg hy]
    rw [z, add_zero]
    refine setLIntegral_congr_fun measurableSet_Ioi fun y hy => ?_
    have hy' : (0 : ℝ) < y := hy
    have hpre : ((fun x : ℝ => (x, y)) ⁻¹' {y : ℝ × ℝ | y.1 < t * y.2}) = Set.Iio (t * y) := rfl
    show gammaPDF b r y * gammaMeasure a r ((fun x => (x, y)) ⁻¹' {y : ℝ × ℝ | y.1 < t * y.2}) = _
    have hmm : Measurable fun s : ℝ => ENNReal.ofReal y * gammaPDF a r (s * y) := (hma.comp (measurable_id.mul_const y)).const_mul _
    rw [hpre, gamma_Iio ht hy', ← lintegral_const_mul _ hmm]
  rw [e1, lintegral_lintegral_swap]
  · exact setLIntegral_congr_fun measurableSet_Ioo fun s hs => ratio_inner ha hb hr hs.1
  · refine Measurable.aemeasurable ?_
    show Measurable fun q : ℝ × ℝ => gammaPDF b r q.1 * (ENNReal.ofReal q.1 * gammaPDF a r (q.2 * q.1))
    exact (hmb.comp measurable_fst).mul (measurable_fst.ennreal_ofReal.mul (hma.comp (measurable_snd.mul measurable_fst)))

end Verif.Ftest
