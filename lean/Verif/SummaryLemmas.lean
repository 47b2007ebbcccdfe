import Verif.SummaryModel
import Verif.Predict

/-! Helper lemmas for the printed summaries. -/

namespace Verif.Summary

open Matrix Finset MeasureTheory ProbabilityTheory WithLp Predict

/-- Two-sided tail of a law symmetric around zero without point masses. -/
theorem two_tail (μ : Measure ℝ) [IsProbabilityMeasure μ] [NullSingletonClass μ] (hsym : μ.map Neg.neg = μ) {t : ℝ} (ht : 0 ≤ t) :
    (1 - cdf μ t) * 2 = μ.real {x | t ≤ |x|} := by
  have hIci : μ.real (Set.Ici t) = 1 - cdf μ t := by
    have h1 : μ.real (Set.Ici t) = μ.real (Set.Ioi t) := by
      unfold Measure.real
      congr 1
      rw [← Set.Ioi_union_left]
      refine le_antisymm (le_trans (measure_union_le _ _) ?_) (measure_mono Set.subset_union_left)
      rw [measure_singleton, add_zero]
    rw [h1, ← Set.compl_Iic, probReal_compl_eq_one_sub measurableSet_Iic, cdf_eq_real]
  have hIic : μ.real (Set.Iic (-t)) = μ.real (Set.Ici t) := by
    unfold Measure.real
    congr 1
    conv_rhs => rw [← hsym, Measure.map_apply measurable_neg measurableSet_Ici]
    congr 1
    ext x
    simp only [Set.mem_Iic, Set.mem_preimage, Set.mem_Ici]
    constructor <;> intro h <;> linarith
  have hset : {x : ℝ | t ≤ |x|} = Set.Ici t ∪ Set.Iic (-t) := by
    ext x
    simp only [Set.mem_ofPred_eq, Set.mem_union, Set.mem_Ici, Set.mem_Iic, le_abs]
    constructor
    · rintro (h | h)
      · exact Or.inl h
      · exact Or.inr (by linarith)
    · rintro (h | h)
      · exact Or.inl h
      · exact Or.inr (by linarith)
  have hint : μ.real (Set.Ici t ∩ Set.Iic (-t)) = 0 := by
    have hsub : Set.Ici t ∩ Set.Iic (-t) ⊆ {0} := by
      rintro x ⟨h1, h2⟩
      simp only [Set.mem_Ici, Set.mem_Iic] at h1 h2
      rw [Set.mem_singleton_iff]
      linarith
    have : μ (Set.Ici t ∩ Set.Iic (-t)) = 0 := measure_mono_null hsub (measure_singleton 0)
    simp [Measure.real, this]
  have h := measureReal_union_add_inter (μ := μ) (s := Set.Ici t) (t := Set.Iic (-t)) measurableSet_Iic
  rw [hint, hIic, hIci] at h
  rw [hset]
  linarith

theorem std_symm' : (gaussianReal 0 1).map Neg.neg = gaussianReal 0 1 := by
  have h := gaussianReal_map_neg (μ := 0) (v := 1)
  rw [neg_zero] at h
  exact h

/-- The distribution function of the standard normal distribution increases strictly. -/
theorem cdf_std_lt {a b : ℝ} (h : a < b) : cdf (gaussianReal 0 1) a < cdf (gaussianReal 0 1) b := by
  rw [cdf_eq_real, cdf_eq_real]
  have hsplit : (gaussianReal 0 1).real (Set.Iic b) = (gaussianReal 0 1).real (Set.Iic a) + (gaussianReal 0 1).real (Set.Ioc a b) := by
    rw [← measureReal_union _ measurableSet_Ioc, Set.Iic_union_Ioc_eq_Iic h.le]
    rw [Set.disjoint_left]
    intro x hx hx'
    exact absurd hx (not_le.2 hx'.1)
  have hpos : 0 < (gaussianReal 0 1).real (Set.Ioc a b) := by
    unfold Measure.real
    rw [ENNReal.toReal_pos_iff]
    refine ⟨pos_iff_ne_zero.2 fun h0 => ?_, measure_lt_top _ _⟩
    have := gaussianReal_absolutelyContinuous' 0 (v := 1) one_ne_zero h0
    rw [Real.volume_Ioc, ENNReal.ofReal_eq_zero] at this
    linarith
  linarith

/-- Posterior law of one coefficient. -/
theorem marginal (M : Fit) (hs : 0 ≤ M.scale) {i : ℕ} (hi : i < M.p) :
    (posterior M).map (fun β => entry β i) = gaussianReal (M.coef i) (M.scale * ∑ l, M.lvi l i * M.lvi l i).toNNReal := by
  rw [← fullDraw_law M hs, Measure.map_map (by unfold entry; simp only [hi, dif_pos]; fun_prop) (fullDraw_measurable M)]
  have e : (fun β : EuclideanSpace ℝ (Fin M.p) => entry β i) ∘ fullDraw M
      = (fun x => M.coef i + x) ∘ fun z : Fin M.q → ℝ => (fun l => √M.scale * M.lvi l i) ⬝ᵥ z := by
    funext z
    show entry (fullDraw M z) i = M.coef i + ∑ l, √M.scale * M.lvi l i * z l
    exact fullDraw_entry M z hi
  have hm : Measurable fun z : Fin M.q → ℝ => (fun l => √M.scale * M.lvi l i) ⬝ᵥ z := by
    show Measurable fun z : Fin M.q → ℝ => ∑ l, √M.scale * M.lvi l i * z l
    fun_prop
  rw [e, ← Measure.map_map (by fun_prop) hm, std_lin, gaussianReal_map_const_add, zero_add]
  congr 2
  show ∑ l, √M.scale * M.lvi l i * (√M.scale * M.lvi l i) = _
  rw [mul_sum]
  refine sum_congr rfl fun l _ => ?_
  rw [show √M.scale * M.lvi l i * (√M.scale * M.lvi l i) = (√M.scale * √M.scale) * (M.lvi l i * M.lvi l i) by ring,
    Real.mul_self_sqrt hs]

theorem entry_measurable {p : ℕ} (i : ℕ) : Measurable fun β : EuclideanSpace ℝ (Fin p) => entry β i := by
  unfold entry
  by_cases h : i < p
  · simp only [h, dif_pos]; fun_prop
  · simp only [h, dif_neg, not_false_eq_true]; fun_prop

theorem marginal_var (M : Fit) (hs : 0 ≤ M.scale) {i : ℕ} (hi : i < M.p) :
    Var[fun β => entry β i; posterior M] = M.scale * ∑ l, M.lvi l i * M.lvi l i := by
  have h := variance_map (μ := posterior M) (X := id) (Y := fun β => entry β i) aemeasurable_id (entry_measurable i).aemeasurable
  rw [marginal M hs hi, variance_id_gaussianReal] at h
  rw [show (fun β : EuclideanSpace ℝ (Fin M.p) => entry β i) = id ∘ fun β => entry β i from rfl, ← h]
  exact Real.coe_toNNReal _ (mul_nonneg hs (sum_nonneg fun l _ => mul_self_nonneg _))

/-- Probability under a normal law of a deviation from its mean of at least `c`. -/
theorem normal_dev {m v c : ℝ} (hv : 0 < v) :
    (gaussianReal m v.toNNReal).real {x | c ≤ |x - m|} = (gaussianReal 0 1).real {x | c / √v ≤ |x|} := by
  have hsq : 0 < √v := Real.sqrt_pos.2 hv
  have h3 := gaussianReal_map_const_mul (μ := 0) (v := 1) (√v)
  have e2 : NNReal.mk (√v ^ 2) (sq_nonneg _) * 1 = v.toNNReal := by
    ext
    simp [Real.sq_sqrt hv.le, Real.coe_toNNReal _ hv.le]
  rw [mul_zero, e2] at h3
  have h4 := gaussianReal_map_const_add (μ := 0) (v := v.toNNReal) m
  rw [zero_add] at h4
  have hms : MeasurableSet {x : ℝ | c ≤ |x - m|} := measurableSet_le (by fun_prop) (by fun_prop)
  unfold Measure.real
  congr 1
  rw [← h4, Measure.map_apply (by fun_prop) hms, ← h3, Measure.map_apply (by fun_prop) (hms.preimage (by fun_prop))]
  congr 1
  ext x
  simp only [Set.mem_preimage, Set.mem_ofPred_eq, add_sub_cancel_left, abs_mul, abs_of_pos hsq]
  rw [div_le_iff₀ hsq, mul_comm]

end Verif.Summary
