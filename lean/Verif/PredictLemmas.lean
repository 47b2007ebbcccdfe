import Verif.PredictModel
import Verif.Mvn
import Mathlib.Probability.CDF
import Mathlib.Data.List.GetD

/-! Helper lemmas for predictions with intervals. -/

namespace Verif.Predict

open Matrix Finset MeasureTheory ProbabilityTheory WithLp

/-! ### Split positions -/

theorem cum_step (l : List ℕ) (t : ℕ) (ht : t ≤ l.length - 1) :
    ((List.range t).foldl (fun l i => l.set (i + 1) (l.getD (i + 1) 0 + l.getD i 0)) l).length = l.length ∧
    ∀ j, j < l.length → ((List.range t).foldl (fun l i => l.set (i + 1) (l.getD (i + 1) 0 + l.getD i 0)) l).getD j 0
      = if j ≤ t then (l.take (j + 1)).sum else l.getD j 0 := by
  induction t with
  | zero =>
    refine ⟨rfl, fun j hj => ?_⟩
    show l.getD j 0 = _
    by_cases h : j ≤ 0
    · rw [if_pos h]
      obtain rfl : j = 0 := by omega
      cases l with
      | nil => simp at hj
      | cons a l => simp
    · rw [if_neg h]
  | succ t ih =>
    obtain ⟨h1, h2⟩ := ih (by omega)
    rw [List.range_succ, List.foldl_append]
    generalize hF : (List.range t).foldl (fun l i => l.set (i + 1) (l.getD (i + 1) 0 + l.getD i 0)) l = F at h1 h2
    refine ⟨by simp [h1], fun j hj => ?_⟩
    show (F.set (t + 1) (F.getD (t + 1) 0 + F.getD t 0)).getD j 0 = _
    by_cases hj1 : j = t + 1
    · subst hj1
      rw [if_pos le_rfl, List.getD_eq_getElem _ _ (by simpa [h1] using hj), List.getElem_set_self, h2 _ hj, h2 t (by omega),
        if_neg (by omega), if_pos le_rfl, List.sum_take_succ l (t + 1) hj, List.getD_eq_getElem _ _ hj]
      omega
    · have e : (F.set (t + 1) (F.getD (t + 1) 0 + F.getD t 0)).getD j 0 = F.getD j 0 := by
        generalize F.getD (t + 1) 0 + F.getD t 0 = a
        rw [List.getD_eq_getElem _ _ (by simpa [h1] using hj), List.getElem_set_ne (Ne.symm hj1),
          List.getD_eq_getElem _ _ (by rw [h1]; exact hj)]
      rw [e, h2 j hj]
      by_cases h : j ≤ t
      · rw [if_pos h, if_pos (by omega)]
      · rw [if_neg h, if_neg (by omega)]

theorem cumLoop_length (l : List ℕ) : (cumLoop l).length = l.length := (cum_step l _ le_rfl).1

theorem cumLoop_getD (l : List ℕ) (j : ℕ) (hj : j < l.length) : (cumLoop l).getD j 0 = (l.take (j + 1)).sum := by
  unfold cumLoop
  rw [(cum_step l _ le_rfl).2 j hj, if_pos (by omega)]

theorem splitIdx_length (w : List ℕ) : (splitIdx w).length = w.length - 1 := by
  unfold splitIdx
  rw [cumLoop_length, List.length_dropLast]

theorem splitIdx_getD (w : List ℕ) (j : ℕ) (hj : j + 1 < w.length) : (splitIdx w).getD j 0 = (w.take (j + 1)).sum := by
  unfold splitIdx
  rw [cumLoop_getD _ _ (by rw [List.length_dropLast]; omega), List.dropLast_eq_take, List.take_take, min_eq_left (by omega)]

/-! ### Quantiles of the normal distribution -/

theorem std_symm (s : Set ℝ) (hs : MeasurableSet s) : gaussianReal 0 1 (Neg.neg ⁻¹' s) = gaussianReal 0 1 s := by
  have h := gaussianReal_map_neg (μ := 0) (v := 1)
  rw [neg_zero] at h
  conv_rhs => rw [← h, Measure.map_apply (by fun_prop) hs]

theorem std_central {t α : ℝ} (ht : cdf (gaussianReal 0 1) t = 1 - α / 2) (h0 : 0 < α) (h1 : α < 1) :
    0 < t ∧ gaussianReal 0 1 {x | |x| ≤ t} = ENNReal.ofReal (1 - α) := by
  have hc : gaussianReal 0 1 (Set.Iic t) = ENNReal.ofReal (1 - α / 2) := by
    rw [← ht, ofReal_cdf]
  have hIoi : gaussianReal 0 1 (Set.Ioi t) = ENNReal.ofReal (α / 2) := by
    rw [← Set.compl_Iic, measure_compl measurableSet_Iic (measure_ne_top _ _), hc, measure_univ, ← ENNReal.ofReal_one,
      ← ENNReal.ofReal_sub _ (by linarith)]
    congr 1; ring
  have hIio : gaussianReal 0 1 (Set.Iio (-t)) = ENNReal.ofReal (α / 2) := by
    rw [← hIoi, ← std_symm _ measurableSet_Ioi]
    congr 1
    ext x
    simp only [Set.mem_Iio, Set.mem_preimage, Set.mem_Ioi]
    constructor <;> intro h <;> linarith
  have htpos : 0 < t := by
    by_contra hneg
    have hle : t ≤ 0 := not_lt.1 hneg
    have hatom : gaussianReal 0 1 (Set.Iic t) ≤ gaussianReal 0 1 (Set.Iic (-t)) :=
      measure_mono (Set.Iic_subset_Iic.2 (by linarith))
    haveI := nullSingletonClass_gaussianReal (μ := 0) (v := 1) one_ne_zero
    have e : gaussianReal 0 1 (Set.Iic (-t)) = gaussianReal 0 1 (Set.Iio (-t)) := by
      rw [← Set.Iio_union_right]
      refine le_antisymm (le_trans (measure_union_le _ _) ?_) (measure_mono Set.subset_union_left)
      rw [measure_singleton, add_zero]
    rw [hc, e, hIio, ENNReal.ofReal_le_ofReal_iff (by linarith)] at hatom
    linarith
  refine ⟨htpos, ?_⟩
  have hset : {x : ℝ | |x| ≤ t} = (Set.Iio (-t) ∪ Set.Ioi t)ᶜ := by
    ext x
    simp only [Set.mem_ofPred_eq, Set.mem_compl_iff, Set.mem_union, Set.mem_Iio, Set.mem_Ioi, not_or, not_lt, abs_le]
  rw [hset, measure_compl (measurableSet_Iio.union measurableSet_Ioi) (measure_ne_top _ _), measure_univ,
    measure_union _ measurableSet_Ioi, hIio, hIoi, ← ENNReal.ofReal_add (by linarith) (by linarith), ← ENNReal.ofReal_one,
    ← ENNReal.ofReal_sub _ (by linarith)]
  · congr 1; ring
  · rw [Set.disjoint_left]
    intro x hx hx'
    simp only [Set.mem_Iio, Set.mem_Ioi] at hx hx'
    linarith

/-- Law of a linear combination of standard normals. -/
theorem std_lin {q : ℕ} (u : Fin q → ℝ) :
    (Mvn.std q).map (fun z => u ⬝ᵥ z) = gaussianReal 0 (u ⬝ᵥ u).toNNReal := by
  have hA := Mvn.affine_law (m := 1) (q := q) 0 (Matrix.of fun _ l => u l)
  have hS : ((Matrix.of fun (_ : Fin 1) l => u l) * (Matrix.of fun (_ : Fin 1) l => u l)ᵀ).PosSemidef := by
    have := Matrix.posSemidef_self_mul_conjTranspose (Matrix.of fun (_ : Fin 1) l => u l)
    rwa [Matrix.conjTranspose_eq_transpose_of_trivial] at this
  have hm : Measurable (fun z : Fin q → ℝ => toLp 2 ((0 : Fin 1 → ℝ) + (Matrix.of fun (_ : Fin 1) l => u l).mulVec z)) := by
    have h1 : Measurable (fun z : Fin q → ℝ => (0 : Fin 1 → ℝ) + (Matrix.of fun (_ : Fin 1) l => u l).mulVec z) := by
      refine measurable_pi_iff.2 fun i => ?_
      show Measurable fun z : Fin q → ℝ => (0 : ℝ) + ∑ j, u j * z j
      fun_prop
    fun_prop
  have h2 := (measurePreserving_eval_multivariateGaussian (μ := toLp 2 (0 : Fin 1 → ℝ)) hS (i := 0)).map_eq
  rw [← hA, Measure.map_map (by fun_prop) hm] at h2
  have e : ((fun x : EuclideanSpace ℝ (Fin 1) => x.ofLp 0) ∘
      fun z : Fin q → ℝ => toLp 2 ((0 : Fin 1 → ℝ) + (Matrix.of fun (_ : Fin 1) l => u l).mulVec z)) = fun z => u ⬝ᵥ z := by
    funext z
    simp [Matrix.mulVec, dotProduct]
  rw [e] at h2
  rw [h2]
  simp [Matrix.mul_apply, dotProduct]

theorem std_cover {q : ℕ} (u : Fin q → ℝ) {t α : ℝ} (ht : cdf (gaussianReal 0 1) t = 1 - α / 2) (h0 : 0 < α) (h1 : α < 1)
    (hu : 0 < u ⬝ᵥ u) : Mvn.std q {z | |u ⬝ᵥ z| ≤ t * √(u ⬝ᵥ u)} = ENNReal.ofReal (1 - α) := by
  have hms : MeasurableSet {x : ℝ | |x| ≤ t * √(u ⬝ᵥ u)} := measurableSet_le (by fun_prop) (by fun_prop)
  have hm : Measurable fun z : Fin q → ℝ => u ⬝ᵥ z := by
    show Measurable fun z : Fin q → ℝ => ∑ j, u j * z j
    fun_prop
  have e1 : {z | |u ⬝ᵥ z| ≤ t * √(u ⬝ᵥ u)} = (fun z => u ⬝ᵥ z) ⁻¹' {x : ℝ | |x| ≤ t * √(u ⬝ᵥ u)} := rfl
  rw [e1, ← Measure.map_apply hm hms, std_lin]
  have hsq : 0 < √(u ⬝ᵥ u) := Real.sqrt_pos.2 hu
  have h3 := gaussianReal_map_const_mul (μ := 0) (v := 1) (√(u ⬝ᵥ u))
  have e2 : NNReal.mk (√(u ⬝ᵥ u) ^ 2) (sq_nonneg _) * 1 = (u ⬝ᵥ u).toNNReal := by
    ext
    simp [Real.sq_sqrt hu.le, Real.coe_toNNReal _ hu.le]
  rw [mul_zero, e2] at h3
  rw [← h3, Measure.map_apply (by fun_prop) hms, ← (std_central ht h0 h1).2]
  congr 1
  ext x
  simp only [Set.mem_preimage, Set.mem_ofPred_eq, abs_mul, abs_of_pos hsq]
  rw [mul_comm]
  exact mul_le_mul_iff_left₀ hsq

/-! ### Row maxima and quantiles -/

theorem rowMax_fin {n : ℕ} (f : Fin (n + 1) → ℝ) :
    ∃ M, rowMax (fun r => Fl.fin (f r)) = Fl.fin M ∧ (∀ r, f r ≤ M) ∧ ∃ r, f r = M := by
  induction n with
  | zero =>
    refine ⟨f 0, rfl, fun r => ?_, 0, rfl⟩
    obtain rfl : r = 0 := Fin.fin_one_eq_zero r
    exact le_rfl
  | succ n ih =>
    obtain ⟨M, h1, h2, r0, h3⟩ := ih fun r => f r.succ
    refine ⟨max (f 0) M, ?_, ?_, ?_⟩
    · show flMax (Fl.fin (f 0)) (rowMax fun r => Fl.fin (f r.succ)) = _
      rw [h1]; rfl
    · intro r
      refine Fin.cases (le_max_left _ _) (fun i => le_trans (h2 i) (le_max_right _ _)) r
    · rcases max_choice (f 0) M with h | h
      · exact ⟨0, h.symm⟩
      · exact ⟨r0.succ, by rw [h, h3]⟩

theorem flMax_nan (x : Fl) : flMax x .nan = .nan := by cases x <;> rfl

theorem rowMax_nan {n : ℕ} (f : Fin (n + 1) → Fl) (r : Fin (n + 1)) (h : f r = .nan) : rowMax f = .nan := by
  induction n with
  | zero =>
    obtain rfl : r = 0 := Fin.fin_one_eq_zero r
    exact h
  | succ n ih =>
    show flMax (f 0) (rowMax fun r => f r.succ) = _
    rcases Fin.eq_zero_or_eq_succ r with rfl | ⟨j, rfl⟩
    · rw [h]; rfl
    · rw [ih (fun r => f r.succ) j h, flMax_nan]

/-- Position of the lower order statistic. -/
theorem quantile_lower {n : ℕ} (v : Fin (n + 1) → ℝ) {q : ℝ} (h0 : 0 ≤ q) :
    ⌊(n : ℝ) * q⌋₊ + 1 ≤ n + 1 → ⌊(n : ℝ) * q⌋₊ + 1 ≤ (univ.filter fun s => v s ≤ quantile v q).card := by
  intro hlo
  set lo := ⌊(n : ℝ) * q⌋₊
  have hnq : 0 ≤ (n : ℝ) * q := mul_nonneg (Nat.cast_nonneg _) h0
  have hmono := Tuple.monotone_sort v
  have hge : v (Tuple.sort v ⟨min lo n, Nat.lt_succ_of_le (min_le_right _ _)⟩) ≤ quantile v q := by
    unfold quantile
    refine le_add_of_nonneg_right (mul_nonneg (sub_nonneg.2 (Nat.floor_le hnq)) (sub_nonneg.2 ?_))
    apply hmono
    rw [Fin.mk_le_mk]
    omega
  have : (univ.filter fun i : Fin (n + 1) => (i : ℕ) ≤ lo).image (Tuple.sort v) ⊆ univ.filter fun s => v s ≤ quantile v q := by
    intro s hs
    obtain ⟨i, hi, rfl⟩ := mem_image.1 hs
    rw [mem_filter] at hi
    refine mem_filter.2 ⟨mem_univ _, le_trans (hmono ?_) hge⟩
    rw [Fin.le_def]
    show (i : ℕ) ≤ min lo n
    have := i.isLt
    omega
  refine le_trans ?_ (card_le_card this)
  rw [card_image_of_injective _ (Tuple.sort v).injective]
  have e : (univ.filter fun i : Fin (n + 1) => (i : ℕ) ≤ lo) = Finset.Iic (⟨lo, by omega⟩ : Fin (n + 1)) := by
    ext i
    simp [Fin.le_def]
  rw [e, Fin.card_Iic]

theorem quantile_upper {n : ℕ} (v : Fin (n + 1) → ℝ) {q : ℝ} (h0 : 0 ≤ q) :
    n - ⌊(n : ℝ) * q⌋₊ ≤ (univ.filter fun s => quantile v q ≤ v s).card := by
  set lo := ⌊(n : ℝ) * q⌋₊
  have hnq : 0 ≤ (n : ℝ) * q := mul_nonneg (Nat.cast_nonneg _) h0
  have hmono := Tuple.monotone_sort v
  have hle : quantile v q ≤ v (Tuple.sort v ⟨min (lo + 1) n, Nat.lt_succ_of_le (min_le_right _ _)⟩) := by
    unfold quantile
    have hd : 0 ≤ v (Tuple.sort v ⟨min (lo + 1) n, Nat.lt_succ_of_le (min_le_right _ _)⟩)
        - v (Tuple.sort v ⟨min lo n, Nat.lt_succ_of_le (min_le_right _ _)⟩) := by
      apply sub_nonneg.2
      apply hmono
      rw [Fin.mk_le_mk]
      omega
    have hf : (n : ℝ) * q - lo ≤ 1 := by
      have := (Nat.lt_floor_add_one ((n : ℝ) * q)).le
      linarith
    dsimp only
    nlinarith [mul_le_mul_of_nonneg_right hf hd]
  have : (univ.filter fun i : Fin (n + 1) => lo + 1 ≤ (i : ℕ)).image (Tuple.sort v) ⊆ univ.filter fun s => quantile v q ≤ v s := by
    intro s hs
    obtain ⟨i, hi, rfl⟩ := mem_image.1 hs
    rw [mem_filter] at hi
    refine mem_filter.2 ⟨mem_univ _, le_trans hle (hmono ?_)⟩
    rw [Fin.le_def]
    show min (lo + 1) n ≤ (i : ℕ)
    omega
  refine le_trans ?_ (card_le_card this)
  rw [card_image_of_injective _ (Tuple.sort v).injective]
  by_cases hl : lo + 1 ≤ n
  · have e : (univ.filter fun i : Fin (n + 1) => lo + 1 ≤ (i : ℕ)) = Finset.Ici (⟨lo + 1, by omega⟩ : Fin (n + 1)) := by
      ext i
      simp [Fin.le_def]
    rw [e, Fin.card_Ici]
    show n - lo ≤ n + 1 - (lo + 1)
    omega
  · omega

end Verif.Predict
