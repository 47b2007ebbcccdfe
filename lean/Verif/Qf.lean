import Verif.QfAcc
import Verif.WaldInt

/-!
# Property C115: the distribution function of a weighted sum of chi-square variables
-/

namespace Verif.Qf

open Real MeasureTheory ProbabilityTheory Filter Topology

/-! ### Accuracy -/

/-- **C115, partial.** If no fault is reported and no auxiliary integration was carried out, the value differs from the
distribution function at `c` by at most the required accuracy, up to the terms that `exp1` sets to zero. The distribution is
that of the weighted sum of chi-square variables plus `sigma` times a normal variable plus, if a convergence factor was used, an
independent normal variable with the reported standard deviation. Missing: the error made by using a convergence
factor, and auxiliary integrations, both of which rest on `cfe` (see `cfe_wrong`). -/
theorem accuracy_partial {cs : Comps} {c sigma acc : ℝ} {lim : ℤ} (ha0 : 4 * exp (-50) ≤ acc) (ha1 : acc < 2)
    (hf : (qf cs c sigma acc lim).fault = 0) (hx : (qf cs c sigma acc lim).aux = 0) :
    |(qf cs c sigma acc lim).val - (sumLaw (spread cs) (Real.toNNReal (sigma ^ 2 + (qf cs c sigma acc lim).tausq))).real (Set.Iio c)|
      ≤ acc + (lim.toNat + 1) * exp (-50) := by
  have he := exp_pos (-50 : ℝ)
  have hr : ∀ R : Res, R = qf cs c sigma acc lim → R.fault = 0 → R.aux = 0 →
      |R.val - (sumLaw (spread cs) (Real.toNNReal (sigma ^ 2 + R.tausq))).real (Set.Iio c)| ≤ acc + (lim.toNat + 1) * exp (-50) := by
    intro R hR hf hx
    unfold qf at hR
    by_cases h3 : ∃ p ∈ cs, p.2 < 0
    · rw [if_pos h3] at hR; rw [hR] at hf; simp at hf
    rw [if_neg h3] at hR
    push Not at h3
    have hn : ∀ p ∈ cs, 0 ≤ p.2 := h3
    have hnn : ∀ x ∈ (cs.map fun p : ℝ × ℤ => p.1 ^ 2 * (2 * (p.2 : ℝ))), 0 ≤ x := by
      intro x hx
      obtain ⟨p, hp, rfl⟩ := List.mem_map.1 hx
      have : (0 : ℝ) ≤ (p.2 : ℝ) := by exact_mod_cast hn p hp
      positivity
    by_cases hv : var cs sigma = 0
    · rw [if_pos hv] at hR
      rw [hR]
      dsimp only
      unfold var at hv
      have hs0 := List.sum_nonneg hnn
      have hsig : sigma ^ 2 = 0 := by nlinarith [sq_nonneg sigma]
      rw [hsig, add_zero, Real.toNNReal_zero, sumLaw_zero, chi_degenerate]
      · have hlim : (0 : ℝ) ≤ (lim.toNat + 1) * exp (-50) := by positivity
        unfold Measure.real
        rw [Measure.dirac_apply' _ measurableSet_Iio]
        by_cases hc : 0 < c
        · rw [if_pos hc, Set.indicator_of_mem (by exact hc)]
          simp
          linarith
        · rw [if_neg hc, Set.indicator_of_notMem (by exact hc)]
          simp
          linarith
      · intro a ha
        unfold spread at ha
        obtain ⟨l, hl, hal⟩ := List.mem_flatten.1 ha
        obtain ⟨p, hp, rfl⟩ := List.mem_map.1 hl
        have hpa := List.eq_of_mem_replicate hal
        have hpn : 0 < p.2 := by
          have := (List.mem_replicate.1 hal).1
          omega
        have hle := List.single_le_sum hnn _ (List.mem_map.2 ⟨p, hp, rfl⟩)
        have hz : p.1 ^ 2 * (2 * (p.2 : ℝ)) = 0 := le_antisymm (by linarith) (hnn _ (List.mem_map.2 ⟨p, hp, rfl⟩))
        have hp' : (0 : ℝ) < (p.2 : ℝ) := by exact_mod_cast hpn
        rw [hpa]
        rcases mul_eq_zero.1 hz with h | h
        · exact pow_eq_zero_iff (two_ne_zero) |>.1 h
        · linarith
    rw [if_neg hv] at hR
    dsimp only at hR
    by_cases h0 : (extremes cs).2 = 0 ∧ (extremes cs).1 = 0 ∧ sigma = 0
    · rw [if_pos h0] at hR; rw [hR] at hf; simp at hf
    rw [if_neg h0] at hR
    have hvpos : 0 < var cs sigma := by
      refine lt_of_le_of_ne ?_ (Ne.symm hv)
      unfold var
      have := List.sum_nonneg hnn
      positivity
    have hsd : 0 < √(var cs sigma) := Real.sqrt_pos.2 hvpos
    generalize (if (extremes cs).1 < -(extremes cs).2 then -(extremes cs).2 else (extremes cs).1) = almx at hR
    generalize √(var cs sigma) = sd at hR hsd
    rcases hu : findu cs (sigma ^ 2) (1 / 2 * acc) lim.toNat (16 / sd) with _ | ⟨utx, b⟩
    · rw [hu] at hR; dsimp only at hR; rw [hR] at hf; simp at hf
    rw [hu] at hR
    dsimp only at hR
    obtain ⟨u0, u1⟩ := findu_spec (by positivity) hu
    rcases hs : factorStep cs c acc (sigma ^ 2) almx sd b utx with _ | ⟨⟨tau, sigsq, utx'⟩, b'⟩
    · rw [hs] at hR; dsimp only at hR; rw [hR] at hf; simp at hf
    rw [hs] at hR
    dsimp only at hR
    obtain ⟨s1, s2, s3, s4⟩ := factorStep_spec (by linarith) u0 u1 hs
    dsimp only at s1 s2 s3 s4
    have htau : R.tausq = tau := by rw [hR]; exact (range_aux ..).2
    obtain ⟨v, hvv⟩ : ∃ v : NNReal, v = Real.toNNReal (sigma ^ 2 + tau) := ⟨_, rfl⟩
    have hvr : (v : ℝ) = sigsq := by rw [hvv, s2]; exact Real.coe_toNNReal _ (by positivity)
    rw [htau, ← hvv]
    rw [← hvr] at hR s4
    have hvp : VarPos cs v := by
      unfold VarPos
      rw [hvr, s2]
      unfold var at hvpos
      linarith
    rw [hR] at hf hx ⊢
    exact range_accuracy hn hvp ha0 (by linarith) (by linarith) le_rfl (extremes_spec cs) s3 s4 (by positivity) c tau _ _ lim hf hx
  exact hr _ rfl hf hx

/-- **C115, partial.** Without a normal part and without a convergence factor: the value differs from the distribution function
of the weighted sum of chi-square variables by at most the required accuracy, up to the terms that `exp1` sets to zero. -/
theorem accuracy_chi_partial {cs : Comps} {c acc : ℝ} {lim : ℤ} (ha0 : 4 * exp (-50) ≤ acc) (ha1 : acc < 2)
    (hf : (qf cs c 0 acc lim).fault = 0) (hx : (qf cs c 0 acc lim).aux = 0) (ht : (qf cs c 0 acc lim).tausq = 0) :
    |(qf cs c 0 acc lim).val - (Wald.chi (spread cs)).real (Set.Iio c)| ≤ acc + (lim.toNat + 1) * exp (-50) := by
  have := accuracy_partial ha0 ha1 hf hx
  rw [ht] at this
  simpa [sumLaw_zero] using this

/-- The normal variable that a convergence factor adds moves the argument of the distribution function by more than `δ` with
small probability only. -/
theorem factor_sandwich (e : List ℝ) (w d : NNReal) (c : ℝ) {δ : ℝ} (hδ : 0 ≤ δ) :
    (sumLaw e w).real (Set.Iio (c - δ)) - exp (-δ ^ 2 / (2 * d)) ≤ (sumLaw e (w + d)).real (Set.Iio c) ∧
      (sumLaw e (w + d)).real (Set.Iio c) ≤ (sumLaw e w).real (Set.Iio (c + δ)) + exp (-δ ^ 2 / (2 * d)) := by
  haveI : IsProbabilityMeasure (sumLaw e w) := by unfold sumLaw; infer_instance
  have hconv : sumLaw e (w + d) = ((sumLaw e w).prod (gaussianReal 0 d)).map fun p => p.1 + p.2 := by
    have : sumLaw e (w + d) = sumLaw e w ∗ gaussianReal 0 d := by
      unfold sumLaw
      rw [Measure.conv_assoc, gaussianReal_conv_gaussianReal, add_zero]
    rw [this]
    rfl
  have hup : (gaussianReal 0 d).real (Set.Ici δ) ≤ exp (-δ ^ 2 / (2 * d)) := by
    by_cases hd : (d : ℝ) = 0
    · rw [hd]; simp
    have h := measure_ge_le_exp_mul_mgf (μ := gaussianReal 0 d) (X := id) (t := δ / d) δ (by positivity) (integrable_exp_mul_gaussianReal _)
    rw [mgf_id_gaussianReal, ← exp_add] at h
    refine h.trans (le_of_eq ?_)
    congr 1
    field_simp
    ring
  have hlo : (gaussianReal 0 d).real (Set.Iic (-δ)) ≤ exp (-δ ^ 2 / (2 * d)) := by
    have h := gaussianReal_map_neg (μ := 0) (v := d)
    rw [neg_zero] at h
    rw [← h, map_measureReal_apply measurable_neg measurableSet_Iic]
    refine le_trans (le_of_eq ?_) hup
    congr 1
    ext y
    simp
  have hA : ∀ s : Set ℝ, MeasurableSet s → ((sumLaw e w).prod (gaussianReal 0 d)).real {p | p.1 ∈ s} = (sumLaw e w).real s := by
    intro s hs
    have := measureReal_prod_prod (μ := sumLaw e w) (ν := gaussianReal 0 d) s Set.univ
    simp only [probReal_univ, mul_one] at this
    rw [← this]
    congr 1
    ext p
    simp
  have hB : ∀ s : Set ℝ, MeasurableSet s → ((sumLaw e w).prod (gaussianReal 0 d)).real {p | p.2 ∈ s} = (gaussianReal 0 d).real s := by
    intro s hs
    have := measureReal_prod_prod (μ := sumLaw e w) (ν := gaussianReal 0 d) Set.univ s
    simp only [probReal_univ, one_mul] at this
    rw [← this]
    congr 1
    ext p
    simp
  rw [hconv, map_measureReal_apply (by fun_prop) measurableSet_Iio]
  constructor
  · have hsub : {p : ℝ × ℝ | p.1 ∈ Set.Iio (c - δ)} ⊆ (fun p : ℝ × ℝ => p.1 + p.2) ⁻¹' Set.Iio c ∪ {p | p.2 ∈ Set.Ici δ} := by
      intro p hp
      by_cases h : δ ≤ p.2
      · exact Or.inr h
      · left
        have h1 : p.1 < c - δ := hp
        show p.1 + p.2 < c
        linarith [not_le.1 h]
    have h := (measureReal_mono (μ := (sumLaw e w).prod (gaussianReal 0 d)) hsub).trans (measureReal_union_le _ _)
    rw [hA _ measurableSet_Iio, hB _ measurableSet_Ici] at h
    linarith
  · have hsub : (fun p : ℝ × ℝ => p.1 + p.2) ⁻¹' Set.Iio c ⊆ {p | p.1 ∈ Set.Iio (c + δ)} ∪ {p | p.2 ∈ Set.Iic (-δ)} := by
      intro p hp
      by_cases h : p.2 ≤ -δ
      · exact Or.inr h
      · left
        have h1 : p.1 + p.2 < c := hp
        show p.1 < c + δ
        linarith [not_le.1 h]
    have h := (measureReal_mono (μ := (sumLaw e w).prod (gaussianReal 0 d)) hsub).trans (measureReal_union_le _ _)
    rw [hA _ measurableSet_Iio, hB _ measurableSet_Iic] at h
    linarith

theorem factorStep_tau {cs : Comps} {c acc sigsq almx sd : ℝ} {b : ℕ} {utx : ℝ} {r : (ℝ × ℝ × ℝ) × ℕ} (ha : 0 ≤ acc)
    (h : factorStep cs c acc sigsq almx sd b utx = some r) : 0 ≤ r.1.1 ∧ (c = 0 → r.1.1 = 0) := by
  have hsame : ∀ b', r = ((0, sigsq, utx), b') → 0 ≤ r.1.1 ∧ (c = 0 → r.1.1 = 0) := by
    rintro b' rfl
    exact ⟨le_rfl, fun _ => rfl⟩
  unfold factorStep at h
  by_cases hc : c ≠ 0 ∧ 7 / 100 * sd < almx
  · rw [if_pos hc] at h
    rcases b with _ | b
    · simp at h
    dsimp only at h
    rcases he : cfe cs (theta cs) c with _ | e
    · rw [he] at h; dsimp only at h
      exact hsame b (Option.some.inj h).symm
    rw [he] at h
    dsimp only at h
    rcases b with _ | b
    · simp at h
    dsimp only at h
    by_cases htr : truncation cs utx (1 / 4 * acc / e) sigsq < 1 / 5 * acc
    · rw [if_pos htr] at h
      rcases hf : findu cs (sigsq + 1 / 4 * acc / e) (1 / 4 * acc) b utx with _ | ⟨utx', b'⟩
      · rw [hf] at h; simp at h
      rw [hf] at h
      dsimp only at h
      rw [← Option.some.inj h]
      exact ⟨div_nonneg (by linarith) (cfe_nonneg he), fun h0 => absurd h0 hc.1⟩
    · rw [if_neg htr] at h
      exact hsame b (Option.some.inj h).symm
  · rw [if_neg hc] at h
    exact hsame b (Option.some.inj h).symm

/-- The reported variance is not negative, and zero if the distribution function is evaluated at zero. -/
theorem tausq_spec (cs : Comps) (c sigma : ℝ) {acc : ℝ} (ha : 0 ≤ acc) (lim : ℤ) :
    0 ≤ (qf cs c sigma acc lim).tausq ∧ (c = 0 → (qf cs c sigma acc lim).tausq = 0) := by
  unfold qf
  by_cases h3 : ∃ p ∈ cs, p.2 < 0
  · rw [if_pos h3]; exact ⟨le_rfl, fun _ => rfl⟩
  rw [if_neg h3]
  by_cases hv : var cs sigma = 0
  · rw [if_pos hv]; exact ⟨le_rfl, fun _ => rfl⟩
  rw [if_neg hv]
  dsimp only
  by_cases h0 : (extremes cs).2 = 0 ∧ (extremes cs).1 = 0 ∧ sigma = 0
  · rw [if_pos h0]; exact ⟨le_rfl, fun _ => rfl⟩
  rw [if_neg h0]
  generalize (if (extremes cs).1 < -(extremes cs).2 then -(extremes cs).2 else (extremes cs).1) = almx
  generalize √(var cs sigma) = sd
  rcases hu : findu cs (sigma ^ 2) (1 / 2 * acc) lim.toNat (16 / sd) with _ | ⟨utx, b⟩
  · exact ⟨le_rfl, fun _ => rfl⟩
  dsimp only
  rcases hs : factorStep cs c acc (sigma ^ 2) almx sd b utx with _ | ⟨⟨tau, sigsq, utx'⟩, b'⟩
  · exact ⟨le_rfl, fun _ => rfl⟩
  dsimp only
  rw [(range_aux ..).2]
  exact factorStep_tau ha hs

/-- **C115, partial.** The same with the convergence factor: for every `δ`, the value lies between the distribution function of
the weighted sum at `c - δ` and at `c + δ`, up to the required accuracy and the probability that the normal variable belonging
to the factor exceeds `δ`. Missing: that the latter is within the accuracy for a `δ` that does not matter, as `cfe` is meant to ensure. -/
theorem accuracy_factor_partial {cs : Comps} {c acc : ℝ} {lim : ℤ} (ha0 : 4 * exp (-50) ≤ acc) (ha1 : acc < 2)
    (hf : (qf cs c 0 acc lim).fault = 0) (hx : (qf cs c 0 acc lim).aux = 0) {δ : ℝ} (hδ : 0 ≤ δ) :
    (Wald.chi (spread cs)).real (Set.Iio (c - δ)) - exp (-δ ^ 2 / (2 * (qf cs c 0 acc lim).tausq)) - (acc + (lim.toNat + 1) * exp (-50))
        ≤ (qf cs c 0 acc lim).val ∧
      (qf cs c 0 acc lim).val
        ≤ (Wald.chi (spread cs)).real (Set.Iio (c + δ)) + exp (-δ ^ 2 / (2 * (qf cs c 0 acc lim).tausq)) + (acc + (lim.toNat + 1) * exp (-50)) := by
  have he := exp_pos (-50 : ℝ)
  have h := accuracy_partial ha0 ha1 hf hx
  have ht := (tausq_spec cs c 0 (by linarith : 0 ≤ acc) lim).1
  have hs := factor_sandwich (spread cs) 0 (Real.toNNReal (qf cs c 0 acc lim).tausq) c hδ
  rw [zero_add, sumLaw_zero, Real.coe_toNNReal _ ht] at hs
  rw [show (0 : ℝ) ^ 2 + (qf cs c 0 acc lim).tausq = (qf cs c 0 acc lim).tausq by ring, abs_le] at h
  constructor <;> linarith [hs.1, hs.2, h.1, h.2]

/-! ### Faults -/

theorem finish_fault {cs : Comps} {c acc : ℝ} (ha : acc ≠ 0) (tau sigsq xnt xlim intv intl ersm : ℝ) (k : ℕ) :
    ((finish cs c acc tau sigsq xnt xlim intv intl ersm k).fault = 1 ∧ (finish cs c acc tau sigsq xnt xlim intv intl ersm k).val = -1) ∨
      (finish cs c acc tau sigsq xnt xlim intv intl ersm k).fault = 0 := by
  unfold finish
  by_cases h : xlim < xnt
  · rw [if_pos h]; exact Or.inl ⟨rfl, rfl⟩
  rw [if_neg h]
  dsimp only
  right
  rw [if_neg]
  rintro ⟨q, hq, h⟩
  have hq0 : q ≠ 0 := by
    simp only [List.mem_cons, List.not_mem_nil, or_false] at hq
    rcases hq with rfl | rfl | rfl | rfl <;> norm_num
  have := mul_left_cancel₀ hq0 h
  apply ha
  linarith

theorem range_fault {cs : Comps} {c acc : ℝ} (ha : acc ≠ 0) (tau lmin lmax mean : ℝ) : ∀ (f b : ℕ) (up un utx acc1 xlim sigsq intl ersm : ℝ) (k : ℕ),
    (range cs c acc tau lmin lmax mean f b up un utx acc1 xlim sigsq intl ersm k).fault ≠ 0 →
      ((range cs c acc tau lmin lmax mean f b up un utx acc1 xlim sigsq intl ersm k).fault = 1 ∨
        (range cs c acc tau lmin lmax mean f b up un utx acc1 xlim sigsq intl ersm k).fault = 4) ∧
      (range cs c acc tau lmin lmax mean f b up un utx acc1 xlim sigsq intl ersm k).val = -1 := by
  intro f
  induction f with
  | zero => intros; unfold range; exact ⟨Or.inr rfl, rfl⟩
  | succ f ih =>
    intro b up un utx acc1 xlim sigsq intl ersm k
    unfold range
    dsimp only
    have hfin : ∀ (xnt intv : ℝ), (finish cs c acc tau sigsq xnt xlim intv intl ersm k).fault ≠ 0 →
        ((finish cs c acc tau sigsq xnt xlim intv intl ersm k).fault = 1 ∨ (finish cs c acc tau sigsq xnt xlim intv intl ersm k).fault = 4) ∧
          (finish cs c acc tau sigsq xnt xlim intv intl ersm k).val = -1 := by
      intro xnt intv h
      rcases finish_fault ha tau sigsq xnt xlim intv intl ersm k (cs := cs) (c := c) with h1 | h1
      · exact ⟨Or.inl h1.1, h1.2⟩
      · exact absurd h1 h
    rcases ctff cs sigsq acc1 lmin lmax mean b up with _ | ⟨⟨up', c1⟩, b1⟩
    · exact fun _ => ⟨Or.inr rfl, rfl⟩
    dsimp only
    by_cases h1 : c1 - c < 0
    · rw [if_pos h1]; exact fun h => absurd rfl h
    rw [if_neg h1]
    rcases ctff cs sigsq acc1 lmin lmax mean b1 un with _ | ⟨⟨un', c2⟩, b2⟩
    · exact fun _ => ⟨Or.inr rfl, rfl⟩
    dsimp only
    by_cases h2 : c - c2 < 0
    · rw [if_pos h2]; exact fun h => absurd rfl h
    rw [if_neg h2]
    by_cases h3 : 3 / √acc1 * (3 / 2) < utx / (2 * π / max (c1 - c) (c - c2))
    · rw [if_pos h3]
      by_cases h4 : xlim < 3 / √acc1
      · rw [if_pos h4]; exact fun _ => ⟨Or.inl rfl, rfl⟩
      rw [if_neg h4]
      by_cases h5 : |c| < 2 * π / (utx / (⌊3 / √acc1 + 1 / 2⌋₊ : ℝ))
      · rw [if_pos h5]
        rcases b2 with _ | _ | b2
        · exact fun _ => ⟨Or.inr rfl, rfl⟩
        · exact fun _ => ⟨Or.inr rfl, rfl⟩
        dsimp only
        rcases cfe cs (theta cs) (c - 2 * π / (utx / (⌊3 / √acc1 + 1 / 2⌋₊ : ℝ))) with _ | e1
        · exact hfin _ _
        rcases cfe cs (theta cs) (c + 2 * π / (utx / (⌊3 / √acc1 + 1 / 2⌋₊ : ℝ))) with _ | e2
        · exact hfin _ _
        dsimp only
        rcases findu cs (sigsq + 33 / 100 * acc1 / (11 / 10 * (e1 + e2))) (1 / 4 * (67 / 100 * acc1)) b2 utx with _ | ⟨utx', b3⟩
        · exact fun _ => ⟨Or.inr rfl, rfl⟩
        · exact ih b3 up' un' utx' (3 / 4 * (67 / 100 * acc1)) (xlim - 3 / √acc1)
            (sigsq + 33 / 100 * acc1 / (11 / 10 * (e1 + e2)))
            (intl + (integrate cs sigsq c ⌊3 / √acc1 + 1 / 2⌋₊ (utx / (⌊3 / √acc1 + 1 / 2⌋₊ : ℝ))
              (some (33 / 100 * acc1 / (11 / 10 * (e1 + e2))))).1)
            (ersm + (integrate cs sigsq c ⌊3 / √acc1 + 1 / 2⌋₊ (utx / (⌊3 / √acc1 + 1 / 2⌋₊ : ℝ))
              (some (33 / 100 * acc1 / (11 / 10 * (e1 + e2))))).2) (k + 1)
      · rw [if_neg h5]; exact hfin _ _
    · rw [if_neg h3]; exact hfin _ _

/-- **C115.** A fault is one of those documented, and the value that comes with it is -1, which is no probability. (Round-off,
fault 2, does not occur in exact arithmetic.) -/
theorem fault_value (cs : Comps) (c sigma : ℝ) {acc : ℝ} (ha : acc ≠ 0) (lim : ℤ) (h : (qf cs c sigma acc lim).fault ≠ 0) :
    ((qf cs c sigma acc lim).fault = 1 ∨ (qf cs c sigma acc lim).fault = 3 ∨ (qf cs c sigma acc lim).fault = 4) ∧
      (qf cs c sigma acc lim).val = -1 := by
  revert h
  unfold qf
  by_cases h3 : ∃ p ∈ cs, p.2 < 0
  · rw [if_pos h3]; exact fun _ => ⟨Or.inr (Or.inl rfl), rfl⟩
  rw [if_neg h3]
  by_cases hv : var cs sigma = 0
  · rw [if_pos hv]; exact fun h => absurd rfl h
  rw [if_neg hv]
  dsimp only
  by_cases h0 : (extremes cs).2 = 0 ∧ (extremes cs).1 = 0 ∧ sigma = 0
  · rw [if_pos h0]; exact fun _ => ⟨Or.inr (Or.inl rfl), rfl⟩
  rw [if_neg h0]
  generalize (if (extremes cs).1 < -(extremes cs).2 then -(extremes cs).2 else (extremes cs).1) = almx
  generalize √(var cs sigma) = sd
  rcases hu : findu cs (sigma ^ 2) (1 / 2 * acc) lim.toNat (16 / sd) with _ | ⟨utx, b⟩
  · exact fun _ => ⟨Or.inr (Or.inr rfl), rfl⟩
  dsimp only
  rcases hs : factorStep cs c acc (sigma ^ 2) almx sd b utx with _ | ⟨⟨tau, sigsq, utx'⟩, b'⟩
  · exact fun _ => ⟨Or.inr (Or.inr rfl), rfl⟩
  dsimp only
  intro h
  have := range_fault ha tau _ _ _ _ _ _ _ _ _ _ _ _ _ _ h
  exact ⟨this.1.imp id Or.inr, this.2⟩

/-! ### The order of the weights -/

theorem orderStep_length (lb : List ℝ) (th : List ℕ) : (orderStep lb th).length = th.length + 1 := by
  unfold orderStep
  rcases h : th.getLast? with _ | t
  · rw [List.getLast?_eq_none_iff] at h
    simp [h]
  · dsimp only
    by_cases hl : |lb.getD t 0| < |lb.getD th.length 0|
    · rw [if_pos hl]; simp
    · rw [if_neg hl]; simp

theorem orderStep_lt {lb : List ℝ} {th : List ℕ} (h : ∀ t ∈ th, t < th.length) : ∀ t ∈ orderStep lb th, t < th.length + 1 := by
  intro t ht
  unfold orderStep at ht
  rcases hl : th.getLast? with _ | q
  · rw [hl] at ht
    simp at ht
    omega
  · rw [hl] at ht
    dsimp only at ht
    have hq : q ∈ th := List.mem_of_getLast? hl
    by_cases hc : |lb.getD q 0| < |lb.getD th.length 0|
    · rw [if_pos hc] at ht
      rcases List.mem_or_eq_of_mem_set ht with h1 | h1
      · rcases List.mem_append.1 h1 with h2 | h2
        · have := h t h2; omega
        · have := h q hq
          simp at h2
          omega
      · omega
    · rw [if_neg hc] at ht
      rcases List.mem_append.1 ht with h2 | h2
      · have := h t h2; omega
      · simp at h2
        omega

theorem order_iter (lb : List ℝ) (j : ℕ) : ((orderStep lb)^[j] []).length = j ∧ ∀ t ∈ (orderStep lb)^[j] [], t < j := by
  induction j with
  | zero => simp
  | succ j ih =>
    rw [Function.iterate_succ_apply']
    refine ⟨by rw [orderStep_length, ih.1], ?_⟩
    have := orderStep_lt (lb := lb) (th := (orderStep lb)^[j] []) (by rw [ih.1]; exact ih.2)
    rw [ih.1] at this
    exact this

/-- **C115.** The indices are those of weights: `cfe` does not read beyond the end of the arrays. -/
theorem order_bounds (lb : List ℝ) : (order lb).length = lb.length ∧ ∀ t ∈ order lb, t < lb.length := order_iter lb lb.length

/-- **C115, partial.** If no weight exceeds the one before it in absolute value, the indices sort the weights: they are the
identity. Missing: weights in any other order, see `order_wrong`. -/
theorem order_partial {lb : List ℝ} (h : ∀ j, j + 1 < lb.length → |lb.getD (j + 1) 0| ≤ |lb.getD j 0|) : order lb = List.range lb.length := by
  have key : ∀ j ≤ lb.length, (orderStep lb)^[j] [] = List.range j := by
    intro j
    induction j with
    | zero => simp
    | succ j ih =>
      intro hj
      rw [Function.iterate_succ_apply', ih (by omega)]
      unfold orderStep
      rcases j with _ | j
      · rfl
      · have hl : (List.range (j + 1)).getLast? = some j := by simp [List.range_succ]
        rw [hl]
        dsimp only
        rw [List.length_range, if_neg (not_lt.2 (h j (by omega))), ← List.range_succ]
  exact key _ le_rfl

/-- **C115, what fails (1).** The insertion stops after one comparison (davies.cpp 83): for increasing weights the indices are not
a permutation. -/
theorem order_wrong : order [1, 2, 3] = [2, 0, 0] := by
  have h0 : orderStep [1, 2, 3] [] = [0] := rfl
  have h1 : orderStep [1, 2, 3] [0] = [1, 0] := by
    unfold orderStep
    show (if |(1 : ℝ)| < |2| then _ else _) = _
    rw [if_pos (by norm_num)]
    rfl
  have h2 : orderStep [1, 2, 3] [1, 0] = [2, 0, 0] := by
    unfold orderStep
    show (if |(1 : ℝ)| < |3| then _ else _) = _
    rw [if_pos (by norm_num)]
    rfl
  show orderStep _ (orderStep _ (orderStep _ [])) = _
  rw [h0, h1, h2]

/-- **C115, what fails (1), in the tests of smooth terms.** For an estimated scale and a statistic that is not very small, the
weights are such that the second, the largest of those that do not depend on the statistic, is lost and the third is used twice. -/
theorem order_test_wrong {k : ℕ} (hk : 1 < k) {v : ℝ} (h0 : 0 < v) (h1 : v < 1) {T rsdf : ℝ} (hT : Wald.v2 v < T / rsdf) :
    order (Wald.lb k v ++ [-T / rsdf]) = [3, 0, 2, 2] := by
  have hlb : Wald.lb k v ++ [-T / rsdf] = [1, Wald.v1 v, Wald.v2 v, -T / rsdf] := by
    unfold Wald.lb
    rw [if_pos hk]
    rfl
  rw [hlb]
  have hv1 := Wald.v1_gt h0 h1
  have hv2 := Wald.v2_pos h0 h1
  have hv3 : Wald.v2 v < 1 := by unfold Wald.v2; linarith
  have e0 : orderStep [1, Wald.v1 v, Wald.v2 v, -T / rsdf] [] = [0] := rfl
  have e1 : orderStep [1, Wald.v1 v, Wald.v2 v, -T / rsdf] [0] = [1, 0] := by
    unfold orderStep
    show (if |(1 : ℝ)| < |Wald.v1 v| then _ else _) = _
    rw [if_pos (by rw [abs_one, abs_of_pos (by linarith)]; exact hv1)]
    rfl
  have e2 : orderStep [1, Wald.v1 v, Wald.v2 v, -T / rsdf] [1, 0] = [1, 0, 2] := by
    unfold orderStep
    show (if |(1 : ℝ)| < |Wald.v2 v| then _ else _) = _
    rw [if_neg (by rw [abs_one, abs_of_pos hv2]; linarith)]
    rfl
  have e3 : orderStep [1, Wald.v1 v, Wald.v2 v, -T / rsdf] [1, 0, 2] = [3, 0, 2, 2] := by
    unfold orderStep
    show (if |Wald.v2 v| < |-T / rsdf| then _ else _) = _
    rw [if_pos (by rw [neg_div, abs_neg, abs_of_pos hv2]; exact lt_of_lt_of_le hT (le_abs_self _))]
    rfl
  show orderStep _ (orderStep _ (orderStep _ (orderStep _ []))) = _
  rw [e0, e1, e2, e3]

/-- **C115, what fails (2).** The coefficient on which the convergence factor rests is not the one that Davies' method prescribes
(that for indices which sort the weights): for weights 1, 2, 3 the largest weight and twice the smallest are taken off the
argument, instead of all three. -/
theorem cfe_wrong {x : ℝ} (hx : 100 < x) :
    cfe [(1, 1), (2, 1), (3, 1)] (theta [(1, 1), (2, 1), (3, 1)]) x = some (1 / (π * (x - 5) ^ 2)) ∧
      cfe [(1, 1), (2, 1), (3, 1)] [2, 1, 0] x = some (1 / (π * (x - 6) ^ 2)) ∧
      1 / (π * (x - 5) ^ 2) < 1 / (π * (x - 6) ^ 2) := by
  have hstep : ∀ (p : ℝ × ℤ) (ps : List (ℝ × ℤ)) (y : ℝ), 0 < p.1 → p.1 / (866 / 10000) < y - |p.1| * (p.2 : ℝ) →
      cfeLoop 1 (p :: ps) y = cfeLoop 1 ps (y - |p.1| * (p.2 : ℝ)) := by
    intro p ps y h1 h2
    rw [cfeLoop, mul_one, if_pos h1]
    dsimp only
    rw [if_pos (by rw [abs_of_pos h1] at h2 ⊢; exact h2)]
  have hth : theta [(1, 1), (2, 1), (3, 1)] = [2, 0, 0] := order_wrong
  have hpow : ((2 : ℝ) ^ ((0 : ℝ) / 4)) = 1 := by norm_num
  refine ⟨?_, ?_, ?_⟩
  · rw [hth]
    unfold cfe
    have : cfeLoop 1 [((1 : ℝ), (1 : ℤ)), (1, 1), (3, 1)] x = (x - 5, 0) := by
      rw [hstep _ _ _ (by norm_num) (by norm_num; linarith), hstep _ _ _ (by norm_num) (by norm_num; linarith),
        hstep _ _ _ (by norm_num) (by norm_num; linarith), cfeLoop]
      norm_num
      ring
    dsimp only
    rw [if_pos (by linarith : 0 < x), abs_of_pos (by linarith : 0 < x)]
    rw [show List.map (fun t => [((1 : ℝ), (1 : ℤ)), (2, 1), (3, 1)].getD t (0, 0)) [2, 0, 0].reverse = [(1, 1), (1, 1), (3, 1)] from rfl,
      this, if_neg (by norm_num), hpow]
  · unfold cfe
    have : cfeLoop 1 [((1 : ℝ), (1 : ℤ)), (2, 1), (3, 1)] x = (x - 6, 0) := by
      rw [hstep _ _ _ (by norm_num) (by norm_num; linarith), hstep _ _ _ (by norm_num) (by norm_num; linarith),
        hstep _ _ _ (by norm_num) (by norm_num; linarith), cfeLoop]
      norm_num
      ring
    dsimp only
    rw [if_pos (by linarith : 0 < x), abs_of_pos (by linarith : 0 < x)]
    rw [show List.map (fun t => [((1 : ℝ), (1 : ℤ)), (2, 1), (3, 1)].getD t (0, 0)) [2, 1, 0].reverse = [(1, 1), (2, 1), (3, 1)] from rfl,
      this, if_neg (by norm_num), hpow]
  · have hp := Real.pi_pos
    have h6 : 0 < x - 6 := by linarith
    have : π * (x - 6) ^ 2 < π * (x - 5) ^ 2 := mul_lt_mul_of_pos_left (by nlinarith) hp
    exact one_div_lt_one_div_of_lt (by positivity) this

/-! ### The series for the logarithm -/

/-- **C115.** The series in `log1` has the value that the model takes: the sum of its terms. -/
theorem log1_series {x : ℝ} (hx : |x| ≤ 1 / 10) (first : Bool) : Tendsto (log1Sum x first) atTop (𝓝 (log1 x first)) := by
  rw [abs_le] at hx
  have hy : |x / (2 + x)| < 1 := by
    rw [abs_div, div_lt_one (by rw [abs_pos]; linarith), abs_of_pos (by linarith : 0 < 2 + x), abs_lt]
    constructor <;> linarith
  have hs := Real.hasSum_log_sub_log_of_abs_lt_one hy
  have hl : log (1 + x / (2 + x)) - log (1 - x / (2 + x)) = log (1 + x) := by
    rw [← log_div (by have := abs_lt.1 hy; linarith) (by have := abs_lt.1 hy; linarith)]
    congr 1
    have : (2 + x) ≠ 0 := by linarith
    field_simp
    ring
  rw [hl] at hs
  have ht := (hasSum_nat_add_iff' 1).2 hs |>.tendsto_sum_nat
  simp only [Finset.sum_range_one] at ht
  have he : ∀ m, log1Sum x first m = (if first then 2 else -x) * (x / (2 + x))
      + ∑ i ∈ Finset.range m, 2 * (1 / (2 * ((i + 1 : ℕ) : ℝ) + 1)) * (x / (2 + x)) ^ (2 * (i + 1) + 1) := by
    intro m
    unfold log1Sum
    dsimp only
    rw [Finset.sum_range, Fin.sum_univ_def]
    congr 1
    rw [← List.map_coe_finRange_eq_range]
    rw [List.map_map]
    congr 1
    refine List.map_congr_left fun i _ => ?_
    simp only [Function.comp]
    push_cast
    rw [← pow_mul, mul_assoc, ← pow_add]
    have : (3 + 2 * ((i : ℕ) : ℝ)) ≠ 0 := by positivity
    have h2 : (2 * (((i : ℕ) : ℝ) + 1) + 1) ≠ 0 := by positivity
    field_simp
    ring
  have hfun : log1Sum x first = fun m => (if first then 2 else -x) * (x / (2 + x))
      + ∑ i ∈ Finset.range m, 2 * (1 / (2 * ((i + 1 : ℕ) : ℝ) + 1)) * (x / (2 + x)) ^ (2 * (i + 1) + 1) := funext he
  rw [hfun]
  have hlim := ht.const_add ((if first then 2 else -x) * (x / (2 + x)))
  have hv : (if first then 2 else -x) * (x / (2 + x)) + (log (1 + x) - 2 * (1 / (2 * ((0 : ℕ) : ℝ) + 1)) * (x / (2 + x)) ^ (2 * 0 + 1))
      = log1 x first := by
    have : (2 + x) ≠ 0 := by linarith
    unfold log1
    cases first
    · simp only [Bool.false_eq_true, if_false]
      have h1 : x / (2 + x) * (2 + x) = x := div_mul_cancel₀ _ this
      push_cast
      linear_combination -h1
    · simp only [if_true]
      push_cast
      ring
  rw [hv] at hlim
  exact hlim

/-! ### Tests of smooth terms -/

/-- `daviesQF` as called for the tests of smooth terms (utils.py 1398-1417, 1481-1486): the degrees of freedom are truncated
(`py::array_t<int, forcecast>`, davies.cpp 425). -/
noncomputable def call (ws ns : List ℝ) (c : ℝ) : Res := qf (ws.zip (ns.map fun n : ℝ => ((⌊n⌋₊ : ℕ) : ℤ))) c 0 (2 / 100000) 20000

/-- The library with this function. -/
noncomputable def lib (L : Wald.Lib) : Wald.Lib := { L with davies := fun ws ns c => ((call ws ns c).val, (call ws ns c).fault) }

/-- The library with exact probabilities. -/
noncomputable def exact (L : Wald.Lib) : Wald.Lib :=
  { L with davies := fun ws ns c => ((Wald.chi (Wald.spread ws (ns.map Nat.floor))).real (Set.Iio c), 0) }

theorem spread_zip (ws ns : List ℝ) : spread (ws.zip (ns.map fun n : ℝ => ((⌊n⌋₊ : ℕ) : ℤ))) = Wald.spread ws (ns.map Nat.floor) := by
  unfold spread Wald.spread
  congr 1
  induction ws generalizing ns with
  | nil => simp
  | cons w ws ih =>
    cases ns with
    | nil => simp
    | cons n ns => simp [ih]

/-- Accuracy in the tests: the required accuracy and the terms that `exp1` sets to zero. -/
noncomputable def tol : ℝ := 2 / 100000 + 20001 * exp (-50)

/-- A call that is covered by `accuracy_chi_partial`. -/
def Covered (ws ns : List ℝ) (c : ℝ) : Prop := (call ws ns c).fault = 0 ∧ (call ws ns c).aux = 0 ∧ (call ws ns c).tausq = 0

theorem exp_small : 4 * exp (-50) ≤ (2 / 100000 : ℝ) := by
  have h1 : exp (-50 : ℝ) ≤ exp (-20) := exp_le_exp.2 (by norm_num)
  have h2 : exp (-20 : ℝ) = (exp 1)⁻¹ ^ 20 := by rw [← exp_neg, ← exp_nat_mul]; norm_num
  have h3 : (exp 1)⁻¹ ≤ (1 / 2 : ℝ) := by
    rw [inv_le_comm₀ (exp_pos 1) (by norm_num)]
    have := add_one_le_exp (1 : ℝ)
    norm_num
    linarith
  have h4 : (exp 1)⁻¹ ^ 20 ≤ (1 / 2 : ℝ) ^ 20 := pow_le_pow_left₀ (by positivity) h3 20
  have h5 : (1 / 2 : ℝ) ^ 20 ≤ 1 / 1000000 := by norm_num
  linarith

theorem call_accuracy {ws ns : List ℝ} {c : ℝ} (h : Covered ws ns c) :
    |(call ws ns c).val - (Wald.chi (Wald.spread ws (ns.map Nat.floor))).real (Set.Iio c)| ≤ tol := by
  have := accuracy_chi_partial exp_small (by norm_num) h.1 h.2.1 h.2.2
  rw [spread_zip] at this
  refine this.trans (le_of_eq ?_)
  unfold tol
  rw [show Int.toNat 20000 = 20000 from rfl]
  norm_num

section Test

variable {m p : ℕ} {R : Matrix (Fin (m + 1)) (Fin p) ℝ} {V : Matrix (Fin p) (Fin p) ℝ} {U : Matrix (Fin (m + 1)) (Fin (m + 1)) ℝ}
  {s : Fin (m + 1) → ℝ}

theorem nonCase_known (L : Wald.Lib) (rsdf r v : ℝ) (k : ℕ) (T : ℝ × ℝ) (h1 : Covered (Wald.lb k v) (Wald.nn k) T.1)
    (h2 : Covered (Wald.lb k v) (Wald.nn k) T.2) :
    (Wald.nonCase (lib L) false false rsdf r v k T).2 = (Wald.nonCase (exact L) false false rsdf r v k T).2 ∧
      |(Wald.nonCase (lib L) false false rsdf r v k T).1.1 - (Wald.nonCase (exact L) false false rsdf r v k T).1.1| ≤ tol ∧
      |(Wald.nonCase (lib L) false false rsdf r v k T).1.2 - (Wald.nonCase (exact L) false false rsdf r v k T).1.2| ≤ tol := by
  have hf : Wald.fallback false 0 0 = false := by decide
  have key : ∀ a b : ℝ, b ≤ 1 → |a - b| ≤ tol → |1 - min a 1 - (1 - min b 1)| ≤ tol := by
    intro a b hb h
    rw [min_eq_left hb]
    rw [abs_le] at h ⊢
    rcases le_total a 1 with ha | ha
    · rw [min_eq_left ha]; constructor <;> linarith
    · rw [min_eq_right ha]; constructor <;> linarith
  unfold Wald.nonCase lib exact
  simp only [Bool.false_eq_true, if_false, h1.1, h2.1, hf]
  exact ⟨trivial, key _ _ measureReal_le_one (call_accuracy h1), key _ _ measureReal_le_one (call_accuracy h2)⟩

theorem nonCase_estimated (L : Wald.Lib) (rsdf r v : ℝ) (k : ℕ) (T : ℝ × ℝ)
    (h1 : Covered (Wald.lb k v ++ [-T.1 / rsdf]) (Wald.nn k ++ [rsdf]) 0) (h2 : Covered (Wald.lb k v ++ [-T.2 / rsdf]) (Wald.nn k ++ [rsdf]) 0) :
    (Wald.nonCase (lib L) true false rsdf r v k T).2 = (Wald.nonCase (exact L) true false rsdf r v k T).2 ∧
      |(Wald.nonCase (lib L) true false rsdf r v k T).1.1 - (Wald.nonCase (exact L) true false rsdf r v k T).1.1| ≤ tol ∧
      |(Wald.nonCase (lib L) true false rsdf r v k T).1.2 - (Wald.nonCase (exact L) true false rsdf r v k T).1.2| ≤ tol := by
  have hf : Wald.fallback false 0 0 = false := by decide
  have key : ∀ a b : ℝ, |a - b| ≤ tol → |1 - a - (1 - b)| ≤ tol := by
    intro a b h
    rw [show 1 - a - (1 - b) = -(a - b) by ring, abs_neg]
    exact h
  unfold Wald.nonCase lib exact
  simp only [if_true, h1.1, h2.1, hf, Bool.false_eq_true, if_false]
  exact ⟨trivial, key _ _ (call_accuracy h1), key _ _ (call_accuracy h2)⟩

theorem test_close (L : Wald.Lib) (twopar : Bool) (rsdf : ℝ) {r : ℝ} {κ : ℕ} (hk : ⌊r⌋₊ = κ + 1) (hr : r ≠ (κ + 1 : ℕ)) (h : κ + 2 ≤ m + 1)
    (f : Fin (m + 1) → ℝ)
    (hc : ∀ T, (T = (Wald.stats (Wald.cols U h) (Wald.sNon (fun j => s (Fin.castLE h j)) (r - (κ + 1 : ℕ))) f).1 ∨
        T = (Wald.stats (Wald.cols U h) (Wald.sNon (fun j => s (Fin.castLE h j)) (r - (κ + 1 : ℕ))) f).2) →
      if twopar then Covered (Wald.lb (κ + 1) (r - (κ + 1 : ℕ)) ++ [-T / rsdf]) (Wald.nn (κ + 1) ++ [rsdf]) 0
      else Covered (Wald.lb (κ + 1) (r - (κ + 1 : ℕ))) (Wald.nn (κ + 1)) T)
    {q : ℝ × ℝ} (he : Wald.test (exact L) twopar false rsdf U s r f = some q) :
    ∃ q', Wald.test (lib L) twopar false rsdf U s r f = some q' ∧ q'.2 = q.2 ∧ |q'.1 - q.1| ≤ tol := by
  have h0 : r - (κ + 1 : ℕ) ≠ 0 := sub_ne_zero.2 hr
  unfold Wald.test at he ⊢
  rw [hk] at he ⊢
  dsimp only at he ⊢
  rw [if_neg h0, dif_pos h] at he ⊢
  refine ⟨_, rfl, ?_⟩
  rw [← Option.some.inj he]
  dsimp only
  have hh : ∀ a b a' b' : ℝ, |a - a'| ≤ tol → |b - b'| ≤ tol → |(a + b) / 2 - (a' + b') / 2| ≤ tol := by
    intro a b a' b' h1 h2
    rw [abs_le] at *
    constructor <;> linarith [h1.1, h1.2, h2.1, h2.2]
  cases twopar
  · have := nonCase_known L rsdf r (r - (κ + 1 : ℕ)) (κ + 1) _ (hc _ (Or.inl rfl)) (hc _ (Or.inr rfl))
    rw [this.1]
    exact ⟨rfl, hh _ _ _ _ this.2.1 this.2.2⟩
  · have := nonCase_estimated L rsdf r (r - (κ + 1 : ℕ)) (κ + 1) _ (hc _ (Or.inl rfl)) (hc _ (Or.inr rfl))
    rw [this.1]
    exact ⟨rfl, hh _ _ _ _ this.2.1 this.2.2⟩

theorem exact_davies (L : Wald.Lib) : Wald.Davies (exact L) := fun _ _ _ => rfl

/-- **C115 and C86, partial.** Degrees of freedom not an integer, scale known: with Davies' method as implemented, the p-value
differs from the mean of the two exact tail probabilities by at most `2e-5` plus `20001 exp(-50)`, if both calls end without
fault, auxiliary integrations and convergence factor. -/
theorem p_known_accuracy_partial (hE : Wald.Eig R V U s) (L : Wald.Lib) {r : ℝ} {κ : ℕ} (hk : ⌊r⌋₊ = κ + 1) (hr : r ≠ (κ + 1 : ℕ))
    (h : κ + 2 ≤ m + 1) (hs : ∀ j : Fin (κ + 2), 0 < s (Fin.castLE h j)) (hU : ∀ j : Fin (κ + 2), U 0 (Fin.castLE h j) ≠ 0)
    (rsdf : ℝ) (β : EuclideanSpace ℝ (Fin p)) {T1 T2 : EuclideanSpace ℝ (Fin p) → ℝ}
    (e1 : T1 = fun β => Wald.wald (fun j => Wald.fixed U (Fin.castLE h j)) (fun j => s (Fin.castLE h j)) (r - (κ + 1 : ℕ)) (Wald.fval R β))
    (e2 : T2 = fun β => Wald.wald (fun j => Wald.raw U (Fin.castLE h j)) (fun j => s (Fin.castLE h j)) (r - (κ + 1 : ℕ)) (Wald.fval R β))
    (hc : ∀ T, (T = T1 β ∨ T = T2 β) → Covered (Wald.lb (κ + 1) (r - (κ + 1 : ℕ))) (Wald.nn (κ + 1)) T) :
    ∃ q, Wald.test (lib L) false false rsdf U s r (Wald.fval R β) = some q ∧ q.2 = max (T1 β) (T2 β) ∧
      |q.1 - ((Wald.null V).real {γ | T1 β ≤ T1 γ} + (Wald.null V).real {γ | T2 β ≤ T2 γ}) / 2| ≤ 2 / 100000 + 20001 * exp (-50) := by
  obtain ⟨T1', T2', e1', e2', he⟩ := Wald.p_noninteger_partial hE (exact_davies L) hk hr h hs hU rsdf β
  rw [← e1] at e1'
  rw [← e2] at e2'
  rw [e1', e2'] at he
  refine test_close L false rsdf hk hr h _ ?_ he
  rw [Wald.stats_wald h hs hU]
  intro T hT
  refine hc T ?_
  rw [e1, e2]
  exact hT

/-- **C115 and C86, partial.** The same for an estimated scale, where a convergence factor is never used. -/
theorem p_estimated_accuracy_partial (hE : Wald.Eig R V U s) (L : Wald.Lib) {r : ℝ} {κ : ℕ} (hk : ⌊r⌋₊ = κ + 1) (hr : r ≠ (κ + 1 : ℕ))
    (h : κ + 2 ≤ m + 1) (hs : ∀ j : Fin (κ + 2), 0 < s (Fin.castLE h j)) (hU : ∀ j : Fin (κ + 2), U 0 (Fin.castLE h j) ≠ 0)
    (rsdf : ℝ) (β : EuclideanSpace ℝ (Fin p)) {T1 T2 : EuclideanSpace ℝ (Fin p) → ℝ}
    (e1 : T1 = fun β => Wald.wald (fun j => Wald.fixed U (Fin.castLE h j)) (fun j => s (Fin.castLE h j)) (r - (κ + 1 : ℕ)) (Wald.fval R β))
    (e2 : T2 = fun β => Wald.wald (fun j => Wald.raw U (Fin.castLE h j)) (fun j => s (Fin.castLE h j)) (r - (κ + 1 : ℕ)) (Wald.fval R β))
    (hc : ∀ T, (T = T1 β ∨ T = T2 β) →
      (call (Wald.lb (κ + 1) (r - (κ + 1 : ℕ)) ++ [-T / rsdf]) (Wald.nn (κ + 1) ++ [rsdf]) 0).fault = 0 ∧
        (call (Wald.lb (κ + 1) (r - (κ + 1 : ℕ)) ++ [-T / rsdf]) (Wald.nn (κ + 1) ++ [rsdf]) 0).aux = 0) :
    ∃ q, Wald.test (lib L) true false rsdf U s r (Wald.fval R β) = some q ∧ q.2 = max (T1 β / r) (T2 β / r) ∧
      |q.1 - (((Wald.null V).prod (Wald.chi (List.replicate ⌊rsdf⌋₊ 1))).real {y | T1 β * (y.2 / rsdf) ≤ T1 y.1}
          + ((Wald.null V).prod (Wald.chi (List.replicate ⌊rsdf⌋₊ 1))).real {y | T2 β * (y.2 / rsdf) ≤ T2 y.1}) / 2|
        ≤ 2 / 100000 + 20001 * exp (-50) := by
  obtain ⟨T1', T2', e1', e2', he⟩ := Wald.p_estimated_partial hE (exact_davies L) hk hr h hs hU rsdf β
  rw [← e1] at e1'
  rw [← e2] at e2'
  rw [e1', e2'] at he
  refine test_close L true rsdf hk hr h _ ?_ he
  rw [Wald.stats_wald h hs hU]
  intro T hT
  rw [if_pos rfl]
  have := hc T (by rw [e1, e2]; exact hT)
  exact ⟨this.1, this.2, (tausq_spec _ _ _ (by norm_num) _).2 rfl⟩

end Test

end Verif.Qf
