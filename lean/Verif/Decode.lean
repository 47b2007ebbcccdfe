import Verif.Hsmm
import Verif.Viterbi
import Verif.Sample

/-!
# Decoding, likelihood and sampling belong together (C140)

`HSMMFamily.decode_viterbi` builds logarithms of the tables (src/mssm/src/python/hsmm.py 2051-2089: `_compute_series_probs` with `log=True`, `np.log` of fixed
matrices, nan set to minus infinity) that `llk` and `sample_backwards` use as probabilities.
-/

namespace Verif.Dec

open Hsmm

/-- `np.log`: minus infinity at zero. -/
noncomputable def lg (a : ℝ) : WithBot ℝ := if 0 < a then (Real.log a : ℝ) else ⊥

/-- Tables of logarithms (hsmm.py 2051-2089). -/
noncomputable def logT (m : Tables ℝ) : Tables (WithBot ℝ) where
  n_T := m.n_T
  D := m.D
  n_S := m.n_S
  event_width := m.event_width
  starts_with_first := m.starts_with_first
  ends_with_last := m.ends_with_last
  ends_in_last := m.ends_in_last
  hmp := m.hmp
  tvdtpi := m.tvdtpi
  bs2 t j := lg (m.bs2 t j)
  bs3 t k j := lg (m.bs3 t k j)
  ds2 d j := lg (m.ds2 d j)
  ds3 d j t := lg (m.ds3 d j t)
  T2 i j := lg (m.T2 i j)
  T3 i j t := lg (m.T3 i j t)
  pi j := lg (m.pi j)

/-- Bumps of event models have a template and never last longer than it (hsmm.py 690-692). -/
def Bumps (m : Tables ℝ) : Prop :=
  m.hmp = true → 1 ≤ m.event_width ∧ ∀ d j t, m.event_width ≤ d → j % 2 = 1 → m.ds d j t = 0 ∧ m.ds d (m.dcol j) t = 0

theorem lg_zero : lg 0 = ⊥ := if_neg (lt_irrefl _)

theorem lg_pos {a : ℝ} (h : 0 < a) : lg a = (Real.log a : ℝ) := if_pos h

theorem lg_mul {a b : ℝ} (ha : 0 ≤ a) (hb : 0 ≤ b) : lg (a * b) = lg a + lg b := by
  rcases ha.eq_or_lt with rfl | ha
  · rw [zero_mul, lg_zero, WithBot.bot_add]
  rcases hb.eq_or_lt with rfl | hb
  · rw [mul_zero, lg_zero, WithBot.add_bot]
  rw [lg_pos (mul_pos ha hb), lg_pos ha, lg_pos hb, Real.log_mul ha.ne' hb.ne', WithBot.coe_add]

theorem lg_prod (s : Finset ℕ) {f : ℕ → ℝ} (h : ∀ i, 0 ≤ f i) : lg (∏ i ∈ s, f i) = ∑ i ∈ s, lg (f i) := by
  classical
  induction s using Finset.induction_on with
  | empty => simp [lg_pos one_pos]
  | insert a s ha ih => rw [Finset.prod_insert ha, Finset.sum_insert ha, lg_mul (h a) (Finset.prod_nonneg fun i _ => h i), ih]

theorem lg_le {a b : ℝ} (hb : 0 ≤ b) (h : lg a ≤ lg b) : a ≤ b := by
  by_cases ha : 0 < a
  · rw [lg_pos ha] at h
    by_cases hb' : 0 < b
    · rw [lg_pos hb', WithBot.coe_le_coe] at h
      exact (Real.log_le_log_iff ha hb').1 h
    · unfold lg at h
      rw [if_neg hb'] at h
      exact absurd (le_bot_iff.1 h) WithBot.coe_ne_bot
  · exact (not_lt.1 ha).trans hb

variable {m : Tables ℝ}

theorem logT_ds (d j t : ℕ) : (logT m).ds d j t = lg (m.ds d j t) := by
  unfold Tables.ds
  show (if m.tvdtpi then _ else _) = _
  split_ifs <;> rfl

theorem logT_T (i j t : ℕ) : (logT m).T i j t = lg (m.T i j t) := by
  unfold Tables.T
  show (if m.tvdtpi then _ else _) = _
  split_ifs <;> rfl

theorem logT_obs (s : Seg) (t : ℕ) : obs (logT m) s t = lg (obs m s t) := by
  unfold obs
  show (if m.hmp then _ else _) = _
  split_ifs <;> rfl

theorem obs_nonneg (hm : NonNeg m) (s : Seg) (t : ℕ) : 0 ≤ obs m s t := by
  unfold obs
  split_ifs
  all_goals first | exact hm.bs3 _ _ _ | exact hm.bs2 _ _

theorem ds_nonneg (hm : NonNeg m) (d j t : ℕ) : 0 ≤ m.ds d j t := by
  unfold Tables.ds
  split_ifs
  exacts [hm.ds3 _ _ _, hm.ds2 _ _]

theorem T_nonneg (hm : NonNeg m) (i j t : ℕ) : 0 ≤ m.T i j t := by
  unfold Tables.T
  split_ifs
  exacts [hm.T3 _ _ _, hm.T2 _ _]

theorem obsProd_nonneg (hm : NonNeg m) (t : ℕ) (s : Seg) : 0 ≤ obsProd m t s := Finset.prod_nonneg fun _ _ => obs_nonneg hm _ _

theorem logT_obsSum (hm : NonNeg m) (t : ℕ) (s : Seg) : obsSum (logT m) t s = lg (obsProd m t s) := by
  unfold obsSum obsProd
  rw [lg_prod _ fun i => obs_nonneg hm s i]
  exact Finset.sum_congr rfl fun i _ => logT_obs s i

theorem logT_weightUpTo (hm : NonNeg m) (t : ℕ) : ∀ l, logWeightUpTo (logT m) t l = lg (weightUpTo m t l)
  | [] => by simp [logWeightUpTo, weightUpTo, lg_pos one_pos]
  | [s] => by
    simp only [logWeightUpTo, weightUpTo]
    rw [lg_mul (mul_nonneg (hm.pi _) (ds_nonneg hm _ _ _)) (obsProd_nonneg hm _ _), lg_mul (hm.pi _) (ds_nonneg hm _ _ _), logT_ds,
      logT_obsSum hm]
    rfl
  | s :: p :: r => by
    simp only [logWeightUpTo, weightUpTo]
    have h1 := mul_nonneg (T_nonneg hm p.state s.state (s.start - 1)) (ds_nonneg hm s.dur (m.dcol s.state) s.start)
    rw [lg_mul (mul_nonneg h1 (obsProd_nonneg hm _ _)) (weightUpTo_nonneg m hm t _), lg_mul h1 (obsProd_nonneg hm _ _),
      lg_mul (T_nonneg hm _ _ _) (ds_nonneg hm _ _ _), logT_T, logT_ds, logT_obsSum hm, logT_weightUpTo hm t (p :: r)]
    rfl

theorem logT_weight (hm : NonNeg m) (l : List Seg) : logWeight (logT m) l = lg (weight m l) := logT_weightUpTo hm _ l

theorem logT_hmp (hb : Bumps m) : HmpOk (logT m) := fun h => ⟨(hb h).1, fun d j t hd hj => by
  obtain ⟨h1, h2⟩ := (hb h).2 d j t hd hj
  refine ⟨by rw [logT_ds, h1, lg_zero], ?_⟩
  have : (logT m).dcol j = m.dcol j := rfl
  rw [this, logT_ds, h2, lg_zero]⟩

/-- Posterior probability of a segmentation: its joint probability with the series over the likelihood of the series. -/
noncomputable def posterior (m : Tables ℝ) (l : List Seg) : ℝ := weight m l / Real.exp (llk m)

theorem exp_llk (hm : NonNeg m) (hT : 0 < m.n_T) {A : Finset (List Seg)} (hA : ∀ l, l ∈ A ↔ Admissible m l) (hpos : 0 < ∑ l ∈ A, weight m l) :
    Real.exp (llk m) = ∑ l ∈ A, weight m l := by
  obtain ⟨B, hB, h⟩ := llk_eq_log_sum_over_segmentations m hm hT
  have : B = A := by ext l; rw [hB, hA]
  subst this
  rw [h hpos, Real.exp_log hpos]

theorem weight_nonneg (hm : NonNeg m) (l : List Seg) : 0 ≤ weight m l := weightUpTo_nonneg m hm _ l

/-- **C140.** Decoding with the logarithms of the tables of the likelihood returns the labels of a segmentation with the largest posterior
probability. This probability is positive, at most one and at least the mean over all admissible segmentations. -/
theorem decoded_is_mode (hm : NonNeg m) (hb : Bumps m) (hT : 0 < m.n_T) {A : Finset (List Seg)} (hA : ∀ l, l ∈ A ↔ Admissible m l)
    (hpos : 0 < ∑ l ∈ A, weight m l) :
    ∃ ed states best, viterbi (logT m) = some (ed, states) ∧ best ∈ A ∧ Labels best m.n_T states ∧
      (∃ h r, best = h :: r ∧ h.start + h.dur + 1 = m.n_T + ed) ∧ (∀ l ∈ A, posterior m l ≤ posterior m best) ∧
      0 < posterior m best ∧ posterior m best ≤ 1 ∧ 1 ≤ A.card * posterior m best := by
  have hsum := exp_llk hm hT hA hpos
  obtain ⟨l0, hl0, hl0'⟩ : ∃ l ∈ A, 0 < weight m l := by
    by_contra hc
    push Not at hc
    exact absurd hpos (not_lt.2 (Finset.sum_nonpos hc))
  obtain ⟨ed, states, best, h1, h2, h3, h4, h5⟩ := viterbi_optimal (logT m) (logT_hmp hb) hT
    ⟨l0, (hA l0).1 hl0, by rw [logT_weight hm, lg_pos hl0']; exact WithBot.coe_ne_bot⟩
  have hbest : best ∈ A := (hA best).2 h2
  have hle : ∀ l ∈ A, weight m l ≤ weight m best := fun l hl => by
    have := h5 l ((hA l).1 hl)
    rw [logT_weight hm, logT_weight hm] at this
    exact lg_le (weight_nonneg hm _) this
  have hE := Real.exp_pos (llk m)
  refine ⟨ed, states, best, h1, hbest, h3, h4, fun l hl => div_le_div_of_nonneg_right (hle l hl) hE.le, div_pos (hl0'.trans_le (hle _ hl0)) hE, ?_, ?_⟩
  · unfold posterior
    rw [div_le_one hE, hsum]
    exact Finset.single_le_sum (fun l _ => weight_nonneg hm l) hbest
  · unfold posterior
    rw [← mul_div_assoc, le_div_iff₀ hE, one_mul, hsum, ← nsmul_eq_mul]
    exact Finset.sum_le_card_nsmul _ _ _ hle

/-- **C140.** Posterior probabilities sum to one, and one segmentation has all of it exactly if every other one has joint probability zero. -/
theorem posterior_law (hm : NonNeg m) (hT : 0 < m.n_T) {A : Finset (List Seg)} (hA : ∀ l, l ∈ A ↔ Admissible m l) (hpos : 0 < ∑ l ∈ A, weight m l) :
    ∑ l ∈ A, posterior m l = 1 ∧ ∀ b ∈ A, (posterior m b = 1 ↔ ∀ l ∈ A, l ≠ b → weight m l = 0) := by
  classical
  have hsum := exp_llk hm hT hA hpos
  have hE := Real.exp_pos (llk m)
  refine ⟨?_, fun b hb => ?_⟩
  · unfold posterior
    rw [← Finset.sum_div, ← hsum, div_self hE.ne']
  · unfold posterior
    rw [div_eq_one_iff_eq hE.ne', hsum, ← Finset.add_sum_erase A _ hb]
    constructor
    · intro h l hl hne
      have h0 : ∑ x ∈ A.erase b, weight m x = 0 := by linarith
      exact (Finset.sum_eq_zero_iff_of_nonneg fun x _ => weight_nonneg hm x).1 h0 l (Finset.mem_erase.2 ⟨hne, hl⟩)
    · intro h
      rw [Finset.sum_eq_zero fun x hx => h x (Finset.mem_of_mem_erase hx) (Finset.ne_of_mem_erase hx), add_zero]

/-- **C140.** Where posterior sampling is right (C03: durations constant over time, emissions that do not depend on entry) it draws every
segmentation with its posterior probability, so no draw is more probable than the decoded segmentation. -/
theorem decoded_likeliest_draw_partial (hm : NonNeg m) (hb : Bumps m) (he : EntryObs m) (hc : ∀ d j t, m.ds d j (t + 1) = m.ds d j t) (hT : 0 < m.n_T)
    {A : Finset (List Seg)} (hA : ∀ l, l ∈ A ↔ Admissible m l) (hpos : 0 < ∑ l ∈ A, weight m l) :
    ∃ ed states best, viterbi (logT m) = some (ed, states) ∧ best ∈ A ∧ Labels best m.n_T states ∧
      ∀ l ∈ A, sampleProb m (stateAt l (m.n_T - 1)) (excess l (m.n_T - 1)) (statesBefore l (m.n_T - 1)) = posterior m l ∧
        sampleProb m (stateAt l (m.n_T - 1)) (excess l (m.n_T - 1)) (statesBefore l (m.n_T - 1)) ≤
          sampleProb m (stateAt best (m.n_T - 1)) (excess best (m.n_T - 1)) (statesBefore best (m.n_T - 1)) := by
  obtain ⟨ed, states, best, h1, h2, h3, -, h5, -⟩ := decoded_is_mode hm hb hT hA hpos
  have hs : ∀ l ∈ A, sampleProb m (stateAt l (m.n_T - 1)) (excess l (m.n_T - 1)) (statesBefore l (m.n_T - 1)) = posterior m l := fun l hl => by
    rw [sampling_is_posterior_partial m hm (fun h => ⟨(hb h).1, fun j _ hj d hd t => (hb h).2 d j t hd hj⟩) he hc hT A hA hpos l ((hA l).1 hl),
      ← exp_llk hm hT hA hpos]
    rfl
  exact ⟨ed, states, best, h1, h2, h3, fun l hl => ⟨hs l hl, by rw [hs l hl, hs best h2]; exact h5 l hl⟩⟩

/-- The two-state series of C01: all hypotheses are met. -/
example : NonNeg demo ∧ Bumps demo ∧ EntryObs demo ∧ (∀ d j t, demo.ds d j (t + 1) = demo.ds d j t) ∧ 0 < demo.n_T ∧
    (∀ l, l ∈ allSegs demo ↔ Admissible demo l) ∧ 0 < ∑ l ∈ allSegs demo, weight demo l := by
  have hn : NonNeg demo := ⟨by intros; simp [demo], by intros; simp [demo], by intros; simp [demo], by intros; simp [demo],
    by intros; simp [demo], by intros; simp [demo], by intros; simp [demo]⟩
  have hd : ¬demo.hmp = true := by simp [demo]
  have hmem := mem_allSegs demo (by simp [demo])
  refine ⟨hn, fun h => absurd h hd, fun h => absurd h hd, fun _ _ _ => by simp [Tables.ds, demo], by simp [demo], hmem, ?_⟩
  have ha : ([⟨1, 1, 1⟩, ⟨0, 0, 0⟩] : List Seg) ∈ allSegs demo := by
    rw [hmem]
    refine ⟨⟨rfl, by decide, rfl⟩, ?_, _, _, rfl, by simp [demo], by simp [demo], by simp [demo], by simp [demo]⟩
    intro s hs
    simp at hs
    rcases hs with rfl | rfl <;> simp [SegOk, demo]
  refine Finset.sum_pos' (fun l _ => weight_nonneg hn l) ⟨_, ha, ?_⟩
  simp [weight, weightUpTo, obsProd, obs, Tables.T, Tables.ds, demo]

/-- Event models with bumps of length one meet the hypotheses, too. -/
example : NonNeg hmpDemo ∧ Bumps hmpDemo ∧ hmpDemo.hmp = true ∧ 0 < hmpDemo.n_T ∧
    (∀ l, l ∈ allSegs hmpDemo ↔ Admissible hmpDemo l) ∧ 0 < ∑ l ∈ allSegs hmpDemo, weight hmpDemo l := by
  have hmem := mem_allSegs hmpDemo (by decide)
  refine ⟨hmpDemo_nonneg, fun _ => ⟨by decide, fun d j t hd hj => ?_⟩, rfl, by decide, hmem, ?_⟩
  · have hd' : ¬d = 0 := by change 1 ≤ d at hd; omega
    have hj' : ¬j = 0 := by omega
    simp [Tables.ds, hmpDemo, Tables.dcol, hj', hd']
  have ha : ([⟨1, 0, 0⟩, ⟨0, 0, 1⟩] : List Seg) ∈ allSegs hmpDemo := by
    rw [hmem]
    refine ⟨⟨rfl, by decide, rfl⟩, ?_, _, _, rfl, by decide, by decide, fun _ => rfl, fun h => by simp [hmpDemo] at h⟩
    intro s hs
    simp at hs
    rcases hs with rfl | rfl <;> simp [SegOk, hmpDemo]
  refine Finset.sum_pos' (fun l _ => weight_nonneg hmpDemo_nonneg l) ⟨_, ha, ?_⟩
  norm_num [weight, weightUpTo, obsProd, obs, Tables.T, Tables.ds, hmpDemo, Tables.dcol]

end Verif.Dec
