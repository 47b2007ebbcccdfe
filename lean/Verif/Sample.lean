import Verif.SampleModel
import Verif.HsmmLemmas
import Mathlib.Algebra.BigOperators.Field

/-! Property theorems: posterior sampling of state sequences (C03). -/

namespace Verif.Hsmm

open Finset

/-- The state at time `t` of a labelled segmentation (latest segment first). -/
def stateAt : List Seg → ℕ → ℕ
  | [], _ => 0
  | s :: r, t => if s.start ≤ t then s.state else stateAt r t

/-- States of a segmentation at times `t-1, t-2, ..., 0`. -/
def statesBefore (l : List Seg) : ℕ → List ℕ
  | 0 => []
  | t + 1 => stateAt l t :: statesBefore l t

/-- Duration of the last segment beyond time `t`. -/
def excess (l : List Seg) (t : ℕ) : ℕ :=
  match l with
  | [] => 0
  | s :: _ => s.start + s.dur - t

/-- For hmp models: bumps cannot be longer than the template (as built by `hsmm.py`). -/
def BumpDur (m : Tables ℝ) : Prop :=
  m.hmp = true → 0 < m.event_width ∧
    ∀ j < m.n_S, j % 2 = 1 → ∀ d, m.event_width ≤ d → ∀ t, m.ds d j t = 0 ∧ m.ds d (m.dcol j) t = 0

/-- The emission probability at a time point does not tell whether the state was just entered or continued, unless it
cannot be entered with this duration. Always true without `hmp`. -/
def EntryObs (m : Tables ℝ) : Prop :=
  m.hmp = true → ∀ t j d, m.ds d (m.dcol j) t = 0 ∨
    (if j % 2 = 1 then m.bs3 t 0 j = m.bs3 t (m.event_width - 1 - d) j else m.bs3 t 1 j = m.bs3 t 0 j)

theorem sbContrib_eq (m : Tables ℝ) (t d j : ℕ) (v : ℝ)
    (hv : m.hmp = true ∧ j % 2 = 1 ∧ m.event_width ≤ d → v = 0) : sbContrib m t d j v = lamContrib m t d j v := by
  unfold lamContrib
  by_cases h : m.hmp = true ∧ j % 2 = 1 ∧ m.event_width ≤ d
  · rw [if_pos h, hv h]
    unfold sbContrib
    simp
  · rw [if_neg h]
    rfl

/-- Forward pass of the sampler computes the same scaled forward variables and normalisers as the likelihood. -/
theorem sbRaw_eq (m : Tables ℝ) (hb : BumpDur m) (t : ℕ) :
    (∀ d j, j < m.n_S → sbRaw m t d j = lam m t d j) ∧ sbLam m t (sbRaw m t) = Lam m t := by
  have lamSkip : ∀ t d j, m.hmp = true ∧ j % 2 = 1 ∧ m.event_width ≤ d → lam m t d j = 0 := by
    intro t d j h
    cases t <;> simp only [lam, lamCell, if_pos h]
  have hsum : ∀ t, (∀ d j, j < m.n_S → sbRaw m t d j = lam m t d j) → sbLam m t (sbRaw m t) = Lam m t := by
    intro t h
    unfold sbLam Lam lamSum
    apply sum_congr rfl
    intro d _
    apply sum_congr rfl
    intro j hj
    rw [h d j (mem_range.1 hj)]
    exact sbContrib_eq m t d j _ (lamSkip t d j)
  induction t with
  | zero =>
    have h0 : ∀ d j, j < m.n_S → sbRaw m 0 d j = lam m 0 d j := by
      intro d j hj
      simp only [sbRaw, lam, sbCell, lamCell, if_true]
      by_cases h : m.hmp = true ∧ j % 2 = 1 ∧ m.event_width ≤ d
      · rw [if_pos h, (((hb h.1).2 j hj h.2.1 d h.2.2) 0).1]
        simp
      · rw [if_neg h]
    exact ⟨h0, hsum 0 h0⟩
  | succ t ih =>
    obtain ⟨ih1, ih2⟩ := ih
    have h1 : ∀ d j, j < m.n_S → sbRaw m (t + 1) d j = lam m (t + 1) d j := by
      intro d j hj
      have hL : lamSum m t (lam m t) = Lam m t := rfl
      by_cases h : m.hmp = true ∧ j % 2 = 1 ∧ m.event_width ≤ d
      · rw [lamSkip _ _ _ h]
        have := (((hb h.1).2 j hj h.2.1 d h.2.2) (t + 1)).2
        have hew := (hb h.1).1
        simp only [sbRaw, sbCell, h.1, h.2.1, if_true, this, mul_zero, add_zero]
        rw [if_neg (by omega : ¬ d ≤ m.event_width - 1)]
        simp
      · simp only [sbRaw, sbCell, lam, lamCell, if_neg h, ih2, hL]
        rw [if_neg (by omega : ¬ t + 1 = 0), if_neg (by omega : ¬ t + 1 = 0)]
        by_cases hl : t + 1 + d < m.n_T ∨ m.ends_with_last = false
        · rw [if_pos hl, if_pos hl]
          have hs : (∑ i ∈ range m.n_S, if i = j then 0 else sbRaw m t 0 i / Lam m t * m.T i j (t + 1 - 1)) =
              (∑ i ∈ range m.n_S, if i = j then 0 else lam m t 0 i * m.T i j (t + 1 - 1)) / Lam m t := by
            rw [Finset.sum_div]
            apply sum_congr rfl
            intro i hi
            rw [ih1 0 i (mem_range.1 hi)]
            split_ifs
            · rw [zero_div]
            · ring
          rw [hs, ih1 (d + 1) j hj]
          rw [add_div]
          congr 1
          · split_ifs <;> ring
          · split_ifs <;> ring
        · rw [if_neg hl, if_neg hl]
    exact ⟨h1, hsum (t + 1) h1⟩

theorem stateAt_head (h : Seg) (r : List Seg) (t : ℕ) (ht : h.start ≤ t) : stateAt (h :: r) t = h.state := if_pos ht

theorem stateAt_tail (h : Seg) (r : List Seg) (t : ℕ) (ht : t < h.start) : stateAt (h :: r) t = stateAt r t :=
  if_neg (by omega)

theorem statesBefore_tail (h : Seg) (r : List Seg) (t : ℕ) (ht : t ≤ h.start) :
    statesBefore (h :: r) t = statesBefore r t := by
  induction t with
  | zero => rfl
  | succ t ih => rw [statesBefore, statesBefore, stateAt_tail _ _ _ (by omega), ih (by omega)]

theorem weightUpTo_nonneg (m : Tables ℝ) (hm : NonNeg m) (t : ℕ) (l : List Seg) : 0 ≤ weightUpTo m t l := by
  have hds : ∀ d j t, 0 ≤ m.ds d j t := by
    intro d j t; unfold Tables.ds; split_ifs; exacts [hm.ds3 _ _ _, hm.ds2 _ _]
  have hT : ∀ d j t, 0 ≤ m.T d j t := by
    intro d j t; unfold Tables.T; split_ifs; exacts [hm.T3 _ _ _, hm.T2 _ _]
  have ho : ∀ s, 0 ≤ obsProd m t s := by
    intro s
    apply prod_nonneg
    intro u _
    unfold obs
    split_ifs
    all_goals first | exact hm.bs3 _ _ _ | exact hm.bs2 _ _
  induction l with
  | nil => simp [weightUpTo]
  | cons s r ih =>
    cases r with
    | nil => exact mul_nonneg (mul_nonneg (hm.pi _) (hds _ _ _)) (ho _)
    | cons p r => exact mul_nonneg (mul_nonneg (mul_nonneg (hT _ _ _) (hds _ _ _)) (ho _)) ih

theorem weight_zero_of_F_zero (m : Tables ℝ) (hm : NonNeg m) (t d j : ℕ) (l : List Seg) (hl : l ∈ parts m t d j)
    (h0 : F m t d j = 0) : weightUpTo m t l = 0 :=
  (sum_eq_zero_iff_of_nonneg (fun l _ => weightUpTo_nonneg m hm t l)).1 h0 l hl

/-- With time-constant durations, the emission factor can be taken out of the two ways to reach a cell. -/
theorem F_succ_common (m : Tables ℝ) (he : EntryObs m) (t d j : ℕ) (hj : j < m.n_S) (hok : SegOk m ⟨t + 1, d, j⟩) :
    F m (t + 1) d j = emCont m (t + 1) d j *
      ((if d + 1 ≤ m.D - 2 then F m t (d + 1) j else 0) +
        ∑ i ∈ range m.n_S, if i = j then 0 else F m t 0 i * m.T i j t * m.ds d (m.dcol j) (t + 1)) := by
  rw [F_succ m t d j hj, if_pos hok]
  have hs : (∑ i ∈ range m.n_S, if i = j then 0 else F m t 0 i * m.T i j t * m.ds d (m.dcol j) (t + 1)) =
      (∑ i ∈ range m.n_S, if i = j then 0 else F m t 0 i * m.T i j t) * m.ds d (m.dcol j) (t + 1) := by
    rw [sum_mul]
    apply sum_congr rfl
    intro i _
    split_ifs <;> ring
  rw [hs]
  have hcommon : m.ds d (m.dcol j) (t + 1) = 0 ∨ emEnter m (t + 1) j = emCont m (t + 1) d j := by
    by_cases hh : m.hmp = true
    · rcases he hh (t + 1) j d with h | h
      · exact Or.inl h
      · right
        unfold emEnter emCont
        simp only [hh, if_true]
        by_cases hj2 : j % 2 = 1
        · simp only [hj2, if_true] at h ⊢
          simpa using h
        · simp only [hj2, if_false] at h ⊢
          rw [if_pos (by omega), h]
    · right
      simp [emEnter, emCont, hh]
  rcases hcommon with h | h
  · rw [h]; split_ifs <;> ring
  · rw [h]; split_ifs <;> ring

/-- Core of C03: the loop draws the rest of a segmentation with its conditional probability. -/
theorem loopProb_mul_F (m : Tables ℝ) (hm : NonNeg m) (hb : BumpDur m) (he : EntryObs m)
    (hc : ∀ d j t, m.ds d j (t + 1) = m.ds d j t) (t : ℕ) (ht : t < m.n_T) (hL : ∀ s < t, Lam m s ≠ 0) :
    ∀ d j l, j < m.n_S → d < m.D - 1 → Live m t d → l ∈ parts m t d j → F m t d j ≠ 0 →
      loopProb m t j d (statesBefore l t) * F m t d j = weightUpTo m t l := by
  induction t with
  | zero =>
    intro d j l hj hd _ hl _
    simp only [parts] at hl
    split_ifs at hl with hok
    · rw [mem_singleton] at hl
      subst hl
      have : F m 0 d j = weightUpTo m 0 [⟨0, d, j⟩] := by
        unfold F
        simp only [parts, if_pos hok, sum_singleton]
      rw [this]
      simp [loopProb, statesBefore]
    · simp at hl
  | succ t ih =>
    intro d j l hj hd hlv hl hF
    have hlv' : t + 1 + d < m.n_T ∨ m.ends_with_last = false := by
      rcases hlv with h | h | h
      · omega
      · exact Or.inl h
      · exact Or.inr h
    have hlive : ∀ d', t + d' ≤ t + 1 + d → Live m t d' := by
      intro d' hd'
      rcases hlv' with h | h
      · exact Or.inr (Or.inl (by omega))
      · exact Or.inr (Or.inr h)
    have ih' := ih (by omega) fun s hs => hL s (by omega)
    have hok : SegOk m ⟨t + 1, d, j⟩ := by
      refine ⟨hj, hd, fun hh hj2 => ?_⟩
      by_contra hcon
      exact hF (F_eq_zero_of_skip m _ _ _ hj ⟨hh, hj2, not_lt.1 hcon⟩)
    obtain ⟨hraw, hLam⟩ := sbRaw_eq m hb t
    set P := ∏ s ∈ range t, Lam m s with hP
    have hP0 : P ≠ 0 := prod_ne_zero_iff.2 fun s hs => hL s (by have := mem_range.1 hs; omega)
    have hLt := hL t (by omega)
    have hsc : ∀ d' i, i < m.n_S → d' < m.D - 1 → Live m t d' → sbScaled m t d' i = F m t d' i / (P * Lam m t) := by
      intro d' i hi hd' hl'
      unfold sbScaled
      rw [hraw d' i hi, hLam, ← lam_eq m t (fun s hs => hL s (by omega)) d' i hi hd' hl', ← hP]
      field_simp
    -- the weights of the draw, in terms of `F`
    have hw : ∀ i, i < m.n_S → backWeight m (t + 1) j d i =
        (if i = j then (if d + 1 ≤ m.D - 2 then F m t (d + 1) j else 0)
          else F m t 0 i * m.T i j t * m.ds d (m.dcol j) (t + 1)) / (P * Lam m t) := by
      intro i hi
      unfold backWeight
      rw [Nat.add_sub_cancel, hc]
      by_cases hij : i = j
      · subst hij
        simp only [if_true]
        split_ifs with hd1
        · exact hsc _ _ hi (by omega) (hlive _ (by omega))
        · rw [zero_div]
      · simp only [hij, if_false]
        rw [hsc 0 i hi (by omega) (hlive _ (by omega))]
        ring
    have hsum : (∑ k ∈ range m.n_S, backWeight m (t + 1) j d k) * emCont m (t + 1) d j * (P * Lam m t) =
        F m (t + 1) d j := by
      rw [sum_congr rfl fun i hi => hw i (mem_range.1 hi), ← Finset.sum_div, F_succ_common m he t d j hj hok]
      have : (∑ i ∈ range m.n_S, if i = j then (if d + 1 ≤ m.D - 2 then F m t (d + 1) j else 0)
          else F m t 0 i * m.T i j t * m.ds d (m.dcol j) (t + 1)) =
          (if d + 1 ≤ m.D - 2 then F m t (d + 1) j else 0) +
            ∑ i ∈ range m.n_S, if i = j then 0 else F m t 0 i * m.T i j t * m.ds d (m.dcol j) (t + 1) := by
        have e1 : (if d + 1 ≤ m.D - 2 then F m t (d + 1) j else 0) =
            ∑ i ∈ range m.n_S, if i = j then (if d + 1 ≤ m.D - 2 then F m t (d + 1) j else 0) else 0 := by
          rw [sum_ite_eq' (range m.n_S) j, if_pos (mem_range.2 hj)]
        rw [e1, ← sum_add_distrib, ← e1]
        apply sum_congr rfl
        intro i _
        split_ifs <;> simp
      rw [this]
      have hcan : ∀ X e c : ℝ, c ≠ 0 → X / c * e * c = e * X := by
        intro X e c h0
        field_simp
      exact hcan _ _ _ (mul_ne_zero hP0 hLt)
    have hS0 : (∑ k ∈ range m.n_S, backWeight m (t + 1) j d k) ≠ 0 := by
      intro h0
      rw [h0, zero_mul, zero_mul] at hsum
      exact hF hsum.symm
    -- one step of the loop
    have step : ∀ i rest, i < m.n_S → loopProb m (t + 1) j d (i :: rest) * F m (t + 1) d j =
        (if i = j then (if d + 1 ≤ m.D - 2 then F m t (d + 1) j else 0)
          else F m t 0 i * m.T i j t * m.ds d (m.dcol j) (t + 1)) * emCont m (t + 1) d j *
          loopProb m t i (if j = i then d + 1 else 0) rest := by
      intro i rest hi
      simp only [loopProb, drawProb, if_pos hi]
      rw [← hsum, hw i hi]
      field_simp
    have hpart := (mem_parts m (t + 1) d j l hj).1 hl
    obtain ⟨hch, hoks, h, r, rfl, hjj, hst, hend⟩ := hpart
    simp only [statesBefore]
    by_cases hcase : h.start ≤ t
    · -- the state continues
      have hd1 : d + 1 ≤ m.D - 2 := by
        have := (hoks h (by simp)).2.1
        omega
      have hlp : (h :: r) ∈ parts m t (d + 1) j :=
        (mem_parts m t _ _ _ hj).2 ⟨hch, hoks, h, r, rfl, hjj, hcase, by omega⟩
      rw [stateAt_head _ _ _ hcase, hjj, step j _ hj]
      simp only [if_true, if_pos hd1]
      have hwt : weightUpTo m (t + 1) (h :: r) = weightUpTo m t (h :: r) * obs m h (t + 1) :=
        weightUpTo_succ_cont m t h r hch hcase (by omega)
      have hobs : obs m h (t + 1) = emCont m (t + 1) d j := by
        unfold obs emCont
        rw [if_neg (by omega : ¬ t + 1 = h.start), hjj, (by omega : h.start + h.dur - (t + 1) = d)]
      rw [hwt, hobs]
      by_cases hF0 : F m t (d + 1) j = 0
      · rw [hF0, weight_zero_of_F_zero m hm t (d + 1) j _ hlp hF0]; ring
      · rw [← ih' (d + 1) j _ hj (by omega) (hlive _ (by omega)) hlp hF0]; ring
    · -- another state ended at the previous time point
      have hstart : h.start = t + 1 := by omega
      have hh : h = ⟨t + 1, d, j⟩ := by
        cases h
        simp only at hjj hstart hend
        subst hjj hstart
        congr 1
        omega
      cases r with
      | nil =>
        exfalso
        rw [hh] at hch
        simp [Chained] at hch
      | cons p r =>
        obtain ⟨hc1, hc2, hc3⟩ := hch
        have hpe : p.start + p.dur = t := by omega
        have hpj : p.state < m.n_S := (hoks p (by simp)).1
        have hpne : p.state ≠ j := by rw [← hjj]; exact hc2.symm
        have hlp : (p :: r) ∈ parts m t 0 p.state :=
          (mem_parts m t _ _ _ hpj).2 ⟨hc3, fun s hs => hoks s (List.mem_cons_of_mem _ hs), p, r, rfl, rfl, by omega, by omega⟩
        rw [stateAt_tail _ _ _ (by omega), stateAt_head _ _ _ (by omega), statesBefore_tail _ _ _ (by omega)]
        rw [step p.state _ hpj]
        simp only [if_neg hpne, if_neg hpne.symm]
        have hwt := weightUpTo_succ_enter m t d j p r hc3 hpe
        rw [hh, hwt]
        have hsame : obs m ⟨t + 1, d, j⟩ (t + 1) * m.ds d (m.dcol j) (t + 1) =
            emCont m (t + 1) d j * m.ds d (m.dcol j) (t + 1) := by
          by_cases hhm : m.hmp = true
          · rcases he hhm (t + 1) j d with h0 | h0
            · rw [h0]; ring
            · congr 1
              unfold obs emCont
              simp only [hhm, if_true, if_neg (by omega : ¬ t + 1 = 0)]
              by_cases hj2 : j % 2 = 1
              · simp only [hj2, if_true] at h0 ⊢
                simpa using h0
              · simp only [hj2, if_false] at h0 ⊢
                rw [if_pos (by omega), h0]
          · congr 1
            simp [obs, emCont, hhm]
        rw [hsame]
        by_cases hF0 : F m t 0 p.state = 0
        · rw [hF0, weight_zero_of_F_zero m hm t 0 _ _ hlp hF0]; ring
        · rw [← ih' 0 p.state _ hpj (by omega) (hlive _ (by omega)) hlp hF0]; ring

theorem drawProb_chain (m : Tables ℝ) (hm : NonNeg m) (hb : BumpDur m) (hL : Lam m (m.n_T - 1) ≠ 0) (d j : ℕ) (hj : j < m.n_S)
    (hd : d < m.D - 1) :
    drawProb m.n_S (stateProbsT m) j * drawProb (m.D - 1) (durProbs m j) d =
      lamContrib m (m.n_T - 1) d j (lam m (m.n_T - 1) d j) / Lam m (m.n_T - 1) := by
  obtain ⟨hraw, hLam⟩ := sbRaw_eq m hb (m.n_T - 1)
  set c : ℕ → ℕ → ℝ := fun d j => lamContrib m (m.n_T - 1) d j (lam m (m.n_T - 1) d j) with hcdef
  have hc : ∀ d j, j < m.n_S → sbContrib m (m.n_T - 1) d j (sbRaw m (m.n_T - 1) d j) = c d j := by
    intro d j hj
    rw [hraw d j hj]
    refine sbContrib_eq m _ d j _ fun h => ?_
    cases (m.n_T - 1) <;> simp only [lam, lamCell, if_pos h]
  have hc0 : ∀ d j, 0 ≤ c d j := by
    intro d j
    simp only [hcdef, lamContrib]
    have := lam_nonneg m hm (m.n_T - 1) d j
    split_ifs
    all_goals first | exact this | exact le_rfl
  have hst : ∀ j, j < m.n_S → stateProbsT m j = (∑ d ∈ range (m.D - 1), c d j) / Lam m (m.n_T - 1) := by
    intro j hj
    unfold stateProbsT
    rw [hLam, sum_congr rfl fun d _ => hc d j hj]
  have hst1 : ∑ j ∈ range m.n_S, stateProbsT m j = 1 := by
    rw [sum_congr rfl fun j hj => hst j (mem_range.1 hj), ← Finset.sum_div, sum_comm]
    exact div_self hL
  have hdu : ∀ d, durProbs m j d = c d j / Lam m (m.n_T - 1) / stateProbsT m j := by
    intro d
    unfold durProbs
    rw [hLam, hc d j hj]
  have hdu1 : ∑ d ∈ range (m.D - 1), durProbs m j d = stateProbsT m j / stateProbsT m j := by
    rw [sum_congr rfl fun d _ => hdu d, ← Finset.sum_div, ← Finset.sum_div, ← hst j hj]
  unfold drawProb
  rw [if_pos hj, if_pos hd, hst1, hdu1, hdu]
  by_cases h0 : stateProbsT m j = 0
  · have hz : c d j = 0 := by
      rw [hst j hj, div_eq_zero_iff, or_iff_left hL] at h0
      exact (sum_eq_zero_iff_of_nonneg fun d _ => hc0 d j).1 h0 d (mem_range.2 hd)
    change _ = c d j / _
    rw [h0, hz]; simp
  · rw [div_self h0]
    change _ = c d j / _
    field_simp

/-- C03 for time-constant duration tables. The probability with which the backward sampler returns the states and excess
duration of an admissible labelled segmentation `l` is the posterior probability of `l`: joint probability of `l` and the
series, divided by the sum over all admissible segmentations. Missing for the full claim: duration tables that vary over
time (hypothesis `hc`), and hmp models in which the emission of a flat depends on whether it was just entered
(hypothesis `he`); in these cases the code is wrong, see `sampling_time_varying_wrong` and `sampling_entry_obs_wrong`. -/
theorem sampling_is_posterior_partial (m : Tables ℝ) (hm : NonNeg m) (hb : BumpDur m) (he : EntryObs m)
    (hc : ∀ d j t, m.ds d j (t + 1) = m.ds d j t) (hT : 0 < m.n_T)
    (A : Finset (List Seg)) (hA : ∀ l, l ∈ A ↔ Admissible m l) (hpos : 0 < ∑ l ∈ A, weight m l) :
    ∀ l, Admissible m l →
      sampleProb m (stateAt l (m.n_T - 1)) (excess l (m.n_T - 1)) (statesBefore l (m.n_T - 1)) =
        weight m l / ∑ l ∈ A, weight m l := by
  have hAe : A = allSegs m := by ext l; rw [hA, mem_allSegs m hT]
  subst hAe
  intro l hl
  have hL := Lam_pos_of_sum_pos m hm hpos
  have hfin := Lam_final_mul m hT hL
  have hLl : Lam m (m.n_T - 1) ≠ 0 := by
    intro h0
    rw [← hfin, h0, zero_mul] at hpos
    exact lt_irrefl _ hpos
  have hP0 : ∏ s ∈ range (m.n_T - 1), Lam m s ≠ 0 := prod_ne_zero_iff.2 fun s hs => hL s (mem_range.1 hs)
  obtain ⟨hch, hoks, h, r, rfl, h1, h2, h3, h4⟩ := hl
  obtain ⟨hj, hd, _⟩ := hoks h (by simp)
  have hpart : (h :: r) ∈ parts m (m.n_T - 1) (h.start + h.dur - (m.n_T - 1)) h.state :=
    (mem_parts m _ _ _ _ hj).2 ⟨hch, hoks, h, r, rfl, rfl, by omega, by omega⟩
  rw [stateAt_head _ _ _ (by omega)]
  simp only [excess]
  set d := h.start + h.dur - (m.n_T - 1) with hdd
  set j := h.state
  have hd' : d < m.D - 1 := by omega
  have hfc : FinalCell m d j := ⟨fun e => by have := h3 e; omega, h4⟩
  have hlive : Live m (m.n_T - 1) d := by
    by_cases e : m.ends_with_last = true
    · have := h3 e
      exact Or.inr (Or.inl (by omega))
    · exact Or.inr (Or.inr (by simpa using e))
  unfold sampleProb
  rw [drawProb_chain m hm hb hLl d j hj hd', lamContrib_final m d j _ (fun hs => by
    cases (m.n_T - 1) <;> simp only [lam, lamCell, if_pos hs]), if_pos hfc, ← hfin]
  have hlam := lam_eq m (m.n_T - 1) hL d j hj hd' hlive
  by_cases hF : F m (m.n_T - 1) d j = 0
  · have hz : lam m (m.n_T - 1) d j = 0 := by
      rw [hF] at hlam
      exact (mul_eq_zero.1 hlam).resolve_right hP0
    unfold weight
    rw [hz, weight_zero_of_F_zero m hm _ _ _ _ hpart hF]
    simp
  · have key := loopProb_mul_F m hm hb he hc (m.n_T - 1) (by omega) hL d j _ hj hd' hlive hpart hF
    unfold weight
    rw [← key, ← hlam]
    field_simp

/-- Different segmentations are returned as different results (states and excess duration). -/
theorem parts_injective (m : Tables ℝ) (t : ℕ) : ∀ d j l l', j < m.n_S → l ∈ parts m t d j → l' ∈ parts m t d j →
    statesBefore l t = statesBefore l' t → l = l' := by
  induction t with
  | zero =>
    intro d j l l' _ hl hl' _
    simp only [parts] at hl hl'
    split_ifs at hl hl' with hok
    · rw [mem_singleton] at hl hl'
      rw [hl, hl']
    · simp at hl
  | succ t ih =>
    -- a segmentation either continues or enters; the state at time `t` tells which
    have key : ∀ d j l, j < m.n_S → l ∈ parts m (t + 1) d j →
        (stateAt l t = j ∧ l ∈ parts m t (d + 1) j) ∨
        (∃ i r, i ≠ j ∧ i < m.n_S ∧ l = ⟨t + 1, d, j⟩ :: r ∧ r ∈ parts m t 0 i ∧ stateAt l t = i ∧
          statesBefore l t = statesBefore r t) := by
      intro d j l hj hl
      obtain ⟨hch, hoks, h, r, rfl, hjj, hst, hend⟩ := (mem_parts m (t + 1) d j l hj).1 hl
      by_cases hcase : h.start ≤ t
      · left
        exact ⟨by rw [stateAt_head _ _ _ hcase, hjj],
          (mem_parts m t _ _ _ hj).2 ⟨hch, hoks, h, r, rfl, hjj, hcase, by omega⟩⟩
      · right
        have hh : h = ⟨t + 1, d, j⟩ := by
          have hstart : h.start = t + 1 := by omega
          cases h
          simp only at hjj hstart hend
          subst hjj hstart
          congr 1
          omega
        cases r with
        | nil =>
          rw [hh] at hch
          simp [Chained] at hch
        | cons p r =>
          obtain ⟨hc1, hc2, hc3⟩ := hch
          have hpj : p.state < m.n_S := (hoks p (by simp)).1
          refine ⟨p.state, p :: r, by rw [← hjj]; exact hc2.symm, hpj, by rw [hh], ?_, ?_, ?_⟩
          · exact (mem_parts m t _ _ _ hpj).2
              ⟨hc3, fun s hs => hoks s (List.mem_cons_of_mem _ hs), p, r, rfl, rfl, by omega, by omega⟩
          · rw [stateAt_tail _ _ _ (by omega), stateAt_head _ _ _ (by omega)]
          · exact statesBefore_tail _ _ _ (by omega)
    intro d j l l' hj hl hl' hs
    simp only [statesBefore, List.cons.injEq] at hs
    rcases key d j l hj hl with ⟨h1, h2⟩ | ⟨i, r, h1, h2, h3, h4, h5, h6⟩ <;>
      rcases key d j l' hj hl' with ⟨h1', h2'⟩ | ⟨i', r', h1', h2', h3', h4', h5', h6'⟩
    · exact ih (d + 1) j l l' hj h2 h2' hs.2
    · exact absurd (h5'.symm.trans (hs.1.symm.trans h1)) h1'
    · exact absurd (h5.symm.trans (hs.1.trans h1')) h1
    · have hii : i = i' := h5.symm.trans (hs.1.trans h5')
      subst hii
      have := ih 0 i r r' h2 h4 h4' (by rw [← h6, ← h6']; exact hs.2)
      rw [h3, h3', this]

/-- C03. The results of `sampling_is_posterior_partial` are pairwise different for different segmentations and their
probabilities sum to one, so the sampler returns nothing else. -/
theorem sampling_exhaustive_partial (m : Tables ℝ) (hm : NonNeg m) (hb : BumpDur m) (he : EntryObs m)
    (hc : ∀ d j t, m.ds d j (t + 1) = m.ds d j t) (hT : 0 < m.n_T)
    (A : Finset (List Seg)) (hA : ∀ l, l ∈ A ↔ Admissible m l) (hpos : 0 < ∑ l ∈ A, weight m l) :
    (∀ l ∈ A, ∀ l' ∈ A, stateAt l (m.n_T - 1) = stateAt l' (m.n_T - 1) → excess l (m.n_T - 1) = excess l' (m.n_T - 1) →
      statesBefore l (m.n_T - 1) = statesBefore l' (m.n_T - 1) → l = l') ∧
    ∑ l ∈ A, sampleProb m (stateAt l (m.n_T - 1)) (excess l (m.n_T - 1)) (statesBefore l (m.n_T - 1)) = 1 := by
  constructor
  · intro l hl l' hl' h1 h2 h3
    obtain ⟨hch, hoks, h, r, rfl, a1, a2, a3, a4⟩ := (hA l).1 hl
    obtain ⟨hch', hoks', h', r', rfl, b1, b2, b3, b4⟩ := (hA l').1 hl'
    rw [stateAt_head _ _ _ (by omega), stateAt_head _ _ _ (by omega)] at h1
    simp only [excess] at h2
    have hj := (hoks h (by simp)).1
    refine parts_injective m (m.n_T - 1) (h.start + h.dur - (m.n_T - 1)) h.state _ _ hj
      ((mem_parts m _ _ _ _ hj).2 ⟨hch, hoks, h, r, rfl, rfl, by omega, by omega⟩)
      ((mem_parts m _ _ _ _ hj).2 ⟨hch', hoks', h', r', rfl, h1.symm, by omega, by omega⟩) h3
  · rw [sum_congr rfl fun l hl => sampling_is_posterior_partial m hm hb he hc hT A hA hpos l ((hA l).1 hl),
      ← Finset.sum_div, div_self hpos.ne']

/-- Two states, two time points, time-varying durations. -/
noncomputable def tvDemo : Tables ℝ :=
  { n_T := 2, D := 3, n_S := 2, event_width := 1, starts_with_first := true, ends_with_last := true,
    ends_in_last := false, hmp := false, tvdtpi := true, bs2 := fun _ _ => 1, bs3 := fun _ _ _ => 1,
    ds2 := fun _ _ => 1 / 2,
    ds3 := fun d j t => if j = 1 ∧ t = 1 then (if d = 0 then 1 / 4 else 3 / 4) else 1 / 2
    T2 := fun _ _ => 1, T3 := fun _ _ _ => 1, pi := fun _ => 1 / 2 }

theorem tvDemo_nonneg : NonNeg tvDemo := by
  constructor <;> intros <;> simp only [tvDemo] <;> (try split_ifs) <;> norm_num

theorem tvDemo_Lam : Lam tvDemo 0 = 1 ∧ Lam tvDemo 1 = 11 / 16 := by
  have h0 : Lam tvDemo 0 = 1 := by
    simp [Lam, lam, lamSum, lamContrib, lamCell, tvDemo, Finset.sum_range_succ, Tables.ds]
  refine ⟨h0, ?_⟩
  have : Lam tvDemo 1 = lamSum tvDemo 1 (fun d j => lamCell tvDemo 1 (lam tvDemo 0) (Lam tvDemo 0) d j) := rfl
  rw [this, h0]
  simp [lam, lamSum, lamContrib, lamCell, tvDemo, Finset.sum_range_succ, Tables.ds, Tables.T, Tables.dcol]
  norm_num

theorem tvDemo_bump : BumpDur tvDemo := fun h => by simp [tvDemo] at h

/-- C03, negation for time-varying duration tables: the sampler returns the path "state 0, then state 1" with probability
5/33, although its posterior probability is 1/11. -/
theorem sampling_time_varying_wrong :
    ∃ (m : Tables ℝ) (A : Finset (List Seg)) (l : List Seg), NonNeg m ∧ m.hmp = false ∧ 0 < m.n_T ∧
      (∀ l, l ∈ A ↔ Admissible m l) ∧ Admissible m l ∧ weight m l / ∑ l ∈ A, weight m l = 1 / 11 ∧
      sampleProb m (stateAt l (m.n_T - 1)) (excess l (m.n_T - 1)) (statesBefore l (m.n_T - 1)) = 5 / 33 := by
  refine ⟨tvDemo, allSegs tvDemo, [⟨1, 0, 1⟩, ⟨0, 0, 0⟩], tvDemo_nonneg, rfl, by decide,
    mem_allSegs tvDemo (by decide), ⟨⟨rfl, by decide, rfl⟩, ?_, _, _, rfl, by decide, by decide, ?_, ?_⟩, ?_, ?_⟩
  · intro s hs
    simp at hs
    rcases hs with rfl | rfl <;> simp [SegOk, tvDemo]
  · intro _; rfl
  · intro h; simp [tvDemo] at h
  · have htot := Lam_final_mul tvDemo (by decide) (fun s hs => by
      have : s = 0 := by change s < 1 at hs; omega
      rw [this, tvDemo_Lam.1]; norm_num)
    have e : ∏ s ∈ range (tvDemo.n_T - 1), Lam tvDemo s = 1 := by
      change ∏ s ∈ range 1, Lam tvDemo s = 1
      rw [prod_range_one, tvDemo_Lam.1]
    have e2 : Lam tvDemo (tvDemo.n_T - 1) = 11 / 16 := tvDemo_Lam.2
    rw [e, e2, mul_one] at htot
    rw [← htot]
    norm_num [weight, weightUpTo, obsProd, obs, Tables.T, Tables.ds, tvDemo, Tables.dcol]
  · change sampleProb tvDemo 1 0 [0] = 5 / 33
    have hL : Lam tvDemo (tvDemo.n_T - 1) = 11 / 16 := tvDemo_Lam.2
    unfold sampleProb
    rw [drawProb_chain tvDemo tvDemo_nonneg tvDemo_bump (by rw [hL]; norm_num) 0 1 (by decide) (by decide), hL]
    have h1 : lamContrib tvDemo (tvDemo.n_T - 1) 0 1 (lam tvDemo (tvDemo.n_T - 1) 0 1) = 5 / 16 := by
      change lamContrib tvDemo 1 0 1 (lamCell tvDemo 1 (lam tvDemo 0) (Lam tvDemo 0) 0 1) = 5 / 16
      rw [tvDemo_Lam.1]
      simp [lam, lamContrib, lamCell, tvDemo, Finset.sum_range_succ, Tables.ds, Tables.T, Tables.dcol]
      norm_num
    rw [h1]
    obtain ⟨hraw, hLam⟩ := sbRaw_eq tvDemo tvDemo_bump 0
    have hsc : ∀ d j, j < 2 → sbScaled tvDemo 0 d j = 1 / 4 := by
      intro d j hj
      unfold sbScaled
      rw [hLam, tvDemo_Lam.1, hraw d j hj]
      simp [lam, lamCell, tvDemo, Tables.ds]
      norm_num
    have h2 : loopProb tvDemo (tvDemo.n_T - 1) 1 0 [0] = 1 / 3 := by
      change drawProb 2 (backWeight tvDemo 1 1 0) 0 * 1 = 1 / 3
      have b0 : backWeight tvDemo 1 1 0 0 = 1 / 8 := by
        unfold backWeight
        rw [if_neg (by decide), hsc 0 0 (by decide)]
        norm_num [tvDemo, Tables.T, Tables.ds, Tables.dcol]
      have b1 : backWeight tvDemo 1 1 0 1 = 1 / 4 := by
        unfold backWeight
        rw [if_pos rfl, if_pos (by decide), hsc 1 1 (by decide)]
      unfold drawProb
      rw [if_pos (by decide), sum_range_succ, sum_range_succ, sum_range_zero, b0, b1]
      norm_num
    rw [h2]
    norm_num

/-- An hmp model with one flat and one bump; entering the flat at time 1 has half the emission probability of staying in
it (autoregressive observations). -/
noncomputable def hmpDemo : Tables ℝ :=
  { n_T := 2, D := 3, n_S := 2, event_width := 1, starts_with_first := true, ends_with_last := true,
    ends_in_last := false, hmp := true, tvdtpi := false, bs2 := fun _ _ => 1,
    bs3 := fun t k j => if t = 1 ∧ k = 1 ∧ j = 0 then 1 / 2 else 1,
    ds2 := fun d j => if j = 0 then 1 / 2 else if d = 0 then 1 else 0, ds3 := fun _ _ _ => 0,
    T2 := fun _ _ => 1, T3 := fun _ _ _ => 1, pi := fun _ => 1 / 2 }

theorem hmpDemo_nonneg : NonNeg hmpDemo := by
  constructor <;> intros <;> simp only [hmpDemo] <;> (try split_ifs) <;> norm_num

theorem hmpDemo_bump : BumpDur hmpDemo := by
  intro _
  refine ⟨by decide, fun j hj hj2 d hd t => ?_⟩
  have hd' : ¬ d = 0 := by change 1 ≤ d at hd; omega
  have hj' : ¬ j = 0 := by omega
  simp [Tables.ds, hmpDemo, Tables.dcol, hj', hd']

theorem hmpDemo_Lam : Lam hmpDemo 0 = 1 ∧ Lam hmpDemo 1 = 5 / 8 := by
  have h0 : Lam hmpDemo 0 = 1 := by
    simp [Lam, lam, lamSum, lamContrib, lamCell, hmpDemo, Finset.sum_range_succ, Tables.ds]
    norm_num
  refine ⟨h0, ?_⟩
  have : Lam hmpDemo 1 = lamSum hmpDemo 1 (fun d j => lamCell hmpDemo 1 (lam hmpDemo 0) (Lam hmpDemo 0) d j) := rfl
  rw [this, h0]
  simp [lam, lamSum, lamContrib, lamCell, hmpDemo, Finset.sum_range_succ, Tables.ds, Tables.T, Tables.dcol]
  norm_num

/-- C03, negation for hmp models with entry-dependent emissions (time-constant durations): the sampler returns the path
"bump, then flat" with probability 3/10, although its posterior probability is 1/5. -/
theorem sampling_entry_obs_wrong :
    ∃ (m : Tables ℝ) (A : Finset (List Seg)) (l : List Seg), NonNeg m ∧ BumpDur m ∧
      (∀ d j t, m.ds d j (t + 1) = m.ds d j t) ∧ 0 < m.n_T ∧
      (∀ l, l ∈ A ↔ Admissible m l) ∧ Admissible m l ∧ weight m l / ∑ l ∈ A, weight m l = 1 / 5 ∧
      sampleProb m (stateAt l (m.n_T - 1)) (excess l (m.n_T - 1)) (statesBefore l (m.n_T - 1)) = 3 / 10 := by
  refine ⟨hmpDemo, allSegs hmpDemo, [⟨1, 0, 0⟩, ⟨0, 0, 1⟩], hmpDemo_nonneg, hmpDemo_bump, fun _ _ _ => rfl, by decide,
    mem_allSegs hmpDemo (by decide), ⟨⟨rfl, by decide, rfl⟩, ?_, _, _, rfl, by decide, by decide, ?_, ?_⟩, ?_, ?_⟩
  · intro s hs
    simp at hs
    rcases hs with rfl | rfl <;> simp [SegOk, hmpDemo]
  · intro _; rfl
  · intro h; simp [hmpDemo] at h
  · have htot := Lam_final_mul hmpDemo (by decide) (fun s hs => by
      have : s = 0 := by change s < 1 at hs; omega
      rw [this, hmpDemo_Lam.1]; norm_num)
    have e : ∏ s ∈ range (hmpDemo.n_T - 1), Lam hmpDemo s = 1 := by
      change ∏ s ∈ range 1, Lam hmpDemo s = 1
      rw [prod_range_one, hmpDemo_Lam.1]
    have e2 : Lam hmpDemo (hmpDemo.n_T - 1) = 5 / 8 := hmpDemo_Lam.2
    rw [e, e2, mul_one] at htot
    rw [← htot]
    norm_num [weight, weightUpTo, obsProd, obs, Tables.T, Tables.ds, hmpDemo, Tables.dcol]
  · change sampleProb hmpDemo 0 0 [1] = 3 / 10
    have hL : Lam hmpDemo (hmpDemo.n_T - 1) = 5 / 8 := hmpDemo_Lam.2
    unfold sampleProb
    rw [drawProb_chain hmpDemo hmpDemo_nonneg hmpDemo_bump (by rw [hL]; norm_num) 0 0 (by decide) (by decide), hL]
    have h1 : lamContrib hmpDemo (hmpDemo.n_T - 1) 0 0 (lam hmpDemo (hmpDemo.n_T - 1) 0 0) = 3 / 8 := by
      change lamContrib hmpDemo 1 0 0 (lamCell hmpDemo 1 (lam hmpDemo 0) (Lam hmpDemo 0) 0 0) = 3 / 8
      rw [hmpDemo_Lam.1]
      simp [lam, lamContrib, lamCell, hmpDemo, Finset.sum_range_succ, Tables.ds, Tables.T, Tables.dcol]
      norm_num
    rw [h1]
    obtain ⟨hraw, hLam⟩ := sbRaw_eq hmpDemo hmpDemo_bump 0
    have hsc0 : sbScaled hmpDemo 0 1 0 = 1 / 4 := by
      unfold sbScaled
      rw [hLam, hmpDemo_Lam.1, hraw 1 0 (by decide)]
      simp [lam, lamCell, hmpDemo, Tables.ds]
      norm_num
    have hsc1 : sbScaled hmpDemo 0 0 1 = 1 / 2 := by
      unfold sbScaled
      rw [hLam, hmpDemo_Lam.1, hraw 0 1 (by decide)]
      simp [lam, lamCell, hmpDemo, Tables.ds]
    have h2 : loopProb hmpDemo (hmpDemo.n_T - 1) 0 0 [1] = 1 / 2 := by
      change drawProb 2 (backWeight hmpDemo 1 0 0) 1 * 1 = 1 / 2
      have b0 : backWeight hmpDemo 1 0 0 0 = 1 / 4 := by
        unfold backWeight
        rw [if_pos rfl, if_pos (by decide), hsc0]
      have b1 : backWeight hmpDemo 1 0 0 1 = 1 / 4 := by
        unfold backWeight
        rw [if_neg (by decide), hsc1]
        norm_num [hmpDemo, Tables.T, Tables.ds, Tables.dcol]
      unfold drawProb
      rw [if_pos (by decide), sum_range_succ, sum_range_succ, sum_range_zero, b0, b1]
      norm_num
    rw [h2]
    norm_num

/-- The hypotheses of the partial theorems are met by the demo series of `Verif.Hsmm` extended with hmp emissions. -/
example : NonNeg { hmpDemo with bs3 := fun _ _ _ => 1 / 2 } ∧ BumpDur { hmpDemo with bs3 := fun _ _ _ => 1 / 2 } ∧
    EntryObs { hmpDemo with bs3 := fun _ _ _ => 1 / 2 } ∧
    Admissible { hmpDemo with bs3 := fun _ _ _ => 1 / 2 } [⟨1, 0, 0⟩, ⟨0, 0, 1⟩] ∧
    0 < weight { hmpDemo with bs3 := fun _ _ _ => 1 / 2 } [⟨1, 0, 0⟩, ⟨0, 0, 1⟩] := by
  refine ⟨?_, hmpDemo_bump, ?_, ⟨⟨rfl, by decide, rfl⟩, ?_, _, _, rfl, by decide, by decide, ?_, ?_⟩, ?_⟩
  · exact { hmpDemo_nonneg with bs3 := fun _ _ _ => by norm_num }
  · intro _ t j d
    right
    split_ifs <;> rfl
  · intro s hs
    simp at hs
    rcases hs with rfl | rfl <;> simp [SegOk, hmpDemo]
  · intro _; rfl
  · intro h; simp [hmpDemo] at h
  · norm_num [weight, weightUpTo, obsProd, obs, Tables.T, Tables.ds, hmpDemo, Tables.dcol]

end Verif.Hsmm
