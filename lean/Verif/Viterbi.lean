import Verif.ViterbiLemmas

/-! Property theorems: Viterbi decoding (C02). -/

namespace Verif.Hsmm

open Finset

/-- The selected final cell is in bounds, allowed by the switches, and maximal. -/
theorem vitFinal_spec (m : Tables (WithBot ℝ)) (v : WithBot ℝ) (hv : v ≠ ⊥)
    (hex : ∃ d j, d < m.D - 1 ∧ j < m.n_S ∧ FinalCell m d j ∧ v ≤ delta m (m.n_T - 1) d j) :
    ∃ d j, vitFinal m = (d, some j) ∧ d < m.D - 1 ∧ j < m.n_S ∧ FinalCell m d j ∧
      delta m (m.n_T - 1) d j ≠ ⊥ ∧
      ∀ d' j', d' < m.D - 1 → j' < m.n_S → FinalCell m d' j' → delta m (m.n_T - 1) d' j' ≤ delta m (m.n_T - 1) d j := by
  obtain ⟨d0, j0, hd0, hj0, hf0, hle0⟩ := hex
  unfold vitFinal
  by_cases h1 : m.ends_with_last = false
  · rw [if_pos h1]
    by_cases h2 : m.ends_in_last = false
    · rw [if_pos h2]
      set f := fun (acc : WithBot ℝ × Option (ℕ × ℕ)) (j : ℕ) =>
        (List.range (m.D - 1)).foldl (fun acc d => upd acc (delta m (m.n_T - 1) d j) (d, j)) acc with hf
      have hmono : ∀ acc k, acc.1 ≤ (f acc k).1 := fun acc k => foldl_upd_ge _ (fun acc k => (upd_ge _ _ _).1) _ _
      have hbig : ∀ d' j', d' < m.D - 1 → j' < m.n_S →
          delta m (m.n_T - 1) d' j' ≤ ((List.range m.n_S).foldl f (⊥, none)).1 := by
        intro d' j' hd' hj'
        refine foldl_upd_mem f hmono _ j' ?_ _ (List.mem_range.2 hj') _
        intro acc
        exact foldl_upd_mem (fun acc d => upd acc (delta m (m.n_T - 1) d j') (d, j')) (fun acc k => (upd_ge _ _ _).1) _ d'
          (fun acc => (upd_ge _ _ _).2) _ (List.mem_range.2 hd') _
      have hatt : Attained (fun v (c : ℕ × ℕ) => c.1 < m.D - 1 ∧ c.2 < m.n_S ∧ v = delta m (m.n_T - 1) c.1 c.2)
          ((List.range m.n_S).foldl f (⊥, none)) := by
        apply foldl_attained
        · intro k hk acc hacc
          apply foldl_attained
          · intro d hd acc hacc
            exact upd_attained _ _ _ _ hacc ⟨List.mem_range.1 hd, List.mem_range.1 hk, rfl⟩
          · exact hacc
        · intro h; exact absurd rfl h
      have hne : ((List.range m.n_S).foldl f (⊥, none)).1 ≠ ⊥ := by
        intro h
        have := hle0.trans (hbig d0 j0 hd0 hj0)
        rw [h, le_bot_iff] at this
        exact hv this
      obtain ⟨⟨d, j⟩, hsome, hd, hj, hval⟩ := hatt hne
      refine ⟨d, j, by rw [hsome], hd, hj, ⟨by simp [h1], by simp [h2]⟩, ?_, ?_⟩
      · rw [hval] at hne; exact hne
      · intro d' j' hd' hj' _
        have := hbig d' j' hd' hj'
        rw [hval] at this; exact this
    · rw [if_neg h2]
      have h2' : m.ends_in_last = true := by simpa using h2
      set f := fun (acc : WithBot ℝ × Option ℕ) (d : ℕ) => upd acc (delta m (m.n_T - 1) d (m.n_S - 1)) d with hf
      have hmono : ∀ acc k, acc.1 ≤ (f acc k).1 := fun acc k => (upd_ge _ _ _).1
      have hbig : ∀ d', d' < m.D - 1 →
          delta m (m.n_T - 1) d' (m.n_S - 1) ≤ ((List.range (m.D - 1)).foldl f (⊥, none)).1 := by
        intro d' hd'
        exact foldl_upd_mem f hmono _ d' (fun acc => (upd_ge _ _ _).2) _ (List.mem_range.2 hd') _
      have hatt : Attained (fun v (d : ℕ) => d < m.D - 1 ∧ v = delta m (m.n_T - 1) d (m.n_S - 1))
          ((List.range (m.D - 1)).foldl f (⊥, none)) := by
        apply foldl_attained
        · intro d hd acc hacc
          exact upd_attained _ _ _ _ hacc ⟨List.mem_range.1 hd, rfl⟩
        · intro h; exact absurd rfl h
      have hj0' := hf0.2 h2'
      have hne : ((List.range (m.D - 1)).foldl f (⊥, none)).1 ≠ ⊥ := by
        intro h
        rw [hj0'] at hle0
        have := hle0.trans (hbig d0 hd0)
        rw [h, le_bot_iff] at this
        exact hv this
      obtain ⟨d, hsome, hd, hval⟩ := hatt hne
      refine ⟨d, m.n_S - 1, by rw [hsome], hd, by omega, ⟨by simp [h1], by simp⟩, ?_, ?_⟩
      · rw [hval] at hne; exact hne
      · intro d' j' hd' hj' hf'
        rw [hf'.2 h2']
        have := hbig d' hd'
        rw [hval] at this; exact this
  · rw [if_neg h1]
    have h1' : m.ends_with_last = true := by simpa using h1
    have hd0' := hf0.1 h1'
    by_cases h2 : m.ends_in_last = false
    · rw [if_pos h2]
      set f := fun (acc : WithBot ℝ × Option ℕ) (j : ℕ) => upd acc (delta m (m.n_T - 1) 0 j) j with hf
      have hmono : ∀ acc k, acc.1 ≤ (f acc k).1 := fun acc k => (upd_ge _ _ _).1
      have hbig : ∀ j', j' < m.n_S →
          delta m (m.n_T - 1) 0 j' ≤ ((List.range m.n_S).foldl f (⊥, none)).1 := by
        intro d' hd'
        exact foldl_upd_mem f hmono _ d' (fun acc => (upd_ge _ _ _).2) _ (List.mem_range.2 hd') _
      have hatt : Attained (fun v (j : ℕ) => j < m.n_S ∧ v = delta m (m.n_T - 1) 0 j)
          ((List.range m.n_S).foldl f (⊥, none)) := by
        apply foldl_attained
        · intro d hd acc hacc
          exact upd_attained _ _ _ _ hacc ⟨List.mem_range.1 hd, rfl⟩
        · intro h; exact absurd rfl h
      have hne : ((List.range m.n_S).foldl f (⊥, none)).1 ≠ ⊥ := by
        intro h
        rw [hd0'] at hle0
        have := hle0.trans (hbig j0 hj0)
        rw [h, le_bot_iff] at this
        exact hv this
      obtain ⟨j, hsome, hj, hval⟩ := hatt hne
      refine ⟨0, j, by rw [hsome], by omega, hj, ⟨by simp, by simp [h2]⟩, ?_, ?_⟩
      · rw [hval] at hne; exact hne
      · intro d' j' hd' hj' hf'
        rw [hf'.1 h1']
        have := hbig j' hj'
        rw [hval] at this; exact this
    · rw [if_neg h2]
      have h2' : m.ends_in_last = true := by simpa using h2
      have hj0' := hf0.2 h2'
      refine ⟨0, m.n_S - 1, rfl, by omega, by omega, ⟨by simp, by simp⟩, ?_, ?_⟩
      · intro h
        rw [hd0', hj0', h, le_bot_iff] at hle0
        exact hv hle0
      · intro d' j' _ _ hf'
        rw [hf'.1 h1', hf'.2 h2']

/-- C02. If some allowed segmentation has positive probability, Viterbi decoding succeeds (no read out of bounds, no
missing state) and returns the labels of an allowed segmentation `best` whose joint log-probability with the series is
maximal among all allowed segmentations; the returned excess duration is the number of time points that the last
segment of `best` extends beyond the series. -/
theorem viterbi_optimal (m : Tables (WithBot ℝ)) (hm : HmpOk m) (hT : 0 < m.n_T)
    (hex : ∃ l, Admissible m l ∧ logWeight m l ≠ ⊥) :
    ∃ ed states best, viterbi m = some (ed, states) ∧ Admissible m best ∧ Labels best m.n_T states ∧
      (∃ h r, best = h :: r ∧ h.start + h.dur + 1 = m.n_T + ed) ∧
      ∀ l, Admissible m l → logWeight m l ≤ logWeight m best := by
  have hub : ∀ l, Admissible m l → ∃ d j, d < m.D - 1 ∧ j < m.n_S ∧ FinalCell m d j ∧
      logWeight m l ≤ delta m (m.n_T - 1) d j := by
    rintro l ⟨hc, hok, h, r, rfl, h0, h1, h2, h3⟩
    have hs := hok h (by simp)
    have hd : h.start + h.dur - (m.n_T - 1) < m.D - 1 := by have := hs.2.1; omega
    refine ⟨h.start + h.dur - (m.n_T - 1), h.state, hd, hs.1, ⟨fun he => by have := h2 he; omega, h3⟩, ?_⟩
    refine le_delta m hm (m.n_T - 1) _ _ _ hs.1 hd ?_ ⟨hc, hok, h, r, rfl, rfl, by omega, by omega⟩
    by_cases he : m.ends_with_last = true
    · have := h2 he
      right; left; omega
    · right; right; simpa using he
  obtain ⟨l0, hl0, hne0⟩ := hex
  obtain ⟨d, j, hfin, hd, hj, hfc, hne, hmax⟩ := vitFinal_spec m _ hne0 (hub l0 hl0)
  have hlive : Live m (m.n_T - 1) d := by
    by_cases he : m.ends_with_last = true
    · have := hfc.1 he
      right; left; omega
    · right; right; simpa using he
  obtain ⟨best, st, hp, hw, hb, hlab⟩ := delta_attained m hm (m.n_T - 1) d j hj hd hlive hne
  obtain ⟨hc, hok, h, r, rfl, rfl, h0, hsum⟩ := hp
  have hn : m.n_T - 1 + 1 = m.n_T := by omega
  refine ⟨d, st, h :: r, ?_, ⟨hc, hok, h, r, rfl, by omega, by omega, ?_, hfc.2⟩, by rw [hn] at hlab; exact hlab,
    ⟨h, r, rfl, by omega⟩, ?_⟩
  · unfold viterbi
    rw [hfin]
    simp [hb]
  · intro he
    have := hfc.1 he
    omega
  · intro l hl
    obtain ⟨d', j', hd', hj', hfc', hle⟩ := hub l hl
    have : logWeight m (h :: r) = delta m (m.n_T - 1) d h.state := hw
    rw [this]
    exact hle.trans (hmax d' j' hd' hj' hfc')

/-- Two states, three time points, all log-probabilities 0: the hypotheses of `viterbi_optimal` are met. -/
noncomputable def demoLog : Tables (WithBot ℝ) where
  n_T := 3
  D := 4
  n_S := 2
  event_width := 1
  starts_with_first := true
  ends_with_last := false
  ends_in_last := true
  hmp := false
  tvdtpi := false
  bs2 := fun _ _ => 0
  bs3 := fun _ _ _ => 0
  ds2 := fun d j => if d = 0 ∧ j = 1 then ⊥ else 0
  ds3 := fun _ _ _ => 0
  T2 := fun _ _ => 0
  T3 := fun _ _ _ => 0
  pi := fun _ => 0

example : HmpOk demoLog ∧ 0 < demoLog.n_T ∧ ∃ l, Admissible demoLog l ∧ logWeight demoLog l ≠ ⊥ := by
  refine ⟨fun h => absurd h (by decide), by decide, [⟨2, 2, 1⟩, ⟨0, 1, 0⟩],
    ⟨⟨rfl, by decide, rfl⟩, ?_, _, _, rfl, by decide, by decide, by decide, ?_⟩, ?_⟩
  · intro s hs
    simp at hs
    rcases hs with rfl | rfl <;> simp [SegOk, demoLog]
  · intro _; rfl
  · simp [logWeight, logWeightUpTo, obsSum, obs, Tables.T, Tables.ds, demoLog, Tables.dcol]

end Verif.Hsmm
