import Verif.HsmmFtpModel
import Verif.HsmmDirLemmas

/-! Helper lemmas for the gradient loop with fixed transition matrix and initial distribution. -/

namespace Verif.Hsmm

open Finset

/-- The direction `δ` of the tables that the arguments `a` of `llkFTPgrad` describe. -/
structure FtpDir (m : Tables ℝ) (a : Ftp) (δ : Tables ℝ) : Prop where
  sw : SameSwitches m δ
  code : m.hmp = true ↔ a.hmp_code ≠ 0
  T : ∀ i j t, δ.T i j t = 0
  pi : ∀ j, δ.pi j = 0
  dur : ∀ d j t, δ.ds d j t = if a.isDur = true ∧ a.jidx = j then ftpDG m a d t else 0
  em2 : m.hmp = false → ∀ t j, δ.bs2 t j = if a.isDur = false ∧ a.jidx = j then m.bs2 t j * a.b_grad t else 0
  em3dur : m.hmp = true → a.isDur = true → ∀ t k j, δ.bs3 t k j = 0
  odd : m.hmp = true → a.isDur = false → a.jidx % 2 = 1
  em3start : m.hmp = true → a.isDur = false → ∀ j, δ.bs3 0 0 j =
    if a.jidx = j then a.bgc (m.bs3 0 0 j) 0 (a.ebump0 0 j) (a.dbump0 0) else 0
  em3bump : m.hmp = true → a.isDur = false → ∀ t k j, j % 2 = 1 → δ.bs3 (t + 1) k j =
    if a.jidx = j then a.bgc (m.bs3 (t + 1) k j) (t + 1) (a.ebumpC (t + 1) k j) (a.dbumpC (t + 1) k) else 0
  em3flat0 : m.hmp = true → a.isDur = false → ∀ t j, j % 2 = 0 → δ.bs3 (t + 1) 0 j = 0
  em3flat1 : m.hmp = true → a.isDur = false → ∀ t j, j % 2 = 0 → δ.bs3 (t + 1) 1 j =
    if a.rho < 999 ∧ a.jidx + 1 = j then
      a.bgc (m.bs3 (t + 1) 1 j) (t + 1) (a.d1 * a.weights (m.event_width - 1) * a.mu t a.midx (j - 1))
        (a.d1 * a.weights (m.event_width - 1) * a.b_grad t) else 0

theorem ebumpC_zero (a : Ftp) (t j : ℕ) : a.ebumpC t 0 j = a.ebump0 t j := by
  unfold Ftp.ebumpC Ftp.ebump0
  simp

theorem dbumpC_zero (a : Ftp) (t : ℕ) : a.dbumpC t 0 = a.dbump0 t := by
  unfold Ftp.dbumpC Ftp.dbump0
  simp

theorem DF_skip (m δ : Tables ℝ) (t d j : ℕ) (hj : j < m.n_S)
    (h : m.hmp = true ∧ j % 2 = 1 ∧ m.event_width ≤ d) : DF m δ t d j = 0 := by
  have hno : ∀ s, ¬SegOk m ⟨s, d, j⟩ := by
    intro s hs
    have := hs.2.2 h.1 h.2.1
    simp only at this
    omega
  induction t generalizing d with
  | zero => simp only [DF]; rw [if_neg (hno 0)]
  | succ t ih =>
    have hno' : ∀ s, ¬SegOk m ⟨s, d + 1, j⟩ := by
      intro s hs
      have := hs.2.2 h.1 h.2.1
      simp only at this
      omega
    have hs : m.hmp = true ∧ j % 2 = 1 ∧ m.event_width ≤ d + 1 := ⟨h.1, h.2.1, by omega⟩
    simp only [DF]
    rw [if_neg (hno _), ih (d + 1) hs hno', F_eq_zero_of_skip m t (d + 1) j hj hs]
    simp

theorem ftpBuf_skip (m : Tables ℝ) (a : Ftp) (t d j : ℕ) (h : a.hmp_code ≠ 0 ∧ j % 2 = 1 ∧ m.event_width ≤ d) :
    (ftpBuf m a t).1 d j = 0 ∧ (ftpBuf m a t).2 d j = 0 := by
  induction t with
  | zero => simp only [ftpBuf, if_pos h, and_self]
  | succ t ih =>
    simp only [ftpBuf, if_pos h]
    exact ⟨ih.2, ih.1⟩

theorem ftpBuf_eq (m : Tables ℝ) (a : Ftp) (δ : Tables ℝ) (h : FtpDir m a δ) (t : ℕ) (hL : ∀ s < t, Lam m s ≠ 0) :
    ∀ d j, j < m.n_S → d < m.D - 1 → Live m t d →
      (ftpBuf m a t).1 d j * ∏ s ∈ range t, Lam m s = DF m δ t d j := by
  induction t with
  | zero =>
    intro d j hj hd _
    rw [range_zero, prod_empty, mul_one]
    by_cases hskip : m.hmp = true ∧ j % 2 = 1 ∧ m.event_width ≤ d
    · rw [DF_skip m δ 0 d j hj hskip]
      exact (ftpBuf_skip m a 0 d j ⟨h.code.1 hskip.1, hskip.2⟩).1
    have hskip' : ¬(a.hmp_code ≠ 0 ∧ j % 2 = 1 ∧ m.event_width ≤ d) := fun hc => hskip ⟨h.code.2 hc.1, hc.2⟩
    have hok : SegOk m ⟨0, d, j⟩ := ⟨hj, hd, fun h1 h2 => by
      by_contra h3
      exact hskip ⟨h1, h2, by simpa using h3⟩⟩
    simp only [ftpBuf, if_neg hskip', DF, if_pos hok, h.pi, zero_mul, zero_add, h.dur]
    unfold ftpInit emStart
    rw [h.sw.hmp]
    by_cases hm : m.hmp = true
    · have hc := h.code.1 hm
      simp only [hm, if_true, hc, ne_eq, not_false_eq_true]
      cases hdur : a.isDur
      · simp only [Bool.false_eq_true, false_and, if_false]
        rw [h.em3start hm hdur]
        by_cases hjj : a.jidx = j
        · simp only [hjj, if_true]; ring
        · simp only [hjj, if_false]; ring
      · simp only [if_true, true_and]
        rw [h.em3dur hm hdur]
        by_cases hjj : a.jidx = j
        · simp only [hjj, if_true]; ring
        · simp only [hjj, if_false]; ring
    · have hm' : m.hmp = false := by simpa using hm
      have hc : ¬(a.hmp_code ≠ 0) := fun hc => hm (h.code.2 hc)
      simp only [hm', Bool.false_eq_true, if_false, hc]
      rw [h.em2 hm']
      cases hdur : a.isDur
      · simp only [Bool.false_eq_true, false_and, if_false, true_and]
        by_cases hjj : a.jidx = j
        · simp only [hjj, if_true]; ring
        · simp only [hjj, if_false]; ring
      · simp only [if_true, true_and, Bool.true_eq_false, false_and, if_false]
        by_cases hjj : a.jidx = j
        · simp only [hjj, if_true]; ring
        · simp only [hjj, if_false]; ring
  | succ t ih =>
    intro d j hj hd hl
    have hl' : t + 1 + d < m.n_T ∨ m.ends_with_last = false := by
      rcases hl with h | h | h
      · omega
      · exact Or.inl h
      · exact Or.inr h
    have hlive : ∀ d', t + d' ≤ t + 1 + d → Live m t d' := by
      intro d' hd'
      rcases hl' with h | h
      · exact Or.inr (Or.inl (by omega))
      · exact Or.inr (Or.inr h)
    by_cases hskip : m.hmp = true ∧ j % 2 = 1 ∧ m.event_width ≤ d
    · rw [DF_skip m δ (t + 1) d j hj hskip, (ftpBuf_skip m a (t + 1) d j ⟨h.code.1 hskip.1, hskip.2⟩).1, zero_mul]
    have hskip' : ¬(a.hmp_code ≠ 0 ∧ j % 2 = 1 ∧ m.event_width ≤ d) := fun hc => hskip ⟨h.code.2 hc.1, hc.2⟩
    have hok : SegOk m ⟨t + 1, d, j⟩ := ⟨hj, hd, fun h1 h2 => by
      by_contra h3
      exact hskip ⟨h1, h2, by simpa using h3⟩⟩
    have ih' := ih fun s hs => hL s (by omega)
    set P := ∏ s ∈ range t, Lam m s with hP
    have hF : ∀ d j, j < m.n_S → d < m.D - 1 → Live m t d → F m t d j = lam m t d j * P :=
      fun d j hj hd hl => (lam_eq m t (fun s hs => hL s (by omega)) d j hj hd hl).symm
    have hbuf : (ftpBuf m a (t + 1)).1 d j =
        ftpStep m a (t + 1) (lam m t) (ftpBuf m a t).1 (Lam m t) d j := by
      simp only [ftpBuf]
      rw [if_neg hskip', if_pos hl']
    rw [hbuf, prod_range_succ, ← hP]
    unfold ftpStep
    have hcancel : ∀ x : ℝ, x / Lam m t * (P * Lam m t) = x * P := by
      intro x
      have := hL t (by omega)
      field_simp
    rw [hcancel]
    simp only [DF, if_pos hok, Nat.add_sub_cancel, h.T, mul_zero, add_zero, h.dur]
    have s1 : (∑ i ∈ range m.n_S, if i = j then 0 else F m t 0 i * m.T i j t) =
        (∑ i ∈ range m.n_S, if i = j then 0 else lam m t 0 i * m.T i j t) * P := by
      rw [sum_mul]
      apply sum_congr rfl
      intro i hi
      rw [mem_range] at hi
      rw [hF 0 i hi (by omega) (hlive _ (by omega))]
      split_ifs <;> ring
    have s2 : (∑ i ∈ range m.n_S, if i = j then 0 else DF m δ t 0 i * m.T i j t) =
        (∑ i ∈ range m.n_S, if i = j then 0 else (ftpBuf m a t).1 0 i * m.T i j t) * P := by
      rw [sum_mul]
      apply sum_congr rfl
      intro i hi
      rw [mem_range] at hi
      rw [← ih' 0 i hi (by omega) (hlive _ (by omega))]
      split_ifs <;> ring
    rw [s1, s2]
    set tp := ∑ i ∈ range m.n_S, if i = j then 0 else lam m t 0 i * m.T i j t with htp
    set tpg := ∑ i ∈ range m.n_S, if i = j then 0 else (ftpBuf m a t).1 0 i * m.T i j t with htpg
    have s3 : d + 1 ≤ m.D - 2 → F m t (d + 1) j = lam m t (d + 1) j * P := fun hd1 =>
      hF (d + 1) j hj (by omega) (hlive _ (by omega))
    have s4 : d + 1 ≤ m.D - 2 → DF m δ t (d + 1) j = (ftpBuf m a t).1 (d + 1) j * P := fun hd1 =>
      (ih' (d + 1) j hj (by omega) (hlive _ (by omega))).symm
    by_cases hm : m.hmp = true
    · have hc := h.code.1 hm
      have hc1 : m.hmp = true → emCont m (t + 1) d j = ftpB1 m (t + 1) d j := by
        intro _
        unfold emCont ftpB1
        rw [if_pos hm]
        by_cases hj2 : j % 2 = 1
        · have : d ≤ m.event_width - 1 := by
            have h5 : ¬ m.event_width ≤ d := fun h6 => hskip ⟨hm, hj2, h6⟩
            omega
          rw [if_pos hj2, if_pos hj2, if_pos this]
        · rw [if_neg hj2, if_neg hj2]
      have hc2 : emEnter m (t + 1) j = ftpB2 m (t + 1) j := by
        unfold emEnter ftpB2
        rw [if_pos hm]
      rw [hc1 hm, hc2]
      cases hdur : a.isDur
      · -- emission coefficient
        have hodd := h.odd hm hdur
        simp only [Bool.false_eq_true, false_and, if_false, hc, ne_eq, not_false_eq_true, if_true, mul_zero, add_zero]
        by_cases hj2 : j % 2 = 1
        · -- bump
          have hew : d ≤ m.event_width - 1 := by
            have h5 : ¬ m.event_width ≤ d := fun h6 => hskip ⟨hm, hj2, h6⟩
            omega
          have hj0 : ¬ j % 2 = 0 := by omega
          have e1 : emCont δ (t + 1) d j = δ.bs3 (t + 1) (m.event_width - 1 - d) j := by
            unfold emCont
            rw [h.sw.hmp, h.sw.ew, if_pos hm, if_pos hj2]
          have e2 : emEnter δ (t + 1) j = δ.bs3 (t + 1) 0 j := by
            unfold emEnter
            rw [h.sw.hmp, if_pos hm, if_neg hj0]
          have e3 : ftpB2 m (t + 1) j = m.bs3 (t + 1) 0 j := by
            unfold ftpB2; rw [if_neg hj0]
          have e4 : ftpB1 m (t + 1) d j = m.bs3 (t + 1) (m.event_width - 1 - d) j := by
            unfold ftpB1; rw [if_pos hj2, if_pos hew]
          rw [e1, e2, e3, e4, h.em3bump hm hdur _ _ _ hj2, h.em3bump hm hdur _ _ _ hj2, ebumpC_zero, dbumpC_zero]
          by_cases hjj : a.jidx = j
          · simp only [hjj, if_true, hew]
            by_cases hd1 : d + 1 ≤ m.D - 2
            · rw [if_pos hd1, if_pos hd1, s3 hd1, s4 hd1]; ring
            · rw [if_neg hd1, if_neg hd1]; ring
          · simp only [hjj, if_false, hj0, false_and]
            by_cases hd1 : d + 1 ≤ m.D - 2
            · rw [if_pos hd1, if_pos hd1, s3 hd1, s4 hd1]; ring
            · rw [if_neg hd1, if_neg hd1]; ring
        · -- flat
          have hj0 : j % 2 = 0 := by omega
          have hjj : ¬ a.jidx = j := fun hc => hj2 (hc ▸ hodd)
          have e1 : emCont δ (t + 1) d j = 0 := by
            unfold emCont
            rw [h.sw.hmp, if_pos hm, if_neg hj2, h.em3flat0 hm hdur _ _ hj0]
          have e2 : emEnter δ (t + 1) j = δ.bs3 (t + 1) 1 j := by
            unfold emEnter
            rw [h.sw.hmp, if_pos hm, if_pos hj0]
          have e3 : ftpB2 m (t + 1) j = m.bs3 (t + 1) 1 j := by
            unfold ftpB2; rw [if_pos hj0]
          rw [e1, e2, e3, h.em3flat1 hm hdur _ _ hj0, if_neg hjj]
          simp only [hj0, true_and]
          by_cases hrr : a.rho < 999 ∧ a.jidx + 1 = j
          · rw [if_pos hrr, if_pos hrr]
            by_cases hd1 : d + 1 ≤ m.D - 2
            · rw [if_pos hd1, if_pos hd1, s4 hd1]; ring
            · rw [if_neg hd1, if_neg hd1]; ring
          · rw [if_neg hrr, if_neg hrr]
            by_cases hd1 : d + 1 ≤ m.D - 2
            · rw [if_pos hd1, if_pos hd1, s4 hd1]; ring
            · rw [if_neg hd1, if_neg hd1]; ring
      · -- duration coefficient
        have e1 : emCont δ (t + 1) d j = 0 := by
          unfold emCont
          rw [h.sw.hmp, if_pos hm]
          split_ifs <;> exact h.em3dur hm hdur _ _ _
        have e2 : emEnter δ (t + 1) j = 0 := by
          unfold emEnter
          rw [h.sw.hmp, if_pos hm]
          split_ifs <;> exact h.em3dur hm hdur _ _ _
        rw [e1, e2]
        simp only [if_true, true_and, hc, ne_eq, not_false_eq_true]
        by_cases hjj : a.jidx = m.dcol j
        · rw [if_pos hjj, if_pos hjj]
          by_cases hd1 : d + 1 ≤ m.D - 2
          · rw [if_pos hd1, if_pos hd1, s4 hd1]; ring
          · rw [if_neg hd1, if_neg hd1]; ring
        · rw [if_neg hjj, if_neg hjj]
          by_cases hd1 : d + 1 ≤ m.D - 2
          · rw [if_pos hd1, if_pos hd1, s4 hd1]; ring
          · rw [if_neg hd1, if_neg hd1]; ring
    · have hm' : m.hmp = false := by simpa using hm
      have hc : ¬(a.hmp_code ≠ 0) := fun hc => hm (h.code.2 hc)
      have e1 : emCont m (t + 1) d j = m.bs2 (t + 1) j := by unfold emCont; rw [if_neg hm]
      have e2 : emEnter m (t + 1) j = m.bs2 (t + 1) j := by unfold emEnter; rw [if_neg hm]
      have e3 : emCont δ (t + 1) d j = δ.bs2 (t + 1) j := by unfold emCont; rw [h.sw.hmp, if_neg hm]
      have e4 : emEnter δ (t + 1) j = δ.bs2 (t + 1) j := by unfold emEnter; rw [h.sw.hmp, if_neg hm]
      rw [e1, e2, e3, e4, h.em2 hm']
      simp only [hc, if_false]
      cases hdur : a.isDur
      · simp only [Bool.false_eq_true, false_and, if_false, true_and]
        by_cases hjj : a.jidx = j
        · simp only [hjj, if_true]
          by_cases hd1 : d + 1 ≤ m.D - 2
          · rw [if_pos hd1, if_pos hd1, s3 hd1, s4 hd1]; ring
          · rw [if_neg hd1, if_neg hd1]; ring
        · simp only [hjj, if_false]
          by_cases hd1 : d + 1 ≤ m.D - 2
          · rw [if_pos hd1, if_pos hd1, s4 hd1]; ring
          · rw [if_neg hd1, if_neg hd1]; ring
      · simp only [if_true, true_and, Bool.true_eq_false, false_and, if_false]
        by_cases hjj : a.jidx = m.dcol j
        · rw [if_pos hjj, if_pos hjj]
          by_cases hd1 : d + 1 ≤ m.D - 2
          · rw [if_pos hd1, if_pos hd1, s4 hd1]; ring
          · rw [if_neg hd1, if_neg hd1]; ring
        · rw [if_neg hjj, if_neg hjj]
          by_cases hd1 : d + 1 ≤ m.D - 2
          · rw [if_pos hd1, if_pos hd1, s4 hd1]; ring
          · rw [if_neg hd1, if_neg hd1]; ring

/-- Final sum of the code (llk.cpp 849-889) over a slice. -/
theorem finalSum_eq (m : Tables ℝ) (v : ℕ → ℕ → ℝ) (hS : 0 < m.n_S) (hD : 0 < m.D - 1) :
    (if m.ends_with_last then
      if m.ends_in_last = false then ∑ j ∈ range m.n_S, v 0 j else v 0 (m.n_S - 1)
     else ∑ d ∈ range (m.D - 1), if m.ends_in_last = false then ∑ j ∈ range m.n_S, v d j else v d (m.n_S - 1)) =
      ∑ d ∈ range (m.D - 1), ∑ j ∈ range m.n_S, if FinalCell m d j then v d j else 0 := by
  have hF : ∀ d j, FinalCell m d j ↔ (m.ends_with_last = true → d = 0) ∧ (m.ends_in_last = true → j = m.n_S - 1) :=
    fun _ _ => Iff.rfl
  have hlast : ∀ d, (∑ j ∈ range m.n_S, if j = m.n_S - 1 then v d j else 0) = v d (m.n_S - 1) := by
    intro d
    rw [sum_ite_eq' (range m.n_S) (m.n_S - 1), if_pos (mem_range.2 (by omega))]
  have hzero : ∀ v : ℕ → ℝ, (∑ d ∈ range (m.D - 1), if d = 0 then v d else 0) = v 0 := by
    intro v
    rw [sum_ite_eq' (range (m.D - 1)) 0, if_pos (mem_range.2 hD)]
  cases h1 : m.ends_with_last <;> cases h2 : m.ends_in_last <;>
    simp only [hF, h1, h2, Bool.false_eq_true, if_true, if_false, false_imp_iff, true_imp_iff, true_and, and_true,
      Bool.true_eq_false, and_self]
  · apply sum_congr rfl
    intro d _
    exact (hlast d).symm
  · rw [← hzero (fun d => ∑ j ∈ range m.n_S, v d j)]
    apply sum_congr rfl
    intro d _
    split_ifs
    · rfl
    · simp
  · rw [← hlast, ← hzero (fun d => ∑ j ∈ range m.n_S, if j = m.n_S - 1 then v d j else 0)]
    apply sum_congr rfl
    intro d _
    split_ifs with hd0
    · apply sum_congr rfl
      intro j _
      simp [hd0]
    · symm
      apply sum_eq_zero
      intro j _
      simp [hd0]

theorem llkFTPgrad_eq_gradDir (m : Tables ℝ) (a : Ftp) (δ : Tables ℝ) (h : FtpDir m a δ) (hT : 0 < m.n_T)
    (hS : 0 < m.n_S) (hD : 0 < m.D - 1) (hL : ∀ t < m.n_T, Lam m t ≠ 0) : llkFTPgrad m a = gradDir m δ := by
  unfold llkFTPgrad gradDir
  simp only
  rw [finalSum_eq m _ hS hD]
  have hL' : ∀ s < m.n_T - 1, Lam m s ≠ 0 := fun s hs => hL s (by omega)
  have hfin := Lam_final_mul m hT hL'
  rw [sum_allSegs] at hfin
  rw [← hfin]
  have hP : ∏ s ∈ range (m.n_T - 1), Lam m s ≠ 0 := prod_ne_zero_iff.2 fun s hs => hL' s (mem_range.1 hs)
  rw [← mul_div_mul_right _ _ hP]
  congr 1
  rw [sum_mul]
  apply sum_congr rfl
  intro d hd
  rw [sum_mul]
  apply sum_congr rfl
  intro j hj
  rw [mem_range] at hd hj
  split_ifs with hf
  · refine ftpBuf_eq m a δ h (m.n_T - 1) hL' d j hj hd ?_
    by_cases he : m.ends_with_last = true
    · have := hf.1 he
      right; left; omega
    · right; right; simpa using he
  · simp

end Verif.Hsmm
