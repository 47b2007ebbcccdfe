import Verif.Resid
import Verif.Hsmm

/-!
# Residuals and predictive densities use only the past (C141)

Functions of `ResidModel` (C05, C06) and `HsmmModel` (C01).
-/

namespace Verif.Past

open Hsmm

/-- Two series of the same model that agree before time `t`. The tables of durations at time `t` may depend on covariates at that time. -/
structure SamePast (m m' : Tables ℝ) (t : ℕ) : Prop where
  D : m.D = m'.D
  n_S : m.n_S = m'.n_S
  event_width : m.event_width = m'.event_width
  starts_with_first : m.starts_with_first = m'.starts_with_first
  hmp : m.hmp = m'.hmp
  tvdtpi : m.tvdtpi = m'.tvdtpi
  pi : m.pi = m'.pi
  bs2 : ∀ s < t, m.bs2 s = m'.bs2 s
  bs3 : ∀ s < t, m.bs3 s = m'.bs3 s
  ds : ∀ s ≤ t, ∀ d j, m.ds d j s = m'.ds d j s
  T : ∀ s < t, ∀ i j, m.T i j s = m'.T i j s

/-- The series have the same length and boundary conditions. -/
structure SameEnd (m m' : Tables ℝ) : Prop where
  n_T : m.n_T = m'.n_T
  ends_with_last : m.ends_with_last = m'.ends_with_last
  ends_in_last : m.ends_in_last = m'.ends_in_last

/-- No condition for the end of the series is at work at time `t`. -/
def Open (m : Tables ℝ) (t : ℕ) : Prop := m.ends_with_last = false ∧ (t < m.n_T - 1 ∨ m.ends_in_last = false)

/-- The conditions of the recursion at times up to `t` agree. -/
structure Same (m m' : Tables ℝ) (t : ℕ) : Prop extends SamePast m m' t where
  cell : ∀ s ≤ t, ∀ d, (s + d < m.n_T ∨ m.ends_with_last = false) ↔ (s + d < m'.n_T ∨ m'.ends_with_last = false)
  contrib : ∀ s ≤ t, ∀ d j v, sbContrib m s d j v = sbContrib m' s d j v

variable {m m' : Tables ℝ} {t : ℕ}

theorem SamePast.mono (h : SamePast m m' t) {s : ℕ} (hs : s ≤ t) : SamePast m m' s where
  D := h.D
  n_S := h.n_S
  event_width := h.event_width
  starts_with_first := h.starts_with_first
  hmp := h.hmp
  tvdtpi := h.tvdtpi
  pi := h.pi
  bs2 := fun r hr => h.bs2 r (by omega)
  bs3 := fun r hr => h.bs3 r (by omega)
  ds := fun r hr => h.ds r (by omega)
  T := fun r hr => h.T r (by omega)

theorem Same.mono (h : Same m m' t) {s : ℕ} (hs : s ≤ t) : Same m m' s :=
  { h.toSamePast.mono hs with
    cell := fun r hr => h.cell r (by omega)
    contrib := fun r hr => h.contrib r (by omega) }

theorem same_of_end (h : SamePast m m' t) (he : SameEnd m m') : Same m m' t :=
  { h with
    cell := fun s _ d => by rw [he.n_T, he.ends_with_last]
    contrib := fun s _ d j v => by unfold sbContrib; rw [he.n_T, he.ends_with_last, he.ends_in_last, h.n_S] }

theorem same_of_open (h : SamePast m m' t) (h1 : Open m t) (h2 : Open m' t) : Same m m' t :=
  { h with
    cell := fun s _ d => by rw [h1.1, h2.1]; simp
    contrib := fun s hs d j v => by
      have e1 : s < m.n_T - 1 ∨ m.ends_in_last = false := h1.2.imp_left fun h => by omega
      have e2 : s < m'.n_T - 1 ∨ m'.ends_in_last = false := h2.2.imp_left fun h => by omega
      unfold sbContrib
      rw [if_pos (Or.inr h1.1), if_pos (Or.inr h2.1), if_pos e1, if_pos e2] }

theorem dcol_eq (h : SamePast m m' t) (j : ℕ) : m.dcol j = m'.dcol j := by
  unfold Tables.dcol
  rw [h.starts_with_first, h.n_S]

theorem residCell_eq_of_same (h : Same m m' t) (e2 : ℕ → ℝ) (e3 : ℕ → ℕ → ℝ) (prev : ℕ → ℕ → ℝ) (L : ℝ) (d j : ℕ) :
    residCell m e2 e3 t prev L d j = residCell m' e2 e3 t prev L d j := by
  have hT : ∀ i, t ≠ 0 → m.T i j (t - 1) = m'.T i j (t - 1) := fun i h0 => h.T (t - 1) (by omega) i j
  unfold residCell
  by_cases h0 : t = 0
  · simp only [if_pos h0, h.hmp, h.pi, h.ds t le_rfl]
  · simp only [if_neg h0, h.hmp, h.cell t le_rfl d, h.D, h.n_S, h.event_width, dcol_eq h.toSamePast, h.ds t le_rfl, hT _ h0]

theorem sbLam_eq_of_same (h : Same m m' t) (raw : ℕ → ℕ → ℝ) : sbLam m t raw = sbLam m' t raw := by
  unfold sbLam
  rw [h.D, h.n_S]
  exact Finset.sum_congr rfl fun d _ => Finset.sum_congr rfl fun j _ => h.contrib t le_rfl d j _

theorem fwdLam_eq_of_same : ∀ s < t, Same m m' t → fwdLam m s = fwdLam m' s
  | 0, hs, h => by
    funext d j
    simp only [fwdLam]
    rw [residCell_eq_of_same (h.mono hs.le), h.bs2 0 hs, h.bs3 0 hs]
  | s + 1, hs, h => by
    funext d j
    simp only [fwdLam]
    rw [fwdLam_eq_of_same s (by omega) h, sbLam_eq_of_same (h.mono (by omega)), residCell_eq_of_same (h.mono hs.le), h.bs2 _ hs, h.bs3 _ hs]

theorem forwardResid_eq_of_same (h : Same m m' t) (c2 : ℕ → ℝ) (c3 : ℕ → ℕ → ℝ) : forwardResid m c2 c3 t = forwardResid m' c2 c3 t := by
  cases t with
  | zero =>
    simp only [forwardResid]
    rw [sbLam_eq_of_same h]
    congr 1
    funext d j
    exact residCell_eq_of_same h _ _ _ _ d j
  | succ s =>
    simp only [forwardResid]
    rw [fwdLam_eq_of_same s (by omega) h, sbLam_eq_of_same h, sbLam_eq_of_same (h.mono (by omega))]
    congr 1
    funext d j
    exact residCell_eq_of_same h _ _ _ _ d j

/-- **C141.** What comes after time `t` does not matter for the pseudo-residual at time `t`, whatever the boundary conditions. -/
theorem future_irrelevant (h : SamePast m m' t) (he : SameEnd m m') (c2 : ℕ → ℝ) (c3 : ℕ → ℕ → ℝ) :
    forwardResid m c2 c3 t = forwardResid m' c2 c3 t := forwardResid_eq_of_same (same_of_end h he) c2 c3

/-- **C141.** Without a condition for the end of the series its length does not matter, too: the residuals of the first part of a series are the
first part of its residuals. -/
theorem length_irrelevant_partial (h : SamePast m m' t) (h1 : Open m t) (h2 : Open m' t) (c2 : ℕ → ℝ) (c3 : ℕ → ℕ → ℝ) :
    forwardResid m c2 c3 t = forwardResid m' c2 c3 t := forwardResid_eq_of_same (same_of_open h h1 h2) c2 c3

theorem samePast_refl (m : Tables ℝ) (t : ℕ) : SamePast m m t :=
  ⟨rfl, rfl, rfl, rfl, rfl, rfl, rfl, fun _ _ => rfl, fun _ _ => rfl, fun _ _ _ _ => rfl, fun _ _ _ _ => rfl⟩

theorem samePast_length (m : Tables ℝ) (n t : ℕ) : SamePast m { m with n_T := n } t :=
  ⟨rfl, rfl, rfl, rfl, rfl, rfl, rfl, fun _ _ => rfl, fun _ _ => rfl, fun _ _ _ _ => rfl, fun _ _ _ _ => rfl⟩

theorem forwardResid_density (hb : BumpDur m) (t : ℕ) : forwardResid m (m.bs2 t) (m.bs3 t) t = Lam m t := by
  rw [forwardResid_eq m hb, withObs_self]

/-- **C141.** Without conditions for the end of the series its log-likelihood is that of its first `k` time points plus the logarithms of the
predictive densities of the others: the values that `forward_resid` computes with densities in place of distribution functions. -/
theorem llk_splits (hb : BumpDur m) (he : m.ends_with_last = false) (hi : m.ends_in_last = false) {k : ℕ} (hk : k ≤ m.n_T) :
    llk m = llk { m with n_T := k } + ∑ s ∈ Finset.Ico k m.n_T, Real.log (forwardResid m (m.bs2 s) (m.bs3 s) s) := by
  have h1 : ∀ s, Lam { m with n_T := k } s = Lam m s := fun s => by
    rw [← forwardResid_density hb, ← forwardResid_density (m := { m with n_T := k }) hb]
    exact (length_irrelevant_partial (samePast_length m k s) ⟨he, Or.inr hi⟩ ⟨he, Or.inr hi⟩ _ _).symm
  unfold llk
  simp only [h1, forwardResid_density hb]
  rw [Finset.sum_range_add_sum_Ico _ hk]

/-- The series of C03 (`tvDemo`), one time point longer. -/
noncomputable def longer : Tables ℝ := { tvDemo with n_T := 3 }

/-- **C141, negation for series whose last state ends with them.** Two series of the same model with the same past and the same present; one of them
ends now, the other one later. Their residuals differ: 11/16 and 1. -/
theorem length_wrong :
    ∃ m m' : Tables ℝ, Proper m ∧ Proper m' ∧ SamePast m m' 1 ∧ m.ends_with_last = true ∧ m'.ends_with_last = true ∧ m.ends_in_last = false ∧
      m'.ends_in_last = false ∧ 1 < m.n_T ∧ 1 < m'.n_T ∧ forwardResid m (fun _ => 1) (fun _ _ => 1) 1 = 11 / 16 ∧
      forwardResid m' (fun _ => 1) (fun _ _ => 1) 1 = 1 := by
  refine ⟨tvDemo, longer, tvDemo_proper, { tvDemo_proper with }, samePast_length _ _ _, rfl, rfl, rfl, rfl, by decide, by decide, ?_, ?_⟩
  · rw [forwardResid_eq tvDemo tvDemo_bump]
    have : withObs tvDemo 1 (fun _ => 1) (fun _ _ => 1) = tvDemo := withObs_self tvDemo 1
    rw [this, tvDemo_Lam.2]
  · rw [forwardResid_eq longer tvDemo_bump]
    have : withObs longer 1 (fun _ => 1) (fun _ _ => 1) = longer := withObs_self _ 1
    rw [this]
    have h0 : Lam longer 0 = 1 := by
      simp [Lam, lam, lamSum, lamContrib, lamCell, longer, tvDemo, Finset.sum_range_succ, Tables.ds]
    have : Lam longer 1 = lamSum longer 1 (fun d j => lamCell longer 1 (lam longer 0) (Lam longer 0) d j) := rfl
    rw [this, h0]
    simp [lam, lamSum, lamContrib, lamCell, longer, tvDemo, Finset.sum_range_succ, Tables.ds, Tables.T, Tables.dcol]
    norm_num

theorem cumResid_congr {r r' : ℕ → ℝ} : ∀ n, (∀ s ≤ n, r s = r' s) → cumResid r n = cumResid r' n
  | 0, h => h 0 le_rfl
  | n + 1, h => by simp only [cumResid]; rw [cumResid_congr n fun s hs => h s (by omega), h (n + 1) le_rfl]

theorem sdLoop_congr {r r' : ℕ → ℝ} : ∀ n, (∀ s ≤ n, r s = r' s) → sdLoop r n = sdLoop r' n
  | 0, h => by simp only [sdLoop]; rw [cumResid_congr 0 h]
  | n + 1, h => by simp only [sdLoop]; rw [sdLoop_congr n fun s hs => h s (by omega), cumResid_congr (n + 1) h]

/-- **C141.** The predictive residual at time `n` depends on the differences between observations and predicted means up to this time only. -/
theorem predictive_past {r r' : ℕ → ℝ} (n : ℕ) (h : ∀ s ≤ n, r s = r' s) : predResid r n = predResid r' n := by
  cases n with
  | zero => exact cumResid_congr 0 h
  | succ n => simp only [predResid]; rw [cumResid_congr _ h, sdLoop_congr _ h]

/-- **C141.** The predicted mean at time `t` does not depend on the future either (`mu` at time `t` is given by the covariates). -/
theorem predicted_mean_past (h : SamePast m m' t) (he : SameEnd m m') (M sig : ℕ) {mu mu' : ℕ → ℝ} (hmu : ∀ k, mu (t + m.n_T * k) = mu' (t + m.n_T * k)) :
    predE m M sig mu t = predE m' M sig mu' t := by
  have hs := same_of_end h he
  have hc : ∀ prev L d j, elamCell m M sig mu t prev L d j = elamCell m' M sig mu' t prev L d j := fun prev L d j => by
    have hT : ∀ i, t ≠ 0 → m.T i j (t - 1) = m'.T i j (t - 1) := fun i h0 => h.T (t - 1) (by omega) i j
    unfold elamCell
    by_cases h0 : t = 0
    · simp only [if_pos h0, h.pi, h.ds t le_rfl, hmu, he.n_T]
      rw [← he.n_T, hmu]
    · simp only [if_neg h0, hs.cell t le_rfl d, h.D, h.n_S, dcol_eq h, h.ds t le_rfl, hT _ h0, hmu]
      rw [he.n_T]
  cases t with
  | zero =>
    simp only [predE]
    rw [sbLam_eq_of_same hs]
    congr 1
    funext d j
    exact hc _ _ d j
  | succ s =>
    simp only [predE]
    rw [fwdLam_eq_of_same s (by omega) hs, sbLam_eq_of_same hs, sbLam_eq_of_same (hs.mono (by omega))]
    congr 1
    funext d j
    exact hc _ _ d j

/-- `demo` with time-varying tables. -/
noncomputable def early : Tables ℝ := { demo with tvdtpi := true }

/-- The same with another observation at time 2 and other durations from then on. -/
noncomputable def late : Tables ℝ :=
  { early with
    bs2 := fun s _ => if s < 2 then 1 / 2 else 1 / 7
    ds3 := fun d _ s => if s ≤ 1 then 1 / 2 else if d = 0 then 1 else 0 }

example : SamePast early late 1 ∧ SameEnd early late := by
  refine ⟨⟨rfl, rfl, rfl, rfl, rfl, rfl, rfl, fun s hs => ?_, fun _ _ => rfl, fun s hs d j => ?_, fun _ _ _ _ => rfl⟩, ⟨rfl, rfl, rfl⟩⟩
  · funext j
    simp [early, late, demo]
    omega
  · simp [Tables.ds, early, late, demo, hs]

example : Open { demo with ends_with_last := false } 1 ∧ Open { demo with ends_with_last := false, ends_in_last := false, n_T := 2 } 1 :=
  ⟨⟨rfl, Or.inl (by simp [demo])⟩, ⟨rfl, Or.inr rfl⟩⟩

example : BumpDur { demo with ends_with_last := false, ends_in_last := false } ∧ 2 ≤ demo.n_T := ⟨fun h => by simp [demo] at h, by simp [demo]⟩

end Verif.Past
