import Verif.HsmmFtpLemmas
import Verif.Hsmm
import Verif.Sample
import Mathlib.Analysis.SpecialFunctions.ExpDeriv

/-! Property theorems: gradient of the hidden semi-Markov log-likelihood with fixed transition matrix and initial
distribution, and of event models (C76). -/

namespace Verif.Hsmm

open Finset

/-- Tables of an event model: emissions from means `mu`, the remaining tables from `m`. -/
noncomputable def eventTables (m : Tables ℝ) (e : EventArgs) (mu : ℕ → ℕ → ℕ → ℝ) : Tables ℝ :=
  { m with
    hmp := true
    event_width := e.event_width
    bs3 := eventBs { e with mu := mu } }

/-- The call of `llkFTPgrad` for a coefficient of the mean of signal `mI` in bump state `J` with model matrix column `x`
(hsmm.py 3431-3511, 4063-4088). -/
noncomputable def callEmission (e : EventArgs) (mu : ℕ → ℕ → ℕ → ℝ) (J mI : ℕ) (x : ℕ → ℝ) : Ftp where
  isDur := false
  jidx := J
  midx := mI
  b_grad := x
  d_grad2 := fun _ => 0
  d_grad3 := fun _ _ => 0
  y := e.y
  mu := mu
  weights := e.template
  scale := e.scale
  hmp_code := e.hmp_code
  rho := e.rho.getD 999

/-- The call of `llkFTPgrad` for a coefficient of the duration column `J`. -/
noncomputable def callDuration (e : EventArgs) (mu : ℕ → ℕ → ℕ → ℝ) (J : ℕ) (g2 : ℕ → ℝ) (g3 : ℕ → ℕ → ℝ) : Ftp :=
  { callEmission e mu J 0 (fun _ => 0) with
    isDur := true
    d_grad2 := g2
    d_grad3 := g3 }

/-- Tables with non-negative entries under which some admissible segmentation is possible. -/
theorem Lam_ne_zero_of_segmentation (m : Tables ℝ) (hm : NonNeg m) (hT : 0 < m.n_T) (l : List Seg)
    (hl : Admissible m l) (hw : 0 < weight m l) : ∀ t < m.n_T, Lam m t ≠ 0 := by
  have hpos : 0 < ∑ l ∈ allSegs m, weight m l :=
    sum_pos' (fun l _ => weightUpTo_nonneg m hm _ l) ⟨l, (mem_allSegs m hT l).2 hl, hw⟩
  have hL := Lam_pos_of_sum_pos m hm hpos
  intro t ht
  by_cases h : t < m.n_T - 1
  · exact hL t h
  · have e : t = m.n_T - 1 := by omega
    subst e
    intro h0
    have h1 := Lam_final_mul m hT hL
    rw [h0, zero_mul] at h1
    rw [← h1] at hpos
    exact lt_irrefl _ hpos

theorem ldWrapper_deriv (code : ℕ) (y p s : ℝ) (hs : 0 < s) :
    HasDerivAt (fun q => ldWrapper code y q s) ((if code = 1 then 2 else 1) * (y - p) / s) p := by
  unfold ldWrapper
  by_cases hc : code = 1
  · simp only [hc, if_true]
    have h1 : HasDerivAt (fun q : ℝ => y - q) (-1) p := (hasDerivAt_id p).const_sub y
    refine (((h1.fun_pow 2).div_const s).neg.sub_const (Real.log s)).congr_deriv ?_
    simp only [Nat.cast_ofNat, Nat.add_one_sub_one, pow_one]
    ring
  · simp only [hc, if_false]
    have hq : Real.sqrt s ≠ 0 := (Real.sqrt_pos.2 hs).ne'
    have hqs : Real.sqrt s ^ 2 = s := Real.sq_sqrt hs.le
    have h1 : HasDerivAt (fun q : ℝ => (y - q) / Real.sqrt s) (-1 / Real.sqrt s) p :=
      ((hasDerivAt_id p).const_sub y).div_const _
    refine ((((h1.fun_pow 2).div_const 2).neg.sub_const _).sub_const _).congr_deriv ?_
    simp only [Nat.cast_ofNat, Nat.add_one_sub_one, pow_one]
    generalize Real.sqrt s = q at hq hqs
    rw [← hqs]
    field_simp

section
variable (e : EventArgs) (mu : ℝ → ℕ → ℕ → ℕ → ℝ) (dmu : ℕ → ℕ → ℕ → ℝ) (θ0 : ℝ)
variable (hmu : ∀ t m j, HasDerivAt (fun θ => mu θ t m j) (dmu t m j) θ0)
include hmu

theorem lag_deriv (t m j : ℕ) :
    HasDerivAt (fun θ => lag (fun s => mu θ s m j) t) (lag (fun s => dmu s m j) t) θ0 := by
  unfold lag
  split_ifs
  · exact hasDerivAt_const _ _
  · exact hmu _ _ _

theorem eBump_deriv (t m k j : ℕ) :
    HasDerivAt (fun θ => eBump { e with mu := mu θ } t m k j) (eBump { e with mu := dmu } t m k j) θ0 := by
  unfold eBump
  cases hr : e.rho with
  | none => exact (hmu t m j).const_mul _
  | some r =>
    simp only
    split_ifs
    · exact (((hmu t m j).const_mul _).const_mul _).add (((lag_deriv mu dmu θ0 hmu t m j).const_mul _).const_mul _)
    · exact ((hmu t m j).const_mul _).const_mul _

theorem eFlat_deriv (t m k j : ℕ) :
    HasDerivAt (fun θ => eFlat { e with mu := mu θ } t m k j) (eFlat { e with mu := dmu } t m k j) θ0 := by
  unfold eFlat
  by_cases hk : k = 0
  · simp only [hk, if_true]; exact hasDerivAt_const _ _
  · simp only [hk, if_false]
    cases hr : e.rho with
    | none => exact hasDerivAt_const _ _
    | some r =>
      simp only
      by_cases hj : 0 < j
      · simp only [hj, if_true]
        exact ((lag_deriv mu dmu θ0 hmu t m (j - 1)).const_mul _).const_mul _
      · simp only [hj, if_false]; exact hasDerivAt_const _ _

end

/-- Derivative of `bs[t,k,j]` when the means move with `dmu`. -/
noncomputable def eventDbs (e : EventArgs) (mu dmu : ℕ → ℕ → ℕ → ℝ) (t k j : ℕ) : ℝ :=
  let E := fun (v : ℕ → ℕ → ℕ → ℝ) m =>
    if j % 2 = 1 then eBump { e with mu := v } t m k j else eFlat { e with mu := v } t m k j
  eventBs { e with mu := mu } t k j *
    ∑ m ∈ range e.M, (if e.hmp_code = 1 then 2 else 1) * (e.y t m - E mu m) / e.scale * E dmu m

theorem eventBs_deriv (e : EventArgs) (mu : ℝ → ℕ → ℕ → ℕ → ℝ) (dmu : ℕ → ℕ → ℕ → ℝ) (θ0 : ℝ)
    (hmu : ∀ t m j, HasDerivAt (fun θ => mu θ t m j) (dmu t m j) θ0) (hs : 0 < e.scale) (t k j : ℕ) :
    HasDerivAt (fun θ => eventBs { e with mu := mu θ } t k j) (eventDbs e (mu θ0) dmu t k j) θ0 := by
  unfold eventDbs eventBs
  by_cases hj : j % 2 = 1
  · simp only [hj, if_true]
    refine HasDerivAt.exp (HasDerivAt.fun_sum fun m _ => ?_)
    exact (ldWrapper_deriv e.hmp_code (e.y t m) _ e.scale hs).comp θ0 (eBump_deriv e mu dmu θ0 hmu t m k j)
  · simp only [hj, if_false]
    by_cases hk : k ≤ 1
    · simp only [hk, if_true]
      refine HasDerivAt.exp (HasDerivAt.fun_sum fun m _ => ?_)
      exact (ldWrapper_deriv e.hmp_code (e.y t m) _ e.scale hs).comp θ0 (eFlat_deriv e mu dmu θ0 hmu t m k j)
    · simp only [hk, if_false, zero_mul]; exact hasDerivAt_const _ _

/-- Movement of the means when one coefficient of signal `mI` in state `J` moves. -/
def oneMu (J mI : ℕ) (x : ℕ → ℝ) (t m j : ℕ) : ℝ := if m = mI ∧ j = J then x t else 0

theorem eBump_oneMu_other (e : EventArgs) (J mI : ℕ) (x : ℕ → ℝ) (t m k j : ℕ) (h : ¬(m = mI ∧ j = J)) :
    eBump { e with mu := oneMu J mI x } t m k j = 0 := by
  have hz : ∀ s, oneMu J mI x s m j = 0 := fun s => by unfold oneMu; rw [if_neg h]
  unfold eBump lag
  cases e.rho with
  | none => simp [hz]
  | some r => simp [hz]

theorem eFlat_oneMu_other (e : EventArgs) (J mI : ℕ) (x : ℕ → ℝ) (t m k j : ℕ) (h : ¬(m = mI ∧ J + 1 = j)) :
    eFlat { e with mu := oneMu J mI x } t m k j = 0 := by
  unfold eFlat lag
  by_cases hk : k = 0
  · simp [hk]
  · simp only [hk, if_false]
    cases e.rho with
    | none => rfl
    | some r =>
      simp only
      by_cases hj : 0 < j
      · have hz : ∀ s, oneMu J mI x s m (j - 1) = 0 := fun s => by
          unfold oneMu; rw [if_neg]
          rintro ⟨h1, h2⟩
          exact h ⟨h1, by omega⟩
        simp [hz]
      · simp [hj]

theorem eventDbs_bump (e : EventArgs) (mu : ℕ → ℕ → ℕ → ℝ) (J mI : ℕ) (x : ℕ → ℝ) (hm : mI < e.M) (t k j : ℕ)
    (hj : j % 2 = 1) :
    eventDbs e mu (oneMu J mI x) t k j =
      if J = j then eventBs { e with mu := mu } t k j *
        ((if e.hmp_code = 1 then 2 else 1) * (e.y t mI - eBump { e with mu := mu } t mI k j) / e.scale) *
          eBump { e with mu := oneMu J mI x } t mI k j else 0 := by
  unfold eventDbs
  simp only [hj, if_true]
  by_cases hJ : J = j
  · rw [if_pos hJ, sum_eq_single mI]
    · ring
    · intro m _ hne
      rw [eBump_oneMu_other e J mI x t m k j (fun hc => hne hc.1), mul_zero]
    · intro hn
      exact absurd (mem_range.2 hm) hn
  · rw [if_neg hJ, sum_eq_zero, mul_zero]
    intro m _
    rw [eBump_oneMu_other e J mI x t m k j (fun hc => hJ hc.2.symm), mul_zero]

theorem eventDbs_flat (e : EventArgs) (mu : ℕ → ℕ → ℕ → ℝ) (J mI : ℕ) (x : ℕ → ℝ) (hm : mI < e.M) (t k j : ℕ)
    (hj : j % 2 = 0) :
    eventDbs e mu (oneMu J mI x) t k j =
      if J + 1 = j then eventBs { e with mu := mu } t k j *
        ((if e.hmp_code = 1 then 2 else 1) * (e.y t mI - eFlat { e with mu := mu } t mI k j) / e.scale) *
          eFlat { e with mu := oneMu J mI x } t mI k j else 0 := by
  have hj' : ¬ j % 2 = 1 := by omega
  unfold eventDbs
  simp only [hj', if_false]
  by_cases hJ : J + 1 = j
  · rw [if_pos hJ, sum_eq_single mI]
    · ring
    · intro m _ hne
      rw [eFlat_oneMu_other e J mI x t m k j (fun hc => hne hc.1), mul_zero]
    · intro hn
      exact absurd (mem_range.2 hm) hn
  · rw [if_neg hJ, sum_eq_zero, mul_zero]
    intro m _
    rw [eFlat_oneMu_other e J mI x t m k j (fun hc => hJ hc.2), mul_zero]

/-- Direction of the tables of an event model when one coefficient of an emission model moves. -/
noncomputable def emissionDir (m : Tables ℝ) (e : EventArgs) (mu : ℕ → ℕ → ℕ → ℝ) (J mI : ℕ) (x : ℕ → ℝ) : Tables ℝ :=
  { m with
    hmp := true
    event_width := e.event_width
    bs2 := fun _ _ => 0
    bs3 := eventDbs e mu (oneMu J mI x)
    ds2 := fun _ _ => 0
    ds3 := fun _ _ _ => 0
    T2 := fun _ _ => 0
    T3 := fun _ _ _ => 0
    pi := fun _ => 0 }

theorem rho_cases (e : EventArgs) (hr : ∀ r, e.rho = some r → r ^ 2 < 1) :
    (e.rho = none ∧ ¬ (e.rho.getD 999 < 999)) ∨ ∃ r, e.rho = some r ∧ e.rho.getD 999 = r ∧ r < 999 := by
  cases h : e.rho with
  | none => left; simp
  | some r =>
    right
    refine ⟨r, rfl, rfl, ?_⟩
    have := hr r h
    nlinarith [sq_nonneg (r - 1)]

theorem emissionDir_ok (m : Tables ℝ) (e : EventArgs) (mu : ℕ → ℕ → ℕ → ℝ) (J mI : ℕ) (x : ℕ → ℝ) (hm : mI < e.M)
    (hJ : J % 2 = 1) (hc : e.hmp_code = 1 ∨ e.hmp_code = 2) (hr : ∀ r, e.rho = some r → r ^ 2 < 1) :
    FtpDir (eventTables m e mu) (callEmission e mu J mI x) (emissionDir m e mu J mI x) where
  sw := ⟨rfl, rfl, rfl⟩
  code := ⟨fun _ => by
      change e.hmp_code ≠ 0
      rcases hc with h | h <;> rw [h] <;> decide, fun _ => rfl⟩
  T := fun i j t => by cases h : m.tvdtpi <;> simp [Tables.T, emissionDir, h]
  pi := fun j => rfl
  dur := fun d j t => by cases h : m.tvdtpi <;> simp [Tables.ds, emissionDir, callEmission, h]
  em2 := fun h => absurd h (by simp [eventTables])
  em3dur := fun _ h => absurd h (by simp [callEmission])
  odd := fun _ _ => hJ
  em3start := fun _ _ j => by
    change eventDbs e mu (oneMu J mI x) 0 0 j = if J = j then _ else _
    by_cases hj : j % 2 = 1
    · rw [eventDbs_bump e mu J mI x hm 0 0 j hj]
      by_cases hJj : J = j
      · rw [if_pos hJj, if_pos hJj]
        subst hJj
        change _ = eventBs { e with mu := mu } 0 0 J * ((_ * (e.y 0 mI - _)) / e.scale) * _
        generalize eventBs { e with mu := mu } 0 0 J = B
        rcases rho_cases e hr with ⟨h1, h2⟩ | ⟨r, h1, h2, h3⟩
        · simp only [Ftp.ebump0, Ftp.dbump0, callEmission, Ftp.fac, if_false, eBump, h1, oneMu,
            and_self, if_true, Option.getD_none, lt_irrefl]
        · have h2' : r < 999 := h3
          simp only [Ftp.ebump0, Ftp.dbump0, callEmission, Ftp.fac, Ftp.d0, Option.getD_some, h2', if_true, eBump, h1, oneMu, and_self,
            lt_irrefl, if_false]
          ring_nf
      · rw [if_neg hJj, if_neg hJj]
    · have hJj : ¬ J = j := fun h => hj (h ▸ hJ)
      rw [eventDbs_flat e mu J mI x hm 0 0 j (by omega), if_neg hJj]
      simp [eFlat]
  em3bump := fun _ _ t k j hj => by
    change eventDbs e mu (oneMu J mI x) (t + 1) k j = if J = j then _ else _
    rw [eventDbs_bump e mu J mI x hm (t + 1) k j hj]
    by_cases hJj : J = j
    · rw [if_pos hJj, if_pos hJj]
      subst hJj
      change _ = eventBs { e with mu := mu } (t + 1) k J * ((_ * (e.y (t + 1) mI - _)) / e.scale) * _
      generalize eventBs { e with mu := mu } (t + 1) k J = B
      rcases rho_cases e hr with ⟨h1, h2⟩ | ⟨r, h1, h2, h3⟩
      · simp only [Ftp.ebumpC, Ftp.dbumpC, callEmission, Ftp.fac, if_false, eBump, h1, oneMu,
            and_self, if_true, Option.getD_none, lt_irrefl]
      · by_cases hk : 0 < k
        · simp only [Ftp.ebumpC, Ftp.dbumpC, callEmission, Ftp.fac, Ftp.d0, Ftp.d1, Option.getD_some, h3, if_true, eBump, h1, oneMu,
            and_self, hk, lag, Nat.add_eq_zero_iff, one_ne_zero, and_false, if_false, Nat.add_sub_cancel]
          ring_nf
        · simp only [Ftp.ebumpC, Ftp.dbumpC, callEmission, Ftp.fac, Ftp.d0, Ftp.d1, Option.getD_some, h3, if_true, eBump, h1, oneMu,
            and_self, hk, if_false, add_zero]
          ring_nf
    · rw [if_neg hJj, if_neg hJj]
  em3flat0 := fun _ _ t j hj => by
    change eventDbs e mu (oneMu J mI x) (t + 1) 0 j = 0
    rw [eventDbs_flat e mu J mI x hm (t + 1) 0 j hj]
    simp [eFlat]
  em3flat1 := fun _ _ t j hj => by
    change eventDbs e mu (oneMu J mI x) (t + 1) 1 j = if e.rho.getD 999 < 999 ∧ J + 1 = j then _ else _
    rw [eventDbs_flat e mu J mI x hm (t + 1) 1 j hj]
    by_cases hJj : J + 1 = j
    · rw [if_pos hJj]
      subst hJj
      rcases rho_cases e hr with ⟨h1, h2⟩ | ⟨r, h1, h2, h3⟩
      · rw [if_neg (show ¬ (e.rho.getD 999 < 999 ∧ J + 1 = J + 1) from fun hc => h2 hc.1)]
        simp [eFlat, h1]
      · have h2' : e.rho.getD 999 < 999 := by rw [h2]; exact h3
        rw [if_pos (show e.rho.getD 999 < 999 ∧ J + 1 = J + 1 from ⟨h2', rfl⟩)]
        change _ = eventBs { e with mu := mu } (t + 1) 1 (J + 1) * ((_ * (e.y (t + 1) mI - _)) / e.scale) * _
        generalize eventBs { e with mu := mu } (t + 1) 1 (J + 1) = B
        simp only [callEmission, Ftp.fac, Ftp.d1, Option.getD_some, h3, if_true, eFlat, h1, oneMu, and_self, lag,
          Nat.add_eq_zero_iff, one_ne_zero, and_false, if_false, Nat.add_sub_cancel, Nat.zero_lt_succ, eventTables]
        ring_nf
    · rw [if_neg hJj, if_neg (fun hc => hJj hc.2)]

/-- C76. Event models with fixed transition matrix and initial distribution: the gradient entry that `llkFTPgrad`
computes for a coefficient of the mean of signal `mI` in the bump state `J` (model matrix column `x`) is the derivative
of the log-likelihood of the emission tables built from the means, with or without autocorrelation, for exponential and
Gaussian event densities, any number of signals and any template. -/
theorem llkFTPgrad_event_hasDerivAt (m : Tables ℝ) (e : EventArgs) (mu : ℝ → ℕ → ℕ → ℕ → ℝ) (θ0 : ℝ) (J mI : ℕ)
    (x : ℕ → ℝ) (hmu : ∀ t s j, HasDerivAt (fun θ => mu θ t s j) (if s = mI ∧ j = J then x t else 0) θ0)
    (hJ : J % 2 = 1) (hm : mI < e.M) (hs : 0 < e.scale) (hc : e.hmp_code = 1 ∨ e.hmp_code = 2)
    (hr : ∀ r, e.rho = some r → r ^ 2 < 1) (hT : 0 < m.n_T) (hS : 0 < m.n_S) (hD : 0 < m.D - 1)
    (hn : NonNeg (eventTables m e (mu θ0))) (l : List Seg) (hl : Admissible (eventTables m e (mu θ0)) l)
    (hw : 0 < weight (eventTables m e (mu θ0)) l) :
    HasDerivAt (fun θ => llk (eventTables m e (mu θ)))
      (llkFTPgrad (eventTables m e (mu θ0)) (callEmission e (mu θ0) J mI x)) θ0 := by
  have hL : ∀ t < m.n_T, Lam (eventTables m e (mu θ0)) t ≠ 0 := Lam_ne_zero_of_segmentation _ hn hT l hl hw
  let f : Curve :=
    { base := eventTables m e (mu θ0)
      bs2 := fun _ => m.bs2
      bs3 := fun θ => eventBs { e with mu := mu θ }
      ds2 := fun _ => m.ds2
      ds3 := fun _ => m.ds3
      T2 := fun _ => m.T2
      T3 := fun _ => m.T3
      pi := fun _ => m.pi }
  have hf : ∀ θ, f.at θ = eventTables m e (mu θ) := fun _ => rfl
  have hd : HasTabDeriv f (emissionDir m e (mu θ0) J mI x) θ0 := by
    refine ⟨⟨rfl, rfl, rfl⟩, ?_, ?_, ?_, ?_, ?_⟩
    · intro h; exact absurd h (by simp [f, eventTables])
    · intro _ t k j _
      exact eventBs_deriv e mu (oneMu J mI x) θ0 hmu hs t k j
    · intro d j t _ _
      have : (emissionDir m e (mu θ0) J mI x).ds d j t = 0 := by
        cases h : m.tvdtpi <;> simp [Tables.ds, emissionDir, h]
      rw [this]
      exact hasDerivAt_const θ0 (m.ds d j t)
    · intro i j t _ _ _
      have : (emissionDir m e (mu θ0) J mI x).T i j t = 0 := by
        cases h : m.tvdtpi <;> simp [Tables.T, emissionDir, h]
      rw [this]
      exact hasDerivAt_const θ0 (m.T i j t)
    · intro j _
      exact hasDerivAt_const θ0 (m.pi j)
  have h1 := llk_hasDerivAt_dir hd hT (by intro s hs'; rw [hf]; exact hL s hs')
  simp only [hf] at h1
  rw [llkFTPgrad_eq_gradDir _ _ _ (emissionDir_ok m e (mu θ0) J mI x hm hJ hc hr) hT hS hD hL]
  exact h1

/-- C76. The same for a coefficient of the duration model of column `J`, when the derivatives of the duration table are
the gradient columns handed to `llkFTPgrad`. -/
theorem llkFTPgrad_event_duration (m : Tables ℝ) (e : EventArgs) (mu : ℕ → ℕ → ℕ → ℝ) (ds2 : ℝ → ℕ → ℕ → ℝ)
    (ds3 : ℝ → ℕ → ℕ → ℕ → ℝ) (θ0 : ℝ) (J : ℕ) (g2 : ℕ → ℝ) (g3 : ℕ → ℕ → ℝ)
    (h2 : m.tvdtpi = false → ∀ d j, HasDerivAt (fun θ => ds2 θ d j) (if J = j then g2 d else 0) θ0)
    (h3 : m.tvdtpi = true → ∀ d j t, HasDerivAt (fun θ => ds3 θ d j t) (if J = j then g3 d t else 0) θ0)
    (hc : e.hmp_code = 1 ∨ e.hmp_code = 2) (hT : 0 < m.n_T) (hS : 0 < m.n_S) (hD : 0 < m.D - 1)
    (hn : NonNeg (eventTables { m with ds2 := ds2 θ0, ds3 := ds3 θ0 } e mu)) (l : List Seg)
    (hl : Admissible (eventTables { m with ds2 := ds2 θ0, ds3 := ds3 θ0 } e mu) l)
    (hw : 0 < weight (eventTables { m with ds2 := ds2 θ0, ds3 := ds3 θ0 } e mu) l) :
    HasDerivAt (fun θ => llk (eventTables { m with ds2 := ds2 θ, ds3 := ds3 θ } e mu))
      (llkFTPgrad (eventTables { m with ds2 := ds2 θ0, ds3 := ds3 θ0 } e mu) (callDuration e mu J g2 g3)) θ0 := by
  have hL : ∀ t < m.n_T, Lam (eventTables { m with ds2 := ds2 θ0, ds3 := ds3 θ0 } e mu) t ≠ 0 :=
    Lam_ne_zero_of_segmentation _ hn hT l hl hw
  let f : Curve :=
    { base := eventTables { m with ds2 := ds2 θ0, ds3 := ds3 θ0 } e mu
      bs2 := fun _ => m.bs2
      bs3 := fun _ => eventBs { e with mu := mu }
      ds2 := ds2
      ds3 := ds3
      T2 := fun _ => m.T2
      T3 := fun _ => m.T3
      pi := fun _ => m.pi }
  have hf : ∀ θ, f.at θ = eventTables { m with ds2 := ds2 θ, ds3 := ds3 θ } e mu := fun _ => rfl
  let δ : Tables ℝ :=
    { eventTables { m with ds2 := ds2 θ0, ds3 := ds3 θ0 } e mu with
      bs2 := fun _ _ => 0
      bs3 := fun _ _ _ => 0
      ds2 := fun d j => if J = j then g2 d else 0
      ds3 := fun d j t => if J = j then g3 d t else 0
      T2 := fun _ _ => 0
      T3 := fun _ _ _ => 0
      pi := fun _ => 0 }
  have hd : HasTabDeriv f δ θ0 := by
    refine ⟨⟨rfl, rfl, rfl⟩, ?_, ?_, ?_, ?_, ?_⟩
    · intro h; exact absurd h (by simp [f, eventTables])
    · intro _ t k j _
      exact hasDerivAt_const θ0 (eventBs { e with mu := mu } t k j)
    · intro d j t _ _
      cases htv : m.tvdtpi
      · have e1 : (fun θ => (f.at θ).ds d j t) = fun θ => ds2 θ d j := by
          funext θ; simp [Tables.ds, Curve.at, f, eventTables, htv]
        have e2 : δ.ds d j t = if J = j then g2 d else 0 := by simp [Tables.ds, δ, eventTables, htv]
        rw [e1, e2]; exact h2 htv d j
      · have e1 : (fun θ => (f.at θ).ds d j t) = fun θ => ds3 θ d j t := by
          funext θ; simp [Tables.ds, Curve.at, f, eventTables, htv]
        have e2 : δ.ds d j t = if J = j then g3 d t else 0 := by simp [Tables.ds, δ, eventTables, htv]
        rw [e1, e2]; exact h3 htv d j t
    · intro i j t _ _ _
      have : δ.T i j t = 0 := by cases h : m.tvdtpi <;> simp [Tables.T, δ, eventTables, h]
      rw [this]
      exact hasDerivAt_const θ0 (m.T i j t)
    · intro j _
      exact hasDerivAt_const θ0 (m.pi j)
  have hdir : FtpDir (eventTables { m with ds2 := ds2 θ0, ds3 := ds3 θ0 } e mu) (callDuration e mu J g2 g3) δ := by
    refine ⟨⟨rfl, rfl, rfl⟩, ⟨fun _ => ?_, fun _ => rfl⟩, ?_, fun _ => rfl, ?_, ?_, fun _ _ _ _ _ => rfl, ?_, ?_, ?_, ?_,
      ?_⟩
    · change e.hmp_code ≠ 0
      rcases hc with h | h <;> rw [h] <;> decide
    · intro i j t; cases h : m.tvdtpi <;> simp [Tables.T, δ, eventTables, h]
    · intro d j t
      cases htv : m.tvdtpi <;>
        simp [Tables.ds, δ, eventTables, htv, callDuration, callEmission, ftpDG]
    · intro h; exact absurd h (by simp [eventTables])
    all_goals intro _ h; exact absurd h (by simp [callDuration])
  have h1 := llk_hasDerivAt_dir hd hT (by intro s hs'; rw [hf]; exact hL s hs')
  simp only [hf] at h1
  rw [llkFTPgrad_eq_gradDir _ _ _ hdir hT hS hD hL]
  exact h1

/-- C76. Models without events and with fixed transition matrix and initial distribution: `llkFTPgrad` returns the same
gradient as `llkgrad` for emission and duration coefficients. -/
theorem llkFTPgrad_eq_llkgrad (m : Tables ℝ) (a : Ftp) (g : GradTables) (hh : m.hmp = false) (hc : a.hmp_code = 0)
    (hk : g.kind = if a.isDur then .duration else .emission) (hj : g.jidx = a.jidx) (hb : g.b_grad = a.b_grad)
    (h2 : g.d_grad2 = a.d_grad2) (h3 : g.d_grad3 = a.d_grad3) (hT : 0 < m.n_T) (hS : 0 < m.n_S) (hD : 0 < m.D - 1)
    (hn : NonNeg m) (l : List Seg) (hl : Admissible m l) (hw : 0 < weight m l) : llkFTPgrad m a = llkgrad m g := by
  have hL : ∀ t < m.n_T, Lam m t ≠ 0 := Lam_ne_zero_of_segmentation _ hn hT l hl hw
  have hni : g.kind = .initial → m.tvdtpi = false := by
    intro h
    rw [hk] at h
    cases ha : a.isDur <;> rw [ha] at h <;> simp at h
  rw [llkgrad_eq_gradDir m g hh hT hS hD hL hni]
  refine llkFTPgrad_eq_gradDir m a _ ?_ hT hS hD hL
  have hnt : ∀ m : Tables ℝ, m.hmp = false → ¬ m.hmp = true := fun m h => by rw [h]; decide
  refine ⟨⟨rfl, rfl, rfl⟩, ⟨fun h => absurd h (hnt m hh), fun h => absurd hc h⟩, ?_, ?_, ?_, ?_, ?_, ?_, ?_, ?_, ?_, ?_⟩
  · intro i j t
    cases ha : a.isDur <;> cases htv : m.tvdtpi <;> simp [Tables.T, dirOf, hk, ha, htv]
  · intro j
    cases ha : a.isDur <;> simp [dirOf, hk, ha]
  · intro d j t
    cases ha : a.isDur <;> cases htv : m.tvdtpi <;> simp [Tables.ds, dirOf, hk, ha, htv, ftpDG, hj, h2, h3]
  · intro _ t j
    cases ha : a.isDur <;> simp [dirOf, hk, ha, hj, hb]
  all_goals intro h; exact absurd h (hnt m hh)

/-- The tables of the examples: a flat and a bump that lasts two time points, three time points. -/
noncomputable def demoEvent : Tables ℝ :=
  { demo with
    D := 4
    ends_with_last := false
    ends_in_last := false
    ds2 := fun d j => if j = 1 then (if d = 1 then 1 else 0) else 1 / 3 }

noncomputable def demoArgs : EventArgs where
  M := 2
  event_width := 2
  y := fun t m => t + m
  mu := fun _ _ _ => 0
  template := fun k => k + 1
  scale := 2
  hmp_code := 2
  rho := some (1 / 2)

theorem eventBs_nonneg (e : EventArgs) (t k j : ℕ) : 0 ≤ eventBs e t k j := by
  unfold eventBs
  split_ifs
  · exact (Real.exp_pos _).le
  · exact (Real.exp_pos _).le
  · exact le_rfl

theorem demoEvent_ok (mu : ℕ → ℕ → ℕ → ℝ) : NonNeg (eventTables demoEvent demoArgs mu) ∧
    Admissible (eventTables demoEvent demoArgs mu) [⟨1, 1, 1⟩, ⟨0, 0, 0⟩] ∧
      0 < weight (eventTables demoEvent demoArgs mu) [⟨1, 1, 1⟩, ⟨0, 0, 0⟩] := by
  refine ⟨?_, ?_, ?_⟩
  · refine ⟨?_, fun _ _ _ => eventBs_nonneg _ _ _ _, ?_, ?_, ?_, ?_, ?_⟩
    · intro t j; simp [eventTables, demoEvent, demo]
    · intro d j
      simp only [eventTables, demoEvent]
      split_ifs <;> norm_num
    all_goals intros; simp [eventTables, demoEvent, demo]
  · refine ⟨⟨rfl, by decide, rfl⟩, ?_, ⟨1, 1, 1⟩, _, rfl, ?_, ?_, ?_, ?_⟩
    · intro s hs
      simp at hs
      rcases hs with rfl | rfl <;> simp [SegOk, eventTables, demoEvent, demo, demoArgs]
    all_goals simp [eventTables, demoEvent, demo]
  · have hb : ∀ t k j, k ≤ 1 → 0 < eventBs { demoArgs with mu := mu } t k j := by
      intro t k j hk
      unfold eventBs
      split_ifs
      exact Real.exp_pos _
      exact Real.exp_pos _
    simp only [weight, weightUpTo]
    refine mul_pos (mul_pos (mul_pos ?_ ?_) ?_) (mul_pos (mul_pos ?_ ?_) ?_)
    · simp [Tables.T, eventTables, demoEvent, demo]
    · simp [Tables.ds, Tables.dcol, eventTables, demoEvent, demo]
    · refine prod_pos fun t ht => ?_
      simp only [obs, eventTables, if_true]
      split_ifs
      all_goals exact hb _ _ _ (by simp [demoArgs])
    · simp [eventTables, demoEvent, demo]
    · simp [Tables.ds, eventTables, demoEvent, demo]
    · refine prod_pos fun t ht => ?_
      simp only [obs, eventTables, if_true]
      split_ifs
      all_goals exact hb _ _ _ (by simp [demoArgs])

/-- The hypotheses are met by a model with autocorrelation, two signals and the means `θ * (t + 1)` of signal 1. -/
example : HasDerivAt (fun θ => llk (eventTables demoEvent demoArgs fun t m j => if m = 1 ∧ j = 1 then θ * (t + 1) else 0))
    (llkFTPgrad (eventTables demoEvent demoArgs fun t m j => if m = 1 ∧ j = 1 then 3 * (t + 1) else 0)
      (callEmission demoArgs (fun t m j => if m = 1 ∧ j = 1 then 3 * ((t : ℝ) + 1) else 0) 1 1 fun t => t + 1)) 3 := by
  refine llkFTPgrad_event_hasDerivAt demoEvent demoArgs
    (fun θ t m j => if m = 1 ∧ j = 1 then θ * (t + 1) else 0) 3 1 1 (fun t => t + 1) ?_ rfl (by decide)
    (by norm_num [demoArgs]) (Or.inr rfl) ?_ (by decide) (by decide) (by decide) (demoEvent_ok _).1 _
    (demoEvent_ok _).2.1 (demoEvent_ok _).2.2
  · intro t s j
    by_cases h : s = 1 ∧ j = 1
    · simp only [h, and_self, if_true]
      simpa using (hasDerivAt_id (3 : ℝ)).mul_const ((t : ℝ) + 1)
    · simp only [h, if_false]
      exact hasDerivAt_const _ _
  · intro r hr
    have : r = 1 / 2 := by simpa [demoArgs] using hr.symm
    rw [this]; norm_num

/-- Durations of the flat that change with `θ` around `θ = 1 / 3`. -/
example (mu : ℕ → ℕ → ℕ → ℝ) :
    HasDerivAt (fun θ => llk (eventTables { demoEvent with
        ds2 := fun d j => if j = 0 ∧ d = 0 then θ else demoEvent.ds2 d j
        ds3 := demoEvent.ds3 } demoArgs mu))
      (llkFTPgrad (eventTables { demoEvent with
        ds2 := fun d j => if j = 0 ∧ d = 0 then 1 / 3 else demoEvent.ds2 d j
        ds3 := demoEvent.ds3 } demoArgs mu)
        (callDuration demoArgs mu 0 (fun d => if d = 0 then 1 else 0) fun _ _ => 0)) (1 / 3) := by
  have e : (fun d j => if j = 0 ∧ d = 0 then 1 / 3 else demoEvent.ds2 d j) = demoEvent.ds2 := by
    funext d j
    by_cases h : j = 0 ∧ d = 0
    · rw [if_pos h, h.1]
      simp [demoEvent]
    · rw [if_neg h]
  have hm : ({ demoEvent with
        ds2 := fun d j => if j = 0 ∧ d = 0 then 1 / 3 else demoEvent.ds2 d j
        ds3 := demoEvent.ds3 } : Tables ℝ) = demoEvent := by rw [e]
  refine llkFTPgrad_event_duration demoEvent demoArgs mu
    (fun θ d j => if j = 0 ∧ d = 0 then θ else demoEvent.ds2 d j) (fun _ => demoEvent.ds3) (1 / 3) 0
    (fun d => if d = 0 then 1 else 0) (fun _ _ => 0) ?_ ?_ (Or.inr rfl) (by decide) (by decide) (by decide) ?_
    [⟨1, 1, 1⟩, ⟨0, 0, 0⟩] ?_ ?_
  · intro _ d j
    by_cases hj : j = 0
    · by_cases hd : d = 0
      · simp only [hj, hd, and_self, if_true]; exact hasDerivAt_id _
      · simp only [hj, hd, and_false, if_false, if_true]; exact hasDerivAt_const _ _
    · have hj' : ¬ 0 = j := fun h => hj h.symm
      simp only [hj, hj', false_and, if_false]; exact hasDerivAt_const _ _
  · intro h
    exact absurd h (by simp [demoEvent, demo])
  all_goals rw [hm]
  · exact (demoEvent_ok mu).1
  · exact (demoEvent_ok mu).2.1
  · exact (demoEvent_ok mu).2.2

theorem demo_ok : NonNeg demo ∧ Admissible demo [⟨1, 1, 1⟩, ⟨0, 0, 0⟩] ∧ 0 < weight demo [⟨1, 1, 1⟩, ⟨0, 0, 0⟩] := by
  refine ⟨⟨?_, ?_, ?_, ?_, ?_, ?_, ?_⟩, ⟨⟨rfl, by decide, rfl⟩, ?_, _, _, rfl, by decide, by decide, ?_, ?_⟩, ?_⟩
  any_goals (intros; simp [demo])
  · rename_i s hs
    simp at hs
    rcases hs with rfl | rfl <;> simp [SegOk]
  · simp [weight, weightUpTo, obsProd, obs, Tables.T, Tables.ds]

/-- Emission column `1, 2, 3` of state 1 in the two-state series of `demo`. -/
example : llkFTPgrad demo { callEmission demoArgs (fun _ _ _ => 0) 1 0 (fun t => t + 1) with hmp_code := 0 } =
    llkgrad demo ⟨.emission, 1, fun t => t + 1, fun _ => 0, fun _ _ => 0, fun _ => 0, fun _ _ => 0, fun _ => 0⟩ :=
  llkFTPgrad_eq_llkgrad _ _ _ rfl rfl rfl rfl rfl rfl rfl (by decide) (by decide) (by decide) demo_ok.1 _ demo_ok.2.1
    demo_ok.2.2

/-- C76 fails for event models whose transition matrix and initial distribution are estimated (`T = pi = None` is allowed
by the constructor, hsmm.py 1243-1256, and the call is made with the number of all coefficients, 3957-3979, 4063-4088):
the entry of the coefficient of the initial distribution is 0 although the log-likelihood depends on it. One time
point, a flat and a bump, initial distribution with odds `exp θ` for the bump. -/
theorem llkFTPgrad_initial_state_wrong : ∃ (m : ℝ → Tables ℝ) (e : EventArgs) (mu : ℕ → ℕ → ℕ → ℝ) (cols : List Ftp),
    (∀ θ, (m θ).pi = fun j => if j = 0 then 1 / (1 + Real.exp θ) else Real.exp θ / (1 + Real.exp θ)) ∧
      (∀ θ d j, (m θ).ds2 d j = (m 0).ds2 d j) ∧
      cols = [callEmission e mu 1 0 (fun _ => 1), callDuration e mu 0 (fun _ => 0) (fun _ _ => 0)] ∧
      (llkFTPgradAll (eventTables (m 0) e mu) cols 3)[2]? = some 0 ∧
      ¬ HasDerivAt (fun θ => llk (eventTables (m θ) e mu)) 0 0 := by
  let m : ℝ → Tables ℝ := fun θ =>
    { demo with
      n_T := 1
      D := 3
      ends_with_last := false
      ends_in_last := false
      ds2 := fun d j => if j = 1 then (if d = 1 then 1 else 0) else 1 / 2
      pi := fun j => if j = 0 then 1 / (1 + Real.exp θ) else Real.exp θ / (1 + Real.exp θ) }
  let e : EventArgs :=
    { demoArgs with
      M := 1
      y := fun _ _ => 1
      template := fun _ => 1
      hmp_code := 1
      scale := 1
      rho := none }
  let mu : ℕ → ℕ → ℕ → ℝ := fun _ _ _ => 1
  refine ⟨m, e, mu, _, fun _ => rfl, fun _ _ _ => rfl, rfl, ?_, ?_⟩
  · simp [llkFTPgradAll]
  · have hl : ∀ θ, llk (eventTables (m θ) e mu) =
        Real.log (1 / (1 + Real.exp θ) * Real.exp (-1) + Real.exp θ / (1 + Real.exp θ)) := by
      intro θ
      unfold llk
      simp [eventTables, m, e, mu, demo, demoArgs, Lam, lamSum, lam, lamCell, lamContrib, sum_range_succ, Tables.ds,
        eventBs, eBump, eFlat, ldWrapper]
      ring_nf
    simp only [hl]
    intro h
    have hp : ∀ θ : ℝ, 0 < 1 + Real.exp θ := fun θ => by positivity
    have h1 : HasDerivAt (fun θ : ℝ => 1 + Real.exp θ) 1 0 := by
      simpa using (Real.hasDerivAt_exp 0).const_add 1
    have h2 : HasDerivAt (fun θ : ℝ => 1 / (1 + Real.exp θ) * Real.exp (-1) + Real.exp θ / (1 + Real.exp θ))
        ((1 - Real.exp (-1)) / 4) 0 := by
      have ha := ((hasDerivAt_const (0 : ℝ) (1 : ℝ)).fun_div h1 (hp 0).ne').mul_const (Real.exp (-1))
      have hb := (Real.hasDerivAt_exp 0).fun_div h1 (hp 0).ne'
      refine (ha.fun_add hb).congr_deriv ?_
      norm_num [Real.exp_zero]
      ring
    have h3 := h2.log (by
      have := Real.exp_pos (-1)
      norm_num [Real.exp_zero]
      positivity)
    have h4 := h.unique h3
    have hlt : Real.exp (-1) < 1 := by
      rw [Real.exp_lt_one_iff]
      norm_num
    have h5 := Real.exp_pos (-1)
    have : 0 < (1 - Real.exp (-1)) / 4 /
        (1 / (1 + Real.exp 0) * Real.exp (-1) + Real.exp 0 / (1 + Real.exp 0)) := by
      refine div_pos (by linarith) ?_
      positivity
    rw [← h4] at this
    exact lt_irrefl _ this

end Verif.Hsmm
