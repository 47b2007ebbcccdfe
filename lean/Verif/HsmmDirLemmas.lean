import Verif.HsmmGrad
import Mathlib.Algebra.BigOperators.Field
import Mathlib.Algebra.Order.BigOperators.Group.Finset

/-! Helper lemmas: derivative of the hidden semi-Markov log-likelihood along an arbitrary curve of tables. -/

namespace Verif.Hsmm

open Finset

/-- Probability tables that depend on one real number `θ`; sizes and switches (in `base`) do not. -/
structure Curve where
  base : Tables ℝ
  bs2 : ℝ → ℕ → ℕ → ℝ
  bs3 : ℝ → ℕ → ℕ → ℕ → ℝ
  ds2 : ℝ → ℕ → ℕ → ℝ
  ds3 : ℝ → ℕ → ℕ → ℕ → ℝ
  T2 : ℝ → ℕ → ℕ → ℝ
  T3 : ℝ → ℕ → ℕ → ℕ → ℝ
  pi : ℝ → ℕ → ℝ

/-- The tables at `θ`. -/
def Curve.at (f : Curve) (θ : ℝ) : Tables ℝ :=
  { f.base with
    bs2 := f.bs2 θ
    bs3 := f.bs3 θ
    ds2 := f.ds2 θ
    ds3 := f.ds3 θ
    T2 := f.T2 θ
    T3 := f.T3 θ
    pi := f.pi θ }

/-- The switches that select table entries agree. -/
structure SameSwitches (m δ : Tables ℝ) : Prop where
  hmp : δ.hmp = m.hmp
  tv : δ.tvdtpi = m.tvdtpi
  ew : δ.event_width = m.event_width

/-- The entries of `δ` are the derivatives at `θ0` of the table entries (only those that are read are constrained). -/
structure HasTabDeriv (f : Curve) (δ : Tables ℝ) (θ0 : ℝ) : Prop where
  sw : SameSwitches f.base δ
  b2 : f.base.hmp = false → ∀ t j, j < f.base.n_S → HasDerivAt (fun θ => (f.at θ).bs2 t j) (δ.bs2 t j) θ0
  b3 : f.base.hmp = true → ∀ t k j, j < f.base.n_S → HasDerivAt (fun θ => (f.at θ).bs3 t k j) (δ.bs3 t k j) θ0
  d : ∀ d j t, d < f.base.D - 1 → j < f.base.n_S * (if f.base.starts_with_first then 1 else 2) →
    HasDerivAt (fun θ => (f.at θ).ds d j t) (δ.ds d j t) θ0
  T : ∀ i j t, i < f.base.n_S → j < f.base.n_S → i ≠ j → HasDerivAt (fun θ => (f.at θ).T i j t) (δ.T i j t) θ0
  pi : ∀ j, j < f.base.n_S → HasDerivAt (fun θ => (f.at θ).pi j) (δ.pi j) θ0

/-- Derivative of the cell weights in the direction `δ`. -/
noncomputable def DF (m δ : Tables ℝ) : ℕ → ℕ → ℕ → ℝ
  | 0 => fun d j =>
    if SegOk m ⟨0, d, j⟩ then
      (δ.pi j * m.ds d j 0 + m.pi j * δ.ds d j 0) * emStart m 0 j + m.pi j * m.ds d j 0 * emStart δ 0 j
    else 0
  | t + 1 => fun d j =>
    (if d + 1 ≤ m.D - 2 then DF m δ t (d + 1) j * emCont m (t + 1) d j + F m t (d + 1) j * emCont δ (t + 1) d j else 0) +
    (if SegOk m ⟨t + 1, d, j⟩ then
      (∑ i ∈ range m.n_S, if i = j then 0 else DF m δ t 0 i * m.T i j t + F m t 0 i * δ.T i j t) *
          (emEnter m (t + 1) j * m.ds d (m.dcol j) (t + 1)) +
        (∑ i ∈ range m.n_S, if i = j then 0 else F m t 0 i * m.T i j t) *
          (emEnter δ (t + 1) j * m.ds d (m.dcol j) (t + 1) + emEnter m (t + 1) j * δ.ds d (m.dcol j) (t + 1))
     else 0)

/-- Derivative of the log-likelihood in the direction `δ`. -/
noncomputable def gradDir (m δ : Tables ℝ) : ℝ :=
  (∑ d ∈ range (m.D - 1), ∑ j ∈ range m.n_S, if FinalCell m d j then DF m δ (m.n_T - 1) d j else 0) /
    ∑ d ∈ range (m.D - 1), ∑ j ∈ range m.n_S, if FinalCell m d j then F m (m.n_T - 1) d j else 0

variable (f : Curve) (θ0 : ℝ)

theorem dcol_lt (m : Tables ℝ) (j : ℕ) (hj : j < m.n_S) :
    m.dcol j < m.n_S * (if m.starts_with_first then 1 else 2) := by
  unfold Tables.dcol
  split_ifs <;> omega

theorem lt_dcols (m : Tables ℝ) (j : ℕ) (hj : j < m.n_S) :
    j < m.n_S * (if m.starts_with_first then 1 else 2) := by
  split_ifs <;> omega

section
variable {f θ0} {δ : Tables ℝ} (h : HasTabDeriv f δ θ0)
include h

theorem deriv_emStart (t j : ℕ) (hj : j < f.base.n_S) :
    HasDerivAt (fun θ => emStart (f.at θ) t j) (emStart δ t j) θ0 := by
  have h1 : ∀ θ, (f.at θ).hmp = f.base.hmp := fun _ => rfl
  unfold emStart
  rw [h.sw.hmp]
  simp only [h1]
  by_cases hm : f.base.hmp = true
  · simp only [hm, if_true]; exact h.b3 hm _ _ _ hj
  · have hm' : f.base.hmp = false := by simpa using hm
    simp only [hm', Bool.false_eq_true, if_false]; exact h.b2 hm' _ _ hj

theorem deriv_emCont (t d j : ℕ) (hj : j < f.base.n_S) :
    HasDerivAt (fun θ => emCont (f.at θ) t d j) (emCont δ t d j) θ0 := by
  have h1 : ∀ θ, (f.at θ).hmp = f.base.hmp := fun _ => rfl
  have h2 : ∀ θ, (f.at θ).event_width = f.base.event_width := fun _ => rfl
  unfold emCont
  rw [h.sw.hmp, h.sw.ew]
  simp only [h1, h2]
  by_cases hm : f.base.hmp = true
  · simp only [hm, if_true]
    by_cases hj2 : j % 2 = 1
    · simp only [hj2, if_true]; exact h.b3 hm _ _ _ hj
    · simp only [hj2, if_false]; exact h.b3 hm _ _ _ hj
  · have hm' : f.base.hmp = false := by simpa using hm
    simp only [hm', Bool.false_eq_true, if_false]; exact h.b2 hm' _ _ hj

theorem deriv_emEnter (t j : ℕ) (hj : j < f.base.n_S) :
    HasDerivAt (fun θ => emEnter (f.at θ) t j) (emEnter δ t j) θ0 := by
  have h1 : ∀ θ, (f.at θ).hmp = f.base.hmp := fun _ => rfl
  unfold emEnter
  rw [h.sw.hmp]
  simp only [h1]
  by_cases hm : f.base.hmp = true
  · simp only [hm, if_true]
    by_cases hj2 : j % 2 = 0
    · simp only [hj2, if_true]; exact h.b3 hm _ _ _ hj
    · simp only [hj2, if_false]; exact h.b3 hm _ _ _ hj
  · have hm' : f.base.hmp = false := by simpa using hm
    simp only [hm', Bool.false_eq_true, if_false]; exact h.b2 hm' _ _ hj

theorem hasDerivAt_F_dir (t : ℕ) : ∀ d j, j < f.base.n_S →
    HasDerivAt (fun θ => F (f.at θ) t d j) (DF (f.at θ0) δ t d j) θ0 := by
  induction t with
  | zero =>
    intro d j hj
    have e : (fun θ => F (f.at θ) 0 d j) = fun θ =>
        if SegOk f.base ⟨0, d, j⟩ then (f.at θ).pi j * (f.at θ).ds d j 0 * emStart (f.at θ) 0 j else 0 := by
      funext θ
      rw [F_zero]
      rfl
    rw [e]
    change HasDerivAt _ (if SegOk f.base ⟨0, d, j⟩ then _ else _) θ0
    split_ifs with hok
    · exact ((h.pi j hj).mul (h.d _ _ _ hok.2.1 (lt_dcols _ _ hj))).mul (deriv_emStart h 0 j hj)
    · exact hasDerivAt_const _ _
  | succ t ih =>
    intro d j hj
    have e : (fun θ => F (f.at θ) (t + 1) d j) = fun θ =>
        (if d + 1 ≤ f.base.D - 2 then F (f.at θ) t (d + 1) j * emCont (f.at θ) (t + 1) d j else 0) +
        (if SegOk f.base ⟨t + 1, d, j⟩ then
          (∑ i ∈ range f.base.n_S, if i = j then 0 else F (f.at θ) t 0 i * (f.at θ).T i j t) *
            (emEnter (f.at θ) (t + 1) j * (f.at θ).ds d (f.base.dcol j) (t + 1))
         else 0) := by
      funext θ
      rw [F_succ (f.at θ) t d j hj]
      rfl
    rw [e]
    refine HasDerivAt.add ?_ ?_
    · change HasDerivAt _ (if d + 1 ≤ f.base.D - 2 then _ else _) θ0
      split_ifs with hc
      · exact (ih (d + 1) j hj).mul (deriv_emCont h (t + 1) d j hj)
      · exact hasDerivAt_const _ _
    · change HasDerivAt _ (if SegOk f.base ⟨t + 1, d, j⟩ then _ else _) θ0
      split_ifs with hok
      · refine HasDerivAt.mul ?_ ((deriv_emEnter h _ _ hj).mul (h.d _ _ _ hok.2.1 (dcol_lt f.base j hj)))
        refine HasDerivAt.fun_sum ?_
        intro i hi
        rw [mem_range] at hi
        split_ifs with hij
        · exact hasDerivAt_const _ _
        · exact (ih 0 i hi).mul (h.T _ _ _ hi hj hij)
      · exact hasDerivAt_const _ _

theorem continuousAt_lam_dir (t : ℕ) (hL : ∀ s < t, Lam (f.at θ0) s ≠ 0) :
    (∀ d j, j < f.base.n_S → d < f.base.D - 1 → ContinuousAt (fun θ => lam (f.at θ) t d j) θ0) ∧
      ContinuousAt (fun θ => Lam (f.at θ) t) θ0 := by
  have key : ∀ t, (∀ d j, j < f.base.n_S → d < f.base.D - 1 → ContinuousAt (fun θ => lam (f.at θ) t d j) θ0) →
      ContinuousAt (fun θ => Lam (f.at θ) t) θ0 := by
    intro t ht
    unfold Lam lamSum
    change ContinuousAt (fun θ => ∑ d ∈ range (f.base.D - 1), ∑ j ∈ range f.base.n_S,
      lamContrib (f.at θ) t d j (lam (f.at θ) t d j)) θ0
    apply tendsto_finsetSum
    intro d hd
    apply tendsto_finsetSum
    intro j hj
    have hcont := ht d j (mem_range.1 hj) (mem_range.1 hd)
    have e : ∃ c : ℝ, ∀ θ v, lamContrib (f.at θ) t d j v = c * v := by
      by_cases h1 : lamContrib (f.at θ0) t d j 1 = 1
      · refine ⟨1, fun θ v => ?_⟩
        have : lamContrib (f.at θ) t d j v = lamContrib (f.at θ0) t d j v := rfl
        rw [this]
        unfold lamContrib at h1 ⊢
        split_ifs at h1 ⊢ <;> simp_all
      · refine ⟨0, fun θ v => ?_⟩
        have : lamContrib (f.at θ) t d j v = lamContrib (f.at θ0) t d j v := rfl
        rw [this]
        unfold lamContrib at h1 ⊢
        split_ifs at h1 ⊢ <;> simp_all
    obtain ⟨c, hc⟩ := e
    simp only [hc]
    exact (continuousAt_const.mul hcont)
  have hstart : ∀ d j, j < f.base.n_S → d < f.base.D - 1 →
      ContinuousAt (fun θ => (f.at θ).pi j * emStart (f.at θ) 0 j * (f.at θ).ds d j 0) θ0 := fun d j hj hd =>
    ((h.pi j hj).continuousAt.mul (deriv_emStart h 0 j hj).continuousAt).mul
      (h.d _ _ _ hd (lt_dcols _ _ hj)).continuousAt
  induction t with
  | zero =>
    have h0 : ∀ d j, j < f.base.n_S → d < f.base.D - 1 → ContinuousAt (fun θ => lam (f.at θ) 0 d j) θ0 := by
      intro d j hj hd
      have e : (fun θ => lam (f.at θ) 0 d j) = fun θ =>
          if f.base.hmp = true ∧ j % 2 = 1 ∧ f.base.event_width ≤ d then 0
          else (f.at θ).pi j * emStart (f.at θ) 0 j * (f.at θ).ds d j 0 := by
        funext θ
        simp only [lam, lamCell, if_true]
        change (if f.base.hmp = true ∧ j % 2 = 1 ∧ f.base.event_width ≤ d then (0 : ℝ) else
          if f.base.hmp = true then _ else _) = if f.base.hmp = true ∧ j % 2 = 1 ∧ f.base.event_width ≤ d then 0
            else (f.at θ).pi j * (if f.base.hmp = true then _ else _) * (f.at θ).ds d j 0
        by_cases hm : f.base.hmp = true
        · simp only [hm, if_true]
        · simp only [hm]
          rfl
      rw [e]
      split_ifs
      · exact continuousAt_const
      · exact hstart d j hj hd
    exact ⟨h0, key 0 h0⟩
  | succ t ih =>
    obtain ⟨ih1, ih2⟩ := ih fun s hs => hL s (by omega)
    have h1 : ∀ d j, j < f.base.n_S → d < f.base.D - 1 → ContinuousAt (fun θ => lam (f.at θ) (t + 1) d j) θ0 := by
      intro d j hj hd
      by_cases hskip : f.base.hmp = true ∧ j % 2 = 1 ∧ f.base.event_width ≤ d
      · have e : (fun θ => lam (f.at θ) (t + 1) d j) = fun _ => 0 := by
          funext θ
          simp only [lam, lamCell]
          exact if_pos hskip
        rw [e]
        exact continuousAt_const
      by_cases hlv : t + 1 + d < f.base.n_T ∨ f.base.ends_with_last = false
      swap
      · have e : (fun θ => lam (f.at θ) (t + 1) d j) = fun _ => 0 := by
          funext θ
          simp only [lam, lamCell]
          rw [if_neg (show ¬((f.at θ).hmp = true ∧ j % 2 = 1 ∧ (f.at θ).event_width ≤ d) from hskip),
            if_neg (by omega),
            if_neg (show ¬(t + 1 + d < (f.at θ).n_T ∨ (f.at θ).ends_with_last = false) from hlv)]
        rw [e]
        exact continuousAt_const
      have e : (fun θ => lam (f.at θ) (t + 1) d j) = fun θ =>
            ((if d + 1 ≤ f.base.D - 2 then lam (f.at θ) t (d + 1) j * emCont (f.at θ) (t + 1) d j else 0) +
             (∑ i ∈ range f.base.n_S, if i = j then 0 else lam (f.at θ) t 0 i * (f.at θ).T i j t) *
              (emEnter (f.at θ) (t + 1) j * (f.at θ).ds d (f.base.dcol j) (t + 1))) / Lam (f.at θ) t := by
        funext θ
        simp only [lam, lamCell]
        rw [if_neg (show ¬((f.at θ).hmp = true ∧ j % 2 = 1 ∧ (f.at θ).event_width ≤ d) from hskip),
          if_neg (by omega),
          if_pos (show t + 1 + d < (f.at θ).n_T ∨ (f.at θ).ends_with_last = false from hlv)]
        have hm1 : (f.at θ).hmp = f.base.hmp := rfl
        have hm2 : (f.at θ).event_width = f.base.event_width := rfl
        have hm3 : (f.at θ).D = f.base.D := rfl
        have hm4 : (f.at θ).n_S = f.base.n_S := rfl
        have hm5 : (f.at θ).dcol j = f.base.dcol j := rfl
        have hm6 : Lam (f.at θ) t = lamSum (f.at θ) t (lam (f.at θ) t) := rfl
        simp only [emCont, emEnter, hm1, hm2, hm3, hm4, hm5, hm6, Nat.add_sub_cancel]
        by_cases hm : f.base.hmp = true
        · simp only [hm, if_true, true_and] at hskip ⊢
          by_cases hj2 : j % 2 = 1
          · have hew : d ≤ f.base.event_width - 1 := by
              have := hskip
              simp only [hj2, true_and] at this
              omega
            simp [hj2, hew]
          · simp [hj2]
        · simp [hm]
      rw [e]
      refine ContinuousAt.div ?_ ih2 (hL t (by omega))
      refine ContinuousAt.add ?_ ?_
      · split_ifs with hc
        · exact (ih1 _ _ hj (by omega)).mul (deriv_emCont h _ _ _ hj).continuousAt
        · exact continuousAt_const
      · refine ContinuousAt.mul ?_ ((deriv_emEnter h _ _ hj).continuousAt.mul
          (h.d _ _ _ hd (dcol_lt f.base j hj)).continuousAt)
        apply tendsto_finsetSum
        intro i hi
        rw [mem_range] at hi
        split_ifs with hij
        · exact continuousAt_const
        · exact (ih1 _ _ hi (by omega)).mul (h.T _ _ _ hi hj hij).continuousAt
    exact ⟨h1, key _ h1⟩

theorem llk_eventually_dir (hT : 0 < f.base.n_T) (hL : ∀ s < f.base.n_T, Lam (f.at θ0) s ≠ 0) :
    (fun θ => llk (f.at θ)) =ᶠ[nhds θ0] fun θ => Real.log (∑ l ∈ allSegs (f.at θ), weight (f.at θ) l) := by
  have hev : ∀ᶠ θ in nhds θ0, ∀ s ∈ range f.base.n_T, Lam (f.at θ) s ≠ 0 := by
    rw [Filter.eventually_all_finset]
    intro s hs
    rw [mem_range] at hs
    exact (continuousAt_lam_dir h s fun s' hs' => hL s' (by omega)).2.eventually_ne (hL s hs)
  filter_upwards [hev] with θ hθ
  have hθ' : ∀ s < f.base.n_T, Lam (f.at θ) s ≠ 0 := fun s hs => hθ s (mem_range.2 hs)
  have hm := Lam_final_mul (f.at θ) hT fun s hs => hθ' s (by
    have : (f.at θ).n_T = f.base.n_T := rfl
    omega)
  rw [← hm]
  have e : (f.at θ).n_T = ((f.at θ).n_T - 1) + 1 := by
    have : (f.at θ).n_T = f.base.n_T := rfl
    omega
  have e' : (f.at θ).n_T = f.base.n_T := rfl
  rw [Real.log_mul (hθ' _ (by omega)) (prod_ne_zero_iff.2 fun s hs => hθ' s (by have := mem_range.1 hs; omega)),
    Real.log_prod (fun s hs => hθ' s (by have := mem_range.1 hs; omega)), add_comm]
  unfold llk
  conv_lhs => rw [e]
  rw [sum_range_succ]

/-- Derivative of the log-likelihood along a curve of tables. -/
theorem llk_hasDerivAt_dir (hT : 0 < f.base.n_T) (hL : ∀ s < f.base.n_T, Lam (f.at θ0) s ≠ 0) :
    HasDerivAt (fun θ => llk (f.at θ)) (gradDir (f.at θ0) δ) θ0 := by
  refine HasDerivAt.congr_of_eventuallyEq ?_ (llk_eventually_dir h hT hL)
  have htot : ∀ θ, (∑ l ∈ allSegs (f.at θ), weight (f.at θ) l) =
      ∑ d ∈ range (f.base.D - 1), ∑ j ∈ range f.base.n_S,
        if FinalCell f.base d j then F (f.at θ) (f.base.n_T - 1) d j else 0 := fun θ => sum_allSegs (f.at θ)
  simp only [htot]
  have hL' : ∀ s < f.base.n_T - 1, Lam (f.at θ0) s ≠ 0 := fun s hs => hL s (by omega)
  have hfin := Lam_final_mul (f.at θ0) hT hL'
  rw [htot θ0] at hfin
  have hP : ∏ s ∈ range (f.base.n_T - 1), Lam (f.at θ0) s ≠ 0 :=
    prod_ne_zero_iff.2 fun s hs => hL' s (mem_range.1 hs)
  have hne : Lam (f.at θ0) (f.base.n_T - 1) ≠ 0 := hL _ (by omega)
  have hder : HasDerivAt (fun θ => ∑ d ∈ range (f.base.D - 1), ∑ j ∈ range f.base.n_S,
        if FinalCell f.base d j then F (f.at θ) (f.base.n_T - 1) d j else 0)
      (∑ d ∈ range (f.base.D - 1), ∑ j ∈ range f.base.n_S,
        if FinalCell f.base d j then DF (f.at θ0) δ (f.base.n_T - 1) d j else 0) θ0 := by
    refine HasDerivAt.fun_sum ?_
    intro d hd
    refine HasDerivAt.fun_sum ?_
    intro j hj
    rw [mem_range] at hd hj
    split_ifs with hf
    · exact hasDerivAt_F_dir h (f.base.n_T - 1) d j hj
    · exact hasDerivAt_const _ _
  exact hder.log (by rw [← hfin]; exact mul_ne_zero hne hP)

end

/-! ### Linearity in the direction -/

/-- The entries of `δ` are the sums of the entries of the `δk k`. -/
structure IsSum {ι : Type} (s : Finset ι) (m δ : Tables ℝ) (δk : ι → Tables ℝ) : Prop where
  sw : SameSwitches m δ
  swk : ∀ k ∈ s, SameSwitches m (δk k)
  b2 : m.hmp = false → ∀ t j, j < m.n_S → δ.bs2 t j = ∑ k ∈ s, (δk k).bs2 t j
  b3 : m.hmp = true → ∀ t k j, j < m.n_S → δ.bs3 t k j = ∑ i ∈ s, (δk i).bs3 t k j
  d : ∀ d j t, d < m.D - 1 → j < m.n_S * (if m.starts_with_first then 1 else 2) → δ.ds d j t = ∑ k ∈ s, (δk k).ds d j t
  T : ∀ i j t, i < m.n_S → j < m.n_S → i ≠ j → δ.T i j t = ∑ k ∈ s, (δk k).T i j t
  pi : ∀ j, j < m.n_S → δ.pi j = ∑ k ∈ s, (δk k).pi j

section
variable {ι : Type} {s : Finset ι} {m δ : Tables ℝ} {δk : ι → Tables ℝ} (h : IsSum s m δ δk)
include h

theorem sum_emStart (t j : ℕ) (hj : j < m.n_S) : emStart δ t j = ∑ k ∈ s, emStart (δk k) t j := by
  have e : ∀ k ∈ s, emStart (δk k) t j = if m.hmp then (δk k).bs3 t 0 j else (δk k).bs2 t j := fun k hk => by
    unfold emStart; rw [(h.swk k hk).hmp]
  rw [sum_congr rfl e]
  unfold emStart
  rw [h.sw.hmp]
  by_cases hm : m.hmp = true
  · simp only [hm, if_true]; exact h.b3 hm _ _ _ hj
  · have hm' : m.hmp = false := by simpa using hm
    simp only [hm', Bool.false_eq_true, if_false]; exact h.b2 hm' _ _ hj

theorem sum_emCont (t d j : ℕ) (hj : j < m.n_S) : emCont δ t d j = ∑ k ∈ s, emCont (δk k) t d j := by
  have e : ∀ k ∈ s, emCont (δk k) t d j = if m.hmp then
      (if j % 2 = 1 then (δk k).bs3 t ((m.event_width - 1) - d) j else (δk k).bs3 t 0 j)
      else (δk k).bs2 t j := fun k hk => by
    unfold emCont; rw [(h.swk k hk).hmp, (h.swk k hk).ew]
  rw [sum_congr rfl e]
  unfold emCont
  rw [h.sw.hmp, h.sw.ew]
  by_cases hm : m.hmp = true
  · simp only [hm, if_true]
    split_ifs
    · exact h.b3 hm _ _ _ hj
    · exact h.b3 hm _ _ _ hj
  · have hm' : m.hmp = false := by simpa using hm
    simp only [hm', Bool.false_eq_true, if_false]; exact h.b2 hm' _ _ hj

theorem sum_emEnter (t j : ℕ) (hj : j < m.n_S) : emEnter δ t j = ∑ k ∈ s, emEnter (δk k) t j := by
  have e : ∀ k ∈ s, emEnter (δk k) t j = if m.hmp then
      (if j % 2 = 0 then (δk k).bs3 t 1 j else (δk k).bs3 t 0 j) else (δk k).bs2 t j := fun k hk => by
    unfold emEnter; rw [(h.swk k hk).hmp]
  rw [sum_congr rfl e]
  unfold emEnter
  rw [h.sw.hmp]
  by_cases hm : m.hmp = true
  · simp only [hm, if_true]
    split_ifs
    · exact h.b3 hm _ _ _ hj
    · exact h.b3 hm _ _ _ hj
  · have hm' : m.hmp = false := by simpa using hm
    simp only [hm', Bool.false_eq_true, if_false]; exact h.b2 hm' _ _ hj

theorem DF_sum (t : ℕ) : ∀ d j, j < m.n_S → DF m δ t d j = ∑ k ∈ s, DF m (δk k) t d j := by
  induction t with
  | zero =>
    intro d j hj
    simp only [DF]
    split_ifs with hok
    · rw [h.pi j hj, h.d _ _ _ hok.2.1 (lt_dcols _ _ hj), sum_emStart h 0 j hj, sum_add_distrib, ← mul_sum, ← sum_mul,
        sum_add_distrib, ← sum_mul, ← mul_sum]
    · simp
  | succ t ih =>
    intro d j hj
    simp only [DF]
    rw [sum_add_distrib]
    congr 1
    · split_ifs with hd
      · rw [ih _ _ hj, sum_emCont h _ _ _ hj, sum_add_distrib, ← sum_mul, ← mul_sum]
      · simp
    · split_ifs with hok
      · have e : (∑ i ∈ range m.n_S, if i = j then 0 else DF m δ t 0 i * m.T i j t + F m t 0 i * δ.T i j t) =
            ∑ k ∈ s, ∑ i ∈ range m.n_S, if i = j then 0 else
              DF m (δk k) t 0 i * m.T i j t + F m t 0 i * (δk k).T i j t := by
          rw [sum_comm]
          apply sum_congr rfl
          intro i hi
          rw [mem_range] at hi
          split_ifs with hij
          · simp
          · rw [ih 0 i hi, h.T i j t hi hj hij, sum_add_distrib, ← sum_mul, ← mul_sum]
        rw [e, sum_emEnter h _ _ hj, h.d _ _ _ hok.2.1 (dcol_lt m j hj), sum_add_distrib, ← sum_mul, ← mul_sum,
          sum_add_distrib, ← sum_mul, ← mul_sum]
      · simp

theorem gradDir_sum : gradDir m δ = ∑ k ∈ s, gradDir m (δk k) := by
  unfold gradDir
  rw [← sum_div]
  congr 1
  conv_rhs => rw [sum_comm]
  apply sum_congr rfl
  intro d _
  conv_rhs => rw [sum_comm]
  apply sum_congr rfl
  intro j hj
  rw [mem_range] at hj
  split_ifs
  · exact DF_sum h _ _ _ hj
  · simp

end

/-! ### The gradient loop of the code computes the derivative in a direction -/

/-- Derivatives of the tables described by the gradient tables of one coefficient. -/
def dirOf (m : Tables ℝ) (g : GradTables) : Tables ℝ :=
  { m with
    bs2 := fun t j => match g.kind with
      | .emission => if g.jidx = j then m.bs2 t j * g.b_grad t else 0
      | _ => 0
    bs3 := fun _ _ _ => 0
    ds2 := fun d j => match g.kind with
      | .duration => if g.jidx = j then g.d_grad2 d else 0
      | _ => 0
    ds3 := fun d j t => match g.kind with
      | .duration => if g.jidx = j then g.d_grad3 d t else 0
      | _ => 0
    T2 := fun i j => match g.kind with
      | .transition => if g.jidx = i then m.T2 i j * g.T_grad2 (tidx m.n_S i j) else 0
      | _ => 0
    T3 := fun i j t => match g.kind with
      | .transition => if g.jidx = i then m.T3 i j t * g.T_grad3 (tidx m.n_S i j) t else 0
      | _ => 0
    pi := fun j => match g.kind with
      | .initial => m.pi j * g.pi_grad j
      | _ => 0 }

/-- Straight line through `m` in the direction `δ`, in the two forms used above. -/
noncomputable def lineFam (m δ : Tables ℝ) : TableFamily where
  base := m
  bs2 := fun θ t j => m.bs2 t j + θ * δ.bs2 t j
  ds2 := fun θ d j => m.ds2 d j + θ * δ.ds2 d j
  ds3 := fun θ d j t => m.ds3 d j t + θ * δ.ds3 d j t
  T2 := fun θ i j => m.T2 i j + θ * δ.T2 i j
  T3 := fun θ i j t => m.T3 i j t + θ * δ.T3 i j t
  pi := fun θ j => m.pi j + θ * δ.pi j

noncomputable def lineCurve (m δ : Tables ℝ) : Curve where
  base := m
  bs2 := fun θ t j => m.bs2 t j + θ * δ.bs2 t j
  bs3 := fun _ => m.bs3
  ds2 := fun θ d j => m.ds2 d j + θ * δ.ds2 d j
  ds3 := fun θ d j t => m.ds3 d j t + θ * δ.ds3 d j t
  T2 := fun θ i j => m.T2 i j + θ * δ.T2 i j
  T3 := fun θ i j t => m.T3 i j t + θ * δ.T3 i j t
  pi := fun θ j => m.pi j + θ * δ.pi j

theorem lineCurve_zero (m δ : Tables ℝ) : (lineCurve m δ).at 0 = m := by
  simp [Curve.at, lineCurve]

theorem hasDerivAt_line (a b : ℝ) : HasDerivAt (fun θ : ℝ => a + θ * b) b 0 := by
  simpa using ((hasDerivAt_id (0 : ℝ)).mul_const b).const_add a

theorem tidx_of_others {n i j k : ℕ} (hk : (others n i)[k]? = some j) : tidx n i j = k := by
  have hmem : j ∈ others n i := List.mem_of_getElem? hk
  have hij : i ≠ j := by
    unfold others at hmem
    have := (List.mem_filter.1 hmem).2
    simp at this
    exact fun h => this h.symm
  have hj : j < n := by
    unfold others at hmem
    exact List.mem_range.1 (List.mem_filter.1 hmem).1
  have h1 := tidx_spec n i j hij hj
  have hnd : (others n i).Nodup := List.Nodup.filter _ List.nodup_range
  have ha := List.getElem?_eq_some_iff.1 hk
  have hb := List.getElem?_eq_some_iff.1 h1
  obtain ⟨ha1, ha2⟩ := ha
  obtain ⟨hb1, hb2⟩ := hb
  exact (hnd.getElem_inj_iff).1 (hb2.trans ha2.symm)

theorem llkgrad_eq_gradDir (m : Tables ℝ) (g : GradTables) (hh : m.hmp = false) (hT : 0 < m.n_T) (hS : 0 < m.n_S)
    (hD : 0 < m.D - 1) (hL : ∀ t < m.n_T, Lam m t ≠ 0) (htv : g.kind = .initial → m.tvdtpi = false) :
    llkgrad m g = gradDir m (dirOf m g) := by
  set δ := dirOf m g with hδ
  have hat : ∀ θ, (lineFam m δ).at θ = (lineCurve m δ).at θ := fun _ => rfl
  have h0 : (lineFam m δ).at 0 = m := by rw [hat, lineCurve_zero]
  have hc : CoefDeriv (lineFam m δ) g 0 := by
    constructor
    · intro t j
      rw [h0]
      refine (hasDerivAt_line (m.bs2 t j) (δ.bs2 t j)).congr_deriv ?_
      rw [hδ]; simp only [dirOf]; cases g.kind <;> rfl
    · intro d j t
      cases htvd : m.tvdtpi
      · have : (fun θ => ((lineFam m δ).at θ).ds d j t) = fun θ => m.ds2 d j + θ * δ.ds2 d j := by
          funext θ
          simp [Tables.ds, TableFamily.at, lineFam, htvd]
        rw [this]
        refine (hasDerivAt_line _ _).congr_deriv ?_
        rw [hδ]; simp only [dirOf, dG, lineFam, htvd, Bool.false_eq_true, if_false]; cases g.kind <;> rfl
      · have : (fun θ => ((lineFam m δ).at θ).ds d j t) = fun θ => m.ds3 d j t + θ * δ.ds3 d j t := by
          funext θ
          simp [Tables.ds, TableFamily.at, lineFam, htvd]
        rw [this]
        refine (hasDerivAt_line _ _).congr_deriv ?_
        rw [hδ]; simp only [dirOf, dG, lineFam, htvd, if_true]; cases g.kind <;> rfl
    · intro i j t k _ hk
      have hti := tidx_of_others hk
      rw [h0]
      cases htvd : m.tvdtpi
      · have : (fun θ => ((lineFam m δ).at θ).T i j t) = fun θ => m.T2 i j + θ * δ.T2 i j := by
          funext θ
          simp [Tables.T, TableFamily.at, lineFam, htvd]
        rw [this]
        refine (hasDerivAt_line _ _).congr_deriv ?_
        rw [hδ]
        have hti' : tidx m.n_S i j = k := hti
        simp only [dirOf, tG, lineFam, htvd, Bool.false_eq_true, if_false, hti', Tables.T]; cases g.kind <;> rfl
      · have : (fun θ => ((lineFam m δ).at θ).T i j t) = fun θ => m.T3 i j t + θ * δ.T3 i j t := by
          funext θ
          simp [Tables.T, TableFamily.at, lineFam, htvd]
        rw [this]
        refine (hasDerivAt_line _ _).congr_deriv ?_
        rw [hδ]
        have hti' : tidx m.n_S i j = k := hti
        simp only [dirOf, tG, lineFam, htvd, if_true, hti', Tables.T]; cases g.kind <;> rfl
    · intro j
      rw [h0]
      refine (hasDerivAt_line (m.pi j) (δ.pi j)).congr_deriv ?_
      rw [hδ]; simp only [dirOf]; cases g.kind <;> rfl
  have hd : HasTabDeriv (lineCurve m δ) δ 0 := by
    refine ⟨⟨rfl, rfl, rfl⟩, ?_, ?_, ?_, ?_, ?_⟩
    · intro _ t j _
      exact hasDerivAt_line _ _
    · intro hm
      exact absurd hm (by rw [show (lineCurve m δ).base.hmp = m.hmp from rfl, hh]; decide)
    · intro d j t _ _
      have hsw : δ.tvdtpi = m.tvdtpi := rfl
      cases htvd : m.tvdtpi
      · simp only [Tables.ds, Curve.at, lineCurve, htvd, hsw, Bool.false_eq_true, if_false]
        exact hasDerivAt_line _ _
      · simp only [Tables.ds, Curve.at, lineCurve, htvd, hsw, if_true]
        exact hasDerivAt_line _ _
    · intro i j t _ _ _
      have hsw : δ.tvdtpi = m.tvdtpi := rfl
      cases htvd : m.tvdtpi
      · simp only [Tables.T, Curve.at, lineCurve, htvd, hsw, Bool.false_eq_true, if_false]
        exact hasDerivAt_line _ _
      · simp only [Tables.T, Curve.at, lineCurve, htvd, hsw, if_true]
        exact hasDerivAt_line _ _
    · intro j _
      exact hasDerivAt_line _ _
  have h1 := llkgrad_hasDerivAt_partial (lineFam m δ) g 0 hc hh hT hS hD (by
    intro t ht
    rw [h0]; exact hL t ht) htv
  have h2 := llk_hasDerivAt_dir hd hT (by
    intro t ht
    rw [lineCurve_zero]; exact hL t ht)
  rw [h0] at h1
  rw [lineCurve_zero] at h2
  exact h1.unique h2

/-! ### Positive tables -/

theorem Lam_pos_of_pos (m : Tables ℝ) (hh : m.hmp = false) (hS : 2 ≤ m.n_S) (hD : 0 < m.D - 1)
    (hb : ∀ t j, j < m.n_S → 0 < m.bs2 t j)
    (hd : ∀ d j t, d < m.D - 1 → j < m.n_S * (if m.starts_with_first then 1 else 2) → 0 < m.ds d j t)
    (hTr : ∀ i j t, i < m.n_S → j < m.n_S → i ≠ j → 0 < m.T i j t) (hpi : ∀ j, j < m.n_S → 0 < m.pi j) (t : ℕ)
    (ht : t < m.n_T) : 0 < Lam m t := by
  have hfrom : ∀ t, t < m.n_T → (∀ d j, d < m.D - 1 → j < m.n_S → 0 ≤ lam m t d j) →
      (∀ j, j < m.n_S → 0 < lam m t 0 j) → 0 < Lam m t := by
    intro t ht h0 h1
    unfold Lam lamSum
    have hnn : ∀ d ∈ range (m.D - 1), ∀ j ∈ range m.n_S, 0 ≤ lamContrib m t d j (lam m t d j) := by
      intro d hd' j hj'
      have := h0 d j (mem_range.1 hd') (mem_range.1 hj')
      unfold lamContrib
      split_ifs <;> first | exact this | exact le_rfl
    refine sum_pos' (fun d hd' => sum_nonneg (hnn d hd')) ⟨0, mem_range.2 hD, ?_⟩
    refine sum_pos' (hnn 0 (mem_range.2 hD)) ⟨m.n_S - 1, mem_range.2 (by omega), ?_⟩
    have hp := h1 (m.n_S - 1) (by omega)
    unfold lamContrib
    rw [hh]
    simp only [Bool.false_eq_true, false_and, if_false, if_true]
    split_ifs <;> exact hp
  have key : ∀ t, t < m.n_T → (∀ d j, d < m.D - 1 → j < m.n_S → 0 ≤ lam m t d j) ∧
      (∀ j, j < m.n_S → 0 < lam m t 0 j) := by
    intro t
    induction t with
    | zero =>
      intro _
      have hp : ∀ d j, d < m.D - 1 → j < m.n_S → 0 < lam m 0 d j := by
        intro d j hd' hj
        simp only [lam, lamCell, hh, Bool.false_eq_true, false_and, if_false, if_true]
        exact mul_pos (mul_pos (hpi j hj) (hb 0 j hj)) (hd d j 0 hd' (lt_dcols m j hj))
      exact ⟨fun d j h1 h2 => (hp d j h1 h2).le, fun j hj => hp 0 j hD hj⟩
    | succ t ih =>
      intro ht'
      obtain ⟨ih1, ih2⟩ := ih (by omega)
      have hLt := hfrom t (by omega) ih1 ih2
      have htp : ∀ j, j < m.n_S → 0 < ∑ i ∈ range m.n_S, if i = j then 0 else lam m t 0 i * m.T i j t := by
        intro j hj
        have hex : ∃ i, i < m.n_S ∧ i ≠ j := by
          by_cases h0 : j = 0
          · exact ⟨1, by omega, by omega⟩
          · exact ⟨0, by omega, by omega⟩
        obtain ⟨i, hi, hij⟩ := hex
        refine sum_pos' ?_ ⟨i, mem_range.2 hi, ?_⟩
        · intro i' hi'
          rw [mem_range] at hi'
          split_ifs with hc
          · exact le_rfl
          · exact mul_nonneg (ih2 i' hi').le (hTr _ _ _ hi' hj hc).le
        · rw [if_neg hij]
          exact mul_pos (ih2 i hi) (hTr _ _ _ hi hj hij)
      have hform : ∀ d j, lam m (t + 1) d j = if t + 1 + d < m.n_T ∨ m.ends_with_last = false then
          ((if d + 1 ≤ m.D - 2 then lam m t (d + 1) j * m.bs2 (t + 1) j else 0) +
            (∑ i ∈ range m.n_S, if i = j then 0 else lam m t 0 i * m.T i j t) *
              (m.bs2 (t + 1) j * m.ds d (m.dcol j) (t + 1))) / Lam m t else 0 := by
        intro d j
        simp only [lam, lamCell, hh, Bool.false_eq_true, false_and, if_false, Nat.add_eq_zero_iff, one_ne_zero,
          and_false, Nat.add_sub_cancel]
        rfl
      have hpart : ∀ d j, d < m.D - 1 → j < m.n_S → 0 < ((if d + 1 ≤ m.D - 2 then lam m t (d + 1) j * m.bs2 (t + 1) j else 0) +
            (∑ i ∈ range m.n_S, if i = j then 0 else lam m t 0 i * m.T i j t) *
              (m.bs2 (t + 1) j * m.ds d (m.dcol j) (t + 1))) / Lam m t := by
        intro d j hd' hj
        refine div_pos ?_ hLt
        refine add_pos_of_nonneg_of_pos ?_ ?_
        · split_ifs with hc
          · exact mul_nonneg (ih1 _ _ (by omega) hj) (hb _ _ hj).le
          · exact le_rfl
        · exact mul_pos (htp j hj) (mul_pos (hb _ _ hj) (hd _ _ _ hd' (dcol_lt m j hj)))
      constructor
      · intro d j hd' hj
        rw [hform]
        by_cases hlv : t + 1 + d < m.n_T ∨ m.ends_with_last = false
        · rw [if_pos hlv]
          exact (hpart d j hd' hj).le
        · rw [if_neg hlv]
      · intro j hj
        rw [hform, if_pos (Or.inl (by omega))]
        exact hpart 0 j hD hj
  exact hfrom t ht (key t ht).1 (key t ht).2

end Verif.Hsmm
