import Verif.HsmmGradLemmas
import Mathlib.Analysis.SpecialFunctions.ExpDeriv

/-! Property theorems: gradient of the hidden semi-Markov log-likelihood (C04). -/

namespace Verif.Hsmm

open Finset

/-- The gradient tables `g` describe how the probability tables depend on the coefficient, in the convention of the code:
emission, transition and initial tables on the log scale, duration tables on the natural scale; the coefficient
belongs to the model of state (or duration column) `g.jidx`; `T_grad(k)` is the derivative for the `k`-th state other
than `g.jidx`. -/
structure CoefDeriv (f : TableFamily) (g : GradTables) (θ0 : ℝ) : Prop where
  b : ∀ t j, HasDerivAt (fun θ => (f.at θ).bs2 t j)
    (match g.kind with
      | .emission => if g.jidx = j then (f.at θ0).bs2 t j * g.b_grad t else 0
      | _ => 0) θ0
  d : ∀ d j t, HasDerivAt (fun θ => (f.at θ).ds d j t)
    (match g.kind with
      | .duration => if g.jidx = j then dG f.base g d t else 0
      | _ => 0) θ0
  T : ∀ i j t k, i < f.base.n_S → (others f.base.n_S i)[k]? = some j → HasDerivAt (fun θ => (f.at θ).T i j t)
    (match g.kind with
      | .transition => if g.jidx = i then (f.at θ0).T i j t * tG f.base g k t else 0
      | _ => 0) θ0
  pi : ∀ j, HasDerivAt (fun θ => (f.at θ).pi j)
    (match g.kind with
      | .initial => (f.at θ0).pi j * g.pi_grad j
      | _ => 0) θ0

theorem CoefDeriv.tables {f : TableFamily} {g : GradTables} {θ0 : ℝ} (h : CoefDeriv f g θ0) :
    TablesHaveDeriv f θ0 (fun t j => match g.kind with
        | .emission => if g.jidx = j then (f.at θ0).bs2 t j * g.b_grad t else 0
        | _ => 0)
      (fun d j t => match g.kind with
        | .duration => if g.jidx = j then dG f.base g d t else 0
        | _ => 0)
      (fun i j t => match g.kind with
        | .transition => if g.jidx = i then (f.at θ0).T i j t * tG f.base g (tidx f.base.n_S i j) t else 0
        | _ => 0)
      (fun j => match g.kind with
        | .initial => (f.at θ0).pi j * g.pi_grad j
        | _ => 0) where
  b := h.b
  d := h.d
  T := fun i j t hi hj hij => h.T i j t _ hi (tidx_spec _ _ _ hij hj)
  pi := h.pi

/-- Derivative of each cell weight is the (rescaled) `psi` of the code. -/
theorem hasDerivAt_F (f : TableFamily) (g : GradTables) (θ0 : ℝ) (h : CoefDeriv f g θ0) (hh : f.base.hmp = false)
    (htv : g.kind = .initial → f.base.tvdtpi = false) (t : ℕ)
    (hL : ∀ s < t, Lam (f.at θ0) s ≠ 0) :
    ∀ d j, j < f.base.n_S → d < f.base.D - 1 → Live f.base t d →
      HasDerivAt (fun θ => F (f.at θ) t d j)
        ((psiBuf (f.at θ0) g t).1 d j * ∏ s ∈ range t, Lam (f.at θ0) s) θ0 := by
  induction t with
  | zero =>
    intro d j hj hd _
    refine (hasDerivAt_F_zero f θ0 h.tables hh d j hj hd).congr_deriv ?_
    rw [range_zero, prod_empty, mul_one]
    simp only [psiBuf, psiInit]
    have hdg : dG (f.at θ0) g d 0 = dG f.base g d 0 := rfl
    cases hk : g.kind <;> simp only
    · split_ifs <;> ring
    · rw [hdg]; split_ifs <;> ring
    · ring
    · ring
  | succ t ih =>
    intro d j hj hd hl
    have hl' : t + 1 + d < f.base.n_T ∨ f.base.ends_with_last = false := by
      rcases hl with h | h | h
      · omega
      · exact Or.inl h
      · exact Or.inr h
    have hlive : ∀ d', t + d' ≤ t + 1 + d → Live f.base t d' := by
      intro d' hd'
      rcases hl' with h | h
      · exact Or.inr (Or.inl (by omega))
      · exact Or.inr (Or.inr h)
    have ih' := ih fun s hs => hL s (by omega)
    set P := ∏ s ∈ range t, Lam (f.at θ0) s with hP
    have hF : ∀ d j, j < f.base.n_S → d < f.base.D - 1 → Live f.base t d → F (f.at θ0) t d j = lam (f.at θ0) t d j * P :=
      fun d j hj hd hl => (lam_eq (f.at θ0) t (fun s hs => hL s (by omega)) d j hj hd hl).symm
    have hder := hasDerivAt_F_succ f θ0 h.tables hh t (fun d j => (psiBuf (f.at θ0) g t).1 d j * P) d j hj hd
      (fun hd1 => ih' (d + 1) j hj (by omega) (hlive _ (by omega)))
      (fun i hi => ih' 0 i hi (by omega) (hlive _ (by omega)))
    refine hder.congr_deriv ?_
    rw [prod_range_succ, ← hP]
    have hbuf : (psiBuf (f.at θ0) g (t + 1)).1 d j =
        psiStep (f.at θ0) g (t + 1) (lam (f.at θ0) t) (psiBuf (f.at θ0) g t).1 (Lam (f.at θ0) t) d j := by
      simp only [psiBuf]
      exact if_pos hl'
    rw [hbuf]
    unfold psiStep
    have hcancel : ∀ x : ℝ, x / Lam (f.at θ0) t * (P * Lam (f.at θ0) t) = x * P := by
      intro x
      have := hL t (by omega)
      field_simp
    rw [hcancel]
    have hLD : (f.at θ0).D = f.base.D := rfl
    have hLS : (f.at θ0).n_S = f.base.n_S := rfl
    simp only [hLD, hLS, Nat.add_sub_cancel, tpgSum]
    have s1 : (∑ i ∈ range f.base.n_S, if i = j then 0 else F (f.at θ0) t 0 i * (f.at θ0).T i j t) =
        (∑ i ∈ range f.base.n_S, if i = j then 0 else lam (f.at θ0) t 0 i * (f.at θ0).T i j t) * P := by
      rw [sum_mul]
      apply sum_congr rfl
      intro i hi
      rw [mem_range] at hi
      rw [hF 0 i hi (by omega) (hlive _ (by omega))]
      split_ifs <;> ring
    rw [s1]
    have s2 : ∀ dT : ℕ → ℝ, (∑ i ∈ range f.base.n_S, if i = j then 0 else
          (psiBuf (f.at θ0) g t).1 0 i * P * (f.at θ0).T i j t + F (f.at θ0) t 0 i * dT i) =
        (∑ i ∈ range f.base.n_S, if i = j then 0 else
          (psiBuf (f.at θ0) g t).1 0 i * (f.at θ0).T i j t + lam (f.at θ0) t 0 i * dT i) * P := by
      intro dT
      rw [sum_mul]
      apply sum_congr rfl
      intro i hi
      rw [mem_range] at hi
      rw [hF 0 i hi (by omega) (hlive _ (by omega))]
      split_ifs <;> ring
    rw [s2]
    have s3 : d + 1 ≤ f.base.D - 2 → F (f.at θ0) t (d + 1) j = lam (f.at θ0) t (d + 1) j * P := fun hd1 =>
      hF (d + 1) j hj (by omega) (hlive _ (by omega))
    have hdg : ∀ t, dG (f.at θ0) g d t = dG f.base g d t := fun _ => rfl
    have htg : ∀ k t, tG (f.at θ0) g k t = tG f.base g k t := fun _ _ => rfl
    cases hk : g.kind <;> simp only [mul_zero, add_zero, zero_mul, mul_ite]
    · by_cases hj' : g.jidx = j
      · simp only [hj', if_true]
        split_ifs with hd1
        · rw [s3 hd1]; ring
        · ring
      · simp only [hj', if_false]
        split_ifs with hd1 <;> ring
    · simp only [hdg]
      by_cases hj' : g.jidx = (f.at θ0).dcol j
      · simp only [hj', if_true]
        split_ifs with hd1 <;> ring
      · simp only [hj', if_false]
        split_ifs with hd1 <;> ring
    · by_cases hj' : g.jidx = j
      · have hz : (∑ i ∈ range f.base.n_S, if i = j then 0 else
            (psiBuf (f.at θ0) g t).1 0 i * (f.at θ0).T i j t +
              if g.jidx = i then lam (f.at θ0) t 0 i *
                ((f.at θ0).T i j t * tG f.base g (tidx f.base.n_S i j) t) else 0) =
            ∑ i ∈ range f.base.n_S, if i = j then 0 else (psiBuf (f.at θ0) g t).1 0 i * (f.at θ0).T i j t := by
          apply sum_congr rfl
          intro i _
          split_ifs with h1 h2
          · rfl
          · exact absurd (h2.symm.trans hj') h1
          · ring
        rw [hz, if_pos hj']
        split_ifs with hd1 <;> ring
      · rw [if_neg hj']
        simp only [htg, mul_assoc]
        split_ifs with hd1 <;> ring
    · have hnt : (f.at θ0).tvdtpi = false := htv hk
      have hds : (f.at θ0).ds d ((f.at θ0).dcol j) (t + 1) = (f.at θ0).ds2 d ((f.at θ0).dcol j) := by
        simp [Tables.ds, hnt]
      rw [hds]
      simp only [hnt, Bool.false_eq_true, if_false]
      split_ifs with hd1 <;> ring

/-- Final sum of the code equals the sum of `psi` over the cells that enter the last normaliser. -/
theorem llkgrad_eq (m : Tables ℝ) (g : GradTables) (hS : 0 < m.n_S) (hD : 0 < m.D - 1) :
    llkgrad m g = (∑ d ∈ range (m.D - 1), ∑ j ∈ range m.n_S,
      if FinalCell m d j then (psiBuf m g (m.n_T - 1)).1 d j else 0) / Lam m (m.n_T - 1) := by
  have hF : ∀ d j, FinalCell m d j ↔ (m.ends_with_last = true → d = 0) ∧ (m.ends_in_last = true → j = m.n_S - 1) :=
    fun _ _ => Iff.rfl
  unfold llkgrad
  simp only
  congr 1
  have hlast : ∀ d, (∑ j ∈ range m.n_S, if j = m.n_S - 1 then (psiBuf m g (m.n_T - 1)).1 d j else 0) =
      (psiBuf m g (m.n_T - 1)).1 d (m.n_S - 1) := by
    intro d
    rw [sum_ite_eq' (range m.n_S) (m.n_S - 1), if_pos (mem_range.2 (by omega))]
  have hzero : ∀ v : ℕ → ℝ, (∑ d ∈ range (m.D - 1), if d = 0 then v d else 0) = v 0 := by
    intro v
    rw [sum_ite_eq' (range (m.D - 1)) 0, if_pos (mem_range.2 hD)]
  cases h1 : m.ends_with_last <;> cases h2 : m.ends_in_last <;>
    simp only [hF, h1, h2, Bool.false_eq_true, if_true, if_false, false_imp_iff, true_imp_iff, true_and, and_true,
      Bool.true_eq_false, and_self]
  · apply sum_congr rfl
    intro d _
    exact (hlast d).symm
  · rw [← hzero (fun d => ∑ j ∈ range m.n_S, (psiBuf m g (m.n_T - 1)).1 d j)]
    apply sum_congr rfl
    intro d _
    split_ifs
    · rfl
    · simp
  · rw [← hlast, ← hzero (fun d => ∑ j ∈ range m.n_S, if j = m.n_S - 1 then (psiBuf m g (m.n_T - 1)).1 d j else 0)]
    apply sum_congr rfl
    intro d _
    split_ifs with hd0
    · apply sum_congr rfl
      intro j _
      simp [hd0]
    · symm
      apply sum_eq_zero
      intro j _
      simp [hd0]

/-- C04. The gradient entry computed for a coefficient is the derivative of the computed log-likelihood with respect to
that coefficient: for emission, duration and transition coefficients with time-constant or time-varying tables, and for
initial-state coefficients with time-constant tables. Missing for the full claim: initial-state coefficients with
time-varying duration tables, where the code is wrong (`llkgrad_initial_time_varying_wrong`). -/
theorem llkgrad_hasDerivAt_partial (f : TableFamily) (g : GradTables) (θ0 : ℝ) (h : CoefDeriv f g θ0)
    (hh : f.base.hmp = false) (hT : 0 < f.base.n_T) (hS : 0 < f.base.n_S) (hD : 0 < f.base.D - 1)
    (hL : ∀ t < f.base.n_T, Lam (f.at θ0) t ≠ 0)
    (htv : g.kind = .initial → f.base.tvdtpi = false) :
    HasDerivAt (fun θ => llk (f.at θ)) (llkgrad (f.at θ0) g) θ0 := by
  refine HasDerivAt.congr_of_eventuallyEq ?_ (llk_eventually f θ0 h.tables hh hT hL)
  have hn : (f.at θ0).n_T = f.base.n_T := rfl
  have htot : ∀ θ, (∑ l ∈ allSegs (f.at θ), weight (f.at θ) l) =
      ∑ d ∈ range (f.base.D - 1), ∑ j ∈ range f.base.n_S,
        if FinalCell f.base d j then F (f.at θ) (f.base.n_T - 1) d j else 0 := fun θ => sum_allSegs (f.at θ)
  simp only [htot]
  have hL' : ∀ s < f.base.n_T - 1, Lam (f.at θ0) s ≠ 0 := fun s hs => hL s (by omega)
  have hfin := Lam_final_mul (f.at θ0) hT hL'
  rw [htot θ0, hn] at hfin
  have hP : ∏ s ∈ range (f.base.n_T - 1), Lam (f.at θ0) s ≠ 0 :=
    prod_ne_zero_iff.2 fun s hs => hL' s (mem_range.1 hs)
  have hne : Lam (f.at θ0) (f.base.n_T - 1) ≠ 0 := hL _ (by omega)
  have hder : HasDerivAt (fun θ => ∑ d ∈ range (f.base.D - 1), ∑ j ∈ range f.base.n_S,
        if FinalCell f.base d j then F (f.at θ) (f.base.n_T - 1) d j else 0)
      ((∑ d ∈ range (f.base.D - 1), ∑ j ∈ range f.base.n_S,
        if FinalCell f.base d j then (psiBuf (f.at θ0) g (f.base.n_T - 1)).1 d j else 0) *
        ∏ s ∈ range (f.base.n_T - 1), Lam (f.at θ0) s) θ0 := by
    rw [sum_mul]
    refine HasDerivAt.fun_sum ?_
    intro d hd
    rw [sum_mul]
    refine HasDerivAt.fun_sum ?_
    intro j hj
    rw [mem_range] at hd hj
    split_ifs with hf
    · refine hasDerivAt_F f g θ0 h hh htv (f.base.n_T - 1) hL' d j hj hd ?_
      by_cases he : f.base.ends_with_last = true
      · have := hf.1 he
        right; left; omega
      · right; right; simpa using he
    · rw [zero_mul]; exact hasDerivAt_const _ _
  have := hder.log (by rw [← hfin]; exact mul_ne_zero hne hP)
  refine this.congr_deriv ?_
  rw [llkgrad_eq (f.at θ0) g hS hD, ← hfin, hn]
  have hfc : ∀ d j, FinalCell (f.at θ0) d j ↔ FinalCell f.base d j := fun _ _ => Iff.rfl
  rw [mul_div_mul_right _ _ hP]
  rfl

/-- Two states, two time-points, time-varying duration tables; the coefficient moves initial probability from state 1
to state 0. All tables are probabilities: initial probabilities `1/2 + θ`, `1/2 - θ`, durations `1/2, 1/2` except for
state 1 at time 1 (`1/4, 3/4`). -/
noncomputable def badFam : TableFamily where
  base :=
    { n_T := 2, D := 3, n_S := 2, event_width := 1, starts_with_first := true, ends_with_last := true,
      ends_in_last := false, hmp := false, tvdtpi := true, bs2 := fun _ _ => 1, bs3 := fun _ _ _ => 1,
      ds2 := fun _ _ => 1 / 2, ds3 := fun _ _ _ => 1 / 2, T2 := fun _ _ => 1, T3 := fun _ _ _ => 1, pi := fun _ => 1 / 2 }
  bs2 := fun _ _ _ => 1
  ds2 := fun _ _ _ => 1 / 2
  ds3 := fun _ d j t => if j = 1 ∧ t = 1 then (if d = 0 then 1 / 4 else 3 / 4) else 1 / 2
  T2 := fun _ _ _ => 1
  T3 := fun _ _ _ _ => 1
  pi := fun θ j => if j = 0 then 1 / 2 + θ else 1 / 2 - θ

/-- The gradient tables of the initial-state coefficient of `badFam` at 0 (log scale). -/
noncomputable def badGrad : GradTables where
  kind := .initial
  jidx := 0
  b_grad := fun _ => 0
  d_grad2 := fun _ => 0
  d_grad3 := fun _ _ => 0
  T_grad2 := fun _ => 0
  T_grad3 := fun _ _ => 0
  pi_grad := fun j => if j = 0 then 2 else -2

theorem badFam_coef : CoefDeriv badFam badGrad 0 where
  b := fun t j => by simpa [badGrad, badFam, TableFamily.at] using hasDerivAt_const (0 : ℝ) (1 : ℝ)
  d := fun d j t => by
    simpa only [badGrad, badFam, TableFamily.at, Tables.ds] using hasDerivAt_const (0 : ℝ) _
  T := fun i j t k _ _ => by
    simpa only [badGrad, badFam, TableFamily.at, Tables.T] using hasDerivAt_const (0 : ℝ) _
  pi := fun j => by
    simp only [badGrad, badFam, TableFamily.at]
    by_cases h : j = 0
    · simp only [h, if_true]
      exact ((hasDerivAt_id (0 : ℝ)).const_add (1 / 2)).congr_deriv (by norm_num)
    · simp only [h, if_false]
      exact ((hasDerivAt_id (0 : ℝ)).const_sub (1 / 2)).congr_deriv (by norm_num)

theorem badFam_Lam (θ : ℝ) : Lam (badFam.at θ) 0 = 1 ∧ Lam (badFam.at θ) 1 = 11 / 16 - θ / 8 := by
  have h0 : Lam (badFam.at θ) 0 = 1 := by
    simp [Lam, lam, lamSum, lamContrib, lamCell, TableFamily.at, badFam, Finset.sum_range_succ, Tables.ds]
    ring
  refine ⟨h0, ?_⟩
  have : Lam (badFam.at θ) 1 = lamSum (badFam.at θ) 1
    (fun d j => lamCell (badFam.at θ) 1 (lam (badFam.at θ) 0) (Lam (badFam.at θ) 0) d j) := rfl
  rw [this, h0]
  simp [lam, lamSum, lamContrib, lamCell, TableFamily.at, badFam, Finset.sum_range_succ, Tables.ds, Tables.T, Tables.dcol]
  ring

/-- C04, negation for initial-state coefficients with time-varying duration tables: all hypotheses of
`llkgrad_hasDerivAt_partial` hold except the last, the log-likelihood is differentiable with derivative `-2/11`, and the
code returns 0. -/
theorem llkgrad_initial_time_varying_wrong :
    ∃ (f : TableFamily) (g : GradTables), CoefDeriv f g 0 ∧ f.base.hmp = false ∧ 0 < f.base.n_T ∧ 0 < f.base.n_S ∧
      0 < f.base.D - 1 ∧ (∀ t < f.base.n_T, Lam (f.at 0) t ≠ 0) ∧
      HasDerivAt (fun θ => llk (f.at θ)) (-2 / 11) 0 ∧ llkgrad (f.at 0) g = 0 := by
  refine ⟨badFam, badGrad, badFam_coef, rfl, by decide, by decide, by decide, ?_, ?_, ?_⟩
  · intro t ht
    have ht' : t = 0 ∨ t = 1 := by change t < 2 at ht; omega
    rcases ht' with rfl | rfl
    · rw [(badFam_Lam 0).1]; norm_num
    · rw [(badFam_Lam 0).2]; norm_num
  · have e : (fun θ => llk (badFam.at θ)) = fun θ => Real.log (11 / 16 - θ / 8) := by
      funext θ
      have : llk (badFam.at θ) = Real.log (Lam (badFam.at θ) 0) + Real.log (Lam (badFam.at θ) 1) := by
        change ∑ t ∈ range 2, _ = _
        simp [Finset.sum_range_succ]
      rw [this, (badFam_Lam θ).1, (badFam_Lam θ).2, Real.log_one, zero_add]
    rw [e]
    have h1 : HasDerivAt (fun θ : ℝ => 11 / 16 - θ / 8) (-(1 / 8)) 0 := ((hasDerivAt_id (0 : ℝ)).div_const 8).const_sub _
    exact (h1.log (by norm_num)).congr_deriv (by norm_num)
  · have hp : ∀ d < 2, ∀ j < 2, (psiBuf (badFam.at 0) badGrad 0).1 d j = if j = 0 then 1 / 2 else -(1 / 2) := by
      intro d hd j hj
      have hd' : d = 0 ∨ d = 1 := by omega
      have hj' : j = 0 ∨ j = 1 := by omega
      rcases hd' with rfl | rfl <;> rcases hj' with rfl | rfl <;>
        norm_num [psiBuf, psiInit, badGrad, badFam, TableFamily.at, Tables.ds]
    have hs : ∀ j < 2, (psiBuf (badFam.at 0) badGrad 1).1 0 j = if j = 0 then 1 / 4 else -(1 / 4) := by
      intro j hj
      have : (psiBuf (badFam.at 0) badGrad 1).1 0 j = psiStep (badFam.at 0) badGrad 1 (lam (badFam.at 0) 0)
          (psiBuf (badFam.at 0) badGrad 0).1 (Lam (badFam.at 0) 0) 0 j := by
        simp only [psiBuf]
        exact if_pos (Or.inl (by decide))
      rw [this, (badFam_Lam 0).1]
      unfold psiStep
      have hb : badGrad.kind = Kind.initial := rfl
      have hD : (badFam.at 0).D = 3 := rfl
      have hS : (badFam.at 0).n_S = 2 := rfl
      simp only [hb, hD, hS, tpgSum]
      have hj' : j = 0 ∨ j = 1 := by omega
      rcases hj' with rfl | rfl
      · simp only [Finset.sum_range_succ, Finset.sum_range_zero]
        rw [hp 1 (by omega) 0 (by omega), hp 0 (by omega) 0 (by omega), hp 0 (by omega) 1 (by omega)]
        norm_num [badFam, TableFamily.at, Tables.T, Tables.dcol]
      · simp only [Finset.sum_range_succ, Finset.sum_range_zero]
        rw [hp 1 (by omega) 1 (by omega), hp 0 (by omega) 0 (by omega), hp 0 (by omega) 1 (by omega)]
        norm_num [badFam, TableFamily.at, Tables.T, Tables.dcol]
    have : llkgrad (badFam.at 0) badGrad = (∑ j ∈ range 2, (psiBuf (badFam.at 0) badGrad 1).1 0 j) / Lam (badFam.at 0) 1 := rfl
    rw [this, sum_range_succ, sum_range_succ, sum_range_zero, hs 0 (by omega), hs 1 (by omega)]
    norm_num

/-- The hypotheses of `llkgrad_hasDerivAt_partial` are met by a non-trivial case: the same series with an emission
coefficient that scales the density of state 0 at both time-points. -/
noncomputable def goodFam : TableFamily :=
  { badFam with bs2 := fun θ _ j => if j = 0 then Real.exp θ else 1, pi := fun _ _ => 1 / 2 }

noncomputable def goodGrad : GradTables := { badGrad with kind := .emission, b_grad := fun _ => 1 }

example : CoefDeriv goodFam goodGrad 0 ∧ (goodGrad.kind = .initial → goodFam.base.tvdtpi = false) := by
  refine ⟨⟨fun t j => ?_, fun d j t => ?_, fun i j t k _ _ => ?_, fun j => ?_⟩, by intro h; cases h⟩
  · simp only [goodGrad, goodFam, badGrad, TableFamily.at]
    by_cases h : j = 0
    · subst h
      simpa using Real.hasDerivAt_exp 0
    · simp only [h, Ne.symm h, if_false]
      exact hasDerivAt_const _ _
  · simpa only [goodGrad, goodFam, badGrad, badFam, TableFamily.at, Tables.ds] using hasDerivAt_const (0 : ℝ) _
  · simpa only [goodGrad, goodFam, badGrad, badFam, TableFamily.at, Tables.T] using hasDerivAt_const (0 : ℝ) _
  · simpa only [goodGrad, goodFam, badGrad, badFam, TableFamily.at] using hasDerivAt_const (0 : ℝ) _

end Verif.Hsmm
