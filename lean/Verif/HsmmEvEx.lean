import Verif.HsmmEvData

/-! Concrete cases for C144 and C145. -/

namespace Verif.HEv

open Hsmm HFam Finset

/-- A flat, an event of two time points, a flat; two signals, autocorrelation, a smooth shared by states and signals. -/
noncomputable def ev (sig : ℕ → ℕ → ℝ) (shared_m : Bool) : Ev where
  n_T := 3
  D := 4
  n_S := 3
  M := 2
  ends_with_last := false
  ends_in_last := false
  event_width := 2
  template := fun k => k + 1
  scale := 2
  gaussian := true
  rho := some (1 / 2)
  dur := fun j => if j = 1 then none else some (gaussFam fun d => d + 1)
  shared := true
  shared_m := shared_m
  fix := { T2 := fun i j => if j = i + 1 then 1 else 0, T3 := fun _ _ _ => 0, pi := fun j => if j = 0 then 1 else 0 }
  p := fun k => match k with
    | .sh _ _ => 3
    | _ => 1
  X := fun _ t c => (t : ℝ) ^ c
  resp := fun k => match k with
    | .em _ m _ => sig m
    | .sh _ m => sig m
    | _ => fun _ => 0

theorem ev_named (sig : ℕ → ℕ → ℝ) (b : Bool) : Named (ev sig b) sig :=
  ⟨fun _ _ _ => rfl, fun _ _ => rfl, fun _ => rfl⟩

theorem ev_dur (sig : ℕ → ℕ → ℝ) (b : Bool) : DurOk (ev sig b) := by
  intro j _ f hf
  by_cases h : j = 1
  · simp [ev, h] at hf
  · simp only [ev, h, if_false, Option.some.injEq] at hf
    rw [← hf]
    exact gaussFam_ok _

theorem ev_ds (sig : ℕ → ℕ → ℝ) (b : Bool) (β : Coef) (d j : ℕ) : 0 ≤ evDs (ev sig b) β d j := by
  unfold evDs
  split_ifs
  · by_cases h : j = 1
    · have hd : (ev sig b).dur j = none := by simp [ev, h]
      rw [hd]
      simp only [bumpDs, ev]
      norm_num
      split_ifs <;> norm_num [sum_range_succ]
    · have hd : (ev sig b).dur j = some (gaussFam fun d => d + 1) := by simp [ev, h]
      rw [hd]
      exact (durations_distribution (ev sig b).fm β (show 2 ≤ 4 by norm_num) j 0).1 d |>.le
  · exact le_rfl

theorem ev_usable (sig : ℕ → ℕ → ℝ) (b : Bool) (β : Coef) : Usable (ev sig b) β := by
  have hb : ∀ t k j, k ≤ 1 → 0 < eventBs (args (ev sig b) β) t k j := by
    intro t k j hk
    unfold eventBs
    split_ifs
    exact Real.exp_pos _
    exact Real.exp_pos _
  have hd0 : 0 < evDs (ev sig b) β 0 0 := by
    have hd : (ev sig b).dur 0 = some (gaussFam fun d => d + 1) := by simp [ev]
    unfold evDs
    rw [if_pos (show 0 < (ev sig b).n_S by norm_num [ev]), hd]
    exact (durations_distribution (ev sig b).fm β (show 2 ≤ 4 by norm_num) 0 0).1 0
  have hd1 : 0 < evDs (ev sig b) β 1 1 := by
    have hd : (ev sig b).dur 1 = none := by simp [ev]
    unfold evDs
    rw [if_pos (show 1 < (ev sig b).n_S by norm_num [ev]), hd]
    simp only [bumpDs, ev]
    norm_num [sum_range_succ]
  refine ⟨by norm_num [ev], ?_, ?_, [⟨1, 1, 1⟩, ⟨0, 0, 0⟩], ?_, ?_⟩
  · intro r hr
    have : r = 1 / 2 := by simpa [ev] using hr.symm
    rw [this]; norm_num
  · refine ⟨fun _ _ => le_rfl, fun _ _ _ => eventBs_nonneg _ _ _ _, fun d j => ev_ds sig b β d j, fun _ _ _ => le_rfl,
      ?_, fun _ _ _ => le_rfl, ?_⟩
    · intro i j
      simp only [tabs, base, ev]
      split_ifs <;> norm_num
    · intro j
      simp only [tabs, base, ev]
      split_ifs <;> norm_num
  · refine ⟨⟨rfl, by decide, rfl⟩, ?_, ⟨1, 1, 1⟩, _, rfl, ?_, ?_, ?_, ?_⟩
    · intro s hs
      simp at hs
      rcases hs with rfl | rfl <;> simp [SegOk, tabs, base, ev]
    all_goals simp [tabs, base, ev]
  · simp only [weight, weightUpTo]
    refine mul_pos (mul_pos (mul_pos ?_ ?_) ?_) (mul_pos (mul_pos ?_ ?_) ?_)
    · simp [Tables.T, tabs, base, ev]
    · exact hd1
    · refine prod_pos fun t ht => ?_
      simp only [obs, tabs, base, if_true]
      split_ifs
      all_goals exact hb _ _ _ (by simp [ev])
    · simp [tabs, base, ev]
    · exact hd0
    · refine prod_pos fun t ht => ?_
      simp only [obs, tabs, base, if_true]
      split_ifs
      all_goals exact hb _ _ _ (by simp [ev])

/-- One shared block of 3, two event blocks, two flats with two duration parameters. -/
example (sig : ℕ → ℕ → ℝ) : nCoef (ev sig true).fm = 9 := by
  simp [nCoef, allKeys, sharedKeys, emBlocks, duBlocks, trBlocks, piBlocks, ev, Ev.fm, slots, gaussFam, Model.nd,
    List.range_succ]

example (sig : ℕ → ℕ → ℝ) (b : Bool) (coef : ℕ → ℝ) :
    ∀ n < nCoef (ev sig b).fm, HasDerivAt (fun θ => seriesLlk (ev sig b) (split (ev sig b).fm (Function.update coef n θ)))
      ((seriesGrad (ev sig b) (split (ev sig b).fm coef)).getD n 0) (coef n) :=
  (series_gradient (ev sig b) coef (ev_dur sig b) (by norm_num [ev]) (by norm_num [ev]) (by norm_num [ev])
    (ev_usable sig b _)).2

/-- Two series. -/
example (sig : ℕ → ℕ → ℝ) (coef : ℕ → ℝ) : ∃ g,
    famGrad [ev sig true, ev (fun m t => sig m (t + 3)) true] (splitBy (allKeys (ev sig true).fm) (ev sig true).p coef) =
      some g ∧ ∀ n < 9, HasDerivAt (fun θ => famLlk [ev sig true, ev (fun m t => sig m (t + 3)) true]
        (splitBy (allKeys (ev sig true).fm) (ev sig true).p (Function.update coef n θ))) (g.getD n 0) (coef n) := by
  have hmem : ∀ P : Ev → Prop, P (ev sig true) → P (ev (fun m t => sig m (t + 3)) true) →
      ∀ v ∈ [ev sig true, ev (fun m t => sig m (t + 3)) true], P v := by
    intro P h1 h2 v hv
    simp only [List.mem_cons, List.not_mem_nil, or_false] at hv
    rcases hv with rfl | rfl
    · exact h1
    · exact h2
  obtain ⟨g, h1, _, h2⟩ := gradient (ev sig true).p (allKeys (ev sig true).fm)
    [ev sig true, ev (fun m t => sig m (t + 3)) true] (by simp)
    (hmem _ ⟨rfl, rfl⟩ ⟨rfl, rfl⟩) coef (hmem _ (ev_dur _ _) (ev_dur _ _))
    (hmem _ (by norm_num [ev]) (by norm_num [ev])) (hmem _ (by norm_num [ev]) (by norm_num [ev]))
    (hmem _ (by norm_num [ev]) (by norm_num [ev])) (hmem _ (ev_usable _ _ _) (ev_usable _ _ _))
  refine ⟨g, h1, fun n hn => h2 n ?_⟩
  have : ((allKeys (ev sig true).fm).map (ev sig true).p).sum = 9 := by
    simp [allKeys, sharedKeys, emBlocks, duBlocks, trBlocks, piBlocks, ev, Ev.fm, slots, gaussFam, Model.nd,
      List.range_succ]
  rw [this]
  exact hn

/-- Formulas shared by the states, one for each signal. -/
example (sig : ℕ → ℕ → ℝ) (β : Coef) : seriesLlk (ev sig false) β = llkFor (ev sig false) β sig :=
  own_signals_partial _ β sig (ev_named sig false) (by norm_num [ev]) (Or.inr (Or.inl rfl))

/-- One formula shared by states and signals: the second signal is not looked at. -/
example (sig : ℕ → ℕ → ℝ) (y : ℕ → ℝ) (β : Coef) :
    seriesLlk (ev (fun m => if m = 1 then y else sig m) true) β = seriesLlk (ev sig true) β :=
  last_signal_unused_wrong (ev sig true) β sig (ev_named sig true) (by norm_num [ev]) rfl rfl (by norm_num [ev])
    (ev (fun m => if m = 1 then y else sig m) true).resp (fun m => if m = 1 then y else sig m)
    (ev_named (fun m => if m = 1 then y else sig m) true) (fun m hm => by
      have h : m + 1 < 2 := hm
      have : m ≠ 1 := by omega
      simp [this])

/-- One time point in a flat. -/
noncomputable def one (sig : ℕ → ℕ → ℝ) : Ev :=
  { ev sig true with
    n_T := 1
    D := 2
    event_width := 1
    rho := none }

theorem one_llk (sig s : ℕ → ℕ → ℝ) (β : Coef) : llkFor (one sig) β s =
    ldWrapper 2 (s 0 0) 0 2 + ldWrapper 2 (s 1 0) 0 2 := by
  have hds : evDs (one sig) β 0 0 = 1 := by
    have hd : (one sig).dur 0 = some (gaussFam fun d => d + 1) := by simp [one, ev]
    unfold evDs
    rw [if_pos (show 0 < (one sig).n_S by norm_num [one, ev]), hd]
    have h1 := (durations_distribution (one sig).fm β (show 2 ≤ 2 by norm_num) 0 0).2
    change ∑ d ∈ range 1, dsAt (one sig).fm β 0 0 d = 1 at h1
    rw [sum_range_one] at h1
    exact h1
  have hb : eventBs { args (one sig) β with y := fun t m => s m t } 0 0 0 =
      Real.exp (ldWrapper 2 (s 0 0) 0 2 + ldWrapper 2 (s 1 0) 0 2) := by
    simp [eventBs, args, one, ev, eFlat, sum_range_succ]
  have hL : Lam { base (one sig) β with bs3 := eventBs { args (one sig) β with y := fun t m => s m t } } 0 =
      eventBs { args (one sig) β with y := fun t m => s m t } 0 0 0 * evDs (one sig) β 0 0 := by
    generalize eventBs { args (one sig) β with y := fun t m => s m t } = B
    simp [Lam, lamSum, lam, lamCell, lamContrib, base, one, ev, sum_range_succ, Tables.ds]
  unfold llkFor llk
  change ∑ t ∈ range 1, _ = _
  rw [sum_range_one, hL, hds, mul_one, hb, Real.log_exp]

/-- C145, negation. The log-likelihood that is computed is not that of the signals. -/
theorem not_own_signals_wrong : ∃ (v : Ev) (sig : ℕ → ℕ → ℝ), Named v sig ∧ 2 ≤ v.n_S ∧
    ∀ β, seriesLlk v β ≠ llkFor v β sig := by
  refine ⟨one fun m _ => m, fun m _ => m, ⟨fun _ _ _ => rfl, fun _ _ => rfl, fun _ => rfl⟩, by norm_num [one, ev], fun β => ?_⟩
  rw [shifted_signals_wrong (one fun m _ => m) β (fun m _ => m) ⟨fun _ _ _ => rfl, fun _ _ => rfl, fun _ => rfl⟩
    (by norm_num [one, ev]) rfl rfl, one_llk, one_llk]
  simp only [ldWrapper]
  norm_num
  intro h
  linarith

end Verif.HEv
