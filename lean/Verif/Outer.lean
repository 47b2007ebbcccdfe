import Verif.OuterLemmas
import Mathlib.Tactic.FinCases

/-!
# Results of fits of GAMMLSS and general smooth models (C93)

The coefficients, covariance, degrees of freedom and penalty of a fit are computed for smoothing
parameters `used`; the model reports smoothing parameters `lam`.
-/

namespace Verif.Outer
open Verif.Lam

variable {m : ℕ} {V : Type}

/-- **C93, converged fits.**  Steps of smoothing parameters not extended, or extended by the default
method, and no restarts: after convergence coefficients, Hessian, degrees of freedom are the estimates
of one pass, for smoothing parameters that agree with the reported ones up to `1e-7`; the penalty is
that of the coefficients.  Missing: other extension methods, restarts, fits that do not converge. -/
theorem converged_together_partial (A : Args m V)
    (hs : A.extend = false ∨ A.method = .nesterov2)
    (hc : A.gen = false ∨ A.qefs = false ∨ A.maxRestarts < 0)
    (fuel maxOuter : ℕ) (lam : Fin m → ℝ) (frozen : Fin m → Bool) (coef : V) (r : Out m V)
    (h : fit A fuel maxOuter lam frozen coef = some r) (h0 : r.code = 0) :
    (∃ o k c0, o < maxOuter ∧ r.est = balance A o (A.est o k r.used c0)) ∧ r.coef = r.est.coef ∧
      r.penalty = A.quad r.used r.coef ∧ ∀ i, |r.lam i - r.used i| < 1 / 10 ^ 7 := by
  obtain ⟨o, a, ho, ⟨-, c0, h1, h2, -⟩, h3 | ⟨-, h3⟩⟩ := loop_spec hs hc frozen fuel maxOuter 0 none _ r
    (start_good A lam frozen coef) (fun _ => rfl) (by intro a ha; cases ha) h
  · subst h3
    exact ⟨⟨o, a.k, c0, by omega, h1⟩, rfl, rfl, h2⟩
  · subst h3; cases h0

/-- Fits by Newton's method: the estimates are those of the external computation. -/
theorem converged_newton_partial (A : Args m V) (hs : A.extend = false ∨ A.method = .nesterov2)
    (hc : A.gen = false ∨ A.qefs = false)
    (fuel maxOuter : ℕ) (lam : Fin m → ℝ) (frozen : Fin m → Bool) (coef : V) (r : Out m V)
    (h : fit A fuel maxOuter lam frozen coef = some r) (h0 : r.code = 0) :
    ∃ o k c0, o < maxOuter ∧ r.est = A.est o k r.used c0 ∧ r.coef = (A.est o k r.used c0).coef := by
  obtain ⟨⟨o, k, c0, ho, h1⟩, h2, -⟩ := converged_together_partial A hs
    (by rcases hc with h | h; exacts [.inl h, .inr (.inl h)]) fuel maxOuter lam frozen coef r h h0
  rw [balance_id hc] at h1
  exact ⟨o, k, c0, ho, h1, by rw [h2, h1]⟩

/-- A fit has one of two codes. -/
theorem code_cases (A : Args m V) (hs : A.extend = false ∨ A.method = .nesterov2)
    (hc : A.gen = false ∨ A.qefs = false ∨ A.maxRestarts < 0)
    (fuel maxOuter : ℕ) (lam : Fin m → ℝ) (frozen : Fin m → Bool) (coef : V) (r : Out m V)
    (h : fit A fuel maxOuter lam frozen coef = some r) : r.code = 0 ∨ r.code = 1 := by
  obtain ⟨o, a, -, -, h3 | ⟨-, h3⟩⟩ := loop_spec hs hc frozen fuel maxOuter 0 none _ r
    (start_good A lam frozen coef) (fun _ => rfl) (by intro a ha; cases ha) h
  · subst h3; exact .inl rfl
  · subst h3; exact .inr rfl

/-- **C93, fits stopped after `max_outer` iterations.**  Coefficients and degrees of freedom are those
of the last iteration, but the reported smoothing parameters have moved by one more step: for
unaccelerated fits without damping, the step of the Fellner-Schall update computed from these
estimates. -/
theorem stopped_lam (A : Args m V) (hs : A.extend = false)
    (hc : A.gen = false ∨ A.qefs = false ∨ A.maxRestarts < 0)
    (fuel maxOuter : ℕ) (hm : maxOuter ≤ 51) (lam : Fin m → ℝ) (frozen : Fin m → Bool) (coef : V) (r : Out m V)
    (h : fit A fuel maxOuter lam frozen coef = some r) (h1 : r.code = 1) :
    r.coef = r.est.coef ∧ r.penalty = A.quad r.used r.coef ∧
    ∀ i, ∃ l, |l - r.used i| < 1 / 10 ^ 7 ∧ (frozen i = true → r.lam i = l) ∧
      (frozen i = false → r.est.pass.ldet i ≤ r.est.pass.lgdet i →
        r.lam i = l + fsStep (r.est.pass.lgdet i) (r.est.pass.ldet i) (r.est.pass.bsb i) l 1) := by
  obtain ⟨o, a, ho, ⟨hfr, c0, h2, h3, ts', h4⟩, h5 | ⟨h6, h5⟩⟩ := loop_spec (.inl hs) hc frozen fuel maxOuter 0 none _ r
    (start_good A lam frozen coef) (fun _ => rfl) (by intro a ha; cases ha) h
  · subst h5; cases h1
  · subst h5
    have hex : (A.cfg o).extend = false := hs
    have hou : (A.cfg o).outer = o := rfl
    have hfz : ∀ i, (ts' i).frozen = frozen i := fun i => by
      rw [← hfr i, h4]; exact (proposeL_frozen _ _ _ _ _).symm
    have hd : ∀ i, (doneL (A.cfg o) a.est.pass ts' i).delta =
        if a.est.pass.lgdet i - a.est.pass.ldet i < 0 then
          (if (ts' i).lam + Real.sign (if (ts' i).frozen then 0 else
            fsStep (a.est.pass.lgdet i) (a.est.pass.ldet i) (a.est.pass.bsb i) (ts' i).lam 1) *
              min (|(ts' i).lam| * 0.001) |if (ts' i).frozen then 0 else
            fsStep (a.est.pass.lgdet i) (a.est.pass.ldet i) (a.est.pass.bsb i) (ts' i).lam 1| < 0 then 0
          else Real.sign (if (ts' i).frozen then 0 else
            fsStep (a.est.pass.lgdet i) (a.est.pass.ldet i) (a.est.pass.bsb i) (ts' i).lam 1) *
              min (|(ts' i).lam| * 0.001) |if (ts' i).frozen then 0 else
            fsStep (a.est.pass.lgdet i) (a.est.pass.ldet i) (a.est.pass.bsb i) (ts' i).lam 1|)
        else if (ts' i).frozen then 0 else
          fsStep (a.est.pass.lgdet i) (a.est.pass.ldet i) (a.est.pass.bsb i) (ts' i).lam 1 := by
      intro i
      unfold doneL proposeL
      simp only
      rw [if_neg (c := (A.cfg o).extend = true ∧ _) (by rw [hex]; rintro ⟨h, -⟩; cases h), if_neg]
      rw [hou]
      rintro (⟨h, -⟩ | ⟨-, h⟩) <;> omega
    refine ⟨rfl, rfl, fun i => ⟨(a.terms i).lam, h3 i, fun hf => ?_, fun hf hle => ?_⟩⟩
    · simp only [result, applyStep]
      rw [h4, doneL_lam, hd, hfz, hf]
      simp [Real.sign_zero]
    · simp only [result, applyStep] at hle ⊢
      rw [h4, doneL_lam, hd, hfz, hf, if_neg (not_lt.mpr (sub_nonneg.mpr hle))]
      rfl

/-- Estimates used in the examples: coefficients zero, one smoothing parameter, penalised
log-likelihood `p`. -/
noncomputable def est1 (lgdet ldet bsb p : ℝ) : Est 1 ℝ :=
  ⟨2, ⟨fun _ => lgdet, fun _ => ldet, fun _ => bsb, p, false, false⟩, 3, false, 1, fun _ => 0, 0⟩

/-- A GAMMLSS with one penalty, the penalty of coefficient `c` being `lam * c²`. -/
noncomputable def args1 (e : ℕ → Est 1 ℝ) : Args 1 ℝ :=
  ⟨false, false, false, 0, .nesterov2, 0, 1 / 10 ^ 7, fun o _ _ _ => e o, fun l c => l 0 * c ^ 2,
    fun _ _ _ c => c, fun _ _ => 0⟩

theorem control_skip (A : Args m V) (o : ℕ) (coef : V) (fuel k : ℕ) (ts : Fin m → Term)
    (h : SkipL (A.cfg o)) : control A o coef (fuel + 1) k ts =
      some ⟨fun i => (ts i).lam, doneL (A.cfg o) (balance A o (A.est o k (fun i => (ts i).lam) coef)).pass ts,
        balance A o (A.est o k (fun i => (ts i).lam) coef), k⟩ := by
  simp only [control, check, if_pos h]
  simp

theorem args1_skip (e : ℕ → Est 1 ℝ) (o : ℕ) : SkipL ((args1 e).cfg o) :=
  .inr (.inl (by simp [args1, Args.cfg]))

/-- **Defect.**  A fit stopped after `max_outer` iterations reports smoothing parameters that its
coefficients were not estimated with, and a penalty that does not belong to them. -/
theorem stopped_wrong : ∃ (A : Args 1 ℝ) (fuel : ℕ) (lam : Fin 1 → ℝ) (coef : ℝ) (r : Out 1 ℝ),
    fit A fuel 1 lam (fun _ => false) coef = some r ∧ r.code = 1 ∧ r.used 0 = 1 ∧ r.lam 0 = 4 ∧
      r.penalty = 4 ∧ A.quad r.lam r.coef = 16 := by
  have hs : fit (args1 fun _ => est1 4 0 1 (-1)) 1 1 (fun _ => 1) (fun _ => false) 0 = some
      (result (args1 fun _ => est1 4 0 1 (-1)) ⟨fun _ => 1, fun _ => ⟨0, 0, 0, 0, false, false⟩, est1 4 0 1 (-1), 0⟩ 2
        (fun i => applyStep (doneL ((args1 fun _ => est1 4 0 1 (-1)).cfg 0) (est1 4 0 1 (-1)).pass
          (start (fun _ => 1) (fun _ => false) (0 : ℝ)).terms i)) 1) := by
    have h1 := control_skip (args1 fun _ => est1 4 0 1 (-1)) 0 0 0 0
      (start (fun _ => 1) (fun _ => false) (0 : ℝ)).terms (args1_skip _ 0)
    rw [balance_id (.inl rfl)] at h1
    rcases round_calm (A := args1 fun _ => est1 4 0 1 (-1)) (.inl rfl) 0 (start (fun _ => 1) (fun _ => false) (0 : ℝ))
      _ with ⟨-, h⟩ | ⟨-, h⟩
    · exact absurd h.1 (lt_irrefl _)
    · exact (loop_next h1 h).trans rfl
  have hd : (doneL ((args1 fun _ => est1 4 0 1 (-1)).cfg 0) (est1 4 0 1 (-1)).pass
          (start (fun _ => 1) (fun _ => false) (0 : ℝ)).terms 0).delta = 3 := by
    simp [doneL, proposeL, start, est1, args1, Args.cfg, fsStep, lo, hi]
    norm_num
  refine ⟨args1 fun _ => est1 4 0 1 (-1), 1, fun _ => 1, 0, _, hs, rfl, rfl, ?_, ?_, ?_⟩
  · simp only [result, applyStep]
    rw [hd, doneL_lam]
    simp only [start]
    norm_num
  · simp only [result, args1]; norm_num
  · simp only [result, applyStep, args1]
    have := hd
    simp only [args1] at this
    rw [this, doneL_lam]
    simp only [start]
    norm_num

/-- The hypotheses of `converged_together_partial` are met: a fit of two iterations. -/
example : ∃ r, fit (args1 fun _ => est1 4 0 1 (-1)) 1 2 (fun _ => 1) (fun _ => false) 0 = some r ∧
    r.code = 0 ∧ r.used 0 = 4 ∧ r.lam 0 = 4 ∧ r.penalty = 16 := by
  have h1 := control_skip (args1 fun _ => est1 4 0 1 (-1)) 0 0 0 0
    (start (fun _ => 1) (fun _ => false) (0 : ℝ)).terms (args1_skip _ 0)
  rw [balance_id (.inl rfl)] at h1
  have hd : (doneL ((args1 fun _ => est1 4 0 1 (-1)).cfg 0) (est1 4 0 1 (-1)).pass
      (start (fun _ => 1) (fun _ => false) (0 : ℝ)).terms 0).delta = 3 := by
    simp [doneL, proposeL, start, est1, args1, Args.cfg, fsStep, lo, hi]
    norm_num
  obtain ⟨T, hT⟩ : ∃ T, T = doneL ((args1 fun _ => est1 4 0 1 (-1)).cfg 0) (est1 4 0 1 (-1)).pass
      (start (fun _ => 1) (fun _ => false) (0 : ℝ)).terms := ⟨_, rfl⟩
  have hl : (T 0).lam = 1 := by rw [hT, doneL_lam]; rfl
  have h1' : control (args1 fun _ => est1 4 0 1 (-1)) 0 0 1 0 (start (fun _ => 1) (fun _ => false) (0 : ℝ)).terms =
      some ⟨fun _ => 1, T, est1 4 0 1 (-1), 0⟩ := by rw [hT]; exact h1
  rw [← hT] at hd
  have h2 : round (args1 fun _ => est1 4 0 1 (-1)) 0 (start (fun _ => 1) (fun _ => false) (0 : ℝ))
      ⟨fun _ => 1, T, est1 4 0 1 (-1), 0⟩ =
      .inr ⟨fun i => applyStep (T i), 2, [-1], fun i => (T i).lam, 0, 0⟩ := by
    rcases round_calm (A := args1 fun _ => est1 4 0 1 (-1)) (.inl rfl) 0 (start (fun _ => 1) (fun _ => false) (0 : ℝ))
      ⟨fun _ => 1, T, est1 4 0 1 (-1), 0⟩ with ⟨-, h⟩ | ⟨-, h⟩
    · exact absurd h.1 (lt_irrefl _)
    · rw [h]
      simp [next, monitor, args1, start, est1]
  have h3 := control_skip (args1 fun _ => est1 4 0 1 (-1)) 1 2 0 0 (fun i => applyStep (T i)) (args1_skip _ 1)
  rw [balance_id (.inl rfl)] at h3
  obtain ⟨T2, hT2⟩ : ∃ T2, T2 = doneL ((args1 fun _ => est1 4 0 1 (-1)).cfg 1) (est1 4 0 1 (-1)).pass
      (fun i => applyStep (T i)) := ⟨_, rfl⟩
  have hl2 : (T2 0).lam = 4 := by rw [hT2, doneL_lam]; simp only [applyStep]; rw [hl, hd]; norm_num
  have h3' : control (args1 fun _ => est1 4 0 1 (-1)) 1 2 1 0 (fun i => applyStep (T i)) =
      some ⟨fun i => (applyStep (T i)).lam, T2, est1 4 0 1 (-1), 0⟩ := by rw [hT2]; exact h3
  rcases round_calm (A := args1 fun _ => est1 4 0 1 (-1)) (.inl rfl) 1
      ⟨fun i => applyStep (T i), 2, [-1], fun i => (T i).lam, 0, 0⟩
      ⟨fun i => (applyStep (T i)).lam, T2, est1 4 0 1 (-1), 0⟩ with ⟨h4, -⟩ | ⟨h4, -⟩
  · refine ⟨_, (loop_next h1' h2).trans (loop_done h3' h4), rfl, ?_, hl2, ?_⟩
    · simp only [result, applyStep]; rw [hl, hd]; norm_num
    · simp only [result, args1, applyStep]; rw [hl, hd]; simp [est1]; norm_num
  · exfalso
    apply h4
    refine ⟨by norm_num, .inl ⟨-1, ?_, ?_⟩⟩
    · simp [monitor, args1]
    · simp [monitor, args1, est1]

/-- **C93, what convergence means.**  Newton-type fits that report convergence within 101 iterations,
with no coefficients dropped at the end: the penalised log-likelihood of the last iteration differs by
less than `conv_tol`, relatively, from that of one of the five iterations before. -/
theorem converged_reason (A : Args m V) (hq : A.gen = false ∨ A.qefs = false)
    (fuel maxOuter : ℕ) (lam : Fin m → ℝ) (frozen : Fin m → Bool) (coef : V) (r : Out m V)
    (h : fit A fuel maxOuter lam frozen coef = some r) (h0 : r.code = 0) (hd : r.est.dropped = false)
    (hl : (penTrace A fuel maxOuter 0 (start lam frozen coef)).length ≤ 101) :
    ∃ n j x, (penTrace A fuel maxOuter 0 (start lam frozen coef)).length = n + 1 ∧
      (penTrace A fuel maxOuter 0 (start lam frozen coef))[n]? = some r.est.pass.penLlk ∧
      j < n ∧ n ≤ j + 5 ∧ (penTrace A fuel maxOuter 0 (start lam frozen coef))[j]? = some x ∧
      |x - r.est.pass.penLlk| < A.tol * |r.est.pass.penLlk| := by
  obtain ⟨n, h1, -, h3, h4⟩ := loop_reason hq fuel maxOuter 0 none (start lam frozen coef) r [] rfl rfl h h0
  simp only [List.nil_append] at h1 h3 h4
  rcases h4 with ⟨j, x, h5, h6, h7, h8⟩ | h5 | h5
  · exact ⟨n, j, x, h1, h3, h5, h6, h7, h8⟩
  · rw [hd] at h5; cases h5
  · omega

/-- A term whose step of `10⁻⁹` was extended in proportion to the previous step of 10. -/
noncomputable def extended : Term := extend .expectedRatio 1 ⟨11, 0, 1, 0, false, false⟩ (1 / 10 ^ 9)

theorem extended_eq : ∃ x : ℝ, 1 < x ∧ extended = ⟨11, 1 / 10 ^ 9 + x, 11, x, true, false⟩ := by
  have hp : (5 / 4 : ℝ) ≤ 2 ^ (0.375 : ℝ) := by
    have h1 : (5 / 4 : ℝ) = ((5 / 4 : ℝ) ^ (3 : ℝ)) ^ (1 / 3 : ℝ) := by
      rw [← Real.rpow_mul (by norm_num)]; norm_num
    have h2 : ((5 / 4 : ℝ) ^ (3 : ℝ)) ^ (1 / 3 : ℝ) ≤ 2 ^ (1 / 3 : ℝ) := by
      apply Real.rpow_le_rpow (by positivity) _ (by norm_num)
      rw [show (3 : ℝ) = ((3 : ℕ) : ℝ) by norm_num, Real.rpow_natCast]
      norm_num
    have h3 : (2 : ℝ) ^ (1 / 3 : ℝ) ≤ 2 ^ (0.375 : ℝ) :=
      Real.rpow_le_rpow_of_exponent_le (by norm_num) (by norm_num)
    linarith [h1 ▸ h2]
  have ht : (2 / 5 : ℝ) ≤ target 1 ∧ target 1 ≤ 2 := by
    have h0 : target 1 = 2 - 2 / 2 ^ (0.375 : ℝ) := by
      unfold target; norm_num
    rw [h0]
    have h1 : (2 : ℝ) / 2 ^ (0.375 : ℝ) ≤ 2 / (5 / 4) := div_le_div_of_nonneg_left (by norm_num) (by norm_num) hp
    have h2 : (0 : ℝ) ≤ 2 / 2 ^ (0.375 : ℝ) := by positivity
    constructor
    · linarith
    · linarith
  have ha : accel .expectedRatio 1 (1 / 10 ^ 9) (11 - 1) = (1 / 10 ^ 9 + target 1 * 10) / 2 - 1 / 10 ^ 9 := by
    unfold accel
    rw [if_pos (by rw [Real.sign_of_pos (by norm_num), Real.sign_of_pos (by norm_num)])]
    simp only
    rw [abs_of_pos (by norm_num : (0 : ℝ) < 1 / 10 ^ 9), show |(11 : ℝ) - 1| = 10 by norm_num,
      if_pos (by linarith [ht.1]), Real.sign_of_pos (by norm_num)]
    ring
  refine ⟨(1 / 10 ^ 9 + target 1 * 10) / 2 - 1 / 10 ^ 9, by linarith [ht.1], ?_⟩
  unfold extended extend
  simp only
  rw [ha, if_pos]
  have := ht.1
  have := ht.2
  refine ⟨?_, ?_, ?_⟩
  · unfold hi; norm_num; linarith
  · unfold lo; norm_num; linarith
  · apply abs_pos.mpr
    have : (0 : ℝ) < (1 / 10 ^ 9 + target 1 * 10) / 2 - 1 / 10 ^ 9 := by linarith
    exact this.ne'

/-- **Defect.**  With the extension method `expected_ratio`, an extended step that fails the check is
undone and then accepted without estimating the coefficients anew if what remains is tiny: the
coefficients belong to smoothing parameters that differ by more than 1 from the reported ones. -/
theorem undone_wrong : ∃ (A : Args 1 ℝ) (a : Acc 1 ℝ), A.extend = true ∧ A.method = .expectedRatio ∧
    control A 2 0 1 0 (fun _ => applyStep extended) = some a ∧ 1 < a.used 0 - (a.terms 0).lam := by
  obtain ⟨x, hx, he⟩ := extended_eq
  have hb : BadL (est1 0 1 1 0).pass (fun _ => applyStep extended) := by
    refine ⟨rfl, ?_⟩
    rw [he]
    simp only [est1, applyStep, gradLam, Fin.sum_univ_one]
    norm_num
    linarith
  have hc : correctTermL ⟨true, 1, .expectedRatio, 2⟩ (applyStep extended) = (undo (applyStep extended), true) := by
    unfold correctTermL
    rw [if_pos]
    exact ⟨rfl, by rw [he]; rfl⟩
  have ht : TinyL ⟨true, 1, .expectedRatio, 2⟩ (fun _ : Fin 1 => applyStep extended) := by
    right
    unfold Lam.norm
    simp only [hc, Fin.sum_univ_one]
    rw [Real.sqrt_sq_eq_abs, he]
    simp only [undo, applyStep]
    norm_num
  have hk : check ⟨true, 1, .expectedRatio, 2⟩ (est1 0 1 1 0).pass (fun _ : Fin 1 => applyStep extended) =
      (fun _ => undo (applyStep extended), true) := by
    unfold check
    rw [if_neg, if_pos hb]
    · simp only [hc, ht, decide_true]
    · rintro (h | h | ⟨h, -⟩)
      · exact absurd h (by norm_num)
      · exact absurd h (by norm_num)
      · cases h
  refine ⟨⟨false, false, true, 1, .expectedRatio, 0, 1 / 10 ^ 7, fun _ _ _ _ => est1 0 1 1 0,
    fun l c => l 0 * c ^ 2, fun _ _ _ c => c, fun _ _ => 0⟩,
    ⟨fun _ => (applyStep extended).lam, doneL ⟨true, 1, .expectedRatio, 2⟩ (est1 0 1 1 0).pass
      (fun _ => undo (applyStep extended)), est1 0 1 1 0, 0⟩, rfl, rfl, ?_, ?_⟩
  · simp only [control, Args.cfg]
    rw [balance_id (.inl rfl)]
    simp only [Bool.false_eq_true, if_false]
    rw [hk]
    simp
  · simp only [doneL_lam]
    rw [he]
    simp only [undo, applyStep]
    linarith

/-- **Defect.**  `method="qEFS"`, more than 100 iterations: the last allowed restart replaces the
coefficients by a random combination, and the fit ends in the same iteration; degrees of freedom and
the approximate Hessian are those of other coefficients than the returned ones. -/
theorem restart_last_wrong (A : Args m V) (hg : A.gen = true) (hq : A.qefs = true) (o : ℕ) (ho : 100 < o)
    (s : St m V) (a : Acc m V) (h1 : 3 ≤ s.one) (h2 : a.est.nit = 1)
    (h3 : (s.restarts : ℤ) + 1 = A.maxRestarts) (h4 : ∀ i, |(a.terms i).delta| < 0.01) :
    ∃ r, round A o s a = .inl r ∧ r.code = 0 ∧ r.est = a.est ∧
      r.coef = A.restart o s.restarts a.used a.est.coef := by
  have hst : StuckB A o (s.one + 1) s.restarts = true := by
    unfold StuckB
    simp only [Bool.and_eq_true, Bool.or_eq_true, decide_eq_true_eq]
    omega
  have hm : monitor A o s a = ⟨A.restart o s.restarts a.used a.est.coef,
      A.penOf a.used (A.restart o s.restarts a.used a.est.coef), s.hist, s.one + 1, s.restarts + 1⟩ := by
    unfold monitor
    rw [if_pos ⟨hg, hq⟩]
    simp only [h2, if_true, hst]
  have hc : Conv A o s a (monitor A o s a) := ⟨by omega, .inr (.inr ⟨ho, h4⟩)⟩
  refine ⟨result A a (A.restart o s.restarts a.used a.est.coef) a.terms 0, ?_, rfl, rfl, rfl⟩
  unfold round
  simp only
  rw [if_pos hc, if_neg, hm]
  rw [hm]
  rintro ⟨-, -, h⟩
  push_cast at h
  omega

/-- The case occurs: coefficients estimated as 2 are returned as 1. -/
example : ∃ (A : Args 1 ℝ) (s : St 1 ℝ) (a : Acc 1 ℝ) (r : Out 1 ℝ), round A 101 s a = .inl r ∧
    r.code = 0 ∧ r.est.coef = 2 ∧ r.coef = 1 := by
  obtain ⟨r, h1, h2, h3, h4⟩ := restart_last_wrong (m := 1) (V := ℝ) ⟨true, true, false, 0, .nesterov2, 1, 1 / 10 ^ 7,
    fun _ _ _ _ => est1 1 0 1 0, fun l c => l 0 * c ^ 2, fun _ _ _ c => c / 2, fun _ _ => 0⟩ rfl rfl 101
    (by norm_num) ⟨fun _ => ⟨1, 0, 1, 0, false, false⟩, 2, [], fun _ => 1, 3, 0⟩
    ⟨fun _ => 1, fun _ => ⟨1, 0, 1, 0, false, false⟩, est1 1 0 1 0, 0⟩ (by norm_num) rfl rfl (by norm_num)
  exact ⟨_, _, _, r, h1, h2, by rw [h3]; rfl, by rw [h4]; simp [est1]⟩

end Verif.Outer
