import Verif.StepModel
import Verif.Lam

/-!
# Step-length control for coefficients and the outer fitting loop (properties C31, C35)
-/

namespace Verif.Step

open Verif

variable {V E M : Type} [AddCommGroup V] [Module ℝ V]

theorem mid_self (a : V) : mid a a = a := by
  unfold mid
  rw [← two_smul ℝ a, smul_smul]
  norm_num

/-- `y` is an acceptable new penalised deviance in view of the previous one. -/
def NotWorse (new prev : Fl) : Prop :=
  ∃ a, new = .fin a ∧ (prev = .nan ∨ prev = .pinf ∨ ∃ b, prev = .fin b ∧ a ≤ b)

theorem notWorse_of (x y : Fl) (h : ¬(Gt x y ∨ ¬x.IsFin)) : NotWorse x y := by
  push Not at h
  obtain ⟨h1, h2⟩ := h
  obtain ⟨a, rfl⟩ := Fl.isFin_iff.1 h2
  refine ⟨a, rfl, ?_⟩
  cases y with
  | fin b => exact Or.inr (Or.inr ⟨b, rfl, not_lt.1 h1⟩)
  | pinf => exact Or.inr (Or.inl rfl)
  | ninf => exact absurd trivial h1
  | nan => exact Or.inl rfl

theorem coefLoop_inv (P : Prob V E M) (coef : V) (cPrev : Fl) :
    ∀ (fuel cor : ℕ) (s : St V E M), fuel + cor = 34 → cor ≤ 32 → s = evalAt P s.n →
      (cor = 32 → s.n = coef) →
      ∃ r, coefLoop P coef cPrev fuel cor s = some r ∧ r = evalAt P r.n ∧
        (r.n = coef ∨ NotWorse r.pen cPrev) := by
  intro fuel
  induction fuel with
  | zero => intro cor s h1 h2; omega
  | succ fuel ih =>
    intro cor s h1 h2 hs h32
    rw [coefLoop]
    by_cases hc : Gt s.pen cPrev ∨ ¬s.pen.IsFin
    · rw [if_pos hc]
      dsimp only
      by_cases h31 : cor > 31
      · rw [if_pos h31, if_pos (by omega : cor > 30)]
        have hn := h32 (by omega)
        have hsn : ({ s with n := coef } : St V E M) = s := by rw [← hn]
        exact ⟨_, rfl, by rw [hsn]; exact hs, Or.inl rfl⟩
      · rw [if_neg h31]
        refine ih (cor + 1) _ (by omega) (by omega) rfl ?_
        intro hcor
        rw [if_pos (by omega : cor > 30)]
        exact mid_self coef
    · rw [if_neg hc]
      exact ⟨s, rfl, hs, Or.inr (notWorse_of _ _ hc)⟩

/-- **C31.** Coefficient step control ends (after at most 33 tests), whatever the deviance function
returns.  The accepted coefficients are the old ones or have a finite penalised deviance that is not
larger than the previous one.  Deviance, means and predictors are those of the accepted
coefficients. -/
theorem coef_step_correct (P : Prob V E M) (coef next : V) (cPrev : Fl) :
    ∃ r, coefLoop P coef cPrev 34 0 (evalAt P next) = some r ∧ r = evalAt P r.n ∧
      (r.n = coef ∨ NotWorse r.pen cPrev) :=
  coefLoop_inv P coef cPrev 34 0 _ rfl (by norm_num) rfl (by norm_num)

/-- **C31.** With the finite penalised deviance of the old coefficients as reference, the penalised
deviance does not increase. -/
theorem coef_step_descent (P : Prob V E M) (coef next : V) (b : ℝ)
    (hb : (evalAt P coef).pen = .fin b) :
    ∃ r a, coefLoop P coef (evalAt P coef).pen 34 0 (evalAt P next) = some r ∧ r = evalAt P r.n ∧
      r.pen = .fin a ∧ a ≤ b := by
  obtain ⟨r, h1, h2, h3⟩ := coef_step_correct P coef next (evalAt P coef).pen
  rcases h3 with h3 | ⟨a, ha, h4⟩
  · exact ⟨r, b, h1, h2, by rw [h2, h3, hb], le_rfl⟩
  · rw [hb] at h4
    rcases h4 with h4 | h4 | ⟨b', h4, h5⟩
    · simp at h4
    · simp at h4
    · exact ⟨r, a, h1, h2, ha, by rw [Fl.fin_inj] at h4; rw [h4]; exact h5⟩

/-- **C31.** With penalties, deviance plus penalty of the accepted coefficients is at most that of the old ones. -/
theorem coef_step_penalised (P : Prob V E M) (hP : P.pen = true) (coef next : V) (d : ℝ)
    (hd : P.devF (P.muF (P.etaF coef)) = .fin d) :
    ∃ r d', coefLoop P coef (.fin (d + P.quad coef)) 34 0 (evalAt P next) = some r ∧
      r.eta = P.etaF r.n ∧ r.mu = P.muF r.eta ∧ P.devF r.mu = .fin d' ∧ d' + P.quad r.n ≤ d + P.quad coef := by
  have hb : (evalAt P coef).pen = .fin (d + P.quad coef) := by
    simp only [evalAt, penDev, hP, if_true, hd, Fl.fin_add]
  obtain ⟨r, a, h1, h2, h3, h4⟩ := coef_step_descent P coef next _ hb
  rw [hb] at h1
  have h5 : (evalAt P r.n).pen = .fin a := by rw [← h2]; exact h3
  simp only [evalAt, penDev, hP, if_true] at h5
  obtain ⟨d', hd'⟩ : ∃ d', P.devF (P.muF (P.etaF r.n)) = .fin d' := by
    cases hx : P.devF (P.muF (P.etaF r.n)) with
    | fin x => exact ⟨x, rfl⟩
    | pinf => rw [hx] at h5; cases h5
    | ninf => rw [hx] at h5; cases h5
    | nan => rw [hx] at h5; cases h5
  refine ⟨r, d', h1, by rw [h2]; rfl, by rw [h2]; rfl, by rw [h2]; exact hd', ?_⟩
  rw [hd', Fl.fin_add, Fl.fin_inj] at h5
  linarith

/-! ### Location, scale and shape models -/

/-- `new` is an acceptable new penalised log-likelihood in view of the previous one. -/
def NotLower (new prev : Fl) : Prop :=
  ∃ a, new = .fin a ∧ (prev = .ninf ∨ ∃ b, prev = .fin b ∧ b ≤ a)

theorem notLower_of (x y : Fl) (h : Ge x y ∧ x.IsFin) : NotLower x y := by
  obtain ⟨a, rfl⟩ := Fl.isFin_iff.1 h.2
  refine ⟨a, rfl, ?_⟩
  have h1 := h.1
  cases y with
  | fin b => exact Or.inr ⟨b, rfl, h1⟩
  | pinf => exact absurd h1 (by simp [Ge])
  | ninf => exact Or.inl rfl
  | nan => exact absurd h1 (by simp [Ge])

theorem lssLoop_inv (P : Prob V E M) (coef : V) (prev : Fl) :
    ∀ (left k : ℕ) (s : LSt V E M), left + k = 32 → s = levalAt P s.n → (left = 0 → s.n = coef) →
      (lssLoop P coef prev left k s).1 = levalAt P (lssLoop P coef prev left k s).1.n ∧
      ((lssLoop P coef prev left k s).1.n = coef ∨ NotLower (lssLoop P coef prev left k s).1.pen prev) ∧
      ((lssLoop P coef prev left k s).2 = k ∨ k < (lssLoop P coef prev left k s).2 ∨ left = 0) := by
  intro left
  induction left with
  | zero => intro k s _ hs h0; exact ⟨hs, Or.inl (h0 rfl), Or.inr (Or.inr rfl)⟩
  | succ left ih =>
    intro k s hk hs _
    rw [lssLoop]
    by_cases hc : Ge s.pen prev ∧ s.pen.IsFin
    · rw [if_pos hc]
      exact ⟨hs, Or.inr (notLower_of _ _ hc), Or.inl rfl⟩
    · rw [if_neg hc]
      dsimp only
      obtain ⟨h1, h2, h3⟩ := ih (k + 1) (levalAt P (mid coef (if k > 30 then coef else s.n)))
        (by omega) rfl (by
          intro h0
          rw [if_pos (by omega : k > 30)]
          exact mid_self coef)
      refine ⟨h1, h2, ?_⟩
      rcases h3 with h3 | h3 | h3
      · right; left; omega
      · right; left; omega
      · subst h3
        left
        show k + 1 - 1 = k
        omega

/-- **C31.** The same for location, scale and shape models: the accepted coefficients are the old
ones or their penalised log-likelihood is finite and not below the previous one. -/
theorem lss_step_correct (P : Prob V E M) (coef next : V) (cLlk : Fl) (a : ℝ) :
    (lssStep P coef next cLlk a).1 = levalAt P (lssStep P coef next cLlk a).1.n ∧
    ((lssStep P coef next cLlk a).1.n = coef ∨
      NotLower (lssStep P coef next cLlk a).1.pen (cLlk - Fl.fin (1 / 2 * P.quad coef))) := by
  obtain ⟨h1, h2, -⟩ := lssLoop_inv P coef (cLlk - Fl.fin (1 / 2 * P.quad coef)) 32 0
    (levalAt P next) rfl rfl (by norm_num)
  exact ⟨h1, h2⟩

/-- **C31.** With the finite log-likelihood of the old coefficients as reference, the penalised
log-likelihood does not decrease. -/
theorem lss_step_ascent (P : Prob V E M) (coef next : V) (a l : ℝ)
    (hl : (levalAt P coef).llk = .fin l) :
    ∃ x, (lssStep P coef next (.fin l) a).1.pen = .fin x ∧ l - 1 / 2 * P.quad coef ≤ x := by
  obtain ⟨h1, h2⟩ := lss_step_correct P coef next (.fin l) a
  rcases h2 with h2 | ⟨x, hx, h3⟩
  · refine ⟨l - 1 / 2 * P.quad coef, ?_, le_rfl⟩
    rw [h1, h2]
    have : P.devF (P.muF (P.etaF coef)) = .fin l := hl
    simp only [levalAt, this, Fl.fin_sub]
  · rw [Fl.fin_sub] at h3
    rcases h3 with h3 | ⟨b, h3, h4⟩
    · simp at h3
    · rw [Fl.fin_inj] at h3
      exact ⟨x, hx, by rw [h3]; exact h4⟩

/-- The gradient step size stays positive and below two. -/
theorem lss_step_size (P : Prob V E M) (coef next : V) (cLlk : Fl) (a : ℝ) (h0 : 0 < a) (h2 : a < 2) :
    0 < (lssStep P coef next cLlk a).2 ∧ (lssStep P coef next cLlk a).2 < 2 := by
  unfold lssStep
  dsimp only
  split_ifs with h3 h4
  · constructor <;> linarith
  · constructor <;> linarith [h4.2]
  · exact ⟨h0, h2⟩

/-- The gradient step size is never halved below `5e-10`. -/
theorem lss_step_size_lower (P : Prob V E M) (coef next : V) (cLlk : Fl) (a : ℝ) (h0 : 1 / (2 * 10 ^ 9) ≤ a) :
    1 / (2 * 10 ^ 9) ≤ (lssStep P coef next cLlk a).2 := by
  unfold lssStep
  dsimp only
  split_ifs with h3 h4
  · have := h3.2
    norm_num at this ⊢
    linarith
  · have : (0 : ℝ) < a := lt_of_lt_of_le (by norm_num) h0
    linarith
  · exact h0

/-! ### Shape parameters -/

theorem thetaInner_better (llk : V → Fl) (theta : V) (cllk : Fl) :
    ∀ (left k : ℕ) (nt r : V), left + k = 32 → k ≤ 31 → thetaInner llk theta cllk left k nt = some r →
      Gt (llk r) cllk ∧ (llk r).IsFin := by
  intro left
  induction left with
  | zero => intro k nt r h1 h2; omega
  | succ left ih =>
    intro k nt r h1 h2 hr
    rw [thetaInner] at hr
    split_ifs at hr with h3 h4
    · simp only [Option.some.injEq] at hr
      subst hr
      exact h3
    · exact ih (k + 1) _ r (by omega) (by omega) hr

theorem gt_trans_fin (x y z : Fl) (h1 : Gt x y) (h2 : Gt y z) : Gt x z := by
  cases x <;> cases y <;> cases z <;> simp_all [Gt]
  linarith

/-- **C31.** Shape parameter updates return the current value or one with a finite, larger
log-likelihood, for every likelihood, proposal and convergence test. -/
theorem theta_ascent (llk : V → Fl) (conv : V → Fl → Bool) (newton : V → V) (theta : V) :
    updateTheta llk conv newton theta = theta ∨
      (Gt (llk (updateTheta llk conv newton theta)) (llk theta) ∧
        (llk (updateTheta llk conv newton theta)).IsFin) := by
  have key : ∀ (left : ℕ) (th : V), thetaLoop llk conv newton left th (llk th) = th ∨
      (Gt (llk (thetaLoop llk conv newton left th (llk th))) (llk th) ∧
        (llk (thetaLoop llk conv newton left th (llk th))).IsFin) := by
    intro left
    induction left with
    | zero => intro th; exact Or.inl rfl
    | succ left ih =>
      intro th
      rw [thetaLoop]
      split_ifs
      · exact Or.inl rfl
      · cases hi : thetaInner llk th (llk th) 32 0 (newton th) with
        | none => exact Or.inl rfl
        | some nt =>
          have hb := thetaInner_better llk th (llk th) 32 0 _ nt rfl (by norm_num) hi
          right
          dsimp only
          rcases ih nt with h | h
          · rw [h]; exact hb
          · exact ⟨gt_trans_fin _ _ _ h.1 hb.1, h.2⟩
  exact key 200 theta

/-! ### Outer loop -/

variable {m : ℕ}

/-- Predictors and means of the state are those of the proposed coefficients. -/
def Fresh (F : Fit m V E M) (s : FSt m V E M) : Prop :=
  s.eta = F.etaF s.nCoef ∧ s.mu = F.muF (F.etaF s.nCoef)

/-- The lambda step returns the predictors of the coefficients it returns, except when predictors are
reset in a pass that is accepted after its correction. -/
theorem loop_etaOf (c : Lam.Cfg) (hc : outerControl c = true) (coef : V)
    (ps : ℕ → (Fin m → ℝ) → Lam.Pass m V) : ∀ (fuel k : ℕ) (ts : Fin m → Lam.Term) r,
    Lam.loop c coef ps fuel k ts = some r → r.etaOf = r.nCoef := by
  intro fuel
  induction fuel with
  | zero => intro k ts r h; simp [Lam.loop] at h
  | succ fuel ih =>
    intro k ts r h
    rw [Lam.loop] at h
    unfold Lam.pass at h
    split_ifs at h with h1 h2 h3
    · simp only [Option.some.injEq] at h
      subst h
      dsimp only
      unfold Lam.resetEta
      rw [if_neg]
      unfold outerControl at hc
      simp only [Bool.or_eq_true, decide_eq_true_eq] at hc
      rintro ⟨h5, h6⟩
      rcases hc with hc | hc
      · rw [h5] at hc; simp at hc
      · rw [h6] at hc; simp at hc
    · exact ih _ _ r h
    · simp only [Option.some.injEq] at h
      subst h
      rfl
    · exact ih _ _ r h

/-- **C35 (partial).** If the convergence test was met and coefficients are controlled in the outer
loop (`max_inner <= 1`, or an additive model), the returned linear predictor and means are those of the
returned coefficients.  Missing: fits that stop at the iteration limit (`limit_mismatch`) and inner
iterations with a rejected smoothing parameter step (`inner_mismatch`). -/
theorem eta_of_coef_partial (F : Fit m V E M) (hF : ∀ o, outerControl (F.cfg o) = true) (coef : V)
    (terms : Fin m → Lam.Term) (maxiter : ℕ) (s : FSt m V E M)
    (h : outer F maxiter 0 (start F coef terms) = some (s, true)) :
    s.eta = F.etaF s.coef ∧ s.mu = F.muF (F.etaF s.coef) := by
  have hprop : ∀ o s s', proposeCoef F o s = some s' → Fresh F s' := by
    intro o s s' h
    unfold proposeCoef at h
    cases hl : Lam.loop (F.cfg o) s.coef (F.passes o s.coef) F.fuel 0
        (fun i => Lam.applyStep (s.terms i)) with
    | none => rw [hl] at h; simp at h
    | some r =>
      rw [hl] at h
      simp only [Option.some.injEq] at h
      subst h
      have := loop_etaOf (F.cfg o) (hF o) s.coef _ F.fuel 0 _ r hl
      exact ⟨by dsimp only; rw [this], by dsimp only; rw [this]⟩
  have key : ∀ (left o : ℕ) (s0 : FSt m V E M), Fresh F s0 →
      outer F left o s0 = some (s, true) → s.eta = F.etaF s.coef ∧ s.mu = F.muF (F.etaF s.coef) := by
    intro left
    induction left with
    | zero => intro o s0 _ h; simp [outer] at h
    | succ left ih =>
      intro o s0 hs h
      rw [outer] at h
      split_ifs at h with ho
      · cases hp : proposeCoef F o s0 with
        | none => rw [hp] at h; simp at h
        | some s' => rw [hp] at h; exact ih _ s' (hprop o s0 s' hp) h
      · cases ha : accept F o s0 with
        | none => rw [ha] at h; simp at h
        | some s1 =>
          rw [ha] at h
          dsimp only at h
          split_ifs at h with hcv
          · simp only [Option.some.injEq, Prod.mk.injEq, and_true] at h
            subst h
            unfold accept at ha
            dsimp only at ha
            rw [if_pos (hF o)] at ha
            have hst : (⟨s0.nCoef, s0.eta, s0.mu, F.devF s0.mu,
                penDev (F.prob s0) s0.nCoef (F.devF s0.mu)⟩ : St V E M)
                = evalAt (F.prob s0) s0.nCoef := by
              unfold evalAt
              rw [hs.1, hs.2]
              rfl
            rw [hst] at ha
            obtain ⟨r, hr1, hr2, -⟩ := coef_step_correct (F.prob s0) s0.coef s0.nCoef
              (penDev (F.prob s0) s0.coef s0.prevDev)
            rw [hr1] at ha
            simp only [Option.some.injEq] at ha
            subst ha
            dsimp only
            rw [hr2]
            exact ⟨rfl, rfl⟩
          · cases hp : proposeCoef F o s1 with
            | none => rw [hp] at h; simp at h
            | some s' => rw [hp] at h; exact ih _ s' (hprop o s1 s' hp) h
  exact key maxiter 0 _ ⟨rfl, rfl⟩ h

/-- An additive model without penalties in which every proposal is `1`. -/
def tinyFit (strict inner : Bool) (conv : Bool) : Fit 0 ℝ ℝ ℝ where
  etaF := id
  muF := id
  devF := fun _ => .fin 0
  quadOf := fun _ _ => 0
  cfg := fun _ => ⟨strict, inner, false, false, 1, .nesterov, 0, 0⟩
  passes := fun _ _ _ _ => ⟨1, fun _ => 0, fun _ => 0, fun _ => 0, 1, false⟩
  converged := fun _ _ => conv
  fuel := 1

theorem tiny_pass (strict inner conv : Bool) (ts : Fin 0 → Lam.Term) (coef : ℝ) (k : ℕ) (l : Fin 0 → ℝ) :
    Lam.pass ((tinyFit strict inner conv).cfg 0) coef ((tinyFit strict inner conv).passes 0 coef k l) ts
      = .inr ⟨fun i => i.elim0, 1, 1⟩ := by
  have hchk : Lam.check ((tinyFit strict inner conv).cfg 0) ((tinyFit strict inner conv).passes 0 coef k l) ts
      = some 0 := by
    unfold Lam.check Lam.crit tinyFit
    simp
  have hcrit : Lam.crit ((tinyFit strict inner conv).cfg 0) = 0 := by unfold Lam.crit tinyFit; simp
  unfold Lam.pass
  rw [if_neg (by unfold Lam.badB; rw [hchk, hcrit]; simp),
    if_pos (by left; unfold Lam.okB; rw [hchk, hcrit]; simp)]
  congr 2
  funext i
  exact i.elim0

/-- **C35, disagreement.** A fit that stops at the iteration limit returns the coefficients of the
previous iteration together with the linear predictor of the last proposal. -/
theorem limit_mismatch (strict inner conv : Bool) :
    ∃ s, outer (tinyFit strict inner conv) 1 0 (start (tinyFit strict inner conv) 0 (fun i => i.elim0))
      = some (s, false) ∧ s.coef = 0 ∧ s.eta = 1 ∧ s.eta ≠ (tinyFit strict inner conv).etaF s.coef := by
  let s' : FSt 0 ℝ ℝ ℝ := { start (tinyFit strict inner conv) 0 (fun i => i.elim0) with
    prevDev := (start (tinyFit strict inner conv) 0 (fun i => i.elim0)).dev
    prevPen := (start (tinyFit strict inner conv) 0 (fun i => i.elim0)).pen
    nCoef := 1
    eta := 1
    mu := 1
    terms := fun i => i.elim0 }
  have hp : proposeCoef (tinyFit strict inner conv) 0
      (start (tinyFit strict inner conv) 0 (fun i => i.elim0)) = some s' := by
    unfold proposeCoef
    have : (tinyFit strict inner conv).fuel = 1 := rfl
    rw [this, Lam.loop, tiny_pass]
    rfl
  refine ⟨s', ?_, rfl, rfl, ?_⟩
  · rw [outer, if_pos rfl, hp]
    rfl
  · show (1 : ℝ) ≠ id 0
    norm_num

/-- A non-Gaussian model with inner iterations and one smoothing parameter whose last step is tiny and
points against the gradient. -/
def innerFit : Fit 1 ℝ ℝ ℝ where
  etaF := id
  muF := id
  devF := fun _ => .fin 0
  quadOf := fun _ _ => 0
  cfg := fun _ => ⟨false, true, false, false, 2, .nesterov, 0, 0⟩
  passes := fun _ _ _ _ => ⟨1, fun _ => 0, fun _ => 0, fun _ => 2, 1, false⟩
  converged := fun _ _ => true
  fuel := 1

/-- **C35, disagreement.** A converged fit with inner iterations can return coefficients together with
the linear predictor of other coefficients: a tiny smoothing parameter step is corrected and accepted,
the predictor is put back, the coefficients are not. -/
theorem inner_mismatch : ∃ ts s, outer innerFit 2 0 (start innerFit 0 ts) = some (s, true) ∧
    s.coef = 1 ∧ s.eta = 0 ∧ s.eta ≠ innerFit.etaF s.coef := by
  let ts : Fin 1 → Lam.Term := fun _ => ⟨1, 1 / 10 ^ 8, 1, 0, false, false⟩
  have hchk : Lam.check (innerFit.cfg 0) (innerFit.passes 0 0 0 (fun i => (Lam.applyStep (ts i)).lam))
      (fun i => Lam.applyStep (ts i)) = some (-(1 / 10 ^ 8)) := by
    unfold Lam.check Lam.crit Lam.Pass.grad Lam.gradLam Lam.applyStep innerFit
    simp [ts]
  have hcrit : Lam.crit (innerFit.cfg 0) = 0 := by
    unfold Lam.crit innerFit
    simp
  have hcor : ∀ i, Lam.correctTerm (innerFit.cfg 0) (Lam.applyStep (ts i))
      = (Lam.halve (Lam.applyStep (ts i)), true) := by
    intro i
    unfold Lam.correctTerm innerFit
    simp
  have htiny : Lam.Tiny (innerFit.cfg 0) (fun i => Lam.applyStep (ts i)) := by
    right
    unfold Lam.norm
    simp only [hcor]
    rw [Real.sqrt_lt' (by norm_num)]
    simp only [Lam.halve, Lam.applyStep, Finset.univ_unique, Finset.sum_const, Finset.card_singleton, ts]
    norm_num
  obtain ⟨r, hr, hr1, hr2⟩ : ∃ r, Lam.loop (innerFit.cfg 0) 0 (innerFit.passes 0 0) 1 0
      (fun i => Lam.applyStep (ts i)) = some r ∧ r.nCoef = 1 ∧ r.etaOf = 0 := by
    refine ⟨⟨fun i => Lam.propose (innerFit.cfg 0)
        (innerFit.passes 0 0 0 (fun i => (Lam.applyStep (ts i)).lam)) i
        (Lam.correctTerm (innerFit.cfg 0) (Lam.applyStep (ts i))).1, (innerFit.passes 0 0 0 (fun i => (Lam.applyStep (ts i)).lam)).nCoef,
      Lam.resetEta (innerFit.cfg 0) 0
        (innerFit.passes 0 0 0 (fun i => (Lam.applyStep (ts i)).lam)).nCoef⟩, ?_, rfl, ?_⟩
    · rw [Lam.loop]
      unfold Lam.pass
      rw [if_pos ⟨by unfold Lam.badB; rw [hchk, hcrit]; simp, by simp [innerFit]⟩, if_pos htiny]
    · simp [Lam.resetEta, innerFit]
  let s' : FSt 1 ℝ ℝ ℝ := { start innerFit 0 ts with
    prevDev := (start innerFit 0 ts).dev
    prevPen := (start innerFit 0 ts).pen
    nCoef := r.nCoef
    eta := innerFit.etaF r.etaOf
    mu := innerFit.muF (innerFit.etaF r.etaOf)
    terms := r.terms }
  have hp : proposeCoef innerFit 0 (start innerFit 0 ts) = some s' := by
    unfold proposeCoef
    have hf : innerFit.fuel = 1 := rfl
    have hc : (start innerFit 0 ts).coef = 0 := rfl
    have ht : (start innerFit 0 ts).terms = ts := rfl
    rw [hf, hc, ht, hr]
    rfl
  let s'' : FSt 1 ℝ ℝ ℝ := { s' with
    coef := s'.nCoef
    dev := innerFit.devF s'.mu
    pen := penDev (innerFit.prob s') s'.nCoef (innerFit.devF s'.mu) }
  have ha : accept innerFit 1 s' = some s'' := by
    unfold accept
    dsimp only
    rw [if_neg (by simp [outerControl, innerFit])]
  refine ⟨ts, s'', ?_, hr1, hr2, ?_⟩
  · rw [outer, if_pos rfl, hp]
    dsimp only
    rw [outer, if_neg (by norm_num), ha]
    dsimp only
    exact if_pos rfl
  · show innerFit.etaF r.etaOf ≠ innerFit.etaF r.nCoef
    rw [hr1, hr2]
    show (id (0 : ℝ)) ≠ id 1
    norm_num

/-! ### Stored weights -/

/-- **C35 (partial).** Without excluded observations the stored root squares to the Fisher weights.
Missing: fits with excluded observations, see `weights_mismatch`. -/
theorem weights_partial {n : ℕ} (w : Fin n → ℝ) (valid : Fin n → Bool) (hw : ∀ i, 0 ≤ w i)
    (hv : ∀ i, valid i = true) (i : Fin n) : finalWr w valid i ^ 2 = w i := by
  unfold finalWr
  dsimp only
  rw [if_pos hv, Real.sq_sqrt (hw i)]

/-- **C35, disagreement.** With an excluded observation the root is taken twice: the stored root of a
valid observation squares to its weight only if that weight is zero or one. -/
theorem weights_mismatch {n : ℕ} (w : Fin n → ℝ) (valid : Fin n → Bool) (hw : ∀ i, 0 ≤ w i)
    (j : Fin n) (hj : valid j = false) (i : Fin n) (hi : valid i = true) :
    finalWr w valid i ^ 2 = Real.sqrt (w i) ∧ (finalWr w valid i ^ 2 = w i ↔ w i = 0 ∨ w i = 1) := by
  have h1 : finalWr w valid i ^ 2 = Real.sqrt (w i) := by
    unfold finalWr
    dsimp only
    rw [if_neg (fun h => by rw [h j] at hj; simp at hj), if_pos hi, Real.sq_sqrt (Real.sqrt_nonneg _)]
  refine ⟨h1, ?_⟩
  rw [h1, Real.sqrt_eq_iff_mul_self_eq (hw i) (hw i)]
  constructor
  · intro h
    rcases mul_eq_zero.1 (by linear_combination -h : w i * (w i - 1) = 0) with h | h
    · exact Or.inl h
    · exact Or.inr (by linarith)
  · rintro (h | h) <;> rw [h] <;> norm_num

/-! ### Concrete cases -/

/-- A quadratic problem: deviance `(b - 1)²`, no penalty. -/
noncomputable def quadProb : Prob ℝ ℝ ℝ := ⟨id, id, fun b => .fin ((b - 1) ^ 2), fun _ => 0, true⟩

example : ∃ r a, coefLoop quadProb 0 (evalAt quadProb 0).pen 34 0 (evalAt quadProb 7) = some r ∧
    r = evalAt quadProb r.n ∧ r.pen = .fin a ∧ a ≤ 1 :=
  coef_step_descent quadProb 0 7 1 (by simp [evalAt, penDev, quadProb])

/-- The same with a ridge penalty. -/
noncomputable def ridgeProb : Prob ℝ ℝ ℝ := ⟨id, id, fun b => .fin ((b - 1) ^ 2), fun b => b ^ 2, true⟩

example : ∃ r d', coefLoop ridgeProb 0 (.fin (1 + 0)) 34 0 (evalAt ridgeProb 7) = some r ∧ r.eta = r.n ∧ r.mu = r.eta ∧
    ridgeProb.devF r.mu = .fin d' ∧ d' + r.n ^ 2 ≤ 1 + 0 := by
  have := coef_step_penalised ridgeProb rfl 0 7 1 (by simp [ridgeProb])
  simpa [ridgeProb] using this

/-- A problem whose deviance is never a number. -/
def nanProb : Prob ℝ ℝ ℝ := ⟨id, id, fun _ => .nan, fun _ => 0, true⟩

example (next : ℝ) : ∃ r, coefLoop nanProb 0 (.fin 1) 34 0 (evalAt nanProb next) = some r ∧
    r = evalAt nanProb r.n ∧ (r.n = 0 ∨ NotWorse r.pen (.fin 1)) :=
  coef_step_correct nanProb 0 next (.fin 1)

example : ∃ x, (lssStep quadProb 0 3 (.fin 1) 1).1.pen = .fin x ∧ 1 - 1 / 2 * quadProb.quad 0 ≤ x :=
  lss_step_ascent quadProb 0 3 1 1 (by simp [levalAt, quadProb])

/-- Log-likelihood with its maximum at 2. -/
noncomputable def peak (t : ℝ) : Fl := .fin (-(t - 2) ^ 2)

example : updateTheta peak (fun _ _ => false) (fun t => 3 - t) 0 = 0 ∨
    (Gt (peak (updateTheta peak (fun _ _ => false) (fun t => 3 - t) 0)) (peak 0) ∧
      (peak (updateTheta peak (fun _ _ => false) (fun t => 3 - t) 0)).IsFin) := theta_ascent _ _ _ _

example : finalWr (fun i : Fin 2 => if i = 0 then (4 : ℝ) else 9) (fun _ => true) 1 ^ 2 = 9 := by
  have := weights_partial (fun i : Fin 2 => if i = 0 then (4 : ℝ) else 9) (fun _ => true)
    (fun i => by split_ifs <;> norm_num) (fun _ => rfl) 1
  simpa using this

end Verif.Step
