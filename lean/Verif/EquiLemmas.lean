import Verif.EquiModel
import Verif.Gauss

/-!
# Simulation of one fit by another (for C123)
-/

namespace Verif.Equi

open Verif Verif.Lam Verif.Gauss Matrix

variable {m p : ℕ}

/-- Multiplication of a float by a positive number. -/
noncomputable def sc (q : ℝ) : Fl → Fl
  | .fin a => .fin (q * a)
  | x => x

theorem gt_sc {q : ℝ} (hq : 0 < q) (a b : Fl) : Step.Gt (sc q a) (sc q b) ↔ Step.Gt a b := by
  cases a <;> cases b <;> simp only [sc, Step.Gt, gt_iff_lt]
  exact mul_lt_mul_iff_right₀ hq

theorem isFin_sc (q : ℝ) (a : Fl) : (sc q a).IsFin ↔ a.IsFin := by
  cases a <;> simp only [sc, Fl.IsFin]

theorem sc_add (q : ℝ) (a : Fl) (b : ℝ) : sc q a + Fl.fin (q * b) = sc q (a + Fl.fin b) := by
  cases a
  · exact congrArg Fl.fin (mul_add q _ b).symm
  · rfl
  · rfl
  · rfl

theorem conv_sc {q : ℝ} (hq : 0 < q) (tol : ℝ) (a b : Fl) : Conv tol (sc q a) (sc q b) ↔ Conv tol a b := by
  cases a <;> cases b <;> simp only [sc, Conv]
  rw [← mul_sub, abs_mul, abs_of_pos hq, mul_left_comm]
  exact mul_lt_mul_iff_right₀ hq

theorem fsStep_sc {q : ℝ} (hq : 0 < q) (l d b c s : ℝ) : fsStep l d (q * b) c (q * s) = fsStep l d b c s := by
  unfold fsStep
  dsimp only
  have h1 : max 0 (q * b) = q * max 0 b := by
    rw [mul_max_of_nonneg _ _ hq.le, mul_zero]
  have h2 : q * max 0 b ≤ 0 ↔ max 0 b ≤ 0 := by
    constructor
    · intro h; by_contra h3; push Not at h3; nlinarith
    · intro h; nlinarith
  have h3 : q * s * (max 0 (l - d) / (q * max 0 b)) = s * (max 0 (l - d) / max 0 b) := by
    rw [mul_div_assoc', mul_div_assoc', mul_assoc, mul_div_mul_left _ _ hq.ne']
  rw [h1, h3]
  simp only [h2]

theorem gradLam_sc {q : ℝ} (hq : 0 < q) (l d b s : ℝ) : gradLam l d (q * b) (q * s) = gradLam l d b s := by
  unfold gradLam
  rw [mul_left_comm 2 q s, mul_div_mul_left _ _ hq.ne']

/-! ### One pass -/

section
variable {V : Type} (σ : Equiv.Perm (Fin m)) (τ : V → V) (q : ℝ)

/-- Results of two passes correspond. -/
structure PassRel (P P' : Pass m V) : Prop where
  nCoef : P'.nCoef = τ P.nCoef
  lgdet : ∀ i, P'.lgdet i = P.lgdet (σ i)
  ldet : ∀ i, P'.ldet i = P.ldet (σ i)
  bsb : ∀ i, P'.bsb i = q * P.bsb (σ i)
  scale : P'.scale = q * P.scale
  nan : P'.nan = P.nan

variable {σ τ q}

theorem PassRel.grad {P P' : Pass m V} (hq : 0 < q) (h : PassRel σ τ q P P') (i : Fin m) : P'.grad i = P.grad (σ i) := by
  unfold Pass.grad
  rw [h.lgdet, h.ldet, h.bsb, h.scale, gradLam_sc hq]

theorem PassRel.check {P P' : Pass m V} (hq : 0 < q) (h : PassRel σ τ q P P') (c : Cfg) (ts : Fin m → Term) :
    Lam.check c P' (ts ∘ σ) = Lam.check c P ts := by
  unfold Lam.check
  rw [h.nan]
  have h1 : ∑ i, P'.grad i * ((ts ∘ σ) i).delta = ∑ i, P.grad i * (ts i).delta := by
    rw [← Equiv.sum_comp σ fun i => P.grad i * (ts i).delta]
    exact Finset.sum_congr rfl fun i _ => by rw [h.grad hq]; rfl
  have h2 : (∀ i, ((ts ∘ σ) i).ext = false) ↔ ∀ i, (ts i).ext = false :=
    ⟨fun h i => by have := h (σ.symm i); simpa using this, fun h i => h (σ i)⟩
  rw [h1]
  simp only [h2]

theorem PassRel.propose {P P' : Pass m V} (hq : 0 < q) (h : PassRel σ τ q P P') (c : Cfg) (i : Fin m) (t : Term) :
    Lam.propose c P' i t = Lam.propose c P (σ i) t := by
  unfold Lam.propose
  rw [h.grad hq, h.lgdet, h.ldet, h.bsb, h.scale, fsStep_sc hq]

theorem norm_comp (ts : Fin m → Term) : Lam.norm (ts ∘ σ) = Lam.norm ts := by
  unfold Lam.norm
  congr 1
  exact Equiv.sum_comp σ fun i => (ts i).delta ^ 2

theorem tiny_comp (c : Cfg) (ts : Fin m → Term) : Tiny c (ts ∘ σ) ↔ Tiny c ts := by
  unfold Tiny
  refine or_congr ⟨fun h i => by have := h (σ.symm i); simpa using this, fun h i => h (σ i)⟩ ?_
  have := norm_comp (σ := σ) fun i => (correctTerm c (ts i)).1
  rw [show (fun i => (correctTerm c ((ts ∘ σ) i)).1) = (fun i => (correctTerm c (ts i)).1) ∘ σ from rfl, this]

/-- One pass. -/
theorem PassRel.pass {P P' : Pass m V} (hq : 0 < q) (h : PassRel σ τ q P P') (c : Cfg) (coef : V) (ts : Fin m → Term) :
    Lam.pass c (τ coef) P' (ts ∘ σ) =
      match Lam.pass c coef P ts with
      | .inl t => .inl (t ∘ σ)
      | .inr r => .inr ⟨r.terms ∘ σ, τ r.nCoef, τ r.etaOf⟩ := by
  have hb : badB c P' (ts ∘ σ) = badB c P ts := by unfold badB; rw [h.check hq]
  have ho : okB c P' (ts ∘ σ) = okB c P ts := by unfold okB; rw [h.check hq]
  unfold Lam.pass
  rw [hb, ho]
  by_cases h1 : badB c P ts = true ∧ c.control > 0
  · rw [if_pos h1, if_pos h1]
    by_cases h2 : Tiny c ts
    · rw [if_pos h2, if_pos ((tiny_comp c ts).2 h2)]
      dsimp only
      congr 1
      rw [h.nCoef]
      congr 1
      · funext i; exact h.propose hq c i _
      · unfold resetEta; split_ifs <;> rfl
    · rw [if_neg h2, if_neg (mt (tiny_comp c ts).1 h2)]
      rfl
  · rw [if_neg h1, if_neg h1]
    split_ifs
    · dsimp only
      congr 1
      rw [h.nCoef]
      congr 1
      funext i; exact h.propose hq c i _
    · rfl

end

/-! ### Step control -/

/-- One fit simulates another: penalties are matched by `σ`, coefficients by `τ`, squared lengths are multiplied by `q`. -/
structure Sim (A A' : Args m p) (D D' : Dat p) (σ : Equiv.Perm (Fin m)) (τ : (Fin p → ℝ) → Fin p → ℝ) (q : ℝ)
    (adm : (Fin m → ℝ) → Prop) : Prop where
  pos : 0 < q
  extend : A'.extend = A.extend
  exclude : A'.exclude = A.exclude
  control : A'.control = A.control
  method : A'.method = A.method
  tol : A'.tol = A.tol
  coef : ∀ lam, adm lam → updateCoef D' A'.S (lam ∘ σ) = τ (updateCoef D A.S lam)
  mid : ∀ b c, τ (Step.mid b c) = Step.mid (τ b) (τ c)
  dev : ∀ b, deviance D'.y (D'.eta (τ b)) = sc q (deviance D.y (D.eta b))
  quad : ∀ i b, Gauss.quad (A'.S i) (τ b) = q * Gauss.quad (A.S (σ i)) b
  lgdet : ∀ lam b i, adm lam → A'.lgdet (lam ∘ σ) (τ b) i = A.lgdet lam b (σ i)
  ldet : ∀ lam b i, adm lam → A'.ldet (lam ∘ σ) (τ b) i = A.ldet lam b (σ i)
  scale : ∀ lam b, adm lam → A'.scale (lam ∘ σ) (τ b) = q * A.scale lam b
  nan : ∀ lam, A'.nan (lam ∘ σ) = A.nan lam

section
variable {A A' : Args m p} {D D' : Dat p} {σ : Equiv.Perm (Fin m)} {τ : (Fin p → ℝ) → Fin p → ℝ} {q : ℝ} {adm : (Fin m → ℝ) → Prop}

theorem Sim.cfg (h : Sim A A' D D' σ τ q adm) (o : ℕ) : A'.cfg o = A.cfg o := by
  unfold Args.cfg
  rw [h.extend, h.exclude, h.control, h.method]

theorem Sim.passRel (h : Sim A A' D D' σ τ q adm) {lam : Fin m → ℝ} (hl : adm lam) :
    PassRel σ τ q (A.pass D lam) (A'.pass D' (lam ∘ σ)) where
  nCoef := h.coef lam hl
  lgdet := fun i => by simp only [Args.pass]; rw [h.coef lam hl, h.lgdet _ _ _ hl]
  ldet := fun i => by simp only [Args.pass]; rw [h.coef lam hl, h.ldet _ _ _ hl]
  bsb := fun i => by simp only [Args.pass]; rw [h.coef lam hl, h.quad]
  scale := by simp only [Args.pass]; rw [h.coef lam hl, h.scale _ _ hl]
  nan := h.nan lam

theorem Sim.control_eq (h : Sim A A' D D' σ τ q adm) {lam : Fin m → ℝ} {frozen : Fin m → Bool} (ha : ∀ u, UsedOk lam frozen u → adm u)
    (o : ℕ) (coef : Fin p → ℝ) : ∀ (fuel : ℕ) (ts : Fin m → Term), Begin A lam frozen ts →
      Gauss.control A' D' o (τ coef) fuel (ts ∘ σ) = (Gauss.control A D o coef fuel ts).map fun r => (r.1 ∘ σ, τ r.2.1, r.2.2 ∘ σ) := by
  intro fuel
  induction fuel with
  | zero => intro ts _; rfl
  | succ n ih =>
    intro ts hb
    rw [Gauss.control, Gauss.control]
    have hp := (h.passRel (ha _ (begin_used hb))).pass h.pos (A.cfg o) coef ts
    rw [h.cfg]
    rw [show (fun i => ((ts ∘ σ) i).lam) = (fun i => (ts i).lam) ∘ σ from rfl, hp]
    have hcase : ∀ t, Lam.pass (A.cfg o) coef (A.pass D fun i => (ts i).lam) ts = .inl t → Begin A lam frozen t := by
      intro t ht
      unfold Lam.pass at ht
      split_ifs at ht
      · cases ht; exact begin_correct o hb
      · cases ht; exact hb
    generalize Lam.pass (A.cfg o) coef (A.pass D fun i => (ts i).lam) ts = z at hcase ⊢
    cases z with
    | inl t => exact ih t (hcase t rfl)
    | inr r => rfl

theorem Sim.quad_emb (h : Sim A A' D D' σ τ q adm) (used : Fin m → ℝ) (b : Fin p → ℝ) :
    Gauss.quad (sEmb A'.S (used ∘ σ)) (τ b) = q * Gauss.quad (sEmb A.S used) b := by
  rw [sEmb_quad, sEmb_quad, ← Equiv.sum_comp σ fun i => used i * Gauss.quad (A.S i) b, Finset.mul_sum]
  exact Finset.sum_congr rfl fun i _ => by rw [h.quad]; simp only [Function.comp]; ring

theorem Sim.penDev (h : Sim A A' D D' σ τ q adm) (used : Fin m → ℝ) (b : Fin p → ℝ) (d : Fl) :
    Step.penDev (prob A' D' (used ∘ σ)) (τ b) (sc q d) = sc q (Step.penDev (prob A D used) b d) := by
  unfold Step.penDev prob
  dsimp only
  split_ifs
  · rw [h.quad_emb, sc_add]
  · rfl

variable (D D' τ q) in
/-- Corresponding variables of the step-length control. -/
def LoopRel (s s' : Step.St (Fin p → ℝ) (Option (List ℝ)) (Option (List ℝ))) : Prop :=
  s'.n = τ s.n ∧ (∃ b, s.eta = D.eta b ∧ s'.eta = D'.eta (τ b)) ∧ s'.dev = sc q s.dev ∧ s'.pen = sc q s.pen

theorem Sim.coefLoop (h : Sim A A' D D' σ τ q adm) (used : Fin m → ℝ) (coef : Fin p → ℝ) (prev : Fl) :
    ∀ (fuel cor : ℕ) (s s' : Step.St (Fin p → ℝ) (Option (List ℝ)) (Option (List ℝ))), LoopRel D D' τ q s s' →
      Option.Rel (LoopRel D D' τ q) (Step.coefLoop (prob A D used) coef prev fuel cor s)
        (Step.coefLoop (prob A' D' (used ∘ σ)) (τ coef) (sc q prev) fuel cor s') := by
  intro fuel
  induction fuel with
  | zero => intro cor s s' _; exact Option.Rel.none
  | succ n ih =>
    rintro cor s s' ⟨h1, h2, h3, h4⟩
    rw [Step.coefLoop, Step.coefLoop, h4]
    have hc : (Step.Gt (sc q s.pen) (sc q prev) ∨ ¬(sc q s.pen).IsFin) ↔ (Step.Gt s.pen prev ∨ ¬s.pen.IsFin) := by
      rw [gt_sc h.pos, isFin_sc]
    by_cases hg : Step.Gt s.pen prev ∨ ¬s.pen.IsFin
    · rw [if_pos hg, if_pos (hc.2 hg)]
      have hn : (if cor > 30 then τ coef else s'.n) = τ (if cor > 30 then coef else s.n) := by
        split_ifs
        · rfl
        · exact h1
      dsimp only
      rw [hn]
      generalize (if cor > 30 then coef else s.n) = w
      by_cases hcor : cor > 31
      · rw [if_pos hcor, if_pos hcor]
        exact Option.Rel.some ⟨rfl, h2, h3, rfl⟩
      · rw [if_neg hcor, if_neg hcor]
        refine ih _ _ _ ?_
        rw [← h.mid]
        refine ⟨rfl, ⟨_, rfl, rfl⟩, h.dev _, ?_⟩
        have hd := h.dev (Step.mid coef w)
        simp only [Step.evalAt, prob, id] at hd ⊢
        rw [hd]
        exact h.penDev used _ _
    · rw [if_neg hg, if_neg (mt hc.1 hg)]
      exact Option.Rel.some ⟨h1, h2, h3, h4⟩

/-! ### The outer loop -/

variable (D D' σ τ q) in
/-- Corresponding variables of two fits. -/
structure StRel (s s' : St m p) : Prop where
  coef : s'.coef = τ s.coef
  nCoef : s'.nCoef = τ s.nCoef
  eta : ∃ b, s.eta = D.eta b ∧ s'.eta = D'.eta (τ b)
  dev : s'.dev = sc q s.dev
  pen : s'.pen = sc q s.pen
  prevDev : s'.prevDev = sc q s.prevDev
  prevPen : s'.prevPen = sc q s.prevPen
  terms : s'.terms = s.terms ∘ σ
  used : s'.used = s.used ∘ σ

variable (D D' σ τ q) in
/-- Corresponding results of two fits. -/
structure OutRel (r r' : Out m p) : Prop where
  coef : r'.coef = τ r.coef
  eta : ∃ b, r.eta = D.eta b ∧ r'.eta = D'.eta (τ b)
  penalty : r'.penalty = q * r.penalty
  wCoef : r'.wCoef = τ r.wCoef
  used : r'.used = r.used ∘ σ
  lam : r'.lam = r.lam ∘ σ
  conv : r'.conv = r.conv

theorem Sim.accept (h : Sim A A' D D' σ τ q adm) {s s' : St m p} (hr : StRel D D' σ τ q s s') :
    Option.Rel (fun t t' => StRel D D' σ τ q t t' ∧ t.terms = s.terms ∧ t.used = s.used) (Gauss.accept A D s) (Gauss.accept A' D' s') := by
  unfold Gauss.accept
  dsimp only
  obtain ⟨b, hb, hb'⟩ := hr.eta
  have hd : deviance D'.y s'.eta = sc q (deviance D.y s.eta) := by rw [hb, hb', h.dev]
  rw [hr.used, hr.coef, hr.nCoef, hr.prevDev, hd, h.penDev, h.penDev]
  have := h.coefLoop s.used s.coef (Step.penDev (prob A D s.used) s.coef s.prevDev) 34 0
    ⟨s.nCoef, s.eta, s.eta, deviance D.y s.eta, Step.penDev (prob A D s.used) s.nCoef (deviance D.y s.eta)⟩
    ⟨τ s.nCoef, s'.eta, s'.eta, sc q (deviance D.y s.eta), sc q (Step.penDev (prob A D s.used) s.nCoef (deviance D.y s.eta))⟩
    ⟨rfl, hr.eta, rfl, rfl⟩
  generalize Step.coefLoop (prob A D s.used) s.coef _ 34 0 _ = z at this ⊢
  generalize Step.coefLoop (prob A' D' (s.used ∘ σ)) (τ s.coef) _ 34 0 _ = z' at this ⊢
  cases this with
  | none => exact Option.Rel.none
  | some hl =>
    obtain ⟨h1, h2, h3, h4⟩ := hl
    exact Option.Rel.some ⟨⟨h1, rfl, h2, h3, h4, rfl, hr.prevPen, hr.terms, rfl⟩, rfl, rfl⟩

/-- Smoothing parameters stay admissible. -/
def Keep (A : Args m p) (lam : Fin m → ℝ) (frozen : Fin m → Bool) (s : St m p) : Prop := Ok A lam frozen s.terms ∧ UsedOk lam frozen s.used

theorem Sim.propose (h : Sim A A' D D' σ τ q adm) {lam : Fin m → ℝ} {frozen : Fin m → Bool} (ha : ∀ u, UsedOk lam frozen u → adm u)
    (fuel o : ℕ) {s s' : St m p} (hk : Keep A lam frozen s) (hr : StRel D D' σ τ q s s') :
    Option.Rel (fun t t' => StRel D D' σ τ q t t' ∧ Keep A lam frozen t) (Gauss.propose A D fuel o s) (Gauss.propose A' D' fuel o s') := by
  unfold Gauss.propose
  by_cases hm : m = 0
  · rw [if_pos hm, if_pos hm]
    dsimp only
    rw [hr.used, h.coef _ (ha _ hk.2)]
    exact Option.Rel.some ⟨⟨hr.coef, rfl, ⟨_, rfl, rfl⟩, hr.dev, hr.pen, hr.dev, hr.pen, hr.terms, rfl⟩, hk.1, hk.2⟩
  · rw [if_neg hm, if_neg hm]
    have hc := h.control_eq ha o s.coef fuel (fun i => applyStep (s.terms i)) (begin_next hk.1)
    rw [hr.coef, hr.terms, show (fun i => applyStep ((s.terms ∘ σ) i)) = (fun i => applyStep (s.terms i)) ∘ σ from rfl, hc]
    cases hz : Gauss.control A D o s.coef fuel (fun i => applyStep (s.terms i)) with
    | none => exact Option.Rel.none
    | some r =>
      obtain ⟨k1, k2, k3, k4⟩ := control_spec o s.coef fuel _ r (begin_next hk.1) hz
      exact Option.Rel.some ⟨⟨rfl, rfl, ⟨_, rfl, rfl⟩, hr.dev, hr.pen, hr.dev, hr.pen, rfl, rfl⟩, k1, k3⟩

theorem Sim.result (h : Sim A A' D D' σ τ q adm) {s s' : St m p} (hr : StRel D D' σ τ q s s') (c : Bool) :
    OutRel D D' σ τ q (Gauss.result A s c) (Gauss.result A' s' c) where
  coef := hr.coef
  eta := hr.eta
  penalty := by
    rw [result_penalty, result_penalty, hr.used, hr.coef, h.quad_emb]
  wCoef := hr.nCoef
  used := hr.used
  lam := by simp only [Gauss.result]; rw [hr.terms]; rfl
  conv := rfl

theorem Sim.outer (h : Sim A A' D D' σ τ q adm) {lam : Fin m → ℝ} {frozen : Fin m → Bool} (ha : ∀ u, UsedOk lam frozen u → adm u)
    (fuel : ℕ) : ∀ (left o : ℕ) (s s' : St m p), Keep A lam frozen s → StRel D D' σ τ q s s' →
      Option.Rel (OutRel D D' σ τ q) (Gauss.outer A D fuel left o s) (Gauss.outer A' D' fuel left o s') := by
  intro left
  induction left with
  | zero => intro o s s' _ hr; exact Option.Rel.some (h.result hr false)
  | succ n ih =>
    intro o s s' hk hr
    rw [Gauss.outer, Gauss.outer]
    split_ifs
    · have := h.propose ha fuel o hk hr
      generalize Gauss.propose A D fuel o s = z at this ⊢
      generalize Gauss.propose A' D' fuel o s' = z' at this ⊢
      cases this with
      | none => exact Option.Rel.none
      | some hl => exact ih _ _ _ hl.2 hl.1
    · have := h.accept hr
      generalize Gauss.accept A D s = z at this ⊢
      generalize Gauss.accept A' D' s' = z' at this ⊢
      cases this with
      | none => exact Option.Rel.none
      | @some t t' hl =>
        obtain ⟨h1, h2, h3⟩ := hl
        have hk' : Keep A lam frozen t := by unfold Keep; rw [h2, h3]; exact hk
        dsimp only
        rw [h.tol, h1.pen, h1.prevPen]
        by_cases hc : Conv A.tol t.pen t.prevPen
        · rw [if_pos hc, if_pos ((conv_sc h.pos _ _ _).2 hc)]
          exact Option.Rel.some (h.result h1 true)
        · rw [if_neg hc, if_neg (mt (conv_sc h.pos _ _ _).1 hc)]
          have := h.propose ha fuel o hk' h1
          generalize Gauss.propose A D fuel o t = z at this ⊢
          generalize Gauss.propose A' D' fuel o t' = z' at this ⊢
          cases this with
          | none => exact Option.Rel.none
          | some hl => exact ih _ _ _ hl.2 hl.1

theorem outer_used (A : Args m p) (D : Dat p) (lam : Fin m → ℝ) (frozen : Fin m → Bool) (fuel : ℕ) : ∀ (left o : ℕ) (s : St m p) (r : Out m p),
    Keep A lam frozen s → Gauss.outer A D fuel left o s = some r → UsedOk lam frozen r.used := by
  have hpro : ∀ (o : ℕ) (s t : St m p), Keep A lam frozen s → Gauss.propose A D fuel o s = some t → Keep A lam frozen t := by
    intro o s t hk h
    unfold Gauss.propose at h
    by_cases hm : m = 0
    · rw [if_pos hm, Option.some.injEq] at h
      subst h
      exact hk
    · rw [if_neg hm] at h
      cases hz : Gauss.control A D o s.coef fuel (fun i => applyStep (s.terms i)) with
      | none => rw [hz] at h; cases h
      | some r =>
        rw [hz, Option.some.injEq] at h
        subst h
        obtain ⟨k1, k2, k3, k4⟩ := control_spec o s.coef fuel _ r (begin_next hk.1) hz
        exact ⟨k1, k3⟩
  have hacc : ∀ (s t : St m p), Keep A lam frozen s → Gauss.accept A D s = some t → Keep A lam frozen t := by
    intro s t hk h
    unfold Gauss.accept at h
    dsimp only at h
    split at h
    · cases h
    · rw [Option.some.injEq] at h
      subst h
      exact hk
  intro left
  induction left with
  | zero =>
    intro o s r hk h
    simp only [Gauss.outer, Option.some.injEq] at h
    subst h
    exact hk.2
  | succ n ih =>
    intro o s r hk h
    rw [Gauss.outer] at h
    split_ifs at h
    · cases hp : Gauss.propose A D fuel o s with
      | none => rw [hp] at h; cases h
      | some t => rw [hp] at h; exact ih _ _ _ (hpro o s t hk hp) h
    · cases ha : Gauss.accept A D s with
      | none => rw [ha] at h; cases h
      | some t =>
        rw [ha] at h
        have hk' := hacc s t hk ha
        dsimp only at h
        split_ifs at h
        · rw [Option.some.injEq] at h
          subst h
          exact hk'.2
        · cases hp : Gauss.propose A D fuel o t with
          | none => rw [hp] at h; cases h
          | some t' => rw [hp] at h; exact ih _ _ _ (hpro o t t' hk' hp) h

theorem Sim.start (h : Sim A A' D D' σ τ q adm) {lam : Fin m → ℝ} (frozen : Fin m → Bool) (hl : adm lam) :
    StRel D D' σ τ q (Gauss.start A D lam frozen) (Gauss.start A' D' (lam ∘ σ) (frozen ∘ σ)) := by
  have hd := h.dev (updateCoef D A.S lam)
  refine ⟨h.coef lam hl, h.coef lam hl, ⟨_, rfl, ?_⟩, ?_, ?_, rfl, rfl, ?_, rfl⟩
  · simp only [Gauss.start]; rw [h.coef lam hl]
  · simp only [Gauss.start]; rw [h.coef lam hl, hd]
  · simp only [Gauss.start]; rw [h.coef lam hl, hd, h.penDev]
  · simp only [Gauss.start]
    funext i
    have := h.passRel hl
    unfold initStep
    simp only [Function.comp]
    rw [this.lgdet, this.ldet, this.bsb, this.scale, fsStep_sc h.pos]

theorem start_keep (A : Args m p) (D : Dat p) {lam : Fin m → ℝ} {frozen : Fin m → Bool} (h0 : ∀ i, frozen i = false → InRange (lam i)) :
    Keep A lam frozen (Gauss.start A D lam frozen) := by
  refine ⟨fun i => ⟨?_, fun _ => rfl, rfl, fun _ => rfl⟩, fun i => ⟨fun _ => rfl, h0 i⟩⟩
  simp only [Gauss.start, initStep, Ready]
  cases hi : frozen i
  · simp only [Bool.false_eq_true, if_false]
    exact ⟨h0 i hi, fs_range _ _ _ _ _, fun hc => by cases hc⟩
  · simp

/-- Whole fits. -/
theorem Sim.whole (h : Sim A A' D D' σ τ q adm) {lam : Fin m → ℝ} {frozen : Fin m → Bool} (ha : ∀ u, UsedOk lam frozen u → adm u)
    (h0 : ∀ i, frozen i = false → InRange (lam i)) (fuel maxOuter : ℕ) :
    Option.Rel (OutRel D D' σ τ q) (Gauss.outer A D fuel maxOuter 0 (Gauss.start A D lam frozen))
      (Gauss.outer A' D' fuel maxOuter 0 (Gauss.start A' D' (lam ∘ σ) (frozen ∘ σ))) :=
  h.outer ha fuel maxOuter 0 _ _ (start_keep A D h0) (h.start frozen (ha lam fun i => ⟨fun _ => rfl, h0 i⟩))

end

end Verif.Equi
