import Verif.Smo
import Verif.Pirls
import Verif.LmlFam
import Mathlib.Analysis.Complex.ExponentialBounds
import Mathlib.Analysis.SpecificLimits.Basic

/-!
# Larger smoothing parameters give smoother fits: generalised, hazard and multinomial models (C133)
-/

namespace Verif.SmoG

open Verif Matrix Fl Fam Pirls Filter Topology

/-! ### Generalised additive models -/

section Glm

variable {N p : ℕ} {x x' : In N p}

/-- Deviance of the means that belong to coefficients `b`. -/
noncomputable def deviance (x : In N p) (b : Fin p → ℝ) : Fl :=
  Fl.sum fun i => (x.fam i).D (fin (x.y i)) (x.lk.fi (fin ((∑ j, x.X i j * b j) + x.off i)))

/-- Penalty of coefficients `b`. -/
def quad (S : Matrix (Fin p) (Fin p) ℝ) (b : Fin p → ℝ) : ℝ := ∑ a, ∑ c, b a * S a c * b c

theorem quad_mv (S : Matrix (Fin p) (Fin p) ℝ) (b : Fin p → ℝ) : quad S b = b ⬝ᵥ (S *ᵥ b) := Pirls.quad_eq S b

theorem quad_add (S T : Matrix (Fin p) (Fin p) ℝ) (c : ℝ) (b : Fin p → ℝ) : quad (S + c • T) b = quad S b + c * quad T b := by
  simp only [quad, Finset.mul_sum, ← Finset.sum_add_distrib]
  refine Finset.sum_congr rfl fun a _ => Finset.sum_congr rfl fun d _ => ?_
  rw [Matrix.add_apply, Matrix.smul_apply, smul_eq_mul]
  ring

/-- The two models differ in their penalties only. -/
structure Same (x x' : In N p) : Prop where
  fam : x'.fam = x.fam
  lk : x'.lk = x.lk
  y : x'.y = x.y
  X : x'.X = x.X
  off : x'.off = x.off

theorem Same.dev (h : Same x x') : deviance x' = deviance x := by
  funext b
  unfold deviance
  rw [h.fam, h.lk, h.y, h.X, h.off]

theorem Same.adm (h : Same x x') {b : Fin p → ℝ} : Adm x' b ↔ Adm x b := by
  unfold Adm
  rw [h.fam, h.lk, h.X, h.off]

theorem dev_fin {s : ℝ} (hg : Good x s) {b : Fin p → ℝ} (hb : Adm x b) : ∃ d, deviance x b = fin d ∧ 0 ≤ d := by
  have h : ∀ i, ∃ d, (x.fam i).D (fin (x.y i)) (x.lk.fi (fin ((∑ j, x.X i j * b j) + x.off i))) = fin d ∧ 0 ≤ d := by
    intro i
    obtain ⟨mu, hm, e⟩ := hb i
    obtain ⟨d, h1, h2, -⟩ := deviance_nonneg (hg.obs i) hm
    exact ⟨d, by rw [e, h1], h2⟩
  choose d h1 h2 using h
  refine ⟨∑ i, d i, ?_, Finset.sum_nonneg fun i _ => h2 i⟩
  unfold deviance
  rw [← sum_fin]
  exact congrArg Fl.sum (funext h1)

theorem pen_dev {s : ℝ} (hg : Good x s) {b : Fin p → ℝ} (hb : Adm x b) {d : ℝ} (hd : deviance x b = fin d) :
    (Step.evalAt (prob x) b).pen = fin (d + quad x.S b) := by
  classical
  have h : (prob x).devF ((prob x).muF ((prob x).etaF b)) = fin d := by
    rw [← hd]
    show Fl.sum (fun i => if x.lk.fi (fin (eta x b i)) = .nan then fin 0 else
      (x.fam i).D (fin (x.y i)) (x.lk.fi (fin (eta x b i)))) = _
    unfold deviance
    congr 1
    funext i
    obtain ⟨mu, -, e⟩ := hb i
    rw [← eta_def, e, if_neg (by simp)]
  show (prob x).devF ((prob x).muF ((prob x).etaF b)) + fin (b ⬝ᵥ (x.S *ᵥ b)) = _
  rw [h, fin_add, quad_mv]

/-- C133.  Coefficients reproduced by the iteration have the smallest penalised deviance (concave log-likelihoods). -/
theorem least {s : ℝ} (hg : Good x s) (hi : Ident x) (hc : ∀ i, concave (x.fam i) x.lk) {b : Fin p → ℝ} (hb : Adm x b)
    (hf : next x b = b) {u : Fin p → ℝ} (hu : Adm x u) :
    ∃ d e, deviance x b = fin d ∧ deviance x u = fin e ∧ 0 ≤ d ∧ 0 ≤ e ∧ d + quad x.S b ≤ e + quad x.S u := by
  obtain ⟨d, h1, h2⟩ := dev_fin hg hb
  obtain ⟨e, k1, k2⟩ := dev_fin hg hu
  refine ⟨d, e, h1, k1, h2, k2, ?_⟩
  obtain ⟨K, hK⟩ := pen_eq hg
  have e1 := pen_dev hg hb h1
  have e2 := pen_dev hg hu k1
  rw [hK b hb, fin_inj] at e1
  rw [hK u hu, fin_inj] at e2
  have h := gram_step hg hb (gram_posdef hg hi hb)
  rw [hf, sub_self, Matrix.mulVec_zero] at h
  have hm := PR_le hg hc hb hu h.symm
  have := mul_le_mul_of_nonneg_left hm (mul_nonneg zero_le_two hg.pos.le)
  linarith

/-- C133.  The smoothing parameter of one penalty raised from `l` to `t`: the fit is smoother, in the sense of that penalty, and its deviance
(plus the other penalties) is not smaller. -/
theorem smoother {s : ℝ} (hs : Same x x') (hg : Good x s) (hg' : Good x' s) (hi : Ident x) (hi' : Ident x')
    (hc : ∀ i, concave (x.fam i) x.lk) {S0 P : Matrix (Fin p) (Fin p) ℝ} {l t : ℝ} (hl : 0 ≤ l) (hlt : l < t) (hS : x.S = S0 + l • P)
    (hS' : x'.S = S0 + t • P) {b b' : Fin p → ℝ} (hb : Adm x b) (hb' : Adm x b') (hf : next x b = b) (hf' : next x' b' = b') :
    quad P b' ≤ quad P b ∧ ∃ d d', deviance x b = fin d ∧ deviance x b' = fin d' ∧ d + quad S0 b ≤ d' + quad S0 b' := by
  obtain ⟨d, e, h1, h2, -, -, h3⟩ := least hg hi hc hb hf hb'
  obtain ⟨e', d', k1, k2, -, -, k3⟩ := least (x := x') hg' hi' (by rw [hs.fam, hs.lk]; exact hc) (hs.adm.2 hb') hf' (hs.adm.2 hb)
  rw [hs.dev, h2] at k1
  rw [hs.dev, h1] at k2
  rw [fin_inj] at k1 k2
  subst k1 k2
  rw [hS, quad_add, quad_add] at h3
  rw [hS', quad_add, quad_add] at k3
  have := Smo.trade (α := Bool) (f := fun q => if q then d + quad S0 b else e + quad S0 b') (g := fun q => if q then quad P b else quad P b')
    hl hlt (a := true) (b := false) (by simp only [if_true]; simp; linarith) (by simp only [if_true]; simp; linarith)
  simp only [if_true] at this
  exact ⟨by simpa using this.1, d, e, h1, h2, by simpa using this.2⟩

/-- C133.  The penalty of a fit is at most the deviance of any coefficients without penalty (for instance those of the model with the intercept
and the unpenalised parts alone), and its deviance exceeds that of other coefficients by at most their penalty. -/
theorem rough_bound {s : ℝ} (hg : Good x s) (hi : Ident x) (hc : ∀ i, concave (x.fam i) x.lk) {b : Fin p → ℝ} (hb : Adm x b)
    (hf : next x b = b) {u : Fin p → ℝ} (hu : Adm x u) :
    ∃ d e, deviance x b = fin d ∧ deviance x u = fin e ∧ d ≤ e + quad x.S u ∧ (quad x.S u = 0 → quad x.S b ≤ e) := by
  obtain ⟨d, e, h1, h2, h3, h4, h5⟩ := least hg hi hc hb hf hu
  refine ⟨d, e, h1, h2, ?_, fun h0 => by linarith⟩
  have : 0 ≤ quad x.S b := by rw [quad_mv]; exact psd_quad hg.psd b
  linarith

/-- C133.  With smoothing parameters that grow without bound the penalty of the fit vanishes, and its deviance does not exceed that of any
unpenalised coefficients. -/
theorem null_limit {s : ℝ} {y : ℕ → In N p} (hs : ∀ k, Same x (y k)) (hg : ∀ k, Good (y k) s) (hi : ∀ k, Ident (y k))
    (hc : ∀ i, concave (x.fam i) x.lk) {S0 P : Matrix (Fin p) (Fin p) ℝ} (h0 : S0.PosSemidef) (hP : P.PosSemidef) {l : ℕ → ℝ} (hS : ∀ k, (y k).S = S0 + l k • P)
    (hl : Tendsto l atTop atTop) {b : ℕ → Fin p → ℝ} (hb : ∀ k, Adm x (b k)) (hf : ∀ k, next (y k) (b k) = b k) {u : Fin p → ℝ}
    (hu : Adm x u) (hq0 : quad S0 u = 0) (hqP : quad P u = 0) :
    Tendsto (fun k => quad P (b k)) atTop (𝓝 0) ∧ ∃ e, deviance x u = fin e ∧ ∀ k, ∃ d, deviance x (b k) = fin d ∧
      (0 ≤ l k → d ≤ e) := by
  have hk : ∀ k, ∃ d e, deviance x (b k) = fin d ∧ deviance x u = fin e ∧ 0 ≤ d ∧ 0 ≤ e ∧ d + (quad S0 (b k) + l k * quad P (b k)) ≤ e := by
    intro k
    obtain ⟨d, e, h1, h2, h3, h4, h5⟩ := least (hg k) (hi k) (by rw [(hs k).fam, (hs k).lk]; exact hc) ((hs k).adm.2 (hb k)) (hf k) ((hs k).adm.2 hu)
    rw [(hs k).dev] at h1 h2
    rw [hS k, quad_add, quad_add, hq0, hqP] at h5
    exact ⟨d, e, h1, h2, h3, h4, by linarith⟩
  have hn : ∀ k, 0 ≤ quad P (b k) := fun k => by rw [quad_mv]; exact psd_quad hP _
  have hn0 : ∀ k, 0 ≤ quad S0 (b k) := fun k => by rw [quad_mv]; exact psd_quad h0 _
  obtain ⟨-, e, -, he, -, he0, -⟩ := hk 0
  have hk' : ∀ k, ∃ d, deviance x (b k) = fin d ∧ 0 ≤ d ∧ d + (quad S0 (b k) + l k * quad P (b k)) ≤ e := by
    intro k
    obtain ⟨d, e', h1, h2, h3, -, h5⟩ := hk k
    rw [he, fin_inj] at h2
    exact ⟨d, h1, h3, by rw [h2]; exact h5⟩
  refine ⟨?_, e, he, fun k => ?_⟩
  · refine tendsto_of_tendsto_of_tendsto_of_le_of_le' tendsto_const_nhds (Tendsto.div_atTop (tendsto_const_nhds (x := e)) hl)
      (Eventually.of_forall hn) ?_
    filter_upwards [hl.eventually_gt_atTop 0] with k hk0
    obtain ⟨d, -, h3, h5⟩ := hk' k
    rw [le_div_iff₀ hk0]
    have := hn0 k
    linarith
  · obtain ⟨d, h1, -, h5⟩ := hk' k
    exact ⟨d, h1, fun h => by have := mul_nonneg h (hn k); have := hn0 k; linarith⟩

end Glm

/-! ### Models with concave log-likelihood fitted by Newton's method -/

section General

variable {p : ℕ} {x x' : Lml.In p}

/-- C133.  GAMMLSS and general smooth models with concave log-likelihood: the same for coefficients reproduced by the Newton step. -/
theorem smoother_newton (hllk : x'.llk = x.llk) (hc : Lml.Concave x) {S0 P : Matrix (Fin p) (Fin p) ℝ} {l t : ℝ} (hl : 0 ≤ l) (hlt : l < t)
    (hS : x.S = S0 + l • P) (hS' : x'.S = S0 + t • P) (hp : x.S.PosSemidef) (hp' : x'.S.PosSemidef) {c c' : Fin p → ℝ} (hr : Lml.Reg x c) (hr' : Lml.Reg x' c')
    (hd : HasFlGrad x.llk (x.grad c) c) (hd' : HasFlGrad x'.llk (x'.grad c') c') (hf : Lml.step x c = c) (hf' : Lml.step x' c' = c') :
    quad P c' ≤ quad P c ∧ ∃ u u', x.llk c = fin u ∧ x.llk c' = fin u' ∧ u' - 1 / 2 * quad S0 c' ≤ u - 1 / 2 * quad S0 c := by
  obtain ⟨F, hF, hF'⟩ := hc
  have hc' : Lml.Concave x' := ⟨F, by rw [hllk]; exact hF, hF'⟩
  obtain ⟨u, v, h1, h2, h3⟩ := Lml.fixed_is_max ⟨F, hF, hF'⟩ hr hd hf c'
  obtain ⟨u', v', k1, k2, k3⟩ := Lml.fixed_is_max hc' hr' hd' hf' c
  have e : ∀ d, Lml.pllk x d = fin (F d - 1 / 2 * quad x.S d) := fun d => by unfold Lml.pllk; rw [hF, fin_sub]; rfl
  have e' : ∀ d, Lml.pllk x' d = fin (F d - 1 / 2 * quad x'.S d) := fun d => by unfold Lml.pllk; rw [hllk, hF, fin_sub]; rfl
  rw [e, fin_inj] at h1 h2
  rw [e', fin_inj] at k1 k2
  have q1 : 0 ≤ ∑ i, ∑ j, (c' i - c i) * x.S i j * (c' j - c j) := by
    have := psd_quad hp (c' - c)
    rw [← quad_mv] at this
    exact this
  have q2 : 0 ≤ ∑ i, ∑ j, (c i - c' i) * x'.S i j * (c j - c' j) := by
    have := psd_quad hp' (c - c')
    rw [← quad_mv] at this
    exact this
  rw [hS, quad_add] at h1 h2
  rw [hS', quad_add] at k1 k2
  have := Smo.trade (f := fun d => -(2 * F d) + quad S0 d) (g := quad P) hl hlt (a := c) (b := c') (by linarith) (by linarith)
  exact ⟨this.1, _, _, hF c, hF c', by linarith [this.2]⟩

end General

/-- C133.  Proportional hazard models. -/
theorem smoother_hazard {n p nt : ℕ} {ut : ℕ → ℝ} {r delta : Fin n → ℕ} {X : Fin n → Fin p → ℝ} {S0 P : Matrix (Fin p) (Fin p) ℝ}
    {chol : Matrix (Fin p) (Fin p) ℝ → Option (Matrix (Fin p) (Fin p) ℝ × Equiv.Perm (Fin p))} {noise : ℕ → Fin p → ℝ}
    (h : Haz.Data nt ut r) (hc : Newton.CholSpec chol) (h0 : S0.PosSemidef) (hP : P.PosSemidef) {l t : ℝ} (hl : 0 ≤ l) (hlt : l < t)
    {c c' : Fin p → ℝ} (hd : ∀ i, -Haz.hessian nt r delta X c i i + (S0 + l • P) i i ≠ 0)
    (hd' : ∀ i, -Haz.hessian nt r delta X c' i i + (S0 + t • P) i i ≠ 0)
    (hf : Lml.step (Lml.hazIn nt r delta X (S0 + l • P) chol noise) c = c)
    (hf' : Lml.step (Lml.hazIn nt r delta X (S0 + t • P) chol noise) c' = c') :
    quad P c' ≤ quad P c ∧ Haz.llk nt r delta X c' - 1 / 2 * quad S0 c' ≤ Haz.llk nt r delta X c - 1 / 2 * quad S0 c := by
  have ps : ∀ q : ℝ, 0 ≤ q → (S0 + q • P).PosSemidef := fun q hq => h0.add (hP.smul hq)
  have p1 := ps l hl
  have p2 := ps t (hl.trans hlt.le)
  have sy : ∀ q : ℝ, 0 ≤ q → (S0 + q • P).IsSymm := fun q hq => by
    have := (ps q hq).isHermitian
    rwa [IsHermitian, conjTranspose_eq_transpose_of_trivial] at this
  have s1 := Lml.haz_smooth (noise := noise) h hc (sy l hl) hd
  have s2 := Lml.haz_smooth (noise := noise) h hc (sy t (hl.trans hlt.le)) hd'
  obtain ⟨a, u, u', e1, e2, e3⟩ := smoother_newton (x := Lml.hazIn nt r delta X (S0 + l • P) chol noise)
    (x' := Lml.hazIn nt r delta X (S0 + t • P) chol noise) rfl (Lml.haz_concave h) hl hlt rfl rfl p1 p2
    ⟨hc, s1.hsym c, sy l hl, hd⟩ ⟨hc, s2.hsym c', sy t (hl.trans hlt.le), hd'⟩ s1.grad s2.grad hf hf'
  have e1 : Haz.llk nt r delta X c = u := fin_inj.1 e1
  have e2 : Haz.llk nt r delta X c' = u' := fin_inj.1 e2
  rw [e1, e2]
  exact ⟨a, e3⟩

/-- C133.  Multinomial models; `S0`, `P` act on the coefficients of all predictors. -/
theorem smoother_multinomial {K n : ℕ} {w : ℕ → ℕ} {X : ℕ → Fin n → ℕ → ℝ} {y : Fin n → ℝ} {stored : ℕ → ℕ → ℕ → List ℕ}
    {S0 P : Matrix (Fin (∑ l ∈ Finset.range K, w l)) (Fin (∑ l ∈ Finset.range K, w l)) ℝ} {chol} {noise}
    (hst : Lml.Holds (EtaBeta.mnFam K) w X y stored) (hc : Newton.CholSpec chol) (h0 : S0.PosSemidef) (hP : P.PosSemidef) {l t : ℝ} (hl : 0 ≤ l)
    (hlt : l < t) {c c' : Fin (∑ l ∈ Finset.range K, w l) → ℝ}
    (hd : ∀ i, -(Lml.lssIn (EtaBeta.mnFam K) w X y stored (S0 + l • P) chol noise).hess c i i + (S0 + l • P) i i ≠ 0)
    (hd' : ∀ i, -(Lml.lssIn (EtaBeta.mnFam K) w X y stored (S0 + t • P) chol noise).hess c' i i + (S0 + t • P) i i ≠ 0)
    (hf : Lml.step (Lml.lssIn (EtaBeta.mnFam K) w X y stored (S0 + l • P) chol noise) c = c)
    (hf' : Lml.step (Lml.lssIn (EtaBeta.mnFam K) w X y stored (S0 + t • P) chol noise) c' = c') :
    quad P c' ≤ quad P c ∧ EtaBeta.llk (EtaBeta.mnFam K) w X y (Lml.blk w c') - 1 / 2 * quad S0 c' ≤
      EtaBeta.llk (EtaBeta.mnFam K) w X y (Lml.blk w c) - 1 / 2 * quad S0 c := by
  have ps : ∀ q : ℝ, 0 ≤ q → (S0 + q • P).PosSemidef := fun q hq => h0.add (hP.smul hq)
  have sy : ∀ q : ℝ, 0 ≤ q → (S0 + q • P).IsSymm := fun q hq => by
    have := (ps q hq).isHermitian
    rwa [IsHermitian, conjTranspose_eq_transpose_of_trivial] at this
  have s1 := Lml.mn_smooth (noise := noise) hst hc (sy l hl) hd
  have s2 := Lml.mn_smooth (noise := noise) hst hc (sy t (hl.trans hlt.le)) hd'
  obtain ⟨a, u, u', e1, e2, e3⟩ := smoother_newton (x := Lml.lssIn (EtaBeta.mnFam K) w X y stored (S0 + l • P) chol noise)
    (x' := Lml.lssIn (EtaBeta.mnFam K) w X y stored (S0 + t • P) chol noise) rfl Lml.mn_concave hl hlt rfl rfl (ps l hl)
    (ps t (hl.trans hlt.le)) ⟨hc, s1.hsym c, sy l hl, hd⟩ ⟨hc, s2.hsym c', sy t (hl.trans hlt.le), hd'⟩ s1.grad s2.grad hf hf'
  have e1 : EtaBeta.llk (EtaBeta.mnFam K) w X y (Lml.blk w c) = u := fin_inj.1 e1
  have e2 : EtaBeta.llk (EtaBeta.mnFam K) w X y (Lml.blk w c') = u' := fin_inj.1 e2
  rw [e1, e2]
  exact ⟨a, e3⟩

end Verif.SmoG
