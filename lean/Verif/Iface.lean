import Verif.Invar
import Verif.Pirls
import Verif.LssGamma
import Verif.MGauss

/-!
# The same model through different interfaces (property C136)

A generalised additive model (`GAMM` with `update_PIRLS`, modelled in `Verif.Pirls`) and a model of the same distribution with several
predictors (`GAMMLSS`, modelled in `Verif.Lml.lssIn`), or with vectors of responses (`MultiGauss`).
-/

namespace Verif.Ifc
open Verif Matrix Lml Fam

/-! ### Log densities -/

/-- C136.  `Gaussian.lp` with a variance is `GAUMLSS.lp` with its root. -/
theorem lp_gaussian (y mu : ℝ) {sigma : ℝ} (hs : 0 < sigma) : FamKind.lp .gaussian y mu (sigma ^ 2) = .fin (Lss.gauLp y mu sigma) := by
  show Fl.log (.fin (normPdf y mu (Real.sqrt (sigma ^ 2)))) = _
  rw [Real.sqrt_sq hs.le, Fl.log_fin (Lss.gau_first hs y mu).1]
  rfl

/-- C136.  `Gamma.lp` is `GAMMALS.lp`. -/
theorem lp_gamma {y mu scale : ℝ} (hy : 0 < y) (hm : 0 < mu) (hs : 0 < scale) :
    FamKind.lp .gamma y mu scale = .fin (Lss.gamLp y mu scale) := by
  show Fl.log (.fin (gammaPdf y (1 / scale) (1 / (1 / scale / mu)))) = _
  rw [Fl.log_fin (Lss.gam_first hs hm hy).1]
  rfl

/-- C136.  `Binomial.lp` for one trial is `MULNOMLSS.lp` for two classes, with the odds as mean of the multinomial family. -/
theorem lp_binary {k : ℕ} (hk : k ≤ 1) {mu scale : ℝ} (h0 : 0 < mu) (h1 : mu < 1) :
    FamKind.lp (.binomial 1) k mu scale = .fin (Lss.mnLp k fun _ : Fin 1 => mu / (1 - mu)) := by
  have h2 : 0 < 1 - mu := by linarith
  have hn : mu / (1 - mu) + 1 = 1 / (1 - mu) := by field_simp; ring
  show Fl.log (.fin (binomPmf 1 mu ((k : ℝ) * ((1 : ℕ) : ℝ)))) = _
  unfold binomPmf Lss.mnLp Lss.norm
  simp only [Nat.cast_one, mul_one, Nat.floor_natCast, true_and, if_pos hk, Finset.univ_unique, Finset.sum_singleton, hn,
    Fin.default_eq_zero, Fin.val_zero, zero_add]
  rcases Nat.le_one_iff_eq_zero_or_eq_one.1 hk with rfl | rfl
  · simp only [Nat.choose_zero_right, Nat.cast_one, pow_zero, one_mul, Nat.sub_zero, pow_one, if_neg zero_ne_one, add_zero]
    rw [Fl.log_fin h2, one_div, Real.log_inv, neg_neg]
  · simp only [Nat.choose_self, Nat.cast_one, pow_one, one_mul, Nat.sub_self, pow_zero, mul_one, if_true]
    rw [Fl.log_fin h0, Real.log_div h0.ne' h2.ne', one_div, Real.log_inv]
    congr 1
    ring

/-! ### Stationary coefficients -/

theorem step_iff {p : ℕ} {x : In p} {c : Fin p → ℝ} (h : Reg x c) : step x c = c ↔ x.grad c = x.S *ᵥ c := by
  obtain ⟨-, h1, h2⟩ := step_solves h
  constructor
  · intro he
    rw [he, sub_self, mulVec_zero] at h2
    exact sub_eq_zero.1 h2.symm
  · intro h0
    rw [h0, sub_self] at h2
    obtain ⟨u, hu⟩ := h1
    have h3 : (↑u⁻¹ : Matrix (Fin p) (Fin p) ℝ) *ᵥ (sysM x c *ᵥ (step x c - c)) = step x c - c := by
      rw [← hu, mulVec_mulVec, Units.inv_mul, one_mulVec]
    rw [h2, mulVec_zero] at h3
    exact sub_eq_zero.1 h3.symm

theorem next_iff {N p : ℕ} {x : Pirls.In N p} {s : ℝ} (hg : Pirls.Good x s) (hi : Pirls.Ident x) {b : Fin p → ℝ} (hb : Pirls.Adm x b) :
    Pirls.next x b = b ↔ ∀ a, (∑ i, Pirls.uR x b i * x.X i a) = (x.S *ᵥ b) a := by
  have hM := Pirls.gram_posdef hg hi hb
  have h := Pirls.gram_step hg hb hM
  constructor
  · intro he a
    rw [he, sub_self, mulVec_zero] at h
    exact sub_eq_zero.1 (congrFun h a).symm
  · intro h0
    have hG : Pirls.G x b = 0 := funext fun a => sub_eq_zero.2 (h0 a)
    rw [hG] at h
    by_contra hne
    have := Pirls.pd_quad hM (sub_ne_zero.2 hne)
    rw [h, dotProduct_zero] at this
    exact lt_irrefl _ this

section lss
variable {K n : ℕ} {fam : EtaBeta.LFam K} {w : ℕ → ℕ} {X : ℕ → Fin n → ℕ → ℝ} {y : Fin n → ℝ} {stored : ℕ → ℕ → ℕ → List ℕ}
  {S : Matrix (Fin (∑ l ∈ Finset.range K, w l)) (Fin (∑ l ∈ Finset.range K, w l)) ℝ}
  {chol : Matrix (Fin (∑ l ∈ Finset.range K, w l)) (Fin (∑ l ∈ Finset.range K, w l)) ℝ →
      Option (Matrix (Fin (∑ l ∈ Finset.range K, w l)) (Fin (∑ l ∈ Finset.range K, w l)) ℝ ×
        Equiv.Perm (Fin (∑ l ∈ Finset.range K, w l)))}
  {noise : ℕ → Fin (∑ l ∈ Finset.range K, w l) → ℝ}

theorem lss_hsym (hh : Holds fam w X y stored) (c : Fin (∑ l ∈ Finset.range K, w l) → ℝ) :
    ((lssIn fam w X y stored S chol noise).hess c).IsSymm := by
  ext i j
  obtain ⟨q, rfl⟩ := at_bij.2 i
  obtain ⟨q', rfl⟩ := at_bij.2 j
  show EtaBeta.entry _ (at' w q') (at' w q) = EtaBeta.entry _ (at' w q) (at' w q')
  rw [at_val, at_val, Invar.hess_at hh, Invar.hess_at hh]
  refine Finset.sum_congr rfl fun o _ => ?_
  unfold Invar.P2s
  rcases lt_trichotomy (q.1 : ℕ) q'.1 with h | h | h
  · rw [if_neg (by omega), if_pos h.le]; ring
  · rw [if_pos h.ge, if_pos h.le]
    have e : Invar.P2 fam (y o) (EtaBeta.etaOf w X (blk w c) o) q'.1 q.1 = Invar.P2 fam (y o) (EtaBeta.etaOf w X (blk w c) o) q.1 q'.1 := by rw [h]
    rw [e]; ring
  · rw [if_pos h.le, if_neg (by omega)]; ring

/-- What the Newton step needs: a Cholesky factorisation, stored patterns, a symmetric penalty, no zero on the diagonal. -/
structure Fits (fam : EtaBeta.LFam K) (w : ℕ → ℕ) (X : ℕ → Fin n → ℕ → ℝ) (y : Fin n → ℝ) (stored : ℕ → ℕ → ℕ → List ℕ)
    (S : Matrix (Fin (∑ l ∈ Finset.range K, w l)) (Fin (∑ l ∈ Finset.range K, w l)) ℝ)
    (chol : Matrix (Fin (∑ l ∈ Finset.range K, w l)) (Fin (∑ l ∈ Finset.range K, w l)) ℝ →
      Option (Matrix (Fin (∑ l ∈ Finset.range K, w l)) (Fin (∑ l ∈ Finset.range K, w l)) ℝ ×
        Equiv.Perm (Fin (∑ l ∈ Finset.range K, w l))))
    (noise : ℕ → Fin (∑ l ∈ Finset.range K, w l) → ℝ) (c : Fin (∑ l ∈ Finset.range K, w l) → ℝ) : Prop where
  spec : Newton.CholSpec chol
  holds : Holds fam w X y stored
  symm : S.IsSymm
  diag : ∀ i, -(lssIn fam w X y stored S chol noise).hess c i i + S i i ≠ 0

theorem Fits.reg {c : Fin (∑ l ∈ Finset.range K, w l) → ℝ} (h : Fits fam w X y stored S chol noise c) :
    Reg (lssIn fam w X y stored S chol noise) c := ⟨h.spec, lss_hsym h.holds c, h.symm, h.diag⟩

theorem lss_step_iff {c : Fin (∑ l ∈ Finset.range K, w l) → ℝ} (h : Fits fam w X y stored S chol noise c) :
    step (lssIn fam w X y stored S chol noise) c = c ↔ ∀ q : Σ k : Fin K, Fin (w k),
      ∑ o, Invar.P1 fam (y o) (EtaBeta.etaOf w X (blk w c) o) q.1 * X q.1 o q.2 = ∑ q' : Σ k : Fin K, Fin (w k), S (at' w q) (at' w q') * blk w c q' := by
  rw [step_iff h.reg]
  have e : ∀ q : Σ k : Fin K, Fin (w k), (S *ᵥ c) (at' w q) = ∑ q' : Σ k : Fin K, Fin (w k), S (at' w q) (at' w q') * blk w c q' := fun q =>
    (Fintype.sum_equiv (Equiv.ofBijective _ (at_bij (w := w) (K := K))) _ _ fun q' => rfl).symm
  have g : ∀ q : Σ k : Fin K, Fin (w k), (lssIn fam w X y stored S chol noise).grad c (at' w q) =
      ∑ o, Invar.P1 fam (y o) (EtaBeta.etaOf w X (blk w c) o) q.1 * X q.1 o q.2 := fun q => Invar.grad_at (blk w c) q
  constructor
  · intro h0 q
    rw [← g, ← e, h0]
    rfl
  · intro h0
    funext i
    obtain ⟨q, rfl⟩ := at_bij.2 i
    rw [g, h0, ← e]
    rfl

end lss

/-- Coefficients of the first of `K + 1` predictors. -/
def first (K : ℕ) (w : ℕ → ℕ) (c : Fin (∑ l ∈ Finset.range (K + 1), w l) → ℝ) (a : Fin (w 0)) : ℝ := c (at' (K := K + 1) w ⟨0, a⟩)

/-! ### Two classes -/

section binary
variable {N : ℕ} {w : ℕ → ℕ} {X : ℕ → Fin N → ℕ → ℝ} {stored : ℕ → ℕ → ℕ → List ℕ}
  {S : Matrix (Fin (∑ l ∈ Finset.range 1, w l)) (Fin (∑ l ∈ Finset.range 1, w l)) ℝ}
  {chol : Matrix (Fin (∑ l ∈ Finset.range 1, w l)) (Fin (∑ l ∈ Finset.range 1, w l)) ℝ →
      Option (Matrix (Fin (∑ l ∈ Finset.range 1, w l)) (Fin (∑ l ∈ Finset.range 1, w l)) ℝ ×
        Equiv.Perm (Fin (∑ l ∈ Finset.range 1, w l)))}
  {noise : ℕ → Fin (∑ l ∈ Finset.range 1, w l) → ℝ}

/-- `GAMM(formula, Binomial())` and `GAMMLSS([formula], MULNOMLSS(1))` for responses 0 and 1. -/
structure Binary (x : Pirls.In N (w 0)) (X : ℕ → Fin N → ℕ → ℝ)
    (S : Matrix (Fin (∑ l ∈ Finset.range 1, w l)) (Fin (∑ l ∈ Finset.range 1, w l)) ℝ) : Prop where
  fam : ∀ i, x.fam i = .binomial 1
  lk : x.lk = .logit
  off : ∀ i, x.off i = 0
  obs : ∀ i, x.y i = 0 ∨ x.y i = 1
  mat : ∀ i (a : Fin (w 0)), x.X i a = X 0 i a
  pen : ∀ a a' : Fin (w 0), x.S a a' = S (at' (K := 1) w ⟨0, a⟩) (at' w ⟨0, a'⟩)
  psd : x.S.PosSemidef

variable {x : Pirls.In N (w 0)}

theorem Binary.good (h : Binary x X S) : Pirls.Good x 1 := by
  refine ⟨fun i => ?_, one_pos, fun _ => Or.inr rfl, h.psd⟩
  rw [h.fam i]
  rcases h.obs i with e | e
  · rw [e]; exact ⟨one_pos, 0, by omega, by simp⟩
  · rw [e]; exact ⟨one_pos, 1, le_refl _, by simp⟩

theorem Binary.adm (h : Binary x X S) (b : Fin (w 0) → ℝ) : Pirls.Adm x b := by
  refine Pirls.adm_total (fun i => ?_) b
  rw [h.fam i, h.lk]
  trivial

theorem Binary.eta (h : Binary x X S) (c : Fin (∑ l ∈ Finset.range 1, w l) → ℝ) (o : Fin N) :
    Pirls.eta x (first 0 w c) o = EtaBeta.etaOf (K := 1) w X (blk w c) o 0 := by
  unfold Pirls.eta EtaBeta.etaOf
  rw [h.off, add_zero]
  show ∑ a, x.X o a * first 0 w c a = ∑ a : Fin (w 0), X 0 o a * first 0 w c a
  exact Finset.sum_congr rfl fun a _ => by rw [h.mat]

theorem mn1 (y e : ℝ) : Invar.P1 (EtaBeta.mnFam 1) y (fun _ => e) 0 = -(Real.exp e / (1 + Real.exp e)) + if ⌊y⌋₊ = 1 then 1 else 0 := by
  have h1 : (EtaBeta.mnFam 1).dEta = true := rfl
  unfold Invar.P1
  simp only [EtaBeta.etaDerivs, h1, if_true, EtaBeta.mn_mus]
  simp [EtaBeta.mnFam, Lss.mnD1, Lss.muOf, Lss.norm, add_comm]

theorem logit_score (y e : ℝ) : Pirls.uF (.binomial 1) .logit y e = y - Real.exp e / (1 + Real.exp e) := by
  have h1 : 0 < 1 + Real.exp e := by positivity
  unfold Pirls.uF
  simp only [LinkKind.fiR, LinkKind.d1R, FamKind.VR, Nat.cast_one]
  have h2 : Real.exp e / (1 + Real.exp e) - (Real.exp e / (1 + Real.exp e)) ^ 2 ≠ 0 := by
    have : Real.exp e / (1 + Real.exp e) - (Real.exp e / (1 + Real.exp e)) ^ 2 = Real.exp e / (1 + Real.exp e) ^ 2 := by
      field_simp
      ring
    rw [this]
    positivity
  have h3 : 1 - Real.exp e / (1 + Real.exp e) = 1 / (1 + Real.exp e) := by field_simp; ring
  field_simp

/-- C136.  A logistic regression and the multinomial model with two classes: coefficients that one of the fits reproduces are reproduced by the
other one, for the same smoothing parameters. -/
theorem binary (h : Binary x X S) (hi : Pirls.Ident x) (c : Fin (∑ l ∈ Finset.range 1, w l) → ℝ)
    (hf : Fits (EtaBeta.mnFam 1) w X x.y stored S chol noise c) :
    Pirls.next x (first 0 w c) = (first 0 w c) ↔
      step (lssIn (EtaBeta.mnFam 1) w X x.y stored S chol noise) c = c := by
  rw [next_iff h.good hi (h.adm _), lss_step_iff hf]
  have e1 : ∀ o (a : Fin (w 0)), Pirls.uR x (first 0 w c) o * x.X o a =
      Invar.P1 (EtaBeta.mnFam 1) (x.y o) (EtaBeta.etaOf (K := 1) w X (blk w c) o) 0 * X 0 o a := by
    intro o a
    have e2 : EtaBeta.etaOf (K := 1) w X (blk w c) o = fun _ => EtaBeta.etaOf (K := 1) w X (blk w c) o 0 :=
      funext fun k => by rw [Fin.fin_one_eq_zero k]
    rw [e2, mn1, ← h.eta c o, h.mat]
    unfold Pirls.uR
    rw [h.fam, h.lk, logit_score]
    congr 1
    rcases h.obs o with e | e
    · rw [e]; simp
    · rw [e]; simp; ring
  have e3 : ∀ a : Fin (w 0), (x.S *ᵥ first 0 w c) a =
      ∑ q' : Σ k : Fin 1, Fin (w k), S (at' (K := 1) w ⟨0, a⟩) (at' w q') * blk w c q' := by
    intro a
    rw [Fintype.sum_sigma, Fin.sum_univ_one]
    show ∑ a', x.S a a' * first 0 w c a' = ∑ a' : Fin (w 0), S (at' (K := 1) w ⟨0, a⟩) (at' (K := 1) w ⟨0, a'⟩) * first 0 w c a'
    exact Finset.sum_congr rfl fun a' _ => by rw [h.pen]
  constructor
  · rintro h0 ⟨k, a⟩
    obtain rfl := Fin.fin_one_eq_zero k
    have := h0 a
    simp only [e1, e3] at this
    exact this
  · intro h0 a
    simp only [e1, e3]
    exact h0 ⟨0, a⟩

/-- C136.  So that both fits give the same coefficients. -/
theorem binary_same (h : Binary x X S) (hi : Pirls.Ident x) {b : Fin (w 0) → ℝ} {c : Fin (∑ l ∈ Finset.range 1, w l) → ℝ}
    (hf : Fits (EtaBeta.mnFam 1) w X x.y stored S chol noise c) (hb : Pirls.next x b = b)
    (hc : step (lssIn (EtaBeta.mnFam 1) w X x.y stored S chol noise) c = c) (a : Fin (w 0)) : first 0 w c a = b a := by
  have h1 := (binary h hi c hf).2 hc
  by_contra hne
  have hne' : (first 0 w c) ≠ b := fun e => hne (congrFun e a)
  have hst : ∀ i, Pirls.strict (x.fam i) x.lk := fun i => by rw [h.fam i, h.lk]; trivial
  obtain ⟨u, v, a1, a2, a3⟩ := Pirls.fixed_is_unique_max h.good hi hst (h.adm _) hb (h.adm _) hne'
  obtain ⟨u', v', b1, b2, b3⟩ := Pirls.fixed_is_unique_max h.good hi hst (h.adm _) h1 (h.adm _) hne'.symm
  rw [a1] at b2
  rw [a2] at b1
  have := Fl.fin_inj.1 b2
  have := Fl.fin_inj.1 b1
  linarith

/-- C136.  Means of the logistic regression are the probabilities of the second class. -/
theorem binary_prob (e : ℝ) : LinkKind.logit.fiR e = Lss.mnProb (EtaBeta.musOf (EtaBeta.mnFam 1) fun _ => e) 1 := by
  have h1 : 0 < 1 + Real.exp e := by positivity
  unfold Lss.mnProb Lss.mnLp Lss.norm
  rw [EtaBeta.mn_mus]
  simp only [Lss.muOf, Finset.univ_unique, Finset.sum_singleton, Fin.default_eq_zero, Fin.val_zero, zero_add, if_true, Real.log_exp]
  rw [Real.exp_add, Real.exp_neg, Real.exp_log (by positivity)]
  simp only [LinkKind.fiR]
  rw [add_comm 1]
  field_simp

end binary

/-! ### Constant scale -/

section scale
variable {N : ℕ} {w : ℕ → ℕ} {X : ℕ → Fin N → ℕ → ℝ} {stored : ℕ → ℕ → ℕ → List ℕ}
  {S : Matrix (Fin (∑ l ∈ Finset.range 2, w l)) (Fin (∑ l ∈ Finset.range 2, w l)) ℝ}
  {chol : Matrix (Fin (∑ l ∈ Finset.range 2, w l)) (Fin (∑ l ∈ Finset.range 2, w l)) ℝ →
      Option (Matrix (Fin (∑ l ∈ Finset.range 2, w l)) (Fin (∑ l ∈ Finset.range 2, w l)) ℝ ×
        Equiv.Perm (Fin (∑ l ∈ Finset.range 2, w l)))}
  {noise : ℕ → Fin (∑ l ∈ Finset.range 2, w l) → ℝ}

/-- A `GAMM` with a two-parameter family, and a `GAMMLSS` with the same first formula and an intercept (without penalty) as second formula; the
smoothing parameters of the `GAMM` are `phi` times those of the `GAMMLSS`. -/
structure Const (fk : FamKind) (x : Pirls.In N (w 0)) (X : ℕ → Fin N → ℕ → ℝ)
    (S : Matrix (Fin (∑ l ∈ Finset.range 2, w l)) (Fin (∑ l ∈ Finset.range 2, w l)) ℝ) (phi : ℝ) : Prop where
  fam : ∀ i, x.fam i = fk
  two : fk.twopar = true
  obs : ∀ i, x.y i ∈ fk.obs
  off : ∀ i, x.off i = 0
  mat : ∀ i (a : Fin (w 0)), x.X i a = X 0 i a
  pen : ∀ a a' : Fin (w 0), x.S a a' = phi * S (at' (K := 2) w ⟨0, a⟩) (at' w ⟨0, a'⟩)
  psd : x.S.PosSemidef
  one : w 1 = 1
  ones : ∀ i, X 1 i 0 = 1
  free : ∀ (a : Fin (w 1)) j, S (at' (K := 2) w ⟨1, a⟩) j = 0

variable {x : Pirls.In N (w 0)} {fk : FamKind} {phi : ℝ}

/-- The coefficient of the second formula. -/
def icpt (w : ℕ → ℕ) (h : w 1 = 1) (c : Fin (∑ l ∈ Finset.range 2, w l) → ℝ) : ℝ := c (at' (K := 2) w ⟨1, ⟨0, by show 0 < w 1; omega⟩⟩)

theorem Const.good (h : Const fk x X S phi) (hp : 0 < phi) : Pirls.Good x phi :=
  ⟨fun i => by rw [h.fam i]; exact h.obs i, hp, fun i => Or.inl (by rw [h.fam i]; exact h.two), h.psd⟩

theorem Const.eta (h : Const fk x X S phi) (c : Fin (∑ l ∈ Finset.range 2, w l) → ℝ) (o : Fin N) :
    EtaBeta.etaOf (K := 2) w X (blk w c) o = ![Pirls.eta x (first 1 w c) o, icpt w h.one c] := by
  funext k
  match k with
  | 0 =>
    show ∑ a : Fin (w 0), X 0 o a * first 1 w c a = (∑ a, x.X o a * first 1 w c a) + x.off o
    rw [h.off, add_zero]
    exact Finset.sum_congr rfl fun a _ => by rw [h.mat]
  | 1 =>
    show ∑ a : Fin (w 1), X 1 o a * c (at' (K := 2) w ⟨1, a⟩) = icpt w h.one c
    have hs : ∀ a : Fin (w 1), a = ⟨0, by have := h.one; omega⟩ := fun a => Fin.ext (by have := a.isLt; have := h.one; show (a : ℕ) = 0; omega)
    rw [Fintype.sum_eq_single (⟨0, by have := h.one; omega⟩ : Fin (w 1)) fun a ha => absurd (hs a) ha, h.ones, one_mul]
    rfl

theorem P1_of {K : ℕ} {fam : EtaBeta.LFam K} (hd : fam.dEta = false) {y : ℝ} {e : Fin K → ℝ} {k : Fin K} {g : ℝ}
    (h : fam.d1 k y (EtaBeta.musOf fam e) = .fin g) : Invar.P1 fam y e k = g / (fam.links k).d1R (EtaBeta.musOf fam e k) := by
  unfold Invar.P1
  simp only [EtaBeta.etaDerivs, hd, Bool.false_eq_true, if_false]
  rw [List.getD_eq_getElem?_getD, List.getElem?_eq_getElem (by simp)]
  simp only [List.getElem_map, List.getElem_finRange, Fin.cast_mk, Fin.eta, Option.getD_some]
  unfold EtaBeta.d1eta
  rw [h, d1_eq (EtaBeta.mu_dom fam e k), Fl.fin_div (d1_pos (EtaBeta.mu_dom fam e k)).ne', Fl.clean_fin]
  rfl

/-- Families whose score in the mean is that of the generalised model with dispersion `phi`. -/
theorem constant {fam : EtaBeta.LFam 2} (hd : fam.dEta = false) (h : Const fk x X S phi) (hp : 0 < phi) (hi : Pirls.Ident x) (hl : fam.links 0 = x.lk)
    (c : Fin (∑ l ∈ Finset.range 2, w l) → ℝ) (hf : Fits fam w X x.y stored S chol noise c) (ha : Pirls.Adm x (first 1 w c)) {v : Fin N → ℝ}
    (h0 : ∀ o, fam.d1 0 (x.y o) (EtaBeta.musOf fam ![Pirls.eta x (first 1 w c) o, icpt w h.one c]) =
      .fin ((x.y o - x.lk.fiR (Pirls.eta x (first 1 w c) o)) / (phi * fk.VR (x.lk.fiR (Pirls.eta x (first 1 w c) o)))))
    (h1 : ∀ o, fam.d1 1 (x.y o) (EtaBeta.musOf fam ![Pirls.eta x (first 1 w c) o, icpt w h.one c]) = .fin (v o)) :
    step (lssIn fam w X x.y stored S chol noise) c = c ↔ Pirls.next x (first 1 w c) = first 1 w c ∧ ∑ o, v o = 0 := by
  rw [next_iff (h.good hp) hi ha, lss_step_iff hf]
  have hr : 0 < (fam.links 1).d1R ((fam.links 1).fiR (icpt w h.one c)) := d1_pos (fi_mem _ _)
  have e0 : ∀ o (a : Fin (w 0)), Pirls.uR x (first 1 w c) o * x.X o a =
      phi * (Invar.P1 fam (x.y o) (EtaBeta.etaOf (K := 2) w X (blk w c) o) 0 * X 0 o a) := by
    intro o a
    have := P1_of (k := 0) hd (h0 o)
    rw [h.eta c o, show Invar.P1 fam (x.y o) _ 0 = _ from this, EtaBeta.musOf_eq, hl, h.mat]
    unfold Pirls.uR Pirls.uF
    rw [h.fam]
    have hV := V_pos (ok_of_obs (h.obs o)) (by have := ha.mem o; rwa [h.fam] at this)
    have hD : 0 < x.lk.d1R (x.lk.fiR (Pirls.eta x (first 1 w c) o)) := d1_pos (fi_mem _ _)
    have e : (![Pirls.eta x (first 1 w c) o, icpt w h.one c] : Fin 2 → ℝ) 0 = Pirls.eta x (first 1 w c) o := rfl
    rw [e]
    field_simp
  have e1 : ∀ o, Invar.P1 fam (x.y o) (EtaBeta.etaOf (K := 2) w X (blk w c) o) 1 =
      v o / (fam.links 1).d1R ((fam.links 1).fiR (icpt w h.one c)) := by
    intro o
    have := P1_of (k := 1) hd (h1 o)
    rw [h.eta c o, show Invar.P1 fam (x.y o) _ 1 = _ from this, EtaBeta.musOf_eq]
    rfl
  have hcol : ∀ (a : Fin (w 0)) (a' : Fin (w 1)), S (at' (K := 2) w ⟨0, a⟩) (at' (K := 2) w ⟨1, a'⟩) = 0 := by
    intro a a'
    rw [← hf.symm.apply]
    exact h.free a' _
  have e3 : ∀ a : Fin (w 0), (x.S *ᵥ first 1 w c) a =
      phi * ∑ q' : Σ k : Fin 2, Fin (w k), S (at' (K := 2) w ⟨0, a⟩) (at' w q') * blk w c q' := by
    intro a
    rw [Fintype.sum_sigma, Fin.sum_univ_two]
    have z : ∑ a' : Fin (w 1), S (at' (K := 2) w ⟨0, a⟩) (at' (K := 2) w ⟨1, a'⟩) * blk (K := 2) w c ⟨1, a'⟩ = 0 :=
      Finset.sum_eq_zero fun a' _ => by rw [hcol, zero_mul]
    show ∑ a', x.S a a' * first 1 w c a' = phi * (∑ a' : Fin (w 0), S (at' (K := 2) w ⟨0, a⟩) (at' (K := 2) w ⟨0, a'⟩) * first 1 w c a' +
      ∑ a' : Fin (w 1), S (at' (K := 2) w ⟨0, a⟩) (at' (K := 2) w ⟨1, a'⟩) * blk (K := 2) w c ⟨1, a'⟩)
    rw [z, add_zero, Finset.mul_sum]
    exact Finset.sum_congr rfl fun a' _ => by rw [h.pen]; ring
  have e4 : ∀ a : Fin (w 1), (∑ q' : Σ k : Fin 2, Fin (w k), S (at' (K := 2) w ⟨1, a⟩) (at' w q') * blk w c q') = 0 := fun a =>
    Finset.sum_eq_zero fun q' _ => by rw [h.free, zero_mul]
  have e5 : ∀ a : Fin (w 1), ∑ o, Invar.P1 fam (x.y o) (EtaBeta.etaOf (K := 2) w X (blk w c) o) 1 * X 1 o a =
      (∑ o, v o) / (fam.links 1).d1R ((fam.links 1).fiR (icpt w h.one c)) := by
    intro a
    have ea : (a : ℕ) = 0 := by have := a.isLt; have := h.one; omega
    rw [Finset.sum_div]
    exact Finset.sum_congr rfl fun o _ => by rw [e1, ea, h.ones, mul_one]
  constructor
  · intro hq
    refine ⟨fun a => ?_, ?_⟩
    · have := hq ⟨0, a⟩
      simp only [e0, e3, ← Finset.mul_sum]
      exact congrArg (phi * ·) this
    · have := hq ⟨1, ⟨0, by show 0 < w 1; have := h.one; omega⟩⟩
      have e6 := (e5 ⟨0, by have := h.one; omega⟩).symm.trans (this.trans (e4 _))
      exact (div_eq_zero_iff.1 e6).resolve_right hr.ne'
  · rintro ⟨ha0, ha1⟩ ⟨k, a⟩
    match k, a with
    | 0, a =>
      have := ha0 a
      simp only [e0, e3, ← Finset.mul_sum] at this
      exact mul_left_cancel₀ hp.ne' this
    | 1, a =>
      refine (e5 a).trans ?_
      rw [ha1, zero_div]
      exact (e4 a).symm

/-- C136.  Gaussian models with constant standard deviation: coefficients reproduced by the Newton step of `GAUMLSS` are those reproduced by the
`GAMM`, whose smoothing parameters are multiplied with the variance, and the variance is the mean squared residual. -/
theorem gaussian_constant {l : LinkKind} (hone : w 1 = 1) (c : Fin (∑ l ∈ Finset.range 2, w l) → ℝ) (hs : 0 < l.fiR (icpt w hone c))
    (h : Const .gaussian x X S (l.fiR (icpt w hone c) ^ 2)) (hi : Pirls.Ident x)
    (hf : Fits (EtaBeta.gauFam ![x.lk, l]) w X x.y stored S chol noise c) :
    step (lssIn (EtaBeta.gauFam ![x.lk, l]) w X x.y stored S chol noise) c = c ↔
      Pirls.next x (first 1 w c) = first 1 w c ∧ N * l.fiR (icpt w hone c) ^ 2 = ∑ o, (x.y o - x.lk.fiR (Pirls.eta x (first 1 w c) o)) ^ 2 := by
  have ha : Pirls.Adm x (first 1 w c) := Pirls.adm_of fun i => by rw [h.fam i]; trivial
  rw [constant (v := fun o => Lss.gauD1sigma (x.y o) (x.lk.fiR (Pirls.eta x (first 1 w c) o)) (l.fiR (icpt w hone c))) rfl h (by positivity) hi rfl c hf ha]
  · refine and_congr_right fun _ => ?_
    have e : ∑ o, Lss.gauD1sigma (x.y o) (x.lk.fiR (Pirls.eta x (first 1 w c) o)) (l.fiR (icpt w hone c)) =
        ((∑ o, (x.y o - x.lk.fiR (Pirls.eta x (first 1 w c) o)) ^ 2) - N * l.fiR (icpt w hone c) ^ 2) / l.fiR (icpt w hone c) ^ 3 := by
      unfold Lss.gauD1sigma
      rw [← Finset.sum_div, Finset.sum_sub_distrib]
      simp
    rw [e, div_eq_zero_iff, or_iff_left (by positivity), sub_eq_zero, eq_comm]
  · intro o
    show Fl.fin (if (0 : Fin 2) = 0 then Lss.gauD1mu _ _ _ else _) = _
    rw [if_pos rfl, EtaBeta.musOf_eq, EtaBeta.musOf_eq]
    unfold Lss.gauD1mu
    simp only [EtaBeta.gauFam, FamKind.VR, mul_one]
    show Fl.fin (1 / l.fiR (icpt w hone c) ^ 2 * (x.y o - x.lk.fiR (Pirls.eta x (first 1 w c) o))) = _
    congr 1
    ring
  · intro o
    show Fl.fin (if (1 : Fin 2) = 0 then _ else Lss.gauD1sigma _ _ _) = _
    rw [if_neg one_ne_zero, EtaBeta.musOf_eq, EtaBeta.musOf_eq]
    rfl

/-- C136.  Gamma models with constant scale: the same, and the scale is stationary for the log-likelihood with these means. -/
theorem gamma_constant {l : LinkKind} (hone : w 1 = 1) (c : Fin (∑ l ∈ Finset.range 2, w l) → ℝ) (hs : 0 < l.fiR (icpt w hone c))
    (h : Const .gamma x X S (l.fiR (icpt w hone c))) (hi : Pirls.Ident x) (ha : Pirls.Adm x (first 1 w c))
    (hf : Fits (EtaBeta.gamFam ![x.lk, l]) w X x.y stored S chol noise c) :
    step (lssIn (EtaBeta.gamFam ![x.lk, l]) w X x.y stored S chol noise) c = c ↔
      Pirls.next x (first 1 w c) = first 1 w c ∧
        HasDerivAt (fun t => ∑ o, Lss.gamLp (x.y o) (x.lk.fiR (Pirls.eta x (first 1 w c) o)) t) 0 (l.fiR (icpt w hone c)) := by
  have hm : ∀ o, 0 < x.lk.fiR (Pirls.eta x (first 1 w c) o) := fun o => by have := ha.mem o; rwa [h.fam] at this
  have hd : HasDerivAt (fun t => ∑ o, Lss.gamLp (x.y o) (x.lk.fiR (Pirls.eta x (first 1 w c) o)) t)
      (∑ o, Lss.gamD1scale (x.y o) (x.lk.fiR (Pirls.eta x (first 1 w c) o)) (l.fiR (icpt w hone c))) (l.fiR (icpt w hone c)) :=
    HasDerivAt.fun_sum fun o _ => (Lss.gam_first hs (hm o) (h.obs o)).2.2
  rw [constant (v := fun o => Lss.gamD1scale (x.y o) (x.lk.fiR (Pirls.eta x (first 1 w c) o)) (l.fiR (icpt w hone c))) rfl h hs hi rfl c hf ha]
  · refine and_congr_right fun _ => ⟨fun e => by rwa [e] at hd, fun e => hd.unique e⟩
  · intro o
    show Fl.fin (if (0 : Fin 2) = 0 then Lss.gamD1mu _ _ _ else _) = _
    rw [if_pos rfl, EtaBeta.musOf_eq, EtaBeta.musOf_eq]
    rfl
  · intro o
    show Fl.fin (if (1 : Fin 2) = 0 then _ else Lss.gamD1scale _ _ _) = _
    rw [if_neg one_ne_zero, EtaBeta.musOf_eq, EtaBeta.musOf_eq]
    rfl

end scale

/-! ### One response in `MultiGauss` -/

section mgauss
variable {N : ℕ} {k : Fin 1 → ℕ}

theorem getR_one (θ : ℕ → ℝ) : MGauss.getR 1 θ 0 0 = Real.exp (θ 0) := by
  rw [MGauss.getR_diag]
  rfl

/-- C136, part: a `MultiGauss` model with one response and `GAUMLSS` with standard deviation `exp(-θ)`: log-likelihoods differ by a constant. Missing:
equality (`multigauss_wrong`). -/
theorem multigauss_partial (y : Fin N → ℝ) (mu : Fin N → ℝ) (θ : ℕ → ℝ) :
    MGauss.llk (of fun o (_ : Fin 1) => y o - mu o) θ = (∑ o, Lss.gauLp (y o) (mu o) (Real.exp (-θ 0))) + N * Real.log (Real.sqrt (2 * Real.pi)) := by
  unfold MGauss.llk
  have e1 : ∀ o, (of (fun o (_ : Fin 1) => y o - mu o) * (MGauss.getR 1 θ)ᵀ) o 0 = (y o - mu o) * Real.exp (θ 0) := by
    intro o
    rw [Matrix.mul_apply, Fin.sum_univ_one, Matrix.transpose_apply, getR_one]
    rfl
  have e2 : MGauss.logdet 1 θ = θ 0 := by
    unfold MGauss.logdet
    rw [Fin.sum_univ_one]
    rfl
  have e3 : ∀ o, Lss.gauLp (y o) (mu o) (Real.exp (-θ 0)) = -Real.log (Real.sqrt (2 * Real.pi)) + θ 0 - (y o - mu o) ^ 2 * Real.exp (θ 0) ^ 2 / 2 := by
    intro o
    rw [Lss.gauLp_eq (Real.exp_pos _), Real.log_exp, Real.exp_neg]
    field_simp
    ring
  simp only [Fin.sum_univ_one, e1, e2, e3, Finset.sum_sub_distrib, Finset.sum_add_distrib, Finset.sum_const, Finset.card_univ, Fintype.card_fin,
    nsmul_eq_mul]
  rw [← Finset.sum_div]
  have e4 : ∑ o, (y o - mu o) * Real.exp (θ 0) * ((y o - mu o) * Real.exp (θ 0)) = ∑ o, (y o - mu o) ^ 2 * Real.exp (θ 0) ^ 2 :=
    Finset.sum_congr rfl fun o _ => by ring
  rw [e4]
  ring

/-- C136 fails for `MultiGauss`: its log-likelihood lacks the constant of the normal density, it is larger than that of the same `GAUMLSS` whenever
there are data. -/
theorem multigauss_wrong (hN : 0 < N) (y : Fin N → ℝ) (mu : Fin N → ℝ) (θ : ℕ → ℝ) :
    ∑ o, Lss.gauLp (y o) (mu o) (Real.exp (-θ 0)) < MGauss.llk (of fun o (_ : Fin 1) => y o - mu o) θ := by
  rw [multigauss_partial]
  have h1 : 1 < Real.sqrt (2 * Real.pi) := by
    rw [Real.lt_sqrt (by norm_num)]
    have := Real.two_le_pi
    linarith
  have h2 := Real.log_pos h1
  have : (0 : ℝ) < N := Nat.cast_pos.2 hN
  have := mul_pos this h2
  linarith

end mgauss

end Verif.Ifc
