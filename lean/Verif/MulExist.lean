import Verif.HazExist
import Verif.Classes

/-!
# C150: existence of estimates of multinomial models

Model: `EtaBetaModel` (`EtaBeta.llk`, `gradient`, `hessian`) for the family `MULNOMLSS` (`EtaBeta.mnFam`), Newton steps `Lml.step` on `Lml.lssIn`.
-/

namespace Verif.MEx
open Verif Matrix Finset Filter Topology Cls Lml

variable {K n : ℕ} {w : ℕ → ℕ} {X : ℕ → Fin n → ℕ → ℝ} {y : Fin n → Fin (K + 1)} {stored : ℕ → ℕ → ℕ → List ℕ}
  {S : Matrix (Fin (∑ l ∈ Finset.range K, w l)) (Fin (∑ l ∈ Finset.range K, w l)) ℝ}
  {chol : Matrix (Fin (∑ l ∈ Finset.range K, w l)) (Fin (∑ l ∈ Finset.range K, w l)) ℝ →
      Option (Matrix (Fin (∑ l ∈ Finset.range K, w l)) (Fin (∑ l ∈ Finset.range K, w l)) ℝ ×
        Equiv.Perm (Fin (∑ l ∈ Finset.range K, w l)))}
  {noise : ℕ → Fin (∑ l ∈ Finset.range K, w l) → ℝ}

/-- Change of the predictors of all classes (zero for the reference class) at observation `o` in direction `v`. -/
def chg (K : ℕ) (w : ℕ → ℕ) (X : ℕ → Fin n → ℕ → ℝ) (v : Fin (∑ l ∈ Finset.range K, w l) → ℝ) (o : Fin n) : Fin (K + 1) → ℝ :=
  all (EtaBeta.etaOf (K := K) w X (blk w v) o)

/-- Direction, not penalised, in which no class gains on the observed one, at any observation. -/
def Separated (w : ℕ → ℕ) (X : ℕ → Fin n → ℕ → ℝ) (y : Fin n → Fin (K + 1))
    (S : Matrix (Fin (∑ l ∈ Finset.range K, w l)) (Fin (∑ l ∈ Finset.range K, w l)) ℝ) (v : Fin (∑ l ∈ Finset.range K, w l) → ℝ) : Prop :=
  v ≠ 0 ∧ S *ᵥ v = 0 ∧ ∀ o k, chg K w X v o k ≤ chg K w X v o (y o)

/-- The coefficients are identified: without penalty, every direction changes some predictor. -/
def Ident (w : ℕ → ℕ) (X : ℕ → Fin n → ℕ → ℝ) (S : Matrix (Fin (∑ l ∈ Finset.range K, w l)) (Fin (∑ l ∈ Finset.range K, w l)) ℝ) : Prop :=
  ∀ v : Fin (∑ l ∈ Finset.range K, w l) → ℝ, S *ᵥ v = 0 → (∀ o (k : Fin K), ∑ a : Fin (w k), X k o a * blk w v ⟨k, a⟩ = 0) → v = 0

/-- Penalised log-likelihood. -/
noncomputable def F (w : ℕ → ℕ) (X : ℕ → Fin n → ℕ → ℝ) (y : Fin n → Fin (K + 1))
    (S : Matrix (Fin (∑ l ∈ Finset.range K, w l)) (Fin (∑ l ∈ Finset.range K, w l)) ℝ) (c : Fin (∑ l ∈ Finset.range K, w l) → ℝ) : ℝ :=
  EtaBeta.llk (EtaBeta.mnFam K) w X (num y) (blk w c) - 1 / 2 * ∑ i, ∑ j, c i * S i j * c j

/-! ### Predictors -/

theorem eta_lin (c v : Fin (∑ l ∈ Finset.range K, w l) → ℝ) (t : ℝ) (o : Fin n) (k : Fin K) :
    EtaBeta.etaOf (K := K) w X (blk w (c + t • v)) o k = EtaBeta.etaOf (K := K) w X (blk w c) o k + t * EtaBeta.etaOf (K := K) w X (blk w v) o k := by
  unfold EtaBeta.etaOf
  rw [mul_sum, ← sum_add_distrib]
  refine sum_congr rfl fun a _ => ?_
  show _ * (c _ + t * v _) = _ * c _ + t * (_ * v _)
  ring

theorem chg_lin (c v : Fin (∑ l ∈ Finset.range K, w l) → ℝ) (t : ℝ) (o : Fin n) (k : Fin (K + 1)) :
    chg K w X (c + t • v) o k = chg K w X c o k + t * chg K w X v o k := by
  refine Fin.cases ?_ (fun k => eta_lin c v t o k) k
  show (0 : ℝ) = 0 + t * 0
  ring

theorem chg_zero (o : Fin n) (k : Fin (K + 1)) : chg K w X 0 o k = 0 := by
  refine Fin.cases rfl (fun k => ?_) k
  show ∑ a : Fin (w k), X k o a * 0 = 0
  simp

theorem chg_smul (v : Fin (∑ l ∈ Finset.range K, w l) → ℝ) (t : ℝ) (o : Fin n) (k : Fin (K + 1)) : chg K w X (t • v) o k = t * chg K w X v o k := by
  have := chg_lin (X := X) 0 v t o k
  rwa [zero_add, chg_zero, zero_add] at this

theorem chg_cont (o : Fin n) (k : Fin (K + 1)) : Continuous fun v => chg K w X v o k := by
  refine Fin.cases continuous_const (fun k => ?_) k
  show Continuous fun v => ∑ a : Fin (w k), X k o a * blk w v ⟨k, a⟩
  unfold blk
  fun_prop

/-- Log-likelihood in terms of differences to the observed class. -/
theorem llk_eq (c : Fin (∑ l ∈ Finset.range K, w l) → ℝ) : EtaBeta.llk (EtaBeta.mnFam K) w X (num y) (blk w c) =
    -∑ o, Real.log (∑ k, Real.exp (chg K w X c o k - chg K w X c o (y o))) := by
  rw [← sum_neg_distrib]
  refine sum_congr rfl fun o _ => ?_
  refine (lp_eq (EtaBeta.etaOf w X (blk w c) o) (y o)).trans ?_
  simp only [Real.exp_sub]
  rw [← sum_div, Real.log_div (sum_pos (fun _ _ => Real.exp_pos _) ⟨0, mem_univ _⟩).ne' (Real.exp_pos _).ne', Real.log_exp, neg_sub]
  rfl

theorem F_cont : Continuous (F w X y S) := by
  unfold F
  simp only [llk_eq]
  refine ((continuous_finsetSum _ fun o _ => ?_).neg).sub (by fun_prop)
  refine Continuous.log (continuous_finsetSum _ fun k _ => ((chg_cont o k).sub (chg_cont o (y o))).rexp) fun c =>
    (sum_pos (fun _ _ => Real.exp_pos _) ⟨0, mem_univ _⟩).ne'

/-! ### Tangents -/

theorem tangent (e e' : Fin K → ℝ) : Real.log (tot e) + ∑ k, Real.exp (all e k) / tot e * (all e' k - all e k) ≤ Real.log (tot e') ∧
    (e' ≠ e → Real.log (tot e) + ∑ k, Real.exp (all e k) / tot e * (all e' k - all e k) < Real.log (tot e')) := by
  set a := ∑ k, Real.exp (all e k) / tot e * (all e' k - all e k) with ha
  have h0 := tot_pos e
  have hp : ∀ k, 0 < Real.exp (all e k) / tot e := fun k => div_pos (Real.exp_pos _) h0
  have h1 : ∑ k, Real.exp (all e k) / tot e = 1 := by
    rw [← sum_div]
    exact div_self h0.ne'
  have e1 : tot e' = tot e * Real.exp a * ∑ k, Real.exp (all e k) / tot e * Real.exp (all e' k - all e k - a) := by
    rw [mul_sum]
    refine sum_congr rfl fun k _ => ?_
    rw [Real.exp_sub, Real.exp_sub]
    have := Real.exp_pos a
    have := Real.exp_pos (all e k)
    field_simp
  have e2 : ∑ k, Real.exp (all e k) / tot e * (all e' k - all e k - a + 1) = 1 := by
    have : ∀ k, Real.exp (all e k) / tot e * (all e' k - all e k - a + 1) =
      Real.exp (all e k) / tot e * (all e' k - all e k) + Real.exp (all e k) / tot e * (1 - a) := fun k => by ring
    simp only [this]
    rw [sum_add_distrib, ← sum_mul, h1, ← ha]
    ring
  have hle : ∀ k ∈ univ, Real.exp (all e k) / tot e * (all e' k - all e k - a + 1) ≤
      Real.exp (all e k) / tot e * Real.exp (all e' k - all e k - a) := fun k _ => mul_le_mul_of_nonneg_left (Real.add_one_le_exp _) (hp k).le
  have hpos : 0 < tot e * Real.exp a := mul_pos h0 (Real.exp_pos _)
  have e3 : Real.log (tot e) + a = Real.log (tot e * Real.exp a) := by rw [Real.log_mul h0.ne' (Real.exp_pos _).ne', Real.log_exp]
  rw [e3]
  constructor
  · refine Real.log_le_log hpos ?_
    rw [e1]
    have := sum_le_sum hle
    rw [e2] at this
    exact le_mul_of_one_le_right hpos.le this
  · intro hne
    refine Real.log_lt_log hpos ?_
    rw [e1]
    have : ∃ k, all e' k - all e k - a ≠ 0 := by
      by_contra hcon
      push Not at hcon
      have ha0 : a = 0 := by
        have := hcon 0
        simp only [all, Fin.cons_zero] at this
        linarith
      refine hne (funext fun k => ?_)
      have := hcon k.succ
      simp only [all, Fin.cons_succ, ha0] at this
      linarith
    obtain ⟨k, hk⟩ := this
    have := sum_lt_sum hle ⟨k, mem_univ k, mul_lt_mul_of_pos_left (Real.add_one_lt_exp hk) (hp k)⟩
    rw [e2] at this
    exact lt_mul_of_one_lt_right hpos this

/-- Derivative of the log density of one observation in direction `d`. -/
theorem obs_tangent (e e' : Fin K → ℝ) (c : Fin (K + 1)) :
    all e' c - Real.log (tot e') ≤ all e c - Real.log (tot e) +
      ∑ k : Fin K, (-(Real.exp (e k) / (1 + ∑ k, Real.exp (e k))) + if ((c : ℕ) : ℝ) = ((k.val + 1 : ℕ) : ℝ) then 1 else 0) * (e' k - e k) ∧
    (e' ≠ e → all e' c - Real.log (tot e') < all e c - Real.log (tot e) +
      ∑ k : Fin K, (-(Real.exp (e k) / (1 + ∑ k, Real.exp (e k))) + if ((c : ℕ) : ℝ) = ((k.val + 1 : ℕ) : ℝ) then 1 else 0) * (e' k - e k)) := by
  have h := tangent e e'
  have e1 : ∑ k : Fin K, (-(Real.exp (e k) / (1 + ∑ k, Real.exp (e k))) + if ((c : ℕ) : ℝ) = ((k.val + 1 : ℕ) : ℝ) then 1 else 0) * (e' k - e k) =
      (all e' c - all e c) - ∑ k, Real.exp (all e k) / tot e * (all e' k - all e k) := by
    rw [Fin.sum_univ_succ, ← pick e' c, ← pick e c, tot_eq, ← sum_sub_distrib]
    have : all e' 0 - all e 0 = 0 := sub_self _
    rw [this, mul_zero, zero_add, ← sum_sub_distrib]
    refine sum_congr rfl fun k _ => ?_
    simp only [Nat.cast_inj]
    show _ = _ - Real.exp (e k) / _ * (e' k - e k)
    split_ifs <;> ring
  rw [e1]
  exact ⟨by linarith [h.1], fun hne => by linarith [h.2 hne]⟩

theorem grad_dot (c d : Fin (∑ l ∈ Finset.range K, w l) → ℝ) :
    (lssIn (EtaBeta.mnFam K) w X (num y) stored S chol noise).grad c ⬝ᵥ (d - c) =
      ∑ o, ∑ k : Fin K, (-(Real.exp (EtaBeta.etaOf w X (blk w c) o k) / (1 + ∑ k, Real.exp (EtaBeta.etaOf (K := K) w X (blk w c) o k))) +
        if ((y o : ℕ) : ℝ) = ((k.val + 1 : ℕ) : ℝ) then 1 else 0) * (EtaBeta.etaOf w X (blk w d) o k - EtaBeta.etaOf w X (blk w c) o k) := by
  have e1 : (lssIn (EtaBeta.mnFam K) w X (num y) stored S chol noise).grad c ⬝ᵥ (d - c) =
      ∑ q : Σ k : Fin K, Fin (w k), (EtaBeta.gradient (EtaBeta.mnFam K) w X (num y) (blk w c)).getD (EtaBeta.pos w q) 0 * (blk w d q - blk w c q) :=
    (Fintype.sum_equiv (Equiv.ofBijective _ (at_bij (w := w) (K := K))) _ _ fun q => rfl).symm
  rw [e1]
  simp only [mn_grad_eq]
  have e2 : ∀ o (k : Fin K), (⌊num y o⌋₊ = k.val + 1) = (((y o : ℕ) : ℝ) = ((k.val + 1 : ℕ) : ℝ)) := fun o k => by
    rw [show num y o = ((y o : ℕ) : ℝ) from rfl, Nat.floor_natCast, Nat.cast_inj]
  simp only [e2]
  rw [Fintype.sum_sigma, sum_comm]
  refine sum_congr rfl fun k _ => ?_
  simp only [EtaBeta.etaOf, ← sum_sub_distrib, mul_sum, sum_mul]
  rw [sum_comm]
  exact sum_congr rfl fun o _ => sum_congr rfl fun a _ => by ring

/-! ### Newton steps -/

theorem pllk_F (c : Fin (∑ l ∈ Finset.range K, w l) → ℝ) :
    pllk (lssIn (EtaBeta.mnFam K) w X (num y) stored S chol noise) c = Fl.fin (F w X y S c) := (Fl.fin_sub _ _)

theorem reg (hst : Holds (EtaBeta.mnFam K) w X (num y) stored) (hch : Newton.CholSpec chol) (hS : S.PosSemidef) (hi : Ident w X S)
    (c : Fin (∑ l ∈ Finset.range K, w l) → ℝ) : Reg (lssIn (EtaBeta.mnFam K) w X (num y) stored S chol noise) c where
  chol := hch
  hsym := by
    ext i j
    obtain ⟨q, rfl⟩ := at_bij.2 i
    obtain ⟨q', rfl⟩ := at_bij.2 j
    exact (EtaBeta.hessian_correct (EtaBeta.mnFam K) w X (num y) stored (blk w c) (fun o => EtaBeta.mn_exact _ _) (hst (blk w c))).2.1 q' q
  ssym := HEx.psd_symm hS
  diag := fun i => by
    obtain ⟨q, rfl⟩ := at_bij.2 i
    have H := Invar.hess_at hst (blk w c) q q
    rw [show (lssIn (EtaBeta.mnFam K) w X (num y) stored S chol noise).hess c (at' _ q) (at' _ q) = _ from H]
    simp only [P2_eq]
    set g : Fin n → ℝ := fun o => Real.exp (EtaBeta.etaOf w X (blk w c) o q.1) / tot (EtaBeta.etaOf (K := K) w X (blk w c) o) with hg
    have h1 : ∀ o, 0 < g o := fun o => div_pos (Real.exp_pos _) (tot_pos _)
    have h2 : ∀ o, 0 < 1 - g o := fun o => by
      rw [sub_pos, hg, div_lt_one (tot_pos _), tot_eq]
      have := single_le_sum (f := fun k => Real.exp (EtaBeta.etaOf (K := K) w X (blk w c) o k)) (fun _ _ => (Real.exp_pos _).le) (mem_univ q.1)
      linarith
    have h3 : ∀ o, -g o * (1 - g o) * X q.1 o q.2 * X q.1 o q.2 = -(g o * (1 - g o) * X q.1 o q.2 ^ 2) := fun o => by ring
    show -∑ o, -g o * (1 - g o) * X q.1 o q.2 * X q.1 o q.2 + S _ _ ≠ 0
    simp only [h3, sum_neg_distrib, neg_neg]
    have h4 : ∀ o ∈ univ, 0 ≤ g o * (1 - g o) * X q.1 o q.2 ^ 2 := fun o _ => mul_nonneg (mul_pos (h1 o) (h2 o)).le (sq_nonneg _)
    have h5 := sum_nonneg h4
    have hq : (Pi.single (at' w q) 1 : Fin (∑ l ∈ Finset.range K, w l) → ℝ) ⬝ᵥ S *ᵥ Pi.single (at' w q) 1 = S (at' w q) (at' w q) := by simp
    have h6 : 0 ≤ S (at' w q) (at' w q) := by
      rw [← hq]
      exact hS.dotProduct_mulVec_nonneg _
    intro h0
    have h7 : S (at' w q) (at' w q) = 0 := le_antisymm (by linarith) h6
    have h8 := (sum_eq_zero_iff_of_nonneg h4).1 (by linarith)
    have h9 : ∀ o, X q.1 o q.2 = 0 := fun o => by
      have := (mul_eq_zero.1 (h8 o (mem_univ o))).resolve_left (mul_pos (h1 o) (h2 o)).ne'
      exact pow_eq_zero_iff (two_ne_zero) |>.1 this
    have := hi (Pi.single (at' w q) 1) ((hS.dotProduct_mulVec_zero_iff _).1 (by rw [star_trivial, hq, h7])) fun o k => by
      refine sum_eq_zero fun a _ => ?_
      show X k o a * (Pi.single (at' w q) 1 : Fin (∑ l ∈ Finset.range K, w l) → ℝ) (at' w ⟨k, a⟩) = 0
      by_cases h : (⟨k, a⟩ : Σ k : Fin K, Fin (w k)) = q
      · rw [← h] at h9
        rw [h9 o, zero_mul]
      · rw [Pi.single_eq_of_ne (fun hh => h (at_bij.1 hh)), mul_zero]
    have := congrFun this (at' w q)
    simp at this

theorem grad_is (c : Fin (∑ l ∈ Finset.range K, w l) → ℝ) :
    HasFlGrad (lssIn (EtaBeta.mnFam K) w X (num y) stored S chol noise).llk ((lssIn (EtaBeta.mnFam K) w X (num y) stored S chol noise).grad c) c :=
  lss_grad fun _ => (EtaBeta.mn_exact _ _).grad

/-- C150.  At an estimate the penalised log-likelihood is larger than anywhere else. -/
theorem estimate_is_max (hst : Holds (EtaBeta.mnFam K) w X (num y) stored) (hch : Newton.CholSpec chol) (hS : S.PosSemidef) (hi : Ident w X S)
    {c : Fin (∑ l ∈ Finset.range K, w l) → ℝ} (hf : step (lssIn (EtaBeta.mnFam K) w X (num y) stored S chol noise) c = c)
    {d : Fin (∑ l ∈ Finset.range K, w l) → ℝ} (hd : d ≠ c) :
    EtaBeta.llk (EtaBeta.mnFam K) w X (num y) (blk w d) - 1 / 2 * ∑ i, ∑ j, d i * S i j * d j <
      EtaBeta.llk (EtaBeta.mnFam K) w X (num y) (blk w c) - 1 / 2 * ∑ i, ∑ j, c i * S i j * c j := by
  have hg : (lssIn (EtaBeta.mnFam K) w X (num y) stored S chol noise).grad c = S *ᵥ c := by
    obtain ⟨-, -, h2⟩ := step_solves (reg (noise := noise) hst hch hS hi c)
    rw [hf, sub_self, mulVec_zero] at h2
    exact sub_eq_zero.1 h2.symm
  have hdot := grad_dot (stored := stored) (S := S) (chol := chol) (noise := noise) (X := X) (y := y) c d
  rw [hg] at hdot
  have hl : ∀ b, EtaBeta.llk (EtaBeta.mnFam K) w X (num y) (blk w b) =
      ∑ o, (all (EtaBeta.etaOf (K := K) w X (blk w b) o) (y o) - Real.log (tot (EtaBeta.etaOf (K := K) w X (blk w b) o))) := fun b =>
    sum_congr rfl fun o _ => lp_eq (EtaBeta.etaOf w X (blk w b) o) (y o)
  have hle := sum_le_sum fun o (_ : o ∈ univ) => (obs_tangent (EtaBeta.etaOf (K := K) w X (blk w c) o) (EtaBeta.etaOf (K := K) w X (blk w d) o) (y o)).1
  rw [sum_add_distrib, ← hdot, ← hl, ← hl] at hle
  have hq : d ⬝ᵥ S *ᵥ d = c ⬝ᵥ S *ᵥ c + 2 * (S *ᵥ c ⬝ᵥ (d - c)) + (d - c) ⬝ᵥ S *ᵥ (d - c) := by
    have e1 : d ⬝ᵥ S *ᵥ c = c ⬝ᵥ S *ᵥ d := HEx.dot_comm hS d c
    rw [mulVec_sub, dotProduct_sub, dotProduct_sub, sub_dotProduct, sub_dotProduct, dotProduct_comm (S *ᵥ c) d, dotProduct_comm (S *ᵥ c) c, e1]
    ring
  have hq0 : 0 ≤ (d - c) ⬝ᵥ S *ᵥ (d - c) := hS.dotProduct_mulVec_nonneg (d - c)
  rw [quad_eq, quad_eq, hq]
  by_cases hz : (d - c) ⬝ᵥ S *ᵥ (d - c) = 0
  · have hz' := (hS.dotProduct_mulVec_zero_iff (d - c)).1 hz
    have : ∃ o, EtaBeta.etaOf (K := K) w X (blk w d) o ≠ EtaBeta.etaOf (K := K) w X (blk w c) o := by
      by_contra hcon
      push Not at hcon
      refine sub_ne_zero.2 hd (hi _ hz' fun o k => ?_)
      have h1 := congrFun (hcon o) k
      have h2 := eta_lin (X := X) d c (-1) o k
      rw [neg_smul, one_smul, ← sub_eq_add_neg, h1] at h2
      refine h2.trans ?_
      ring
    obtain ⟨o, ho⟩ := this
    have hlt := sum_lt_sum (fun o (_ : o ∈ univ) => (obs_tangent (EtaBeta.etaOf (K := K) w X (blk w c) o) (EtaBeta.etaOf (K := K) w X (blk w d) o) (y o)).1)
      ⟨o, mem_univ o, (obs_tangent (EtaBeta.etaOf (K := K) w X (blk w c) o) (EtaBeta.etaOf (K := K) w X (blk w d) o) (y o)).2 ho⟩
    rw [sum_add_distrib, ← hdot, ← hl, ← hl] at hlt
    linarith
  · have : 0 < (d - c) ⬝ᵥ S *ᵥ (d - c) := hq0.lt_of_ne (Ne.symm hz)
    linarith

/-! ### Separated data -/

/-- C150.  Along a separating direction the penalised log-likelihood increases strictly, however far one goes. -/
theorem separated_increases (hS : S.PosSemidef) (hi : Ident w X S) {v : Fin (∑ l ∈ Finset.range K, w l) → ℝ} (hv : Separated w X y S v)
    (c : Fin (∑ l ∈ Finset.range K, w l) → ℝ) : StrictMono fun t : ℝ => EtaBeta.llk (EtaBeta.mnFam K) w X (num y) (blk w (c + t • v)) -
      1 / 2 * ∑ i, ∑ j, (c + t • v) i * S i j * (c + t • v) j := by
  have hq : ∀ t : ℝ, ∑ i, ∑ j, (c + t • v) i * S i j * (c + t • v) j = c ⬝ᵥ S *ᵥ c := fun t => by
    rw [quad_eq, mulVec_add, mulVec_smul, hv.2.1, smul_zero, add_zero, add_dotProduct, smul_dotProduct, HEx.dot_comm hS v c, hv.2.1,
      dotProduct_zero, smul_zero, add_zero]
  intro s t hst
  simp only [hq]
  rw [llk_eq, llk_eq]
  refine sub_lt_sub_right (neg_lt_neg ?_) _
  have hex : ∃ o k, chg K w X v o k < chg K w X v o (y o) := by
    by_contra hcon
    push Not at hcon
    refine hv.1 (hi v hv.2.1 fun o k => ?_)
    have h1 := le_antisymm (hv.2.2 o k.succ) (hcon o k.succ)
    have h2 := le_antisymm (hv.2.2 o 0) (hcon o 0)
    exact (h1.trans h2.symm)
  have hk : ∀ o k, chg K w X (c + t • v) o k - chg K w X (c + t • v) o (y o) ≤ chg K w X (c + s • v) o k - chg K w X (c + s • v) o (y o) :=
    fun o k => by
      simp only [chg_lin]
      nlinarith [mul_nonneg (sub_nonneg.2 hst.le) (sub_nonneg.2 (hv.2.2 o k))]
  have hle : ∀ o ∈ univ, Real.log (∑ k, Real.exp (chg K w X (c + t • v) o k - chg K w X (c + t • v) o (y o))) ≤
      Real.log (∑ k, Real.exp (chg K w X (c + s • v) o k - chg K w X (c + s • v) o (y o))) := fun o _ =>
    Real.log_le_log (sum_pos (fun _ _ => Real.exp_pos _) ⟨0, mem_univ _⟩) (sum_le_sum fun k _ => Real.exp_le_exp.2 (hk o k))
  obtain ⟨o, k, ho⟩ := hex
  refine sum_lt_sum hle ⟨o, mem_univ o, Real.log_lt_log (sum_pos (fun _ _ => Real.exp_pos _) ⟨0, mem_univ _⟩)
    (sum_lt_sum (fun k _ => Real.exp_le_exp.2 (hk o k)) ⟨k, mem_univ k, Real.exp_lt_exp.2 ?_⟩)⟩
  simp only [chg_lin]
  nlinarith [mul_pos (sub_pos.2 hst) (sub_pos.2 ho)]

/-- C150.  For separated data Newton steps never come to rest. -/
theorem separated_no_estimate (hst : Holds (EtaBeta.mnFam K) w X (num y) stored) (hch : Newton.CholSpec chol) (hS : S.PosSemidef)
    (hi : Ident w X S) {v : Fin (∑ l ∈ Finset.range K, w l) → ℝ} (hv : Separated w X y S v) (c : Fin (∑ l ∈ Finset.range K, w l) → ℝ) :
    step (lssIn (EtaBeta.mnFam K) w X (num y) stored S chol noise) c ≠ c := by
  intro hf
  have h1 := separated_increases hS hi hv c zero_lt_one
  simp only [zero_smul, add_zero, one_smul] at h1
  refine absurd h1 (not_lt.2 (estimate_is_max hst hch hS hi hf (d := c + v) ?_).le)
  intro h
  exact hv.1 (by simpa using h)

/-! ### Existence -/

/-- What moving to `c` costs at least. -/
noncomputable def cost (w : ℕ → ℕ) (X : ℕ → Fin n → ℕ → ℝ) (y : Fin n → Fin (K + 1))
    (S : Matrix (Fin (∑ l ∈ Finset.range K, w l)) (Fin (∑ l ∈ Finset.range K, w l)) ℝ) (c : Fin (∑ l ∈ Finset.range K, w l) → ℝ) : ℝ :=
  (∑ o, (∑ k, max (chg K w X c o k - chg K w X c o (y o)) 0) / (K + 1)) + 1 / 2 * (c ⬝ᵥ S *ᵥ c)

theorem cost_term (c : Fin (∑ l ∈ Finset.range K, w l) → ℝ) (o : Fin n) :
    0 ≤ (∑ k, max (chg K w X c o k - chg K w X c o (y o)) 0) / ((K : ℝ) + 1) :=
  div_nonneg (sum_nonneg fun _ _ => le_max_right _ _) (by positivity)

theorem F_le (c : Fin (∑ l ∈ Finset.range K, w l) → ℝ) : F w X y S c ≤ -cost w X y S c := by
  unfold F cost
  rw [llk_eq, quad_eq]
  have : ∑ o, (∑ k, max (chg K w X c o k - chg K w X c o (y o)) 0) / ((K : ℝ) + 1) ≤
      ∑ o, Real.log (∑ k, Real.exp (chg K w X c o k - chg K w X c o (y o))) := by
    refine sum_le_sum fun o _ => ?_
    set L := Real.log (∑ k, Real.exp (chg K w X c o k - chg K w X c o (y o))) with hL
    have hk : ∀ k, chg K w X c o k - chg K w X c o (y o) ≤ L := fun k => by
      rw [← Real.log_exp (chg K w X c o k - chg K w X c o (y o))]
      refine Real.log_le_log (Real.exp_pos _) ?_
      exact single_le_sum (f := fun k => Real.exp (chg K w X c o k - chg K w X c o (y o))) (fun _ _ => (Real.exp_pos _).le) (mem_univ k)
    have h0 : 0 ≤ L := by simpa using hk (y o)
    rw [div_le_iff₀ (by positivity)]
    calc _ ≤ ∑ _k : Fin (K + 1), L := sum_le_sum fun k _ => max_le (hk k) h0
      _ = L * (K + 1) := by rw [sum_const, card_univ, Fintype.card_fin, nsmul_eq_mul]; push_cast; ring
  linarith

theorem cost_smul (hS : S.PosSemidef) (c : Fin (∑ l ∈ Finset.range K, w l) → ℝ) (t : ℝ) (ht : 1 ≤ t) :
    t * cost w X y S c ≤ cost w X y S (t • c) := by
  have h0 : 0 ≤ t := zero_le_one.trans ht
  have hq : 0 ≤ c ⬝ᵥ S *ᵥ c := hS.dotProduct_mulVec_nonneg c
  have e : ∀ o, (∑ k, max (chg K w X (t • c) o k - chg K w X (t • c) o (y o)) 0) / ((K : ℝ) + 1) =
      t * ((∑ k, max (chg K w X c o k - chg K w X c o (y o)) 0) / ((K : ℝ) + 1)) := fun o => by
    rw [← mul_div_assoc, mul_sum]
    congr 1
    exact sum_congr rfl fun k _ => by rw [chg_smul, chg_smul, ← mul_sub, mul_max_of_nonneg _ _ h0, mul_zero]
  unfold cost
  rw [mulVec_smul, dotProduct_smul, smul_dotProduct, smul_eq_mul, smul_eq_mul, mul_add, mul_sum]
  simp only [e]
  nlinarith [mul_nonneg (mul_nonneg h0 (sub_nonneg.2 ht)) hq]

theorem cost_pos (hS : S.PosSemidef) (hn : ¬∃ v, Separated w X y S v) {c : Fin (∑ l ∈ Finset.range K, w l) → ℝ} (hc : c ≠ 0) :
    0 < cost w X y S c := by
  have hq : 0 ≤ c ⬝ᵥ S *ᵥ c := hS.dotProduct_mulVec_nonneg c
  have h1 := sum_nonneg fun o (_ : o ∈ univ) => cost_term (X := X) (y := y) c o
  by_contra hcon
  unfold cost at hcon
  have e1 : c ⬝ᵥ S *ᵥ c = 0 := by linarith
  have e2 := (sum_eq_zero_iff_of_nonneg fun o (_ : o ∈ univ) => cost_term (X := X) (y := y) c o).1 (by linarith)
  refine hn ⟨c, hc, (hS.dotProduct_mulVec_zero_iff c).1 e1, fun o k => ?_⟩
  have h3 := (div_eq_zero_iff.1 (e2 o (mem_univ o))).resolve_right (by positivity)
  have h4 := (sum_eq_zero_iff_of_nonneg fun _ _ => le_max_right _ _).1 h3 k (mem_univ k)
  have h5 := le_max_left (chg K w X c o k - chg K w X c o (y o)) 0
  rw [h4] at h5
  exact sub_nonpos.1 h5

theorem cost_cont : Continuous (cost w X y S) := by
  unfold cost
  refine (continuous_finsetSum _ fun o _ => (continuous_finsetSum _ fun k _ =>
    ((chg_cont o k).sub (chg_cont o (y o))).max continuous_const).div_const _).add ?_
  simp only [dotProduct, mulVec]
  fun_prop

/-- C150.  A multinomial model has exactly one estimate if the classes are not separated. -/
theorem estimate_exists (hst : Holds (EtaBeta.mnFam K) w X (num y) stored) (hch : Newton.CholSpec chol) (hS : S.PosSemidef)
    (hi : Ident w X S) (hn : ¬∃ v, Separated w X y S v) : ∃! c, step (lssIn (EtaBeta.mnFam K) w X (num y) stored S chol noise) c = c := by
  obtain ⟨c, hmax⟩ := HEx.exists_max_of F_cont cost_cont (F_le (X := X) (y := y) (S := S)) (cost_smul hS) fun c hc => cost_pos hS hn hc
  have hr := reg (noise := noise) hst hch hS hi c
  have hfix : step (lssIn (EtaBeta.mnFam K) w X (num y) stored S chol noise) c = c := by
    refine (fixed_iff_stationary hr (grad_is c)).2 ?_
    obtain ⟨G, g1, g2⟩ := pllk_grad hr.ssym (grad_is (stored := stored) (S := S) (chol := chol) (noise := noise) (X := X) (y := y) c)
    have hloc : IsLocalMax G c := by
      have hc := g1.self_of_nhds
      filter_upwards [g1] with c' hc'
      rw [pllk_F] at hc hc'
      rw [← Fl.fin_inj.1 hc, ← Fl.fin_inj.1 hc']
      exact hmax c'
    refine ⟨G, g1, ?_⟩
    rw [hloc.hasFDerivAt_eq_zero g2] at g2
    refine g2.congr_fderiv ?_
    simp
  refine ⟨c, hfix, fun c' hc' => ?_⟩
  by_contra hne
  exact absurd (estimate_is_max hst hch hS hi hfix hne) (not_lt.2 (estimate_is_max hst hch hS hi hc' (Ne.symm hne)).le)

/-- C150.  Estimates exist exactly if the classes are not separated. -/
theorem exists_iff (hst : Holds (EtaBeta.mnFam K) w X (num y) stored) (hch : Newton.CholSpec chol) (hS : S.PosSemidef) (hi : Ident w X S) :
    (∃ c, step (lssIn (EtaBeta.mnFam K) w X (num y) stored S chol noise) c = c) ↔ ¬∃ v, Separated w X y S v :=
  ⟨fun ⟨c, hc⟩ ⟨_, hv⟩ => separated_no_estimate hst hch hS hi hv c hc, fun hn => (estimate_exists hst hch hS hi hn).exists⟩

end Verif.MEx
