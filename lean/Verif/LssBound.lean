import Verif.HazExist
import Verif.LmlSaddle

/-!
# C151: is the likelihood of Gaussian location-scale models bounded?

Model: `GAUMLSS` with arbitrary links (`EtaBeta.gauFam`, `LssModel`), Newton iterations `Lml.iter` on `Lml.lssIn`.
-/

namespace Verif.GBd
open Verif Matrix Finset Filter Topology Lml Fam

variable {n : ℕ} {w : ℕ → ℕ} {X : ℕ → Fin n → ℕ → ℝ} {y : Fin n → ℝ} {stored : ℕ → ℕ → ℕ → List ℕ}
  {S : Matrix (Fin (∑ l ∈ Finset.range 2, w l)) (Fin (∑ l ∈ Finset.range 2, w l)) ℝ}
  {chol : Matrix (Fin (∑ l ∈ Finset.range 2, w l)) (Fin (∑ l ∈ Finset.range 2, w l)) ℝ →
      Option (Matrix (Fin (∑ l ∈ Finset.range 2, w l)) (Fin (∑ l ∈ Finset.range 2, w l)) ℝ ×
        Equiv.Perm (Fin (∑ l ∈ Finset.range 2, w l)))}
  {noise : ℕ → Fin (∑ l ∈ Finset.range 2, w l) → ℝ}

/-- Penalised log-likelihood of `GAUMLSS` with the given links. -/
noncomputable def F (lm ls : LinkKind) (w : ℕ → ℕ) (X : ℕ → Fin n → ℕ → ℝ) (y : Fin n → ℝ)
    (S : Matrix (Fin (∑ l ∈ Finset.range 2, w l)) (Fin (∑ l ∈ Finset.range 2, w l)) ℝ) (c : Fin (∑ l ∈ Finset.range 2, w l) → ℝ) : ℝ :=
  EtaBeta.llk (EtaBeta.gauFam ![lm, ls]) w X y (blk w c) - 1 / 2 * ∑ i, ∑ j, c i * S i j * c j

/-- Value of predictor `k` (0: mean, 1: standard deviation) at observation `o`. -/
def pr (w : ℕ → ℕ) (X : ℕ → Fin n → ℕ → ℝ) (c : Fin (∑ l ∈ Finset.range 2, w l) → ℝ) (k : Fin 2) (o : Fin n) : ℝ :=
  ∑ a : Fin (w k), X k o a * blk (K := 2) w c ⟨k, a⟩

theorem pr_lin (c v : Fin (∑ l ∈ Finset.range 2, w l) → ℝ) (t : ℝ) (k : Fin 2) (o : Fin n) :
    pr w X (c + t • v) k o = pr w X c k o + t * pr w X v k o := by
  unfold pr
  rw [mul_sum, ← sum_add_distrib]
  refine sum_congr rfl fun a _ => ?_
  show _ * (c _ + t * v _) = _ * c _ + t * (_ * v _)
  ring

/-- Logarithm of the square root of two pi. -/
noncomputable def lc : ℝ := Real.log (Real.sqrt (2 * Real.pi))

theorem llk_eq {lm ls : LinkKind} {c : Fin (∑ l ∈ Finset.range 2, w l) → ℝ} (h : ∀ o, 0 < ls.fiR (pr w X c 1 o)) :
    EtaBeta.llk (EtaBeta.gauFam ![lm, ls]) w X y (blk w c) = ∑ o, (-lc - Real.log (ls.fiR (pr w X c 1 o)) -
      (y o - lm.fiR (pr w X c 0 o)) ^ 2 / (2 * ls.fiR (pr w X c 1 o) ^ 2)) := by
  refine sum_congr rfl fun o _ => ?_
  show Lss.gauLp (y o) (EtaBeta.musOf _ _ 0) (EtaBeta.musOf _ _ 1) = _
  rw [EtaBeta.musOf_eq, EtaBeta.musOf_eq]
  exact Lss.gauLp_eq (h o) _ _

/-! ### Standard deviations with a lower bound -/

/-- C151.  With the link `LOGb(b)`, `b < 0` (the default), the penalised log-likelihood stays below a bound that depends on `b` and the number of
observations only. -/
theorem default_bounded {lm : LinkKind} {b : ℝ} (hb : b < 0) (hS : S.PosSemidef) (hn : 0 < n) (c : Fin (∑ l ∈ Finset.range 2, w l) → ℝ) :
    EtaBeta.llk (EtaBeta.gauFam ![lm, .logb b]) w X y (blk w c) - 1 / 2 * ∑ i, ∑ j, c i * S i j * c j <
      n * (-Real.log (Real.sqrt (2 * Real.pi)) - Real.log (-b)) := by
  have hs : ∀ e : ℝ, -b < (LinkKind.logb b).fiR e := fun e => by
    show -b < Real.exp e - b
    linarith [Real.exp_pos e]
  have hs0 : ∀ e : ℝ, 0 < (LinkKind.logb b).fiR e := fun e => (neg_pos.2 hb).trans (hs e)
  have hq : 0 ≤ c ⬝ᵥ S *ᵥ c := hS.dotProduct_mulVec_nonneg c
  rw [llk_eq fun o => hs0 _, quad_eq]
  have hne : (univ : Finset (Fin n)).Nonempty := ⟨⟨0, hn⟩, mem_univ _⟩
  have : ∑ o, (-lc - Real.log ((LinkKind.logb b).fiR (pr w X c 1 o)) - (y o - lm.fiR (pr w X c 0 o)) ^ 2 / (2 * (LinkKind.logb b).fiR (pr w X c 1 o) ^ 2)) <
      ∑ _o : Fin n, (-lc - Real.log (-b)) := by
    refine sum_lt_sum_of_nonempty hne fun o _ => ?_
    have h1 := Real.log_lt_log (neg_pos.2 hb) (hs (pr w X c 1 o))
    have h2 : 0 ≤ (y o - lm.fiR (pr w X c 0 o)) ^ 2 / (2 * (LinkKind.logb b).fiR (pr w X c 1 o) ^ 2) := by positivity
    linarith
  rw [sum_const, card_univ, Fintype.card_fin, nsmul_eq_mul] at this
  unfold lc at this
  unfold lc
  linarith

/-- C151.  Penalised log-likelihoods of successive iterations then converge to a finite value. -/
theorem default_values_converge {lm : LinkKind} {b : ℝ} (hb : b < 0) (hS : S.PosSemidef) (hn : 0 < n) (C : Coef.Cfg)
    (hC : C.grad = true → 0 < C.outer) (c : Fin (∑ l ∈ Finset.range 2, w l) → ℝ) :
    ∃ L ≤ n * (-Real.log (Real.sqrt (2 * Real.pi)) - Real.log (-b)),
      Tendsto (fun k => F lm (.logb b) w X y S (iter C (lssIn (EtaBeta.gauFam ![lm, .logb b]) w X y stored S chol noise) c k).coef) atTop (𝓝 L) ∧
      ∀ k, F lm (.logb b) w X y S (iter C (lssIn (EtaBeta.gauFam ![lm, .logb b]) w X y stored S chol noise) c k).coef ≤ L := by
  set x := lssIn (EtaBeta.gauFam ![lm, .logb b]) w X y stored S chol noise with hx
  have hcalm : Coef.Calm C (ext x) := by
    refine ⟨fun hh => ?_, fun _ => ?_⟩
    · have := hC hh.1; omega
    · split_ifs
      · exact fun c a => trivial
      · exact fun c => trivial
  have hF : ∀ d, pllk x d = Fl.fin (F lm (.logb b) w X y S d) := fun d => Fl.fin_sub _ _
  have hmono : Monotone fun k => F lm (.logb b) w X y S (iter C x c k).coef := by
    refine monotone_nat_of_le_succ fun k => ?_
    rcases iteration_longest C hcalm c k (hF _) with ⟨j, -, v, -, h1, h2, -⟩ | ⟨h1, -⟩
    · rw [hF] at h1
      rw [Fl.fin_inj.1 h1]
      exact h2
    · rw [h1]
  have hbd : ∀ k, F lm (.logb b) w X y S (iter C x c k).coef ≤ n * (-Real.log (Real.sqrt (2 * Real.pi)) - Real.log (-b)) := fun k =>
    (default_bounded hb hS hn _).le
  have hba : BddAbove (Set.range fun k => F lm (.logb b) w X y S (iter C x c k).coef) := ⟨_, by rintro _ ⟨k, rfl⟩; exact hbd k⟩
  exact ⟨_, ciSup_le hbd, tendsto_atTop_ciSup hmono hba, fun k => le_ciSup hba k⟩

/-! ### Standard deviations without lower bound -/

/-- Observations that the coefficients `c` reproduce exactly can be given a smaller and smaller standard deviation in direction `v`: neither penalised
nor changing a mean, with a standard deviation that falls only where the observation is reproduced, and on the whole. -/
def Degenerate (w : ℕ → ℕ) (X : ℕ → Fin n → ℕ → ℝ) (y : Fin n → ℝ)
    (S : Matrix (Fin (∑ l ∈ Finset.range 2, w l)) (Fin (∑ l ∈ Finset.range 2, w l)) ℝ) (c v : Fin (∑ l ∈ Finset.range 2, w l) → ℝ) : Prop :=
  S *ᵥ v = 0 ∧ (∀ o, pr w X v 0 o = 0) ∧ (∀ o, pr w X v 1 o < 0 → pr w X c 0 o = y o) ∧ ∑ o, pr w X v 1 o < 0

theorem quad_line (hS : S.PosSemidef) {v : Fin (∑ l ∈ Finset.range 2, w l) → ℝ} (hv : S *ᵥ v = 0) (c : Fin (∑ l ∈ Finset.range 2, w l) → ℝ) (t : ℝ) :
    ∑ i, ∑ j, (c + t • v) i * S i j * (c + t • v) j = ∑ i, ∑ j, c i * S i j * c j := by
  rw [quad_eq, quad_eq, mulVec_add, mulVec_smul, hv, smul_zero, add_zero, add_dotProduct, smul_dotProduct, HEx.dot_comm hS v c, hv,
    dotProduct_zero, smul_zero, add_zero]

/-- C151.  With the link `LOG` the penalised log-likelihood then grows without bound. -/
theorem log_unbounded (hS : S.PosSemidef) {c v : Fin (∑ l ∈ Finset.range 2, w l) → ℝ} (h : Degenerate w X y S c v) :
    Tendsto (fun t : ℝ => EtaBeta.llk (EtaBeta.gauFam ![.identity, .log]) w X y (blk w (c + t • v)) -
      1 / 2 * ∑ i, ∑ j, (c + t • v) i * S i j * (c + t • v) j) atTop atTop := by
  obtain ⟨h1, h2, h3, h4⟩ := h
  have hp : ∀ e : ℝ, 0 < LinkKind.log.fiR e := fun e => Real.exp_pos e
  refine tendsto_atTop_mono' (f₁ := fun t : ℝ => (EtaBeta.llk (EtaBeta.gauFam ![.identity, .log]) w X y (blk w c) - 1 / 2 * ∑ i, ∑ j, c i * S i j * c j) +
    t * -∑ o, pr w X v 1 o) atTop ?_ (tendsto_atTop_add_const_left _ _ (Tendsto.atTop_mul_const (neg_pos.2 h4) tendsto_id))
  filter_upwards [eventually_ge_atTop 0] with t ht
  rw [quad_line hS h1, llk_eq fun o => hp _, llk_eq fun o => hp _]
  have : ∑ o, (-lc - Real.log (LinkKind.log.fiR (pr w X c 1 o)) - (y o - LinkKind.identity.fiR (pr w X c 0 o)) ^ 2 / (2 * LinkKind.log.fiR (pr w X c 1 o) ^ 2)) +
      t * -∑ o, pr w X v 1 o ≤ ∑ o, (-lc - Real.log (LinkKind.log.fiR (pr w X (c + t • v) 1 o)) -
        (y o - LinkKind.identity.fiR (pr w X (c + t • v) 0 o)) ^ 2 / (2 * LinkKind.log.fiR (pr w X (c + t • v) 1 o) ^ 2)) := by
    rw [← sum_neg_distrib, mul_sum, ← sum_add_distrib]
    refine sum_le_sum fun o _ => ?_
    rw [pr_lin, pr_lin, h2]
    show -lc - Real.log (Real.exp _) - (y o - pr w X c 0 o) ^ 2 / (2 * Real.exp _ ^ 2) + _ ≤
      -lc - Real.log (Real.exp _) - (y o - (pr w X c 0 o + t * 0)) ^ 2 / (2 * Real.exp _ ^ 2)
    rw [Real.log_exp, Real.log_exp, mul_zero, add_zero]
    have hr : (y o - pr w X c 0 o) ^ 2 / (2 * Real.exp (pr w X c 1 o + t * pr w X v 1 o) ^ 2) ≤
        (y o - pr w X c 0 o) ^ 2 / (2 * Real.exp (pr w X c 1 o) ^ 2) := by
      by_cases hz : pr w X v 1 o < 0
      · rw [h3 o hz, sub_self]
        simp
      · refine div_le_div_of_nonneg_left (sq_nonneg _) (by positivity) ?_
        have : Real.exp (pr w X c 1 o) ≤ Real.exp (pr w X c 1 o + t * pr w X v 1 o) :=
          Real.exp_le_exp.2 (le_add_of_nonneg_right (mul_nonneg ht (not_lt.1 hz)))
        have := pow_le_pow_left₀ (Real.exp_pos _).le this 2
        linarith
    linarith
  linarith

/-- C151.  No coefficients maximise it. -/
theorem log_no_max (hS : S.PosSemidef) {c v : Fin (∑ l ∈ Finset.range 2, w l) → ℝ} (h : Degenerate w X y S c v)
    (d : Fin (∑ l ∈ Finset.range 2, w l) → ℝ) : ∃ d', EtaBeta.llk (EtaBeta.gauFam ![.identity, .log]) w X y (blk w d) - 1 / 2 * ∑ i, ∑ j, d i * S i j * d j <
      EtaBeta.llk (EtaBeta.gauFam ![.identity, .log]) w X y (blk w d') - 1 / 2 * ∑ i, ∑ j, d' i * S i j * d' j := by
  obtain ⟨t, ht⟩ := ((log_unbounded hS h).eventually_gt_atTop
    (EtaBeta.llk (EtaBeta.gauFam ![.identity, .log]) w X y (blk w d) - 1 / 2 * ∑ i, ∑ j, d i * S i j * d j)).exists
  exact ⟨_, ht⟩

/-- C151.  One standard deviation for all observations: with the link `LOG` the penalised log-likelihood is bounded if the means cannot reproduce
the observations. -/
theorem constant_sd_bounded (hS : S.PosSemidef) {x1 : ℕ → ℝ} (hx : ∀ o a, X 1 o a = x1 a) {rho : ℝ} (h0 : 0 < rho)
    (hr : ∀ c, rho ≤ ∑ o, (y o - pr w X c 0 o) ^ 2) (c : Fin (∑ l ∈ Finset.range 2, w l) → ℝ) :
    EtaBeta.llk (EtaBeta.gauFam ![.identity, .log]) w X y (blk w c) - 1 / 2 * ∑ i, ∑ j, c i * S i j * c j ≤
      n * (-Real.log (Real.sqrt (2 * Real.pi)) + (Real.log (n / rho) - 1) / 2) := by
  have hn : 0 < n := by
    rcases Nat.eq_zero_or_pos n with rfl | h
    · have := hr c
      simp at this
      linarith
    · exact h
  have hnr : (0 : ℝ) < n := Nat.cast_pos.2 hn
  have hq : 0 ≤ c ⬝ᵥ S *ᵥ c := hS.dotProduct_mulVec_nonneg c
  obtain ⟨s, hs⟩ : ∃ s, ∀ o, pr w X c 1 o = s := ⟨pr w X c 1 ⟨0, hn⟩, fun o => sum_congr rfl fun a _ => by
    show X 1 o a * _ = X 1 _ a * _
    rw [hx, hx]⟩
  have hp : ∀ e : ℝ, 0 < LinkKind.log.fiR e := fun e => Real.exp_pos e
  rw [llk_eq fun o => hp _, quad_eq]
  have e1 : ∑ o, (-lc - Real.log (LinkKind.log.fiR (pr w X c 1 o)) - (y o - LinkKind.identity.fiR (pr w X c 0 o)) ^ 2 / (2 * LinkKind.log.fiR (pr w X c 1 o) ^ 2)) =
      n * (-lc - s) - (∑ o, (y o - pr w X c 0 o) ^ 2) * (Real.exp (-(2 * s)) / 2) := by
    have ec : (n : ℝ) * (-lc - s) = ∑ _o : Fin n, (-lc - s) := by rw [sum_const, card_univ, Fintype.card_fin, nsmul_eq_mul]
    rw [sum_mul, ec, ← sum_sub_distrib]
    refine sum_congr rfl fun o _ => ?_
    rw [hs]
    show -lc - Real.log (Real.exp s) - (y o - pr w X c 0 o) ^ 2 / (2 * Real.exp s ^ 2) = _
    rw [Real.log_exp, exp_m2]
    have := Real.exp_pos s
    field_simp
  rw [e1]
  have hu := Real.exp_pos (-(2 * s))
  have h3 := Real.log_le_sub_one_of_pos (div_pos (mul_pos hu h0) hnr)
  rw [mul_div_assoc, Real.log_mul hu.ne' (div_pos h0 hnr).ne', Real.log_exp, Real.log_div h0.ne' hnr.ne'] at h3
  have h4 := mul_le_mul_of_nonneg_right (hr c) (by positivity : 0 ≤ Real.exp (-(2 * s)) / 2)
  have h5 := mul_le_mul_of_nonneg_left h3 hnr.le
  have e2 : (n : ℝ) * (Real.exp (-(2 * s)) * (rho / n) - 1) = Real.exp (-(2 * s)) * rho - n := by
    field_simp
  rw [e2] at h5
  rw [Real.log_div hnr.ne' h0.ne']
  unfold lc
  nlinarith

end Verif.GBd
