import Verif.NewtConv
import Verif.HazExistEx
import Verif.MulExistEx
import Verif.ConvEx
import Mathlib.Analysis.SpecialFunctions.Trigonometric.DerivHyp
import Mathlib.Analysis.Convex.Deriv

/-!
# C152: examples

Two subjects observed at the same time, covariates 0 and 1.
-/

namespace Verif.NCv
open Verif Matrix Filter Topology Lml Coef

theorem vals (c : Fin 1 → ℝ) : Haz.gam x01 c 0 = 1 ∧ Haz.gam x01 c 1 = Real.exp (c 0) := by
  simp [Haz.gam, Haz.eta, x01]

/-- Newton's method for general smooth models. -/
noncomputable def gcfg : Cfg := ⟨false, true, 50, 1, 0, 1 / 10 ^ 9⟩

theorem calmH (delta : Fin 2 → ℕ) : Calm gcfg (ext (hazIn 1 (fun _ : Fin 2 => 0) delta x01 0 Ridge.cholC fun _ _ => 0)) :=
  ⟨by simp [gcfg], fun _ => by
    simp only [gcfg]
    exact fun _ => trivial⟩

theorem calm2 {p : ℕ} (x : In p) : Calm cfg (ext x) := ⟨by simp [cfg], by simp [cfg]⟩

/-! ### Events for both subjects -/

theorem both_nice : Nice hz2 fun c => Haz.llk 1 (fun _ : Fin 2 => 0) (fun _ => 1) x01 c - 1 / 2 * (c ⬝ᵥ (0 : Matrix (Fin 1) (Fin 1) ℝ) *ᵥ c) :=
  haz_nice data2 Ridge.cholC_spec PosSemidef.zero HEx.both_ident

theorem both_llk (c : Fin 1 → ℝ) : Haz.llk 1 (fun _ : Fin 2 => 0) (fun _ => 1) x01 c = -Real.log (2 + 2 * Real.cosh (c 0)) := by
  have h : Haz.llk 1 (fun _ : Fin 2 => 0) (fun _ => 1) x01 c = c 0 - 2 * Real.log (1 + Real.exp (c 0)) := by
    simp [Haz.llk, Haz.llk2, Haz.gammaP, Haz.dj, Haz.ris, vals, Haz.eta, x01]
    ring
  rw [h]
  have he := Real.exp_pos (c 0)
  have e : 2 + 2 * Real.cosh (c 0) = (1 + Real.exp (c 0)) ^ 2 / Real.exp (c 0) := by
    rw [Real.cosh_eq, Real.exp_neg]
    field_simp
    ring
  rw [e, Real.log_div (by positivity) he.ne', Real.log_pow, Real.log_exp]
  push_cast
  ring

theorem both_step (c : Fin 1 → ℝ) : step hz2 c 0 = c 0 - Real.sinh (c 0) := by
  have h := congrFun (step_eq both_nice c) 0
  have e1 : hz2.hess c 0 0 = 2 * Real.exp (c 0) * Real.exp (c 0) / (1 + Real.exp (c 0)) ^ 2 - 2 * Real.exp (c 0) / (1 + Real.exp (c 0)) := by
    show Haz.hessian 1 (fun _ : Fin 2 => 0) (fun _ => 1) x01 c 0 0 = _
    simp [Haz.hessian, Haz.hess, Haz.gammaP, Haz.bp, Haz.Ap, Haz.dj, Haz.ris, vals, x01]
  have e2 : hz2.grad c 0 = 1 - 2 * (Real.exp (c 0) / (1 + Real.exp (c 0))) := by
    show Haz.gradient 1 (fun _ : Fin 2 => 0) (fun _ => 1) x01 c 0 = _
    simp [Haz.gradient, Haz.grad2, Haz.gammaP, Haz.bp, Haz.dj, Haz.ris, vals, x01]
    ring
  have e3 : hz2.S = 0 := rfl
  rw [e3] at h
  simp only [add_zero, mulVec, dotProduct, Fin.sum_univ_one, Pi.sub_apply, Matrix.neg_apply, Matrix.zero_apply, zero_mul, sub_zero] at h
  rw [e1, e2] at h
  rw [Real.sinh_eq, Real.exp_neg]
  have he := Real.exp_pos (c 0)
  generalize step hz2 c 0 = q at h ⊢
  generalize Real.exp (c 0) = E at h he ⊢
  have h1 : 1 + E ≠ 0 := by positivity
  field_simp at h
  field_simp
  nlinarith

theorem both_le {c d : Fin 1 → ℝ} : Haz.llk 1 (fun _ : Fin 2 => 0) (fun _ => 1) x01 c ≤ Haz.llk 1 (fun _ : Fin 2 => 0) (fun _ => 1) x01 d ↔ |d 0| ≤ |c 0| := by
  have h1 := Real.cosh_pos (c 0)
  have h2 := Real.cosh_pos (d 0)
  rw [both_llk, both_llk, neg_le_neg_iff, Real.log_le_log_iff (by positivity) (by positivity), ← Real.cosh_le_cosh]
  constructor <;> intro h <;> linarith

theorem sinh_step {x : ℝ} (h1 : |x| ≤ 1) : |x - Real.sinh x| ≤ |x| := by
  have key : ∀ t : ℝ, 0 ≤ t → t ≤ 1 → |t - Real.sinh t| ≤ t := fun t h0 h1 => by
    have a1 : t ≤ Real.sinh t := Real.self_le_sinh_iff.2 h0
    have a2 : Real.sinh t ≤ 2 * t := by
      obtain ⟨s, hs, hs2⟩ := Conv.exists_mirror
      have hconv : ConvexOn ℝ (Set.Ici 0) Real.sinh := by
        refine MonotoneOn.convexOn_of_deriv (convex_Ici 0) Real.continuous_sinh.continuousOn Real.differentiable_sinh.differentiableOn ?_
        rw [Real.deriv_sinh, interior_Ici]
        intro a ha b hb hab
        rw [Real.cosh_le_cosh, abs_of_pos ha, abs_of_pos hb]
        exact hab
      have hs0 : 0 < s := by linarith
      have hts : 0 ≤ 1 - t / s := by
        rw [sub_nonneg, div_le_one hs0]
        linarith
      have hts' : 0 ≤ t / s := by positivity
      have := hconv.2 (Set.mem_Ici.2 le_rfl) (Set.mem_Ici.2 hs0.le) hts hts' (by ring)
      simp only [smul_eq_mul, mul_zero, zero_add, Real.sinh_zero, hs2, div_mul_cancel₀ _ hs0.ne'] at this
      refine this.trans (le_of_eq ?_)
      field_simp
    rw [abs_sub_comm, abs_of_nonneg (by linarith)]
    linarith
  rcases le_total 0 (x) with h0 | h0
  · rw [abs_of_nonneg h0] at h1 ⊢
    exact key _ h0 h1
  · rw [abs_of_nonpos h0] at h1 ⊢
    have := key (-x) (by linarith) h1
    rw [Real.sinh_neg, ← abs_neg] at this
    convert this using 2
    ring

/-- Newton iterations from 1 go on. -/
theorem both_goes : Goes gcfg hz2 ![1] := by
  refine goes_of both_nice rfl (calmH _) fun d hd => ?_
  simp only [zero_mulVec, dotProduct_zero, mul_zero, sub_zero] at hd ⊢
  rw [both_le] at hd ⊢
  rw [both_step]
  exact sinh_step (by simpa using hd)

example (c : Fin 1 → ℝ) : ∃ R, ∀ k, ‖(iter gcfg hz2 c k).coef‖ ≤ R :=
  hazard_bounded data2 Ridge.cholC_spec PosSemidef.zero HEx.both_ident HEx.both_none (calmH _) c

example : (∃ e, (∀ d, d ≠ e → Haz.llk 1 (fun _ : Fin 2 => 0) (fun _ => 1) x01 d < Haz.llk 1 (fun _ : Fin 2 => 0) (fun _ => 1) x01 e) ∧
    Tendsto (fun k => (iter gcfg hz2 ![1] k).coef) atTop (𝓝 e)) ∨ Ties gcfg hz2 ![1] := by
  have := hazard_converges data2 Ridge.cholC_spec PosSemidef.zero HEx.both_ident HEx.both_none both_goes
  simp only [Matrix.zero_apply, mul_zero, zero_mul, Finset.sum_const_zero, sub_zero] at this
  exact this

/-- C152.  The exception is needed: no direction is monotone and the step control always finds a step, but the coefficients change their sign for ever. -/
theorem sign_changes_wrong : ∃ c : ℝ, 1 < c ∧ Goes gcfg hz2 ![c] ∧ (∀ k, (iter gcfg hz2 ![c] k).coef = ![(-1) ^ k * c]) ∧
    ∀ l, ¬Tendsto (fun k => (iter gcfg hz2 ![c] k).coef) atTop (𝓝 l) := by
  obtain ⟨c, hc, hm⟩ := Conv.exists_mirror
  have hs : ∀ k : ℕ, step hz2 ![(-1) ^ k * c] = ![(-1) ^ (k + 1) * c] := fun k => by
    funext i
    rw [Subsingleton.elim i 0, both_step]
    rcases neg_one_pow_eq_or ℝ k with h | h
    · simp [pow_succ, h, hm]
      ring
    · simp [pow_succ, h, hm]
      ring
  have hi : ∀ k, (iter gcfg hz2 ![c] k).coef = ![(-1) ^ k * c] := by
    intro k
    induction k with
    | zero =>
      show ![c] = _
      simp
    | succ k ih =>
      have hup : Haz.llk 1 (fun _ : Fin 2 => 0) (fun _ => 1) x01 ![(-1) ^ k * c] ≤ Haz.llk 1 (fun _ : Fin 2 => 0) (fun _ => 1) x01 ![(-1) ^ (k + 1) * c] := by
        rw [both_le]
        simp [abs_mul]
      rcases iteration_longest (x := hz2) gcfg (calmH _) ![c] k (both_nice.val _) with ⟨j, -, v, h1, -, -, h4⟩ | ⟨-, h2⟩
      · rcases Nat.eq_zero_or_pos j with rfl | hj
        · rw [h1, prop_eq rfl, ih, hs, pow_zero, div_one, one_smul, add_sub_cancel]
        · have := h4 0 hj _ (both_nice.val _)
          rw [prop_eq rfl, ih, hs, pow_zero, div_one, one_smul, add_sub_cancel] at this
          simp only [zero_mulVec, dotProduct_zero, mul_zero, sub_zero] at this
          exact absurd hup (not_le.2 this)
      · have := h2 0 (by norm_num) _ (both_nice.val _)
        rw [prop_eq rfl, ih, hs, pow_zero, div_one, one_smul, add_sub_cancel] at this
        simp only [zero_mulVec, dotProduct_zero, mul_zero, sub_zero] at this
        exact absurd hup (not_le.2 this)
  have hne : ∀ k, (iter gcfg hz2 ![c] (k + 1)).coef ≠ (iter gcfg hz2 ![c] k).coef := fun k h => by
    rw [hi, hi] at h
    have := congrFun h 0
    rcases neg_one_pow_eq_or ℝ k with h | h
    · simp [pow_succ, h] at this
      linarith
    · simp [pow_succ, h] at this
      linarith
  refine ⟨c, hc, ⟨rfl, calmH _, fun k h => absurd h (hne k)⟩, hi, fun l ht => ?_⟩
  have h1 := ((tendsto_add_atTop_iff_nat 1).2 ht).sub ht
  rw [sub_self] at h1
  have h2 := ((continuous_apply (0 : Fin 1)).abs.tendsto _).comp h1
  have h3 : (fun k => |((iter gcfg hz2 ![c] (k + 1)).coef - (iter gcfg hz2 ![c] k).coef) 0|) = fun _ => 2 * c := by
    funext k
    rw [hi, hi]
    rcases neg_one_pow_eq_or ℝ k with h | h
    · simp only [pow_succ, h, Pi.sub_apply, cons_val_fin_one]
      rw [show (1 * -1 * c - 1 * c : ℝ) = -(2 * c) by ring, abs_neg, abs_of_pos (by linarith)]
    · simp only [pow_succ, h, Pi.sub_apply, cons_val_fin_one]
      rw [show (-1 * -1 * c - -1 * c : ℝ) = 2 * c by ring, abs_of_pos (by linarith)]
  have h4 : Tendsto (fun _ : ℕ => 2 * c) atTop (𝓝 |(0 : Fin 1 → ℝ) 0|) := by
    rw [← h3]
    exact h2
  have := tendsto_nhds_unique h4 tendsto_const_nhds
  simp at this
  linarith

/-- C152.  The solver stops there after one iteration and counts it as converged, although other coefficients have a larger log-likelihood. -/
theorem stop_wrong : ∃ c : ℝ, 1 < c ∧ (∀ left, (phase gcfg (ext hz2) (left + 1) 0 (start hz2 ![c])).1.coef = ![-c] ∧
      (phase gcfg (ext hz2) (left + 1) 0 (start hz2 ![c])).2 = .converged) ∧
    Haz.llk 1 (fun _ : Fin 2 => 0) (fun _ => 1) x01 ![-c] < Haz.llk 1 (fun _ : Fin 2 => 0) (fun _ => 1) x01 ![0] := by
  obtain ⟨c, hc, -, hi, -⟩ := sign_changes_wrong
  refine ⟨c, hc, fun left => ?_, ?_⟩
  · have h1 := hi 1
    rw [pow_one, neg_one_mul] at h1
    have hn : Near gcfg.tol (Coef.round gcfg (ext hz2) 0 (start hz2 ![c])).pen (prevPen (ext hz2) (start hz2 ![c])) := by
      have e1 : (Coef.round gcfg (ext hz2) 0 (start hz2 ![c])).pen = pllk hz2 ![-c] := by
        have := pen_iter gcfg hz2 ![c] 1
        rw [h1] at this
        exact this
      have e2 : prevPen (ext hz2) (start hz2 ![c]) = pllk hz2 ![c] := by
        have := own_prev (ext hz2) _ (own_iter gcfg hz2 ![c] 0)
        rw [pen_iter] at this
        exact this
      rw [e1, e2, both_nice.val, both_nice.val]
      simp only [zero_mulVec, dotProduct_zero, mul_zero, sub_zero, both_llk, cons_val_fin_one, Real.cosh_neg]
      show |_ - _| < gcfg.tol * |_|
      rw [sub_self, abs_zero]
      have h2 := Real.one_le_cosh c
      have h3 : 0 < Real.log (2 + 2 * Real.cosh c) := Real.log_pos (by linarith)
      have h4 : 0 < gcfg.tol := by
        show (0 : ℝ) < 1 / 10 ^ 9
        norm_num
      exact mul_pos h4 (abs_pos.2 (neg_ne_zero.2 h3.ne'))
    unfold phase
    simp only
    rw [if_pos hn]
    exact ⟨h1, rfl⟩
  · rw [← not_le, both_le]
    simp only [cons_val_fin_one, abs_neg, abs_zero, not_le]
    exact abs_pos.2 (by linarith)

/-! ### An event for one of them -/

noncomputable def last : In 1 := hazIn 1 (fun _ : Fin 2 => 0) ![0, 1] x01 0 Ridge.cholC fun _ _ => 0

theorem last_nice : Nice last fun c => Haz.llk 1 (fun _ : Fin 2 => 0) ![0, 1] x01 c - 1 / 2 * (c ⬝ᵥ (0 : Matrix (Fin 1) (Fin 1) ℝ) *ᵥ c) :=
  haz_nice data2 Ridge.cholC_spec PosSemidef.zero (HEx.last_ident 0)

theorem last_step (c : Fin 1 → ℝ) : step last c = c + (1 + Real.exp (-c 0)) • ![1] := by
  have h := congrFun (step_eq last_nice c) 0
  have e1 : last.hess c 0 0 = Real.exp (c 0) * Real.exp (c 0) / (1 + Real.exp (c 0)) ^ 2 - Real.exp (c 0) / (1 + Real.exp (c 0)) := by
    show Haz.hessian 1 (fun _ : Fin 2 => 0) ![0, 1] x01 c 0 0 = _
    simp [Haz.hessian, Haz.hess, Haz.gammaP, Haz.bp, Haz.Ap, Haz.dj, Haz.ris, vals, x01]
  have e2 : last.grad c 0 = 1 - Real.exp (c 0) / (1 + Real.exp (c 0)) := by
    show Haz.gradient 1 (fun _ : Fin 2 => 0) ![0, 1] x01 c 0 = _
    simp [Haz.gradient, Haz.grad2, Haz.gammaP, Haz.bp, Haz.dj, Haz.ris, vals, x01]
    ring
  have e3 : last.S = 0 := rfl
  rw [e3] at h
  simp only [add_zero, mulVec, dotProduct, Fin.sum_univ_one, Pi.sub_apply, Matrix.neg_apply, Matrix.zero_apply, zero_mul, sub_zero] at h
  rw [e1, e2] at h
  funext i
  rw [Subsingleton.elim i 0]
  simp only [Pi.add_apply, Pi.smul_apply, cons_val_fin_one, smul_eq_mul, mul_one, Real.exp_neg]
  have he := Real.exp_pos (c 0)
  generalize step last c 0 = q at h ⊢
  generalize Real.exp (c 0) = E at h he ⊢
  have h1 : 1 + E ≠ 0 := by positivity
  field_simp at h
  field_simp
  nlinarith

theorem last_goes (c : Fin 1 → ℝ) : Goes gcfg last c := by
  refine goes_of last_nice rfl (calmH _) fun d _ => ?_
  rw [last_step]
  have := (HEx.monotone_increases data2 PosSemidef.zero (HEx.last_ident 0) HEx.last_monotone d).monotone
    (show (0 : ℝ) ≤ 1 + Real.exp (-d 0) by positivity)
  simpa using this

example (l : Fin 1 → ℝ) : ¬Tendsto (fun k => (iter gcfg last ![7] k).coef) atTop (𝓝 l) :=
  hazard_no_limit data2 Ridge.cholC_spec PosSemidef.zero (HEx.last_ident 0) HEx.last_monotone (last_goes _) l

example : Tendsto (fun k => ‖(iter gcfg last ![7] k).coef‖) atTop atTop ∨ Ties gcfg last ![7] :=
  hazard_diverges data2 Ridge.cholC_spec PosSemidef.zero (HEx.last_ident 0) HEx.last_monotone (last_goes _)

/-! ### Three classes -/

example (c : Fin (∑ l ∈ Finset.range 2, (fun _ => 1) l) → ℝ) : ∃ R, ∀ k, ‖(iter cfg MEx.three c k).coef‖ ≤ R :=
  multinomial_bounded (K := 2) (fullPat_holds (EtaBeta.mnFam 2) (fun _ => 1) _ _) Ridge.cholC_spec PosSemidef.zero (MEx.ones_ident (n := 3) 0 0) (MEx.seen 0)
    (calm2 _) c

/-! ### Two classes, one intercept -/

section Two
open Cls Finset

/-- Number of coefficients. -/
abbrev d1 : ℕ := ∑ l ∈ Finset.range 1, (fun _ => 1) l

noncomputable def coin1 {n : ℕ} (y : Fin n → Fin 2) : In d1 :=
  lssIn (EtaBeta.mnFam 1) (fun _ => 1) MEx.ones (num (K := 1) y) (fullPat fun _ => 1) 0 Ridge.cholC fun _ _ => 0

/-- The only coefficient. -/
noncomputable def co (c : Fin d1 → ℝ) : ℝ := c (at' (K := 1) (fun _ => 1) ⟨0, 0⟩)

theorem co_eta {n : ℕ} (c : Fin d1 → ℝ) (o : Fin n) (k : Fin 1) : EtaBeta.etaOf (K := 1) (fun _ => 1) MEx.ones (blk (fun _ => 1) c) o k = co c := by
  show ∑ a : Fin 1, MEx.ones (k : ℕ) o (a : ℕ) * blk (K := 1) (fun _ => 1) c ⟨k, a⟩ = _
  rw [Subsingleton.elim k 0]
  simp [MEx.ones]
  rfl

theorem co_ext {c d : Fin d1 → ℝ} (h : co c = co d) : c = d := by
  funext i
  obtain ⟨⟨k, a⟩, rfl⟩ := (at_bij (w := fun _ => 1) (K := 1)).2 i
  rw [Subsingleton.elim k 0, Subsingleton.elim a 0]
  exact h

theorem coin1_ident {n : ℕ} (o : Fin n) : MEx.Ident (K := 1) (n := n) (fun _ => 1) MEx.ones 0 := by
  intro v _ h
  refine co_ext ((co_eta v o 0).symm.trans ((h o 0).trans ?_))
  rfl

theorem coin1_nice {n : ℕ} (y : Fin n → Fin 2) (o : Fin n) : Nice (coin1 y) (MEx.F (K := 1) (fun _ => 1) MEx.ones y 0) :=
  mul_nice (K := 1) (fullPat_holds (EtaBeta.mnFam 1) (fun _ => 1) _ _) Ridge.cholC_spec PosSemidef.zero (coin1_ident o)

/-- The Newton equation. -/
theorem coin1_step {n : ℕ} (y : Fin n → Fin 2) (o : Fin n) (c : Fin d1 → ℝ) :
    (n : ℝ) * (Real.exp (co c) / (1 + Real.exp (co c)) ^ 2) * (co (step (coin1 y) c) - co c) =
      ∑ o, (-(Real.exp (co c) / (1 + Real.exp (co c))) + if ((y o : ℕ) : ℝ) = 1 then 1 else 0) := by
  have h := step_eq (coin1_nice y o) c
  have e3 : (coin1 y).S = 0 := rfl
  rw [e3, add_zero, zero_mulVec, sub_zero] at h
  have hv : step (coin1 y) c - c = (co (step (coin1 y) c) - co c) • fun _ => (1 : ℝ) := co_ext (by simp [co])
  have h1 := congrArg (fun u => (fun _ => (1 : ℝ)) ⬝ᵥ u) h
  have hq := hess_quad (K := 1) (X := MEx.ones) (y := y) (S := 0) (chol := Ridge.cholC) (noise := fun _ _ => 0)
    (fullPat_holds (EtaBeta.mnFam 1) (fun _ => 1) _ _) c fun _ => (1 : ℝ)
  have hg := MEx.grad_dot (K := 1) (w := fun _ => 1) (X := MEx.ones) (y := y) (stored := fullPat fun _ => 1) (S := 0) (chol := Ridge.cholC) (noise := fun _ _ => 0)
    c (c + fun _ => (1 : ℝ))
  have hc1 : co (c + fun _ => (1 : ℝ)) = co c + 1 := rfl
  have hc2 : co (fun _ => (1 : ℝ)) = 1 := rfl
  simp only [add_sub_cancel_left, co_eta, hc1, Fin.sum_univ_one, mul_one] at hg
  have hP : ∀ o : Fin n, Invar.P2s (EtaBeta.mnFam 1) (num (K := 1) y o) (EtaBeta.etaOf (fun _ => 1) MEx.ones (blk (fun _ => 1) c) o) (0 : Fin 1) (0 : Fin 1) =
      -(Real.exp (co c) / (1 + Real.exp (co c)) ^ 2) := fun o => by
    rw [P2s_eq, if_pos rfl]
    unfold pr
    rw [tot_eq, Fin.sum_univ_one, co_eta]
    have := Real.exp_pos (co c)
    field_simp
    ring
  simp only [Fin.sum_univ_one, hP, co_eta, hc2, mul_one, sum_const, card_univ, Fintype.card_fin, nsmul_eq_mul] at hq
  rw [hv, mulVec_smul, dotProduct_smul, neg_mulVec, dotProduct_neg, show (fun _ => (1 : ℝ)) ⬝ᵥ (coin1 y).hess c *ᵥ (fun _ => (1 : ℝ)) = _ from hq,
    dotProduct_comm, show (coin1 y).grad c ⬝ᵥ (fun _ => (1 : ℝ)) = _ from hg] at h1
  rw [smul_eq_mul] at h1
  simp only [Fin.val_zero, zero_add, Nat.cast_one] at h1
  rw [← h1]
  ring

/-- Each class once: F and the proposals. -/
theorem coin1_F (c : Fin d1 → ℝ) : MEx.F (K := 1) (n := 2) (fun _ => 1) MEx.ones ![0, 1] 0 c = -Real.log (2 + 2 * Real.cosh (co c)) := by
  unfold MEx.F
  rw [MEx.llk_eq]
  have e0 : ∀ o : Fin 2, MEx.chg 1 (fun _ => 1) MEx.ones c o 0 = 0 := fun o => rfl
  have e1 : ∀ o : Fin 2, MEx.chg 1 (fun _ => 1) MEx.ones c o 1 = co c := fun o => co_eta c o 0
  have hs : ∀ g : Fin (1 + 1) → ℝ, ∑ k, g k = g 0 + g 1 := fun g => Fin.sum_univ_two g
  simp only [hs, cons_val_zero, cons_val_one, e0, e1, Matrix.zero_apply, mul_zero, zero_mul, sum_const_zero, sub_zero, sub_self, zero_sub,
    Real.exp_zero]
  have he := Real.exp_pos (co c)
  have he' := Real.exp_pos (-co c)
  rw [← Real.log_mul (by positivity) (by positivity)]
  refine congrArg (fun t => -Real.log t) ?_
  have hx : Real.exp (co c) * Real.exp (-co c) = 1 := by rw [← Real.exp_add, add_neg_cancel, Real.exp_zero]
  rw [Real.cosh_eq]
  simp only [neg_zero, Real.exp_zero]
  linear_combination hx

theorem coin1_sinh (c : Fin d1 → ℝ) : co (step (coin1 (n := 2) ![0, 1]) c) = co c - Real.sinh (co c) := by
  have h := coin1_step (n := 2) ![0, 1] 0 c
  simp only [Fin.sum_univ_two, cons_val_zero, cons_val_one] at h
  norm_num at h
  rw [Real.sinh_eq, Real.exp_neg]
  have he := Real.exp_pos (co c)
  generalize co (step (coin1 (n := 2) ![0, 1]) c) = q at h ⊢
  generalize Real.exp (co c) = E at h he ⊢
  have h1 : 1 + E ≠ 0 := by positivity
  field_simp at h
  field_simp
  nlinarith

theorem coin1_goes : Goes cfg (coin1 (n := 2) ![0, 1]) fun _ => 1 := by
  refine goes_of (coin1_nice _ 0) rfl (calm2 _) fun d hd => ?_
  rw [coin1_F, coin1_F] at hd ⊢
  have hl : ∀ a b : ℝ, -Real.log (2 + 2 * Real.cosh a) ≤ -Real.log (2 + 2 * Real.cosh b) ↔ |b| ≤ |a| := fun a b => by
    have h1 := Real.cosh_pos a
    have h2 := Real.cosh_pos b
    rw [neg_le_neg_iff, Real.log_le_log_iff (by positivity) (by positivity), ← Real.cosh_le_cosh]
    constructor <;> intro h <;> linarith
  rw [hl] at hd ⊢
  rw [coin1_sinh]
  exact sinh_step (by simpa [co] using hd)

theorem coin1_seen : ¬∃ v, MEx.Separated (K := 1) (n := 2) (fun _ => 1) MEx.ones ![0, 1] 0 v := by
  rintro ⟨v, hv, -, h⟩
  have h0 := h 0 1
  have h1 := h 1 0
  have e0 : ∀ o : Fin 2, MEx.chg 1 (fun _ => 1) MEx.ones v o 0 = 0 := fun o => rfl
  have e1 : ∀ o : Fin 2, MEx.chg 1 (fun _ => 1) MEx.ones v o 1 = co v := fun o => co_eta v o 0
  simp only [cons_val_zero, cons_val_one, e0, e1] at h0 h1
  exact hv (co_ext (le_antisymm h0 h1))

example : (∃ e, (∀ d, d ≠ e → EtaBeta.llk (EtaBeta.mnFam 1) (fun _ => 1) (MEx.ones (n := 2)) (num (K := 1) ![0, 1]) (blk (fun _ => 1) d) <
      EtaBeta.llk (EtaBeta.mnFam 1) (fun _ => 1) (MEx.ones (n := 2)) (num (K := 1) ![0, 1]) (blk (fun _ => 1) e)) ∧
    Tendsto (fun k => (iter cfg (coin1 (n := 2) ![0, 1]) (fun _ => 1) k).coef) atTop (𝓝 e)) ∨ Ties cfg (coin1 (n := 2) ![0, 1]) fun _ => 1 := by
  have := multinomial_converges (K := 1) (fullPat_holds (EtaBeta.mnFam 1) (fun _ => 1) _ _) Ridge.cholC_spec PosSemidef.zero (coin1_ident (n := 2) 0) coin1_seen
    coin1_goes
  simp only [Matrix.zero_apply, mul_zero, zero_mul, Finset.sum_const_zero, sub_zero] at this
  exact this

/-- One class only: separated. -/
theorem one_sep : MEx.Separated (K := 1) (n := 1) (fun _ => 1) MEx.ones ![1] 0 fun _ => 1 := by
  refine ⟨fun h => ?_, zero_mulVec _, fun o k => ?_⟩
  · have := congrArg co h
    simp [co] at this
  · have e0 : MEx.chg 1 (fun _ => 1) MEx.ones (fun _ => (1 : ℝ)) o 0 = 0 := rfl
    have e1 : MEx.chg 1 (fun _ => 1) MEx.ones (fun _ => (1 : ℝ)) o 1 = 1 := co_eta _ o 0
    rw [Subsingleton.elim o 0] at e0 e1 ⊢
    fin_cases k
    · exact e0.le.trans (zero_le_one.trans e1.ge)
    · exact le_rfl

theorem one_goes (c : Fin d1 → ℝ) : Goes cfg (coin1 (n := 1) ![1]) c := by
  refine goes_of (coin1_nice _ 0) rfl (calm2 _) fun d _ => ?_
  have h := coin1_step (n := 1) ![1] 0 d
  simp only [Fin.sum_univ_one, cons_val_fin_one] at h
  norm_num at h
  have he := Real.exp_pos (co d)
  have hpos : 0 ≤ co (step (coin1 (n := 1) ![1]) d) - co d := by
    have h1 : 0 < Real.exp (co d) / (1 + Real.exp (co d)) ^ 2 := by positivity
    have h2 : 0 ≤ -(Real.exp (co d) / (1 + Real.exp (co d))) + 1 := by
      rw [neg_add_eq_sub, sub_nonneg, div_le_one (by positivity)]
      linarith
    rw [← h] at h2
    exact nonneg_of_mul_nonneg_right h2 h1
  have e : step (coin1 (n := 1) ![1]) d = d + (co (step (coin1 (n := 1) ![1]) d) - co d) • fun _ => (1 : ℝ) := co_ext (by simp [co])
  have := (MEx.separated_increases PosSemidef.zero (coin1_ident (n := 1) 0) one_sep d).monotone hpos
  have hz : d + (0 : ℝ) • (fun _ : Fin d1 => (1 : ℝ)) = d := by rw [zero_smul, add_zero]
  calc MEx.F (K := 1) (n := 1) (fun _ => 1) MEx.ones ![1] 0 d = MEx.F (K := 1) (n := 1) (fun _ => 1) MEx.ones ![1] 0 (d + (0 : ℝ) • fun _ => (1 : ℝ)) := by rw [hz]
    _ ≤ MEx.F (K := 1) (n := 1) (fun _ => 1) MEx.ones ![1] 0 (d + (co (step (coin1 (n := 1) ![1]) d) - co d) • fun _ => (1 : ℝ)) := this
    _ = _ := by rw [← e]

example (l : Fin d1 → ℝ) : ¬Tendsto (fun k => (iter cfg (coin1 (n := 1) ![1]) (fun _ => 7) k).coef) atTop (𝓝 l) :=
  multinomial_no_limit (K := 1) (fullPat_holds (EtaBeta.mnFam 1) (fun _ => 1) _ _) Ridge.cholC_spec PosSemidef.zero (coin1_ident (n := 1) 0) one_sep (one_goes _) l

example : Tendsto (fun k => ‖(iter cfg (coin1 (n := 1) ![1]) (fun _ => 7) k).coef‖) atTop atTop ∨ Ties cfg (coin1 (n := 1) ![1]) fun _ => 7 :=
  multinomial_diverges (K := 1) (fullPat_holds (EtaBeta.mnFam 1) (fun _ => 1) _ _) Ridge.cholC_spec PosSemidef.zero (coin1_ident (n := 1) 0) one_sep (one_goes _)

end Two

end Verif.NCv
