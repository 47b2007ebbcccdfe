import Verif.LmlModel
import Verif.CoefLemmas
import Verif.Newton
import Mathlib.Analysis.Calculus.Deriv.Comp
import Mathlib.Analysis.Convex.Function
import Mathlib.Analysis.Calculus.FDeriv.Add
import Mathlib.Analysis.Calculus.FDeriv.Mul
import Mathlib.Topology.Algebra.Order.Field

/-!
# Lemmas about the coefficient iterations (property C125)
-/

namespace Verif.Lml
open Verif Matrix Filter Topology Step

variable {p : ℕ}

/-- Penalised log-likelihood. -/
noncomputable def pllk (x : In p) (c : Fin p → ℝ) : Fl := x.llk c - Fl.fin (1 / 2 * ∑ i, ∑ j, c i * x.S i j * c j)

theorem quad_eq (S : Matrix (Fin p) (Fin p) ℝ) (c : Fin p → ℝ) : ∑ i, ∑ j, c i * S i j * c j = c ⬝ᵥ S *ᵥ c := by
  simp only [dotProduct, mulVec, Finset.mul_sum]
  exact Finset.sum_congr rfl fun i _ => Finset.sum_congr rfl fun j _ => by ring

theorem pllk_eq (x : In p) (c : Fin p → ℝ) : pllk x c = x.llk c - Fl.fin (1 / 2 * (c ⬝ᵥ x.S *ᵥ c)) := by
  unfold pllk; rw [quad_eq]

/-- The functional with coordinates `g`. -/
noncomputable def lf (g : Fin p → ℝ) : (Fin p → ℝ) →L[ℝ] ℝ :=
  ∑ j, g j • ContinuousLinearMap.proj (R := ℝ) (φ := fun _ : Fin p => ℝ) j

theorem lf_apply (g v : Fin p → ℝ) : lf g v = g ⬝ᵥ v := by
  simp only [lf, _root_.sum_apply, _root_.smul_apply, ContinuousLinearMap.proj_apply, smul_eq_mul, dotProduct]

theorem lf_inj {g h : Fin p → ℝ} (e : lf g = lf h) : g = h := by
  funext i
  have := congrArg (fun L => L (Pi.single i 1)) e
  simpa [lf_apply] using this

theorem grad_unique {f : (Fin p → ℝ) → Fl} {g h c : Fin p → ℝ} (h1 : HasFlGrad f g c) (h2 : HasFlGrad f h c) : g = h := by
  obtain ⟨F, f1, f2⟩ := h1
  obtain ⟨G, g1, g2⟩ := h2
  have e : F =ᶠ[𝓝 c] G := by
    filter_upwards [f1, g1] with c' a b
    rw [a] at b
    exact Fl.fin_inj.1 b
  exact lf_inj ((f2.congr_of_eventuallyEq e.symm).unique g2)

theorem quad_fderiv {S : Matrix (Fin p) (Fin p) ℝ} (hS : S.IsSymm) (c : Fin p → ℝ) :
    HasFDerivAt (fun c : Fin p → ℝ => 1 / 2 * (c ⬝ᵥ S *ᵥ c)) (lf (S *ᵥ c)) c := by
  have h1 : ∀ i j : Fin p, HasFDerivAt (fun c : Fin p → ℝ => c i * S i j * c j)
      ((c i * S i j) • ContinuousLinearMap.proj (R := ℝ) (φ := fun _ : Fin p => ℝ) j +
        c j • S i j • ContinuousLinearMap.proj (R := ℝ) (φ := fun _ : Fin p => ℝ) i) c := by
    intro i j
    have a := (ContinuousLinearMap.proj (R := ℝ) (φ := fun _ : Fin p => ℝ) i).hasFDerivAt (x := c)
    have b := (ContinuousLinearMap.proj (R := ℝ) (φ := fun _ : Fin p => ℝ) j).hasFDerivAt (x := c)
    exact (a.mul_const (S i j)).mul b
  have h2 := (HasFDerivAt.fun_sum fun i (_ : i ∈ Finset.univ) =>
    HasFDerivAt.fun_sum fun j (_ : j ∈ Finset.univ) => h1 i j).const_mul (1 / 2)
  simp only [quad_eq] at h2
  refine h2.congr_fderiv ?_
  ext v
  rw [lf_apply]
  simp only [_root_.sum_apply, _root_.smul_apply, _root_.add_apply, ContinuousLinearMap.proj_apply, smul_eq_mul]
  simp only [Finset.sum_add_distrib]
  have e1 : ∑ i, ∑ j, c i * S i j * v j = (S *ᵥ c) ⬝ᵥ v := by
    rw [Finset.sum_comm]
    simp only [dotProduct, mulVec, Finset.sum_mul]
    refine Finset.sum_congr rfl fun j _ => Finset.sum_congr rfl fun i _ => ?_
    rw [← hS.apply i j]; ring
  have e2 : ∑ i, ∑ j, c j * (S i j * v i) = (S *ᵥ c) ⬝ᵥ v := by
    simp only [dotProduct, mulVec, Finset.sum_mul]
    exact Finset.sum_congr rfl fun j _ => Finset.sum_congr rfl fun i _ => by ring
  rw [e1, e2]; ring

theorem pllk_grad {x : In p} (hS : x.S.IsSymm) {g c : Fin p → ℝ} (h : HasFlGrad x.llk g c) :
    HasFlGrad (pllk x) (g - x.S *ᵥ c) c := by
  obtain ⟨F, f1, f2⟩ := h
  refine ⟨fun c => F c - 1 / 2 * (c ⬝ᵥ x.S *ᵥ c), ?_, ?_⟩
  · filter_upwards [f1] with c' a
    rw [pllk_eq, a, Fl.fin_sub]
  · refine (f2.sub (quad_fderiv hS c)).congr_fderiv ?_
    ext v
    have : (∑ j, g j • ContinuousLinearMap.proj (R := ℝ) (φ := fun _ : Fin p => ℝ) j) = lf g := rfl
    have e' : (∑ j, (g - x.S *ᵥ c) j • ContinuousLinearMap.proj (R := ℝ) (φ := fun _ : Fin p => ℝ) j) = lf (g - x.S *ᵥ c) := rfl
    rw [this, e', _root_.sub_apply, lf_apply, lf_apply, lf_apply, sub_dotProduct]

/-! ### Proposals -/

/-- What is assumed of the model at `c`: symmetric Hessian and penalty, no zero on the diagonal of the penalised Hessian. -/
structure Reg (x : In p) (c : Fin p → ℝ) : Prop where
  chol : Newton.CholSpec x.chol
  hsym : (x.hess c).IsSymm
  ssym : x.S.IsSymm
  diag : ∀ i, -x.hess c i i + x.S i i ≠ 0

theorem newton_ends {x : In p} {c : Fin p → ℝ} (h : Reg x c) : ∃ o, Newtons x c o := by
  have hs : (Newton.scaled (Newton.negH (x.hess c) x.S)).IsSymm := by
    refine Newton.scaled_symm _ ?_
    unfold Newton.negH IsSymm
    rw [transpose_add, transpose_smul, h.hsym.eq, h.ssym.eq]
  obtain ⟨fuel, r, hr⟩ := Newton.ridge_terminates x.chol h.chol _ hs
  obtain ⟨Lp, Pr, e⟩ := r
  have h1 : (Newton.newton x.chol fuel c (x.grad c) (x.hess c) x.S).isSome := by
    unfold Newton.newton
    dsimp only
    rw [hr]
    rfl
  obtain ⟨o, ho⟩ := Option.isSome_iff_exists.1 h1
  exact ⟨o, fuel, ho⟩

theorem step_newtons {x : In p} {c : Fin p → ℝ} (h : Reg x c) : ∃ o, Newtons x c o ∧ step x c = o.coef ∧ eps x c = o.eps := by
  have := newton_ends h
  refine ⟨this.choose, this.choose_spec, ?_, ?_⟩
  · unfold step; rw [dif_pos this]
  · unfold eps; rw [dif_pos this]

/-- The matrix of the Newton system. -/
noncomputable def sysM (x : In p) (c : Fin p → ℝ) : Matrix (Fin p) (Fin p) ℝ :=
  -x.hess c + x.S + eps x c • diagonal fun i => |-x.hess c i i + x.S i i|

theorem step_solves {x : In p} {c : Fin p → ℝ} (h : Reg x c) :
    0 ≤ eps x c ∧ IsUnit (sysM x c) ∧ sysM x c *ᵥ (step x c - c) = x.grad c - x.S *ᵥ c := by
  obtain ⟨o, ⟨fuel, ho⟩, h1, h2⟩ := step_newtons h
  obtain ⟨a1, a2, a3, -, a5⟩ := Newton.newton_correct x.chol h.chol fuel c _ _ _ h.diag o ho
  have e : sysM x c = o.L * o.Lᵀ := by unfold sysM; rw [h2, a2]
  refine ⟨by rw [h2]; exact a1, ?_, ?_⟩
  · rw [e]; exact IsUnit.of_mul_eq_one_right _ a3
  · rw [h1, a5, add_sub_cancel_left, e, mulVec_mulVec, mul_eq_one_comm.1 a3, one_mulVec]

theorem ridge_bound (chol) (hc : Newton.CholSpec (n := p) chol) (M : Matrix (Fin p) (Fin p) ℝ) (hM : M.IsSymm) :
    ∀ (fuel : ℕ) (e : ℝ) (r), 0 ≤ e → e ≤ 1 / 10 ^ 14 + 2 * ∑ i, ∑ j, |M i j| → Newton.ridge chol M fuel e = some r →
      r.2.2 ≤ 1 / 10 ^ 14 + 2 * ∑ i, ∑ j, |M i j| := by
  intro fuel
  induction fuel with
  | zero => intro e r _ _ h; simp [Newton.ridge] at h
  | succ fuel ih =>
    intro e r he0 he h
    have hB : 0 ≤ ∑ i, ∑ j, |M i j| := Finset.sum_nonneg fun i _ => Finset.sum_nonneg fun j _ => abs_nonneg _
    rw [Newton.ridge] at h
    cases hch : chol (M + e • 1) with
    | none =>
      rw [hch] at h
      dsimp only at h
      have hle : e ≤ ∑ i, ∑ j, |M i j| := by
        by_contra hlt
        have hs : (M + e • (1 : Matrix (Fin p) (Fin p) ℝ)).IsSymm := by
          unfold IsSymm
          rw [transpose_add, transpose_smul, transpose_one, hM.eq]
        have := hc.complete _ hs (Newton.pd_ridge M e (not_le.1 hlt))
        rw [hch] at this
        simp at this
      refine ih _ r ?_ ?_ h
      · unfold Newton.nextEps
        split_ifs <;> positivity
      · unfold Newton.nextEps
        split_ifs with h0
        · rw [h0]; linarith
        · have : (0 : ℝ) ≤ 1 / 10 ^ 14 := by positivity
          linarith
    | some y =>
      rw [hch] at h
      simp only [Option.some.injEq] at h
      subst h
      exact he

theorem eps_bound {x : In p} {c : Fin p → ℝ} (h : Reg x c) :
    eps x c ≤ 1 / 10 ^ 14 + 2 * ∑ i, ∑ j, |Newton.scaled (Newton.negH (x.hess c) x.S) i j| := by
  have hs : (Newton.scaled (Newton.negH (x.hess c) x.S)).IsSymm := by
    refine Newton.scaled_symm _ ?_
    unfold Newton.negH IsSymm
    rw [transpose_add, transpose_smul, h.hsym.eq, h.ssym.eq]
  obtain ⟨o, ⟨fuel, ho⟩, -, h2⟩ := step_newtons h
  rw [h2]
  unfold Newton.newton at ho
  dsimp only at ho
  cases hr : Newton.ridge x.chol (Newton.scaled (Newton.negH (x.hess c) x.S)) fuel 0 with
  | none => rw [hr] at ho; simp at ho
  | some r =>
    obtain ⟨Lp, Pr, e⟩ := r
    rw [hr] at ho
    simp only [Option.some.injEq] at ho
    subst ho
    exact ridge_bound x.chol h.chol _ hs fuel 0 _ le_rfl
      (add_nonneg (by positivity) (mul_nonneg (by norm_num)
        (Finset.sum_nonneg fun i _ => Finset.sum_nonneg fun j _ => abs_nonneg _))) hr

theorem negH_apply (H S : Matrix (Fin p) (Fin p) ℝ) (i j : Fin p) : Newton.negH H S i j = -H i j + S i j := by
  simp [Newton.negH]

theorem scaled_apply (N : Matrix (Fin p) (Fin p) ℝ) (i j : Fin p) :
    Newton.scaled N i j = Newton.dgr N i * N i j * Newton.dgr N j := by
  unfold Newton.scaled
  rw [mul_diagonal, diagonal_mul]

/-- The matrix of the Newton system is bounded near points where the Hessian is continuous and the diagonal does not vanish. -/
theorem sysM_bounded {x : In p} {l : Fin p → ℝ} (hc : Newton.CholSpec x.chol) (hsym : ∀ c, (x.hess c).IsSymm) (hS : x.S.IsSymm)
    (hd : ∀ i, -x.hess l i i + x.S i i ≠ 0) (hcont : ContinuousAt x.hess l) :
    ∃ B : ℝ, ∀ᶠ c in 𝓝 l, Reg x c ∧ ∀ a b, |sysM x c a b| ≤ B := by
  have hent : ∀ i j, ContinuousAt (fun c => x.hess c i j) l := fun i j =>
    (continuousAt_pi.1 (continuousAt_pi.1 hcont i) j)
  have hreg : ∀ᶠ c in 𝓝 l, Reg x c := by
    have : ∀ᶠ c in 𝓝 l, ∀ i, -x.hess c i i + x.S i i ≠ 0 := by
      rw [eventually_all]
      intro i
      exact ((hent i i).neg.add continuousAt_const).eventually_ne (hd i)
    filter_upwards [this] with c h
    exact ⟨hc, hsym c, hS, h⟩
  have hdg : ∀ i, ContinuousAt (fun c => Newton.dgr (Newton.negH (x.hess c) x.S) i) l := by
    intro i
    unfold Newton.dgr
    simp only [negH_apply]
    refine ContinuousAt.rpow_const ((hent i i).neg.add continuousAt_const).abs (Or.inl ?_)
    exact abs_ne_zero.2 (hd i)
  have hsum : ContinuousAt (fun c => ∑ i, ∑ j, |Newton.scaled (Newton.negH (x.hess c) x.S) i j|) l := by
    refine tendsto_finsetSum _ fun i _ => tendsto_finsetSum _ fun j _ => ?_
    simp only [scaled_apply, negH_apply]
    exact (((hdg i).mul ((hent i j).neg.add continuousAt_const)).mul (hdg j)).abs
  set B0 := ∑ i, ∑ j, |Newton.scaled (Newton.negH (x.hess l) x.S) i j| with hB0
  have hb0 : ∀ᶠ c in 𝓝 l, (∑ i, ∑ j, |Newton.scaled (Newton.negH (x.hess c) x.S) i j|) < B0 + 1 :=
    hsum.eventually (gt_mem_nhds (by show B0 < B0 + 1; linarith))
  have hH : ∀ᶠ c in 𝓝 l, ∀ i j, |-x.hess c i j + x.S i j| < |-x.hess l i j + x.S i j| + 1 := by
    rw [eventually_all]; intro i
    rw [eventually_all]; intro j
    exact ((hent i j).neg.add continuousAt_const).abs.eventually (gt_mem_nhds (by simp))
  set T := ∑ i, ∑ j, (|-x.hess l i j + x.S i j| + 1) with hT
  have hTle : ∀ i j, |-x.hess l i j + x.S i j| + 1 ≤ T := by
    intro i j
    calc |-x.hess l i j + x.S i j| + 1
        ≤ ∑ j, (|-x.hess l i j + x.S i j| + 1) := Finset.single_le_sum
          (f := fun j => |-x.hess l i j + x.S i j| + 1) (fun j _ => by positivity) (Finset.mem_univ j)
      _ ≤ T := Finset.single_le_sum (f := fun i => ∑ j, (|-x.hess l i j + x.S i j| + 1))
          (fun i _ => Finset.sum_nonneg fun j _ => by positivity) (Finset.mem_univ i)
  refine ⟨T + (1 / 10 ^ 14 + 2 * (B0 + 1)) * T, ?_⟩
  filter_upwards [hreg, hb0, hH] with c h1 h2 h3
  refine ⟨h1, fun a b => ?_⟩
  have he := eps_bound h1
  have he0 := (step_solves h1).1
  have hB0n : 0 ≤ B0 := Finset.sum_nonneg fun i _ => Finset.sum_nonneg fun j _ => abs_nonneg _
  have hTn : ∀ i j, |-x.hess c i j + x.S i j| ≤ T := fun i j => (h3 i j).le.trans (hTle i j)
  have hT0 : 0 ≤ T := (abs_nonneg _).trans (hTn a b)
  unfold sysM
  have e1 : (-x.hess c + x.S + eps x c • diagonal fun i => |-x.hess c i i + x.S i i|) a b =
      (-x.hess c a b + x.S a b) + eps x c * (diagonal (fun i => |-x.hess c i i + x.S i i|) a b) := rfl
  rw [e1]
  refine (abs_add_le _ _).trans (add_le_add (hTn a b) ?_)
  rw [abs_mul, abs_of_nonneg he0]
  refine mul_le_mul (by linarith) ?_ (abs_nonneg _) (by positivity)
  by_cases hab : a = b
  · subst hab
    rw [diagonal_apply_eq, abs_abs]
    exact hTn a a
  · rw [diagonal_apply_ne _ hab, abs_zero]
    exact hT0

/-! ### Step length control -/

variable {V : Type} [AddCommGroup V] [Module ℝ V]

/-- Coefficients after `j` halvings. -/
noncomputable def half (c d : V) (j : ℕ) : V := c + (1 / 2 ^ j : ℝ) • (d - c)

theorem half_zero (c d : V) : half c d 0 = d := by simp [half]

theorem mid_half (c d : V) (j : ℕ) : mid c (half c d j) = half c d (j + 1) := by
  unfold mid half
  rw [smul_add, smul_add, smul_smul, ← add_assoc, ← add_smul, pow_succ]
  norm_num

theorem mid_self (c : V) : mid c c = c := by
  unfold mid
  rw [smul_add, ← add_smul]
  norm_num

theorem lssLoop_first {E M : Type} (P : Prob V E M) (c d : V) (prev : Fl) : ∀ (left k : ℕ), left + k = 32 →
    (∃ j, k ≤ j ∧ j ≤ 31 ∧ (lssLoop P c prev left k (levalAt P (half c d k))).1 = levalAt P (half c d j) ∧
      (Ge (levalAt P (half c d j)).pen prev ∧ (levalAt P (half c d j)).pen.IsFin) ∧
      ∀ i, k ≤ i → i < j → ¬(Ge (levalAt P (half c d i)).pen prev ∧ (levalAt P (half c d i)).pen.IsFin)) ∨
    ((k = 32 ∨ (lssLoop P c prev left k (levalAt P (half c d k))).1 = levalAt P c) ∧
      ∀ i, k ≤ i → i ≤ 31 → ¬(Ge (levalAt P (half c d i)).pen prev ∧ (levalAt P (half c d i)).pen.IsFin)) := by
  intro left
  induction left with
  | zero => intro k hk; exact Or.inr ⟨Or.inl (by omega), fun i h1 h2 => by omega⟩
  | succ left ih =>
    intro k hk
    rw [lssLoop]
    by_cases hok : Ge (levalAt P (half c d k)).pen prev ∧ (levalAt P (half c d k)).pen.IsFin
    · rw [if_pos hok]
      exact Or.inl ⟨k, le_rfl, by omega, rfl, hok, fun i h1 h2 => by omega⟩
    · rw [if_neg hok]
      by_cases h30 : k > 30
      · have hl : left = 0 := by omega
        subst hl
        simp only [if_pos h30, mid_self, lssLoop]
        refine Or.inr ⟨Or.inr trivial, fun i h1 h2 => ?_⟩
        have : i = k := by omega
        rw [this]; exact hok
      · have hn : (levalAt P (half c d k)).n = half c d k := rfl
        simp only [if_neg h30, hn, mid_half]
        rcases ih (k + 1) (by omega) with ⟨j, j1, j2, j3, j4, j5⟩ | ⟨h1, h2⟩
        · refine Or.inl ⟨j, by omega, j2, j3, j4, fun i i1 i2 => ?_⟩
          rcases i1.lt_or_eq with h | h
          · exact j5 i h i2
          · rw [← h]; exact hok
        · refine Or.inr ⟨Or.inr (h1.resolve_left (by omega)), fun i i1 i2 => ?_⟩
          rcases i1.lt_or_eq with h | h
          · exact h2 i h i2
          · rw [← h]; exact hok

end Verif.Lml
