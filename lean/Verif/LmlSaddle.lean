import Verif.LmlFam
import Mathlib.Tactic.FinCases
import Mathlib.Analysis.Complex.ExponentialBounds

/-!
# A Gaussian location-scale model whose fit is not the maximum (property C125)

Four observations in two groups, a common mean, one standard deviation per group.
-/

namespace Verif.Lml
open Verif Matrix Filter Topology Step Coef

/-! ### Derivatives of the Gaussian family with identity and log links -/

noncomputable abbrev gau : EtaBeta.LFam 2 := EtaBeta.gauFam ![.identity, .log]

theorem gau_mus (e : Fin 2 → ℝ) : EtaBeta.musOf gau e = ![e 0, Real.exp (e 1)] := by
  funext k
  rw [EtaBeta.musOf_eq]
  fin_cases k <;> rfl

theorem gau_dy (e : Fin 2 → ℝ) :
    (gau.links 0).dy1 (.fin (EtaBeta.musOf gau e 0)) = .fin 1 ∧ (gau.links 0).dy2 (.fin (EtaBeta.musOf gau e 0)) = .fin 0 ∧
    (gau.links 1).dy1 (.fin (EtaBeta.musOf gau e 1)) = .fin (1 / Real.exp (e 1)) ∧
    (gau.links 1).dy2 (.fin (EtaBeta.musOf gau e 1)) = .fin (-1 / Real.exp (e 1) ^ 2) := by
  refine ⟨?_, ?_, ?_, ?_⟩
  · rw [Fam.d1_eq (EtaBeta.mu_dom gau e 0)]; rfl
  · rw [Fam.d2_eq (EtaBeta.mu_dom gau e 0)]; rfl
  · rw [Fam.d1_eq (EtaBeta.mu_dom gau e 1), gau_mus]; rfl
  · rw [Fam.d2_eq (EtaBeta.mu_dom gau e 1), gau_mus]; show Fl.fin (Fam.LinkKind.d2R .log _) = _; simp [Fam.LinkKind.d2R]; try ring

theorem fr_get {K : ℕ} (f : Fin K → Fl) (k : Fin K) : ((List.finRange K).map f)[k.val]? = some (f k) := by
  rw [List.getElem?_map, List.getElem?_eq_getElem (by simp)]
  simp

theorem exp_m2 (x : ℝ) : Real.exp (-(2 * x)) = 1 / Real.exp x ^ 2 := by
  rw [← Real.exp_nat_mul, one_div, ← Real.exp_neg]
  congr 1

theorem gau_d1 (y : ℝ) (e : Fin 2 → ℝ) (k : Fin 2) : (EtaBeta.etaDerivs gau y (EtaBeta.musOf gau e)).1[k.val]? =
    some (.fin (if k = 0 then (y - e 0) * Real.exp (-2 * e 1) else (y - e 0) ^ 2 * Real.exp (-2 * e 1) - 1)) := by
  have hd : gau.dEta = false := rfl
  obtain ⟨a1, a2, a3, a4⟩ := gau_dy e
  have hp := Real.exp_pos (e 1)
  simp only [EtaBeta.etaDerivs, hd, Bool.false_eq_true, if_false]
  rw [fr_get]
  unfold EtaBeta.d1eta
  fin_cases k
  · show some (Fl.clean (_ / (gau.links 0).dy1 (.fin (EtaBeta.musOf gau e 0)))) = _
    rw [a1]
    show some (Fl.clean (Fl.fin (Lss.gauD1mu y (EtaBeta.musOf gau e 0) (EtaBeta.musOf gau e 1)) / _)) = _
    rw [Fl.fin_div one_ne_zero, Fl.clean_fin, gau_mus]
    unfold Lss.gauD1mu
    simp [exp_m2]
    field_simp
  · show some (Fl.clean (_ / (gau.links 1).dy1 (.fin (EtaBeta.musOf gau e 1)))) = _
    rw [a3]
    show some (Fl.clean (Fl.fin (Lss.gauD1sigma y (EtaBeta.musOf gau e 0) (EtaBeta.musOf gau e 1)) / _)) = _
    rw [Fl.fin_div (by positivity), Fl.clean_fin, gau_mus]
    unfold Lss.gauD1sigma
    simp [exp_m2]
    field_simp

theorem gau_d2 (y : ℝ) (e : Fin 2 → ℝ) (k : Fin 2) : (EtaBeta.etaDerivs gau y (EtaBeta.musOf gau e)).2.1[k.val]? =
    some (.fin (if k = 0 then -Real.exp (-2 * e 1) else (y - e 0) ^ 2 * Real.exp (-2 * e 1) - 3)) := by
  have hd : gau.dEta = false := rfl
  obtain ⟨a1, a2, a3, a4⟩ := gau_dy e
  have hp := Real.exp_pos (e 1)
  simp only [EtaBeta.etaDerivs, hd, Bool.false_eq_true, if_false]
  rw [fr_get]
  unfold EtaBeta.d2eta
  fin_cases k
  · show some (Fl.clean (Fl.fin (Lss.gauD2mu y (EtaBeta.musOf gau e 0) (EtaBeta.musOf gau e 1)) /
      Fl.pow ((gau.links 0).dy1 (.fin (EtaBeta.musOf gau e 0))) 2 -
      Fl.fin (Lss.gauD1mu y (EtaBeta.musOf gau e 0) (EtaBeta.musOf gau e 1)) * (gau.links 0).dy2 (.fin (EtaBeta.musOf gau e 0)) /
      Fl.pow ((gau.links 0).dy1 (.fin (EtaBeta.musOf gau e 0))) 3)) = _
    rw [a1, a2, Fl.pow_fin, Fl.pow_fin, Fl.fin_mul, Fl.fin_div (by positivity), Fl.fin_div (by positivity), Fl.fin_sub, Fl.clean_fin, gau_mus]
    unfold Lss.gauD1mu Lss.gauD2mu
    simp [exp_m2]
  · show some (Fl.clean (Fl.fin (Lss.gauD2sigma y (EtaBeta.musOf gau e 0) (EtaBeta.musOf gau e 1)) /
      Fl.pow ((gau.links 1).dy1 (.fin (EtaBeta.musOf gau e 1))) 2 -
      Fl.fin (Lss.gauD1sigma y (EtaBeta.musOf gau e 0) (EtaBeta.musOf gau e 1)) * (gau.links 1).dy2 (.fin (EtaBeta.musOf gau e 1)) /
      Fl.pow ((gau.links 1).dy1 (.fin (EtaBeta.musOf gau e 1))) 3)) = _
    rw [a3, a4, Fl.pow_fin, Fl.pow_fin, Fl.fin_mul, Fl.fin_div (by positivity), Fl.fin_div (by positivity), Fl.fin_sub, Fl.clean_fin, gau_mus]
    unfold Lss.gauD1sigma Lss.gauD2sigma
    simp [exp_m2]
    field_simp
    ring

theorem gau_d2m (y : ℝ) (e : Fin 2 → ℝ) : (EtaBeta.etaDerivs gau y (EtaBeta.musOf gau e)).2.2[EtaBeta.posn 2 0 1]? = some (.fin 0) := by
  have hd : gau.dEta = false := rfl
  obtain ⟨a1, a2, a3, a4⟩ := gau_dy e
  have hp := Real.exp_pos (e 1)
  simp only [EtaBeta.etaDerivs, hd, Bool.false_eq_true, if_false]
  have := EtaBeta.d2meta_get gau y (EtaBeta.musOf gau e) (i := 0) (j := 1) (by decide)
  refine this.trans ?_
  unfold EtaBeta.d2em
  rw [a1, a3]
  show some (Fl.clean (Fl.fin 0 * _ * _)) = _
  rw [Fl.fin_div one_ne_zero, Fl.fin_div (by positivity), Fl.fin_mul, Fl.fin_mul, Fl.clean_fin]
  simp

/-! ### The data -/

/-- One coefficient for the mean, two for the standard deviation. -/
def w3 (l : ℕ) : ℕ := l + 1

/-- Intercept for the mean, group indicators for the standard deviation. -/
def X4 (k : ℕ) (o : Fin 4) (c : ℕ) : ℝ := if k = 0 then 1 else if o.val / 2 = c then 1 else 0

/-- Group means −1 and 1. -/
noncomputable def y4 : Fin 4 → ℝ := ![-3 / 2, -1 / 2, 1 / 2, 3 / 2]

abbrev C3 : Type := Fin (∑ l ∈ Finset.range 2, w3 l) → ℝ

/-- The coefficients: mean, log standard deviations. -/
abbrev iM : Fin (∑ l ∈ Finset.range 2, w3 l) := at' (K := 2) w3 ⟨0, ⟨0, by decide⟩⟩
abbrev iA : Fin (∑ l ∈ Finset.range 2, w3 l) := at' (K := 2) w3 ⟨1, ⟨0, by decide⟩⟩
abbrev iB : Fin (∑ l ∈ Finset.range 2, w3 l) := at' (K := 2) w3 ⟨1, ⟨1, by decide⟩⟩

theorem i_cases (i : Fin (∑ l ∈ Finset.range 2, w3 l)) : i = iM ∨ i = iA ∨ i = iB := by
  revert i
  decide

variable {stored : ℕ → ℕ → ℕ → List ℕ}
  {chol : Matrix (Fin (∑ l ∈ Finset.range 2, w3 l)) (Fin (∑ l ∈ Finset.range 2, w3 l)) ℝ →
      Option (Matrix (Fin (∑ l ∈ Finset.range 2, w3 l)) (Fin (∑ l ∈ Finset.range 2, w3 l)) ℝ ×
        Equiv.Perm (Fin (∑ l ∈ Finset.range 2, w3 l)))}
  {noise : ℕ → C3}

/-- The model without penalty. -/
noncomputable abbrev M4 (stored : ℕ → ℕ → ℕ → List ℕ)
  (chol : Matrix (Fin (∑ l ∈ Finset.range 2, w3 l)) (Fin (∑ l ∈ Finset.range 2, w3 l)) ℝ →
      Option (Matrix (Fin (∑ l ∈ Finset.range 2, w3 l)) (Fin (∑ l ∈ Finset.range 2, w3 l)) ℝ ×
        Equiv.Perm (Fin (∑ l ∈ Finset.range 2, w3 l))))
  (noise : ℕ → C3) : In (∑ l ∈ Finset.range 2, w3 l) := lssIn gau w3 X4 y4 stored 0 chol noise

theorem eta4 (c : C3) (o : Fin 4) : EtaBeta.etaOf w3 X4 (blk w3 c) o =
    ![c iM, if o.val / 2 = 0 then c iA else c iB] := by
  funext k
  fin_cases k
  · show ∑ a : Fin 1, _ = _
    simp [X4]
    rfl
  · show ∑ a : Fin 2, _ = _
    rw [Fin.sum_univ_two]
    fin_cases o <;> simp [X4] <;> rfl

/-- Log-likelihood, gradient and Hessian. -/
theorem llk4 (c : C3) : (M4 stored chol noise).llk c = .fin (-4 * Real.log (Real.sqrt (2 * Real.pi)) - 2 * c iA - 2 * c iB -
    (5 / 4 + 2 * c iM + c iM ^ 2) * Real.exp (-(2 * c iA)) - (5 / 4 - 2 * c iM + c iM ^ 2) * Real.exp (-(2 * c iB))) := by
  show Fl.fin (∑ o, Lss.gauLp (y4 o) (EtaBeta.musOf gau (EtaBeta.etaOf w3 X4 (blk w3 c) o) 0)
    (EtaBeta.musOf gau (EtaBeta.etaOf w3 X4 (blk w3 c) o) 1)) = _
  rw [Fl.fin_inj]
  simp only [gau_mus, eta4]
  have hA := Real.exp_pos (c iA)
  have hB := Real.exp_pos (c iB)
  rw [Fin.sum_univ_four, exp_m2, exp_m2]
  simp [y4, Lss.gauLp_eq hA, Lss.gauLp_eq hB]
  field_simp
  ring

theorem grad4 (c : C3) :
    (M4 stored chol noise).grad c iM = (-2 - 2 * c iM) * Real.exp (-(2 * c iA)) + (2 - 2 * c iM) * Real.exp (-(2 * c iB)) ∧
    (M4 stored chol noise).grad c iA = 2 * (5 / 4 + 2 * c iM + c iM ^ 2) * Real.exp (-(2 * c iA)) - 2 ∧
    (M4 stored chol noise).grad c iB = 2 * (5 / 4 - 2 * c iM + c iM ^ 2) * Real.exp (-(2 * c iB)) - 2 := by
  have hg := fun q => EtaBeta.gradient_get gau w3 X4 y4 (blk w3 c) _ (fun o k => gau_d1 (y4 o) (EtaBeta.etaOf w3 X4 (blk w3 c) o) k) q
  have hv : ∀ q, (M4 stored chol noise).grad c (at' w3 q) = _ := fun q => by
    show (EtaBeta.gradient gau w3 X4 y4 (blk w3 c)).getD (EtaBeta.pos w3 q) 0 = _
    rw [List.getD_eq_getElem?_getD, hg q]
  refine ⟨?_, ?_, ?_⟩
  · rw [hv, Fin.sum_univ_four]
    simp only [eta4]
    simp [X4, y4]
    ring
  · rw [hv, Fin.sum_univ_four]
    simp only [eta4]
    simp [X4, y4]
    ring
  · rw [hv, Fin.sum_univ_four]
    simp only [eta4]
    simp [X4, y4]
    ring

theorem hess4 (hst : Holds gau w3 X4 y4 stored) (c : C3) :
    (M4 stored chol noise).hess c iM iM = -2 * Real.exp (-(2 * c iA)) - 2 * Real.exp (-(2 * c iB)) ∧
    (M4 stored chol noise).hess c iA iA = 2 * (5 / 4 + 2 * c iM + c iM ^ 2) * Real.exp (-(2 * c iA)) - 6 ∧
    (M4 stored chol noise).hess c iB iB = 2 * (5 / 4 - 2 * c iM + c iM ^ 2) * Real.exp (-(2 * c iB)) - 6 ∧
    (M4 stored chol noise).hess c iM iA = 0 ∧ (M4 stored chol noise).hess c iA iM = 0 ∧
    (M4 stored chol noise).hess c iM iB = 0 ∧ (M4 stored chol noise).hess c iB iM = 0 ∧
    (M4 stored chol noise).hess c iA iB = 0 ∧ (M4 stored chol noise).hess c iB iA = 0 := by
  have H := hst (blk w3 c)
  set d2e := EtaBeta.obsList 2 fun o => (EtaBeta.etaDerivs gau (y4 o) (EtaBeta.musOf gau (EtaBeta.etaOf w3 X4 (blk w3 c) o))).2.1 with hd2e
  set d2m := EtaBeta.obsList (2 * (2 - 1) / 2) fun o =>
    (EtaBeta.etaDerivs gau (y4 o) (EtaBeta.musOf gau (EtaBeta.etaOf w3 X4 (blk w3 c) o))).2.2 with hd2m
  have h0 : ∀ o, EtaBeta.D d2e d2m 2 0 0 o = -Real.exp (-2 * (EtaBeta.etaOf w3 X4 (blk w3 c) o) 1) := fun o => by
    show (((EtaBeta.etaDerivs gau (y4 o) (EtaBeta.musOf gau (EtaBeta.etaOf w3 X4 (blk w3 c) o))).2.1).getD (0 : Fin 2).val .nan).val = _
    rw [List.getD_eq_getElem?_getD, gau_d2]
    rfl
  have h1 : ∀ o, EtaBeta.D d2e d2m 2 1 1 o = (y4 o - (EtaBeta.etaOf w3 X4 (blk w3 c) o) 0) ^ 2 *
      Real.exp (-2 * (EtaBeta.etaOf w3 X4 (blk w3 c) o) 1) - 3 := fun o => by
    show (((EtaBeta.etaDerivs gau (y4 o) (EtaBeta.musOf gau (EtaBeta.etaOf w3 X4 (blk w3 c) o))).2.1).getD (1 : Fin 2).val .nan).val = _
    rw [List.getD_eq_getElem?_getD, gau_d2]
    rfl
  have h2 : ∀ o, EtaBeta.D d2e d2m 2 0 1 o = 0 := fun o => by
    show (((EtaBeta.etaDerivs gau (y4 o) (EtaBeta.musOf gau (EtaBeta.etaOf w3 X4 (blk w3 c) o))).2.2).getD (EtaBeta.posn 2 0 1) .nan).val = _
    rw [List.getD_eq_getElem?_getD, gau_d2m]
    rfl
  have E := fun {i j a b : ℕ} (hij : i ≤ j) (hj : j < 2) (ha : a < w3 i) (hb : b < w3 j) => EtaBeta.hess_entry_le H hij hj ha hb
  refine ⟨(E (i := 0) (j := 0) (a := 0) (b := 0) (by decide) (by decide) (by decide) (by decide)).1.trans ?_,
    (E (i := 1) (j := 1) (a := 0) (b := 0) (by decide) (by decide) (by decide) (by decide)).1.trans ?_,
    (E (i := 1) (j := 1) (a := 1) (b := 1) (by decide) (by decide) (by decide) (by decide)).1.trans ?_,
    (E (i := 0) (j := 1) (a := 0) (b := 0) (by decide) (by decide) (by decide) (by decide)).1.trans ?_,
    (E (i := 0) (j := 1) (a := 0) (b := 0) (by decide) (by decide) (by decide) (by decide)).2.trans ?_,
    (E (i := 0) (j := 1) (a := 0) (b := 1) (by decide) (by decide) (by decide) (by decide)).1.trans ?_,
    (E (i := 0) (j := 1) (a := 0) (b := 1) (by decide) (by decide) (by decide) (by decide)).2.trans ?_,
    (E (i := 1) (j := 1) (a := 0) (b := 1) (by decide) (by decide) (by decide) (by decide)).1.trans ?_,
    (E (i := 1) (j := 1) (a := 0) (b := 1) (by decide) (by decide) (by decide) (by decide)).2.trans ?_⟩
  · rw [Fin.sum_univ_four]; simp only [h0, eta4]; simp [X4]; ring
  · rw [Fin.sum_univ_four]; simp only [h1, eta4]; simp [X4, y4]; ring
  · rw [Fin.sum_univ_four]; simp only [h1, eta4]; simp [X4, y4]; ring
  · simp [h2]
  · simp [h2]
  · simp [h2]
  · simp [h2]
  · rw [Fin.sum_univ_four]; simp [X4]
  · rw [Fin.sum_univ_four]; simp [X4]

/-! ### Iterations -/

theorem hess_diag (hst : Holds gau w3 X4 y4 stored) (c : C3) :
    (M4 stored chol noise).hess c = diagonal fun i => (M4 stored chol noise).hess c i i := by
  obtain ⟨-, -, -, h4, h5, h6, h7, h8, h9⟩ := hess4 (chol := chol) (noise := noise) hst c
  ext i j
  by_cases hij : i = j
  · subst hij; rw [diagonal_apply_eq]
  · rw [diagonal_apply_ne _ hij]
    rcases i_cases i with rfl | rfl | rfl <;> rcases i_cases j with rfl | rfl | rfl <;> first | exact absurd rfl hij | assumption

/-- Mean zero, equal standard deviations not below their best value. -/
def Sym (c : C3) : Prop := c iM = 0 ∧ c iA = c iB ∧ 5 / 4 * Real.exp (-(2 * c iA)) ≤ 1

theorem sym_reg (hst : Holds gau w3 X4 y4 stored) (hc : Newton.CholSpec chol) {c : C3} (h : Sym c) : Reg (M4 stored chol noise) c := by
  obtain ⟨h1, h2, h3⟩ := h
  obtain ⟨a, b, d, -⟩ := hess4 (chol := chol) (noise := noise) hst c
  have hA := Real.exp_pos (-(2 * c iA))
  refine ⟨hc, ?_, ?_, fun i => ?_⟩
  · rw [hess_diag hst]; exact isSymm_diagonal _
  · exact isSymm_zero
  · show -(M4 stored chol noise).hess c i i + 0 ≠ 0
    rw [← h2] at a d
    rw [h1] at b d
    rcases i_cases i with rfl | rfl | rfl
    · rw [a]; intro h0; linarith
    · rw [b]; intro h0; linarith
    · rw [d]; intro h0; linarith

theorem sym_step (hst : Holds gau w3 X4 y4 stored) (hc : Newton.CholSpec chol) {c : C3} (h : Sym c) :
    ∃ e : ℝ, 0 ≤ e ∧ step (M4 stored chol noise) c iM - c iM = 0 ∧ ∀ i, i = iA ∨ i = iB →
      (3 - 5 / 4 * Real.exp (-(2 * c iA))) * (1 + e) * (step (M4 stored chol noise) c i - c i) = 5 / 4 * Real.exp (-(2 * c iA)) - 1 := by
  obtain ⟨e0, -, e2⟩ := step_solves (sym_reg (noise := noise) hst hc h)
  refine ⟨_, e0, ?_⟩
  obtain ⟨h1, h2, h3⟩ := h
  obtain ⟨a, b, d, -⟩ := hess4 (chol := chol) (noise := noise) hst c
  obtain ⟨g1, g2, g3⟩ := grad4 (stored := stored) (chol := chol) (noise := noise) c
  have hA := Real.exp_pos (-(2 * c iA))
  rw [← h2, h1] at g1 g3
  rw [h1] at g2 b
  rw [← h2] at a d
  rw [h1] at d
  have hrow : ∀ i, (-(M4 stored chol noise).hess c i i + eps (M4 stored chol noise) c * |(-(M4 stored chol noise).hess c i i)|) *
      (step (M4 stored chol noise) c i - c i) = (M4 stored chol noise).grad c i := by
    intro i
    have := congrFun e2 i
    have hs : sysM (M4 stored chol noise) c = diagonal fun i => -(M4 stored chol noise).hess c i i +
        eps (M4 stored chol noise) c * |(-(M4 stored chol noise).hess c i i)| := by
      have hS : (M4 stored chol noise).S = 0 := rfl
      unfold sysM
      rw [hS]
      ext i j
      by_cases hij : i = j
      · subst hij
        simp [smul_eq_mul]
      · rw [diagonal_apply_ne _ hij]
        have hd := congrFun (congrFun (hess_diag (chol := chol) (noise := noise) hst c) i) j
        rw [diagonal_apply_ne _ hij] at hd
        simp [hij, hd]
    rw [hs, mulVec_diagonal] at this
    rw [Pi.sub_apply] at this
    rw [this]
    show (M4 stored chol noise).grad c i - ((0 : Matrix _ _ ℝ) *ᵥ c) i = _
    rw [zero_mulVec, Pi.zero_apply, sub_zero]
  refine ⟨?_, ?_⟩
  · have := hrow iM
    rw [a, g1, abs_of_pos (by linarith)] at this
    have hz : (-(-2 * Real.exp (-(2 * c iA)) - 2 * Real.exp (-(2 * c iA))) + eps (M4 stored chol noise) c *
        (-(-2 * Real.exp (-(2 * c iA)) - 2 * Real.exp (-(2 * c iA))))) * (step (M4 stored chol noise) c iM - c iM) = 0 := by
      rw [this]; ring
    refine (mul_eq_zero.1 hz).resolve_left (ne_of_gt ?_)
    have : 0 ≤ eps (M4 stored chol noise) c * Real.exp (-(2 * c iA)) := mul_nonneg e0 hA.le
    nlinarith
  · rintro i (rfl | rfl)
    · have := hrow iA
      rw [b, g2, abs_of_pos (by linarith)] at this
      linarith
    · have := hrow iB
      rw [d, g3, abs_of_pos (by linarith)] at this
      linarith

theorem sym_half (hst : Holds gau w3 X4 y4 stored) (hc : Newton.CholSpec chol) {c : C3} (h : Sym c) (j : ℕ) :
    Sym (half c (step (M4 stored chol noise) c) j) := by
  obtain ⟨e, e0, s1, s2⟩ := sym_step (noise := noise) hst hc h
  obtain ⟨h1, h2, h3⟩ := h
  have hA := Real.exp_pos (-(2 * c iA))
  have hv : ∀ i, half c (step (M4 stored chol noise) c) j i = c i + (1 / 2 ^ j : ℝ) * (step (M4 stored chol noise) c i - c i) := fun _ => rfl
  set u := 5 / 4 * Real.exp (-(2 * c iA)) with hu
  have hD : 0 < (3 - u) * (1 + e) := mul_pos (by linarith) (by linarith)
  have hD2 : 2 ≤ (3 - u) * (1 + e) := by nlinarith
  have sA := s2 iA (Or.inl rfl)
  have sB := s2 iB (Or.inr rfl)
  have eA : step (M4 stored chol noise) c iA - c iA = -((1 - u) / ((3 - u) * (1 + e))) := by
    rw [← neg_div, eq_div_iff hD.ne']
    linarith
  have eB : step (M4 stored chol noise) c iB - c iB = -((1 - u) / ((3 - u) * (1 + e))) := by
    rw [← neg_div, eq_div_iff hD.ne']
    linarith
  have ht0 : (0 : ℝ) ≤ 1 / 2 ^ j := by positivity
  have ht1 : (1 / 2 ^ j : ℝ) ≤ 1 := by
    rw [div_le_one (by positivity)]
    exact one_le_pow₀ (by norm_num)
  refine ⟨?_, ?_, ?_⟩
  · rw [hv, s1, h1, mul_zero, add_zero]
  · rw [hv, hv, eA, eB, h2]
  · rw [hv, eA]
    have hq : 2 * ((1 / 2 ^ j : ℝ) * ((1 - u) / ((3 - u) * (1 + e)))) ≤ 1 - u := by
      have q0 : (1 - u) / ((3 - u) * (1 + e)) ≤ (1 - u) / 2 := div_le_div_of_nonneg_left (by linarith) (by norm_num) hD2
      have q1 : 0 ≤ (1 - u) / ((3 - u) * (1 + e)) := div_nonneg (by linarith) hD.le
      have q2 := mul_le_mul_of_nonneg_right ht1 q1
      linarith
    have e1 : Real.exp (-(2 * (c iA + (1 / 2 ^ j : ℝ) * -((1 - u) / ((3 - u) * (1 + e)))))) =
        Real.exp (-(2 * c iA)) * Real.exp (2 * ((1 / 2 ^ j : ℝ) * ((1 - u) / ((3 - u) * (1 + e))))) := by
      rw [← Real.exp_add]; congr 1; ring
    rw [e1, ← mul_assoc, ← hu]
    have e2 := Real.exp_le_exp.2 hq
    have e3 := Real.add_one_le_exp (u - 1)
    have e4 : Real.exp (u - 1) * Real.exp (1 - u) = 1 := by rw [← Real.exp_add]; simp
    have hu0 : 0 < u := by positivity
    calc u * Real.exp (2 * ((1 / 2 ^ j : ℝ) * ((1 - u) / ((3 - u) * (1 + e))))) ≤ u * Real.exp (1 - u) :=
          mul_le_mul_of_nonneg_left e2 hu0.le
      _ ≤ Real.exp (u - 1) * Real.exp (1 - u) := mul_le_mul_of_nonneg_right (by linarith) (Real.exp_pos _).le
      _ = 1 := e4

theorem pllk4 (c : C3) : pllk (M4 stored chol noise) c = (M4 stored chol noise).llk c := by
  rw [pllk_eq, llk4]
  have : c ⬝ᵥ (M4 stored chol noise).S *ᵥ c = 0 := by
    show c ⬝ᵥ (0 : Matrix _ _ ℝ) *ᵥ c = 0
    simp
  rw [this, mul_zero, Fl.fin_sub, sub_zero]

theorem calm4 (C : Cfg) (hg : C.grad = false) : Calm C (ext (M4 stored chol noise)) := by
  refine ⟨fun hh => ?_, fun _ => ?_⟩
  · rw [hg] at hh; exact absurd hh.1 (by decide)
  · split_ifs
    · exact fun c a => trivial
    · exact fun c => trivial

theorem sym_iter (hst : Holds gau w3 X4 y4 stored) (hc : Newton.CholSpec chol) (C : Cfg) (hg : C.grad = false) {c : C3} (h : Sym c) (k : ℕ) :
    Sym (iter C (M4 stored chol noise) c k).coef := by
  induction k with
  | zero => exact h
  | succ k ih =>
    have hp : proposal C (ext (M4 stored chol noise)) (iter C (M4 stored chol noise) c k) =
        step (M4 stored chol noise) (iter C (M4 stored chol noise) c k).coef := by
      unfold proposal
      rw [hg]
      rfl
    have hu := llk4 (stored := stored) (chol := chol) (noise := noise) (iter C (M4 stored chol noise) c k).coef
    rw [← pllk4] at hu
    rcases round_cases C (calm4 C hg) k (iter C (M4 stored chol noise) c k) (own_iter C _ c k) hu with ⟨j, -, h2, -⟩ | ⟨h1, -⟩
    · show Sym (Coef.round _ _ _ _).coef
      rw [h2, hp]
      exact sym_half hst hc ih j
    · show Sym (Coef.round _ _ _ _).coef
      rw [h1]
      exact ih

theorem log_sd (x : ℝ) (hx : 0 < x) : Real.exp (-(2 * (1 / 2 * Real.log x))) = 1 / x := by
  rw [show -(2 * (1 / 2 * Real.log x)) = -Real.log x by ring, Real.exp_neg, Real.exp_log hx, one_div]

/-- Coefficients from mean and variances. -/
noncomputable def pt (m a b : ℝ) : C3 := fun i => if i = iM then m else if i = iA then 1 / 2 * Real.log a else 1 / 2 * Real.log b

theorem pt_M (m a b : ℝ) : pt m a b iM = m := if_pos rfl
theorem pt_A (m a b : ℝ) : pt m a b iA = 1 / 2 * Real.log a := by
  unfold pt; rw [if_neg (by decide), if_pos rfl]
theorem pt_B (m a b : ℝ) : pt m a b iB = 1 / 2 * Real.log b := by
  unfold pt; rw [if_neg (by decide), if_neg (by decide)]

theorem pllk_pt (m : ℝ) {a b : ℝ} (ha : 0 < a) (hb : 0 < b) : pllk (M4 stored chol noise) (pt m a b) =
    .fin (-4 * Real.log (Real.sqrt (2 * Real.pi)) - Real.log a - Real.log b - (5 / 4 + 2 * m + m ^ 2) / a - (5 / 4 - 2 * m + m ^ 2) / b) := by
  rw [pllk4, llk4, pt_M, pt_A, pt_B, log_sd _ ha, log_sd _ hb]
  congr 1
  ring

/-- **C125** (fails without concavity).  Four observations −3/2, −1/2 | 1/2, 3/2, a common mean, one standard deviation per group, no
penalty, Newton's method from the default start of `GAUMLSS` (mean model's coefficient 0, ones for the standard deviation): whatever
the number of iterations, the mean stays at 0 and the standard deviations equal, and the log-likelihood stays at least log (25/17)
below that of other coefficients. -/
theorem default_start_wrong (hst : Holds gau w3 X4 y4 stored) (hc : Newton.CholSpec chol) (C : Cfg) (hg : C.grad = false) (left : ℕ) :
    let r := (phase C (ext (M4 stored chol noise)) left 0 (start (M4 stored chol noise) fun i => if i = iM then 0 else 1)).1.coef
    r iM = 0 ∧ r iA = r iB ∧ ∃ d u v, pllk (M4 stored chol noise) r = Fl.fin u ∧ pllk (M4 stored chol noise) d = Fl.fin v ∧
      u + Real.log (25 / 17) ≤ v := by
  intro r
  have h0 : Sym fun i => if i = iM then (0 : ℝ) else 1 := by
    refine ⟨if_pos rfl, ?_, ?_⟩
    · show (if iA = iM then (0 : ℝ) else 1) = if iB = iM then 0 else 1
      rw [if_neg (by decide), if_neg (by decide)]
    · show 5 / 4 * Real.exp (-(2 * if iA = iM then (0 : ℝ) else 1)) ≤ 1
      rw [if_neg (by decide), mul_one, Real.exp_neg]
      have h1 := Real.add_one_le_exp (2 : ℝ)
      have h2 := inv_anti₀ (show (0 : ℝ) < 3 by norm_num) (by linarith : (3 : ℝ) ≤ Real.exp 2)
      linarith
  obtain ⟨k, -, hk, -⟩ := returned_is_iterate C (M4 stored chol noise) (fun i => if i = iM then (0 : ℝ) else 1) left
  have hr : Sym r := by
    show Sym (phase C _ left 0 _).1.coef
    rw [hk]
    exact sym_iter hst hc C hg h0 k
  obtain ⟨h1, h2, h3⟩ := hr
  have hu := llk4 (stored := stored) (chol := chol) (noise := noise) r
  rw [← pllk4, ← h2, h1] at hu
  refine ⟨h1, h2, pt 1 (17 / 4) (1 / 4), _, _, hu, pllk_pt 1 (by norm_num) (by norm_num), ?_⟩
  have hA := Real.exp_pos (-(2 * r iA))
  have l1 := Real.log_le_sub_one_of_pos (show 0 < 5 / 4 * Real.exp (-(2 * r iA)) by positivity)
  rw [Real.log_mul (by norm_num) hA.ne', Real.log_exp] at l1
  have l2 : Real.log (25 / 17) + Real.log (17 / 4) + Real.log (1 / 4) = 2 * Real.log (5 / 4) := by
    rw [← Real.log_mul (by norm_num) (by norm_num), ← Real.log_mul (by norm_num) (by norm_num),
      show (2 : ℝ) * Real.log (5 / 4) = Real.log (5 / 4) + Real.log (5 / 4) by ring, ← Real.log_mul (by norm_num) (by norm_num)]
    norm_num
  norm_num at l1 l2 ⊢
  linarith

/-- **C125** (fails without concavity).  In the same model there are coefficients that Newton's method never leaves, although coefficients
arbitrarily close to them have a greater log-likelihood. -/
theorem fixed_not_max_wrong (hst : Holds gau w3 X4 y4 stored) (hc : Newton.CholSpec chol) :
    ∃ c, HasFlGrad (pllk (M4 stored chol noise)) 0 c ∧ (∀ C : Cfg, C.grad = false → ∀ k, (iter C (M4 stored chol noise) c k).coef = c) ∧
      ∃ᶠ d in 𝓝 c, ∃ u v, pllk (M4 stored chol noise) c = Fl.fin u ∧ pllk (M4 stored chol noise) d = Fl.fin v ∧ u < v := by
  have hs : Sym (pt 0 (5 / 4) (5 / 4)) := by
    refine ⟨pt_M _ _ _, by rw [pt_A, pt_B], ?_⟩
    rw [pt_A, log_sd _ (by norm_num)]
    norm_num
  have hreg := sym_reg (noise := noise) hst hc hs
  have hl : HasFlGrad (M4 stored chol noise).llk ((M4 stored chol noise).grad (pt 0 (5 / 4) (5 / 4))) (pt 0 (5 / 4) (5 / 4)) :=
    lss_grad fun o => EtaBeta.gau_grad _ _ _ (by rw [gau_mus]; exact Real.exp_pos _)
  have h0 : HasFlGrad (pllk (M4 stored chol noise)) 0 (pt 0 (5 / 4) (5 / 4)) := by
    have := pllk_grad (x := M4 stored chol noise) isSymm_zero hl
    have e : (M4 stored chol noise).grad (pt 0 (5 / 4) (5 / 4)) - (M4 stored chol noise).S *ᵥ (pt 0 (5 / 4) (5 / 4)) = 0 := by
      obtain ⟨g1, g2, g3⟩ := grad4 (stored := stored) (chol := chol) (noise := noise) (pt 0 (5 / 4) (5 / 4))
      rw [pt_M, pt_A, pt_B, log_sd _ (by norm_num)] at g1
      rw [pt_M, pt_A, log_sd _ (by norm_num)] at g2
      rw [pt_M, pt_B, log_sd _ (by norm_num)] at g3
      show (M4 stored chol noise).grad _ - (0 : Matrix _ _ ℝ) *ᵥ _ = 0
      rw [zero_mulVec, sub_zero]
      funext i
      rcases i_cases i with rfl | rfl | rfl
      · rw [g1]; norm_num
      · rw [g2]; norm_num
      · rw [g3]; norm_num
    rw [e] at this
    exact this
  have hst' := (fixed_iff_stationary hreg hl).2 h0
  refine ⟨_, h0, fun C hg k => ?_, ?_⟩
  · induction k with
    | zero => rfl
    | succ k ih =>
      have hu := llk4 (stored := stored) (chol := chol) (noise := noise) (iter C (M4 stored chol noise) (pt 0 (5 / 4) (5 / 4)) k).coef
      rw [← pllk4] at hu
      have hp : proposal C (ext (M4 stored chol noise)) (iter C (M4 stored chol noise) (pt 0 (5 / 4) (5 / 4)) k) = pt 0 (5 / 4) (5 / 4) := by
        unfold proposal
        rw [hg, ih]
        exact hst'
      show (Coef.round _ _ _ _).coef = _
      rcases round_cases C (calm4 C hg) k _ (own_iter C _ _ k) hu with ⟨j, -, h2, -⟩ | ⟨h1, -⟩
      · rw [h2, hp, ih]
        simp [half]
      · rw [h1, ih]
  · have hcv : ContinuousAt (fun m : ℝ => pt m (5 / 4 + 2 * m + m ^ 2) (5 / 4 - 2 * m + m ^ 2)) 0 := by
      rw [continuousAt_pi]
      intro i
      rcases i_cases i with rfl | rfl | rfl
      · simp only [pt_M]; exact continuousAt_id
      · simp only [pt_A]
        exact continuousAt_const.mul (ContinuousAt.log (by fun_prop) (by norm_num))
      · simp only [pt_B]
        exact continuousAt_const.mul (ContinuousAt.log (by fun_prop) (by norm_num))
    have e0 : pt 0 (5 / 4 + 2 * 0 + 0 ^ 2) (5 / 4 - 2 * 0 + 0 ^ 2) = pt 0 (5 / 4) (5 / 4) := by norm_num
    have ht := hcv.tendsto
    rw [e0] at ht
    refine ht.frequently ?_
    have hfr : ∃ᶠ m : ℝ in 𝓝[>] 0, True := frequently_true_iff_neBot _ |>.2 inferInstance
    have hev : ∀ᶠ m : ℝ in 𝓝[>] 0, 0 < m ∧ m < 1 := by
      filter_upwards [Ioo_mem_nhdsGT (show (0 : ℝ) < 1 by norm_num)] with m hm using hm
    refine Frequently.filter_mono ((hfr.and_eventually hev).mono fun m hm => ?_) nhdsWithin_le_nhds
    obtain ⟨-, hm0, hm1⟩ := hm
    have pa : 0 < 5 / 4 + 2 * m + m ^ 2 := by positivity
    have pb : 0 < 5 / 4 - 2 * m + m ^ 2 := by nlinarith [sq_nonneg (m - 1)]
    refine ⟨_, _, pllk_pt 0 (by norm_num) (by norm_num), pllk_pt m pa pb, ?_⟩
    rw [div_self pa.ne', div_self pb.ne']
    have hlt : Real.log ((5 / 4 + 2 * m + m ^ 2) * (5 / 4 - 2 * m + m ^ 2)) < Real.log (5 / 4 * (5 / 4)) := by
      refine Real.log_lt_log (mul_pos pa pb) ?_
      nlinarith [mul_pos hm0 hm0, mul_pos (mul_pos hm0 hm0) (sub_pos.2 hm1)]
    rw [Real.log_mul pa.ne' pb.ne', Real.log_mul (by norm_num) (by norm_num)] at hlt
    norm_num
    linarith

end Verif.Lml
