import Verif.LmlSaddle
import Verif.Ridge

/-!
# Cases meeting the hypotheses of the theorems on coefficient iterations (property C125)
-/

namespace Verif.Lml
open Verif Matrix Filter Topology Step Coef

/-- Every entry stored. -/
def fullPat (w : ℕ → ℕ) (i j c : ℕ) : List ℕ := List.range (if i = j then w j - c else w j)

theorem fullPat_holds {K n : ℕ} (fam : EtaBeta.LFam K) (w : ℕ → ℕ) (X : ℕ → Fin n → ℕ → ℝ) (y : Fin n → ℝ) :
    Holds fam w X y (fullPat w) := by
  intro c i j hij hj a ha
  unfold fullPat
  by_cases h : i = j
  · subst h
    simp only [if_true]
    exact ⟨List.pairwise_lt_range, fun x hx => by rw [List.mem_range] at hx; omega, fun x hx _ => by rw [List.mem_range]; omega⟩
  · simp only [if_neg h]
    exact ⟨List.pairwise_lt_range, fun x hx => by rw [List.mem_range] at hx; omega, fun x hx _ => by rw [List.mem_range]; omega⟩

/-- Newton's method for GAMMLSS. -/
noncomputable def cfg : Cfg := ⟨false, false, 50, 1, 0, 1 / 10 ^ 9⟩

example : let x := M4 (fullPat w3) Ridge.cholC fun _ _ => 0
    let r := (phase cfg (ext x) 50 0 (start x fun i => if i = iM then 0 else 1)).1.coef
    r iM = 0 ∧ r iA = r iB ∧ ∃ d u v, pllk x r = Fl.fin u ∧ pllk x d = Fl.fin v ∧ u + Real.log (25 / 17) ≤ v :=
  default_start_wrong (fullPat_holds _ _ _ _) Ridge.cholC_spec cfg rfl 50

example : ∃ c, HasFlGrad (pllk (M4 (fullPat w3) Ridge.cholC fun _ _ => 0)) 0 c ∧
    ∃ᶠ d in 𝓝 c, ∃ u v, pllk (M4 (fullPat w3) Ridge.cholC fun _ _ => 0) c = Fl.fin u ∧
      pllk (M4 (fullPat w3) Ridge.cholC fun _ _ => 0) d = Fl.fin v ∧ u < v := by
  obtain ⟨c, h1, -, h3⟩ := fixed_not_max_wrong (noise := fun _ _ => 0) (fullPat_holds gau w3 X4 y4) Ridge.cholC_spec
  exact ⟨c, h1, h3⟩

/-! ### A quadratic log-likelihood: −(c − 1)² / 2, penalty c² -/

noncomputable def quad1 : In 1 where
  llk := fun c => .fin (-(c 0 - 1) ^ 2 / 2)
  grad := fun c => fun _ => 1 - c 0
  hess := fun _ => diagonal fun _ => -1
  S := diagonal fun _ => 1
  chol := Ridge.cholC
  noise := fun _ _ => 0

theorem quad1_grad (c : Fin 1 → ℝ) : HasFlGrad quad1.llk (quad1.grad c) c := by
  refine ⟨fun c => -(c 0 - 1) ^ 2 / 2, Eventually.of_forall fun _ => rfl, ?_⟩
  have h0 : HasFDerivAt (fun c : Fin 1 → ℝ => c 0) (ContinuousLinearMap.proj (R := ℝ) (φ := fun _ : Fin 1 => ℝ) 0) c :=
    (ContinuousLinearMap.proj (R := ℝ) (φ := fun _ : Fin 1 => ℝ) 0).hasFDerivAt
  have h1 : HasDerivAt (fun s : ℝ => -(s - 1) ^ 2 / 2) (1 - c 0) (c 0) := by
    have := (((hasDerivAt_id (c 0)).sub_const 1).pow 2).neg.div_const 2
    refine this.congr_deriv ?_
    simp
    ring
  have h2 := HasDerivAt.comp_hasFDerivAt c h1 h0
  refine h2.congr_fderiv ?_
  ext v
  show _ = lf _ v
  rw [lf_apply]
  simp [quad1, dotProduct]

theorem quad1_reg (c : Fin 1 → ℝ) : Reg quad1 c :=
  ⟨Ridge.cholC_spec, isSymm_diagonal _, isSymm_diagonal _, fun i => by
    show -(diagonal (fun _ => (-1 : ℝ)) : Matrix (Fin 1) (Fin 1) ℝ) i i + (diagonal (fun _ => (1 : ℝ)) : Matrix (Fin 1) (Fin 1) ℝ) i i ≠ 0
    rw [diagonal_apply_eq, diagonal_apply_eq]; norm_num⟩

theorem quad1_smooth (l : Fin 1 → ℝ) : Smooth quad1 l where
  chol := Ridge.cholC_spec
  hsym := fun c => isSymm_diagonal _
  ssym := isSymm_diagonal _
  grad := quad1_grad l
  gcont := by
    refine Continuous.continuousAt (continuous_pi fun i => ?_)
    show Continuous fun c : Fin 1 → ℝ => 1 - c 0
    fun_prop
  hcont := continuousAt_const
  diag := (quad1_reg l).diag

theorem quad1_concave : Concave quad1 :=
  ⟨fun c => -(c 0 - 1) ^ 2 / 2, fun _ => rfl, fun c d t h0 h1 => by
    show _ ≤ -((c 0 + t * (d 0 - c 0)) - 1) ^ 2 / 2
    nlinarith [mul_nonneg (mul_nonneg h0 (sub_nonneg.2 h1)) (sq_nonneg (c 0 - d 0))]⟩

theorem quad1_calm : Calm cfg (ext quad1) := ⟨by simp [cfg], by simp [cfg]⟩

/-- The Newton step reaches the maximum. -/
theorem quad1_step (c : Fin 1 → ℝ) : step quad1 c = fun _ => 1 / 2 := by
  obtain ⟨o, ⟨fuel, ho⟩, h1, -⟩ := step_newtons (quad1_reg c)
  have e : quad1.grad c = (fun _ => 1 : Fin 1 → ℝ) + quad1.hess c *ᵥ c := by
    funext i
    show 1 - c 0 = 1 + ((diagonal fun _ => (-1 : ℝ)) *ᵥ c) i
    rw [mulVec_diagonal, Subsingleton.elim i 0]
    ring
  rw [e] at ho
  have hm : -quad1.hess c + quad1.S = diagonal fun _ => (2 : ℝ) := by
    ext i j
    rw [Subsingleton.elim i 0, Subsingleton.elim j 0]
    show -(diagonal (fun _ => (-1 : ℝ)) : Matrix (Fin 1) (Fin 1) ℝ) 0 0 + (diagonal (fun _ => (1 : ℝ)) : Matrix (Fin 1) (Fin 1) ℝ) 0 0 = _
    rw [diagonal_apply_eq, diagonal_apply_eq, diagonal_apply_eq]; norm_num
  have := Newton.newton_quadratic _ Ridge.cholC_spec fuel c _ _ _ (by rw [hm]; exact isSymm_diagonal _) (fun x hx => by
    rw [hm]
    have h0 : x 0 ≠ 0 := fun h => hx (funext fun i => by rw [Subsingleton.elim i 0]; exact h)
    simp only [dotProduct, mulVec_diagonal, Finset.univ_unique, Finset.sum_singleton, Fin.default_eq_zero]
    have := mul_self_pos.2 h0
    linarith) o ho
  rw [h1]
  funext i
  have h2 := congrFun this i
  have h3 : 1 + ((diagonal fun _ => (-1 : ℝ)) *ᵥ o.coef) i - ((diagonal fun _ => (1 : ℝ)) *ᵥ o.coef) i = 0 := h2
  rw [mulVec_diagonal, mulVec_diagonal] at h3
  linarith

theorem quad1_pllk (c : Fin 1 → ℝ) : pllk quad1 c = .fin (-(c 0 - 1) ^ 2 / 2 - 1 / 2 * (c 0 * c 0)) := by
  rw [pllk_eq]
  have : c ⬝ᵥ quad1.S *ᵥ c = c 0 * c 0 := by
    show c ⬝ᵥ (diagonal fun _ => (1 : ℝ)) *ᵥ c = _
    simp [dotProduct, mulVec_diagonal]
  rw [this]
  exact Fl.fin_sub _ _

/-- From any start the first iteration reaches 1/2, and the coefficients stay there. -/
theorem quad1_iter (c : Fin 1 → ℝ) (k : ℕ) : (iter cfg quad1 c (k + 1)).coef = fun _ => 1 / 2 := by
  have hp : ∀ s : S (Fin 1 → ℝ) (Matrix (Fin 1) (Fin 1) ℝ), proposal cfg (ext quad1) s = fun _ => 1 / 2 := fun s => quad1_step s.coef
  have hle : ∀ c : Fin 1 → ℝ, -(c 0 - 1) ^ 2 / 2 - 1 / 2 * (c 0 * c 0) ≤ -((1 : ℝ) / 2 - 1) ^ 2 / 2 - 1 / 2 * (1 / 2 * (1 / 2)) := fun c => by
    nlinarith [sq_nonneg (c 0 - 1 / 2)]
  rcases iteration_longest cfg quad1_calm c k (quad1_pllk _) with ⟨j, -, v, h1, -, -, h4⟩ | ⟨-, h2⟩
  · rcases Nat.eq_zero_or_pos j with rfl | hj
    · rw [h1, hp]
      simp
    · have := h4 0 hj _ (by rw [hp]; simp only [pow_zero, div_one, one_smul, add_sub_cancel]; exact quad1_pllk _)
      exact absurd (hle _) (not_le.2 this)
  · have := h2 0 (by norm_num) _ (by rw [hp]; simp only [pow_zero, div_one, one_smul, add_sub_cancel]; exact quad1_pllk _)
    exact absurd (hle _) (not_le.2 this)

theorem quad1_tendsto (c : Fin 1 → ℝ) : Tendsto (fun k => (iter cfg quad1 c k).coef) atTop (𝓝 fun _ => 1 / 2) := by
  rw [← tendsto_add_atTop_iff_nat 1]
  simp only [quad1_iter]
  exact tendsto_const_nhds

example (d : Fin 1 → ℝ) : ∃ u v, pllk quad1 (fun _ => 1 / 2) = Fl.fin u ∧ pllk quad1 d = Fl.fin v ∧
    v ≤ u - 1 / 2 * ∑ i, ∑ j, (d i - 1 / 2) * quad1.S i j * (d j - 1 / 2) :=
  limit_is_max cfg quad1_concave (c := fun _ => 7) quad1_calm (by rw [quad1_pllk]; trivial) (quad1_smooth _) (quad1_tendsto _)
    (fun k hk => by
      rw [← hk, quad1_iter]
      exact quad1_step _) d

example : HasFlGrad (pllk quad1) 0 (fun _ => 1 / 2) := (fixed_iff_stationary (quad1_reg _) (quad1_grad _)).1 (quad1_step _)

example : ¬HasFlGrad (pllk quad1) 0 (fun _ => 7) := fun h => by
  have := (fixed_iff_stationary (quad1_reg _) (quad1_grad _)).2 h
  rw [quad1_step] at this
  have := congrFun this 0
  norm_num at this

/-! ### Multinomial: one observation in each of two classes, intercept only -/

/-- One column. -/
def wOne (_ : ℕ) : ℕ := 1

noncomputable def mn2 : In (∑ l ∈ Finset.range 1, wOne l) :=
  lssIn (EtaBeta.mnFam 1) wOne (fun _ (_ : Fin 2) _ => 1) (fun o => o.val) (fullPat wOne) 0 Ridge.cholC fun _ _ => 0

theorem mn2_grad : mn2.grad 0 = 0 := by
  funext i
  obtain ⟨q, rfl⟩ := at_bij.2 i
  refine (mn_grad_eq (blk wOne 0) q).trans ?_
  obtain ⟨k, a⟩ := q
  obtain rfl := Subsingleton.elim k 0
  have e : ∀ o : Fin 2, EtaBeta.etaOf (K := 1) wOne (fun _ (_ : Fin 2) _ => (1 : ℝ)) (blk wOne 0) o = 0 := fun o => by
    funext k
    simp [EtaBeta.etaOf, blk]
  rw [Fin.sum_univ_two]
  simp only [e]
  norm_num

theorem mn2_hess (i) : mn2.hess 0 i i = -1 / 2 := by
  obtain ⟨q, rfl⟩ := at_bij.2 i
  obtain ⟨k, a⟩ := q
  obtain rfl := Subsingleton.elim k 0
  obtain rfl : a = ⟨0, by decide⟩ := Subsingleton.elim (α := Fin 1) a _
  have e : ∀ o : Fin 2, EtaBeta.etaOf (K := 1) wOne (fun _ (_ : Fin 2) _ => (1 : ℝ)) (blk wOne 0) o = 0 := fun o => by
    funext k
    simp [EtaBeta.etaOf, blk]
  have H := fullPat_holds (EtaBeta.mnFam 1) wOne (fun _ (_ : Fin 2) _ => (1 : ℝ)) (fun o => (o.val : ℝ)) (blk wOne 0)
  refine (EtaBeta.hess_entry_le H (i := 0) (j := 0) (a := 0) (b := 0) le_rfl (by decide) (by decide) (by decide)).1.trans ?_
  have h0 : ∀ o : Fin 2, ((EtaBeta.etaDerivs (EtaBeta.mnFam 1) (o.val : ℝ) (EtaBeta.musOf (EtaBeta.mnFam 1)
      (EtaBeta.etaOf (K := 1) wOne (fun _ (_ : Fin 2) _ => (1 : ℝ)) (blk wOne 0) o))).2.1.getD 0 .nan).val = -1 / 4 := fun o => by
    rw [e, EtaBeta.mn_mus]
    have : (EtaBeta.mnFam 1).dEta = true := rfl
    simp [EtaBeta.etaDerivs, this, EtaBeta.mnFam, Lss.mnD2, Lss.muOf, Lss.norm, Fl.val]
    norm_num
  rw [Fin.sum_univ_two]
  have h1 : ∀ o : Fin 2, EtaBeta.D (EtaBeta.obsList 1 fun o : Fin 2 => (EtaBeta.etaDerivs (EtaBeta.mnFam 1) (o.val : ℝ)
      (EtaBeta.musOf (EtaBeta.mnFam 1) (EtaBeta.etaOf (K := 1) wOne (fun _ (_ : Fin 2) _ => (1 : ℝ)) (blk wOne 0) o))).2.1)
      (EtaBeta.obsList (1 * (1 - 1) / 2) fun o : Fin 2 => (EtaBeta.etaDerivs (EtaBeta.mnFam 1) (o.val : ℝ)
      (EtaBeta.musOf (EtaBeta.mnFam 1) (EtaBeta.etaOf (K := 1) wOne (fun _ (_ : Fin 2) _ => (1 : ℝ)) (blk wOne 0) o))).2.2) 1 0 0 o = -1 / 4 := h0
  rw [h1, h1]
  norm_num

theorem mn2_diag (i) : -mn2.hess 0 i i + (0 : Matrix (Fin (∑ l ∈ Finset.range 1, wOne l)) (Fin (∑ l ∈ Finset.range 1, wOne l)) ℝ) i i ≠ 0 := by
  rw [mn2_hess]
  norm_num

theorem mn2_smooth : Smooth mn2 0 := mn_smooth (fullPat_holds _ _ _ _) Ridge.cholC_spec isSymm_zero mn2_diag

theorem mn2_stationary : HasFlGrad (pllk mn2) 0 0 := by
  have := pllk_grad mn2_smooth.ssym mn2_smooth.grad
  rw [mn2_grad, mulVec_zero, sub_zero] at this
  exact this

/-- Equal probabilities are the maximum likelihood estimate. -/
example (d : Fin (∑ l ∈ Finset.range 1, wOne l) → ℝ) :
    EtaBeta.llk (EtaBeta.mnFam 1) wOne (fun _ (_ : Fin 2) _ => 1) (fun o => o.val) (blk wOne d) ≤
      EtaBeta.llk (EtaBeta.mnFam 1) wOne (fun _ (_ : Fin 2) _ => 1) (fun o => o.val) (blk wOne 0) := by
  have := multinomial_fixed_is_max (noise := fun _ _ => 0) (fullPat_holds (EtaBeta.mnFam 1) wOne (fun _ (_ : Fin 2) _ => 1) fun o => o.val)
    Ridge.cholC_spec isSymm_zero mn2_diag
    ((fixed_iff_stationary ⟨mn2_smooth.chol, mn2_smooth.hsym 0, mn2_smooth.ssym, mn2_diag⟩ mn2_smooth.grad).2 mn2_stationary) d
  simpa only [Matrix.zero_apply, mul_zero, zero_mul, Finset.sum_const_zero, sub_zero] using this

/-! ### Proportional hazards: two deaths at the same time, a covariate with values 0 and 1 -/

theorem data2 : Haz.Data 1 (fun _ => (5 : ℝ)) (fun _ : Fin 2 => 0) :=
  ⟨fun j k h1 h2 => by omega, fun _ => by norm_num, fun j hj => ⟨0, by omega⟩⟩

/-- The covariate. -/
def x01 (i : Fin 2) (_ : Fin 1) : ℝ := i.val

noncomputable def hz2 : In 1 := hazIn 1 (fun _ : Fin 2 => 0) (fun _ => 1) x01 0 Ridge.cholC fun _ _ => 0

theorem hz2_vals : Haz.gammaP (fun _ : Fin 2 => 0) (Haz.gam x01 0) 1 = 2 ∧ Haz.bp (fun _ : Fin 2 => 0) (Haz.gam x01 0) x01 1 0 = 1 ∧
    Haz.Ap (fun _ : Fin 2 => 0) (Haz.gam x01 0) x01 1 0 0 = 1 ∧ Haz.dj (fun _ : Fin 2 => 0) (fun _ => 1) 0 = 2 := by
  have hg : Haz.gam x01 0 = fun _ => 1 := by
    funext i
    simp [Haz.gam, Haz.eta]
  rw [hg, Haz.gammaP_eq, Haz.bp_eq, Haz.Ap_eq]
  simp [x01, Haz.dj, Haz.ris]

theorem hz2_grad : hz2.grad 0 = 0 := by
  obtain ⟨h1, h2, -, h4⟩ := hz2_vals
  funext k
  rw [Subsingleton.elim k 0]
  show Haz.gradient _ _ _ _ _ _ = 0
  unfold Haz.gradient
  rw [Haz.grad2_eq, Finset.sum_range_one, h1, h2, h4]
  simp [x01]

theorem hz2_diag (i : Fin 1) : -Haz.hessian 1 (fun _ : Fin 2 => 0) (fun _ => 1) x01 0 i i + (0 : Matrix (Fin 1) (Fin 1) ℝ) i i ≠ 0 := by
  obtain ⟨h1, h2, h3, h4⟩ := hz2_vals
  rw [Subsingleton.elim i 0]
  unfold Haz.hessian
  rw [Haz.hess_eq, Finset.sum_range_one, h1, h2, h3, h4]
  norm_num

theorem hz2_smooth : Smooth hz2 0 := haz_smooth data2 Ridge.cholC_spec isSymm_zero hz2_diag

theorem hz2_fixed : step hz2 0 = 0 := by
  refine (fixed_iff_stationary ⟨hz2_smooth.chol, hz2_smooth.hsym 0, hz2_smooth.ssym, hz2_diag⟩ hz2_smooth.grad).2 ?_
  have := pllk_grad hz2_smooth.ssym hz2_smooth.grad
  rw [hz2_grad, mulVec_zero, sub_zero] at this
  exact this

/-- No effect of the covariate is the maximum partial likelihood estimate. -/
example (d : Fin 1 → ℝ) : Haz.llk 1 (fun _ : Fin 2 => 0) (fun _ => 1) x01 d ≤ Haz.llk 1 (fun _ : Fin 2 => 0) (fun _ => 1) x01 0 := by
  have := hazard_fixed_is_max data2 Ridge.cholC_spec isSymm_zero hz2_diag hz2_fixed d
  simpa only [Matrix.zero_apply, mul_zero, zero_mul, Finset.sum_const_zero, sub_zero] using this

theorem hz2_stays : ∀ k, (iter cfg hz2 0 k).coef = 0 :=
  (stationary_stays cfg rfl ⟨by simp [cfg], by simp [cfg]⟩ (by norm_num [cfg]) ⟨hz2_smooth.chol, hz2_smooth.hsym 0, hz2_smooth.ssym, hz2_diag⟩
    hz2_smooth.grad ((fixed_iff_stationary ⟨hz2_smooth.chol, hz2_smooth.hsym 0, hz2_smooth.ssym, hz2_diag⟩ hz2_smooth.grad).1 hz2_fixed)).1

/-- The coefficients converge. -/
example (d : Fin 1 → ℝ) : Haz.llk 1 (fun _ : Fin 2 => 0) (fun _ => 1) x01 d ≤ Haz.llk 1 (fun _ : Fin 2 => 0) (fun _ => 1) x01 0 := by
  have := hazard_limit_is_max data2 Ridge.cholC_spec isSymm_zero cfg (by simp [cfg]) (c := 0) hz2_diag
    ((tendsto_congr hz2_stays).2 tendsto_const_nhds) (fun k _ => by
      show proposal cfg (ext hz2) (iter cfg hz2 0 k) = (iter cfg hz2 0 k).coef
      have : proposal cfg (ext hz2) (iter cfg hz2 0 k) = step hz2 (iter cfg hz2 0 k).coef := rfl
      rw [this, hz2_stays, hz2_fixed]) d
  simpa only [Matrix.zero_apply, mul_zero, zero_mul, Finset.sum_const_zero, sub_zero] using this

end Verif.Lml
