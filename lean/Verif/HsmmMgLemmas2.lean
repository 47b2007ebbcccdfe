import Verif.HsmmMgLemmas

/-!
Lemmas for property C120: derivatives of the tables, columns.
-/

namespace Verif.HMg

open Finset Hsmm HFam

variable (h : Mg) (β : Coef) (θ : ℕ → ℝ)

/-- The model with the derivatives of the multivariate states frozen at `β`, `θ`. -/
noncomputable def Fz : HFam.Model :=
  { h.base with obs := fun j m =>
      if (h.mg j) = true then ⟨1, fun t e => RRy h β θ j m t * e 0, fun t _ _ => RRy h β θ j m t⟩ else h.base.obs j m }

theorem n_par_fz (j m : ℕ) : ((Fz h β θ).obs j m).n_par = (h.fm.obs j m).n_par := by
  unfold Fz Mg.fm
  dsimp only
  split_ifs <;> rfl

theorem obs_fz_mg {j : ℕ} (hj : h.mg j = true) (m : ℕ) :
    (Fz h β θ).obs j m = ⟨1, fun t e => RRy h β θ j m t * e 0, fun t _ _ => RRy h β θ j m t⟩ := by
  unfold Fz
  dsimp only
  rw [if_pos hj]

theorem obs_fz_not {j : ℕ} (hj : h.mg j = false) (m : ℕ) : (Fz h β θ).obs j m = h.base.obs j m := by
  unfold Fz
  dsimp only
  rw [if_neg (by rw [hj]; simp)]

theorem obs_fm_mg {j : ℕ} (hj : h.mg j = true) (m : ℕ) : (h.fm.obs j m).n_par = 1 := by
  unfold Mg.fm
  dsimp only
  rw [if_pos hj]

theorem obs_fm_not {j : ℕ} (hj : h.mg j = false) (m : ℕ) : h.fm.obs j m = h.base.obs j m := by
  unfold Mg.fm
  dsimp only
  rw [if_neg (by rw [hj]; simp)]

theorem emEta_fz (β' : Coef) (j m t par : ℕ) : emEta (Fz h β θ) β' j m t par = emEta h.fm β' j m t par := by
  unfold emEta
  rw [n_par_fz]
  rfl

theorem emEta_not {j : ℕ} (hj : h.mg j = false) (β' : Coef) (m t par : ℕ) : emEta (Fz h β θ) β' j m t par = emEta h.base β' j m t par := by
  unfold emEta
  rw [obs_fz_not h β θ hj]
  rfl

theorem emBlocks_fz : emBlocks (Fz h β θ) = emBlocks h.fm := by
  unfold emBlocks
  simp only [n_par_fz]
  rfl

theorem allKeys_fz : allKeys (Fz h β θ) = allKeys h.fm := by
  unfold allKeys
  rw [emBlocks_fz]
  rfl

theorem restCols_fz : restCols (Fz h β θ) β = restCols h.fm β := rfl

theorem tables_fz_ds (d j t : ℕ) : (tables h β θ).ds d j t = (HFam.tables (Fz h β θ) β).ds d j t := rfl

/-! ### Emission part -/

/-- Log density of a multivariate state along moving predictors. -/
theorem mgLp_deriv (hfi' : ℕ → ℝ → ℝ) (k : Key) (c : ℕ) (hc : c < h.base.p k) (j t : ℕ) (hj : h.mg j = true)
    (hfi : ∀ m x, HasDerivAt (h.fi j m) (hfi' m x) x) :
    HasDerivAt (fun x => mgLp h (upd β k c x) θ j t)
      (∑ m ∈ range h.base.M, hfi' m (emEta h.fm β j m t 0) * (RRy h β θ j m t * dEm (Fz h β θ) k c j m 0 t)) (β k c) := by
  set R := MGauss.getR h.base.M (thSl h θ j) with hR
  have he : ∀ q : Fin h.base.M, HasDerivAt (fun x => errM h (upd β k c x) j t 0 q)
      (-(hfi' q (emEta h.fm β j q t 0) * dEm (Fz h β θ) k c j q 0 t)) (β k c) := by
    intro q
    have h1 := emEta_deriv (Fz h β θ) β k c hc j q t 0 (by rw [n_par_fz, obs_fm_mg h hj]; exact one_pos)
    simp only [emEta_fz] at h1
    have h0 : emEta h.fm β j q t 0 = emEta h.fm (upd β k c (β k c)) j q t 0 := by rw [upd_self]
    have h2 := (HasDerivAt.comp (β k c) (h₂ := h.fi j q) (by rw [← h0]; exact hfi q (emEta h.fm β j q t 0)) h1).const_sub (h.y t q)
    exact h2
  have hy : ∀ p : Fin h.base.M, HasDerivAt (fun x => yR h (upd β k c x) θ j t 0 p)
      (∑ q : Fin h.base.M, -(hfi' q (emEta h.fm β j q t 0) * dEm (Fz h β θ) k c j q 0 t) * R p q) (β k c) := by
    intro p
    have := HasDerivAt.fun_sum (u := univ) fun (q : Fin h.base.M) _ => (he q).mul_const (R p q)
    exact this
  have hs := ((HasDerivAt.fun_sum (u := univ) fun (p : Fin h.base.M) _ => (hy p).mul (hy p)).const_mul (-(1 / 2 : ℝ))).add_const
    (MGauss.logdet h.base.M (thSl h θ j))
  refine HasDerivAt.congr_deriv hs ?_
  simp only [upd_self]
  have e1 : ∀ p : Fin h.base.M, (∑ q : Fin h.base.M, -(hfi' q (emEta h.fm β j q t 0) * dEm (Fz h β θ) k c j q 0 t) * R p q) * yR h β θ j t 0 p +
      yR h β θ j t 0 p * (∑ q : Fin h.base.M, -(hfi' q (emEta h.fm β j q t 0) * dEm (Fz h β θ) k c j q 0 t) * R p q) =
      -2 * ∑ q : Fin h.base.M, hfi' q (emEta h.fm β j q t 0) * dEm (Fz h β θ) k c j q 0 t * (R p q * yR h β θ j t 0 p) := by
    intro p
    rw [mul_comm (yR h β θ j t 0 p), ← two_mul, sum_mul, mul_sum, mul_sum]
    exact sum_congr rfl fun q _ => by ring
  rw [sum_congr rfl fun p _ => e1 p, ← mul_sum, sum_comm, ← mul_assoc, show (-(1 / 2 : ℝ)) * -2 = 1 by norm_num, one_mul,
    ← Fin.sum_univ_eq_sum_range (fun m => hfi' m (emEta h.fm β j m t 0) * (RRy h β θ j m t * dEm (Fz h β θ) k c j m 0 t))]
  refine sum_congr rfl fun q _ => ?_
  rw [← mul_sum]
  have e2 : RRy h β θ j q t = ∑ p, R p q * yR h β θ j t 0 p := by
    unfold RRy
    rw [dif_pos q.isLt, Matrix.mul_apply]
    rfl
  rw [e2]
  ring

theorem getR_congr (m : ℕ) (a b : ℕ → ℝ) (hab : ∀ i j : Fin m, i ≤ j → a (MGauss.pos m i j) = b (MGauss.pos m i j)) :
    MGauss.getR m a = MGauss.getR m b ∧ MGauss.logdet m a = MGauss.logdet m b := by
  constructor
  · ext i j
    simp only [MGauss.getR, Matrix.of_apply]
    by_cases hij : i ≤ j
    · rw [if_pos hij, if_pos hij, hab i j hij]
    · rw [if_neg hij, if_neg hij]
  · exact sum_congr rfl fun i _ => hab i i le_rfl

theorem pos_lt_extra (i j : Fin h.base.M) (hij : i ≤ j) : MGauss.pos h.base.M i j < h.extra := by
  have := (MGauss.thetIdx_pos h.base.M).2 i j hij
  exact (List.getElem?_eq_some_iff.1 this).1

theorem thOff_mono {j j' : ℕ} (hj : j ≤ j') : h.thOff j ≤ h.thOff j' := by
  induction hj with
  | refl => exact le_rfl
  | step _ ih => exact le_trans ih (Nat.le_add_right _ _)

theorem thOff_lt {j j' : ℕ} (hj : h.mg j = true) (hjj : j < j') : h.thOff j + h.extra ≤ h.thOff j' := by
  refine le_trans ?_ (thOff_mono h hjj)
  show _ ≤ h.thOff j + if h.mg j then h.extra else 0
  rw [if_pos hj]

/-- Other states do not read the parameters of state `j`. -/
theorem thSl_other {j j' : ℕ} (hj : h.mg j = true) (hj' : h.mg j' = true) (hne : j' ≠ j) (n : ℕ) (hn : n < h.extra) (x : ℝ) (i : ℕ)
    (hi : i < h.extra) : thSl h (Function.update θ (h.thOff j + n) x) j' i = thSl h θ j' i := by
  unfold thSl
  rw [Function.update_of_ne]
  intro he
  rcases Nat.lt_or_gt_of_ne hne with hlt | hlt
  · have := thOff_lt h hj' hlt
    omega
  · have := thOff_lt h hj hlt
    omega

theorem mgLp_eq (j t : ℕ) : mgLp h β θ j t = MGauss.llk (errM h β j t) (thSl h θ j) := by
  unfold mgLp MGauss.llk
  rw [Fin.sum_univ_one]
  simp [yR]

theorem mgLp_congr (θ' : ℕ → ℝ) (j t : ℕ) (hθ : ∀ i < h.extra, thSl h θ' j i = thSl h θ j i) : mgLp h β θ' j t = mgLp h β θ j t := by
  obtain ⟨e1, e2⟩ := getR_congr h.base.M (thSl h θ' j) (thSl h θ j) fun i j' hij => hθ _ (pos_lt_extra h i j' hij)
  unfold mgLp yR
  rw [e1, e2]

theorem mgLp_theta (j t : ℕ) (r c : Fin h.base.M) (hrc : r ≤ c) :
    HasDerivAt (fun x => mgLp h β (Function.update θ (h.thOff j + MGauss.pos h.base.M r c) x) j t) (dldtheta h β θ j r c t)
      (θ (h.thOff j + MGauss.pos h.base.M r c)) := by
  set n := h.thOff j + MGauss.pos h.base.M r c with hn
  have hd := MGauss.llk_deriv (N := 1) (k := fun _ : Fin h.base.M => 0) (fun _ x => x) (fun _ _ => 1) (fun p x => hasDerivAt_id x)
    (errM h β j t) (fun _ => 0) (fun _ _ => 0) (fun _ _ => 0) (thSl h θ j) (Pi.single (MGauss.pos h.base.M r c) 1)
  have herr : ∀ b : (p : Fin h.base.M) → Fin 0 → ℝ, MGauss.err (fun _ x => x) (errM h β j t) (fun _ => (0 : Matrix (Fin 1) (Fin 0) ℝ)) b =
      errM h β j t := by
    intro b
    ext o p
    simp [MGauss.err, MGauss.eta]
  simp only [herr] at hd
  have hcomp : HasDerivAt (fun x : ℝ => x - θ n) 1 (θ n) := (hasDerivAt_id _).sub_const _
  have hd' := HasDerivAt.comp (θ n) (h₂ := fun t_1 : ℝ => MGauss.llk (errM h β j t) (thSl h θ j + t_1 • Pi.single (MGauss.pos h.base.M r c) 1))
    (by rw [sub_self]; exact hd) hcomp
  have e : (fun x => mgLp h β (Function.update θ n x) j t) =
      (fun t_1 : ℝ => MGauss.llk (errM h β j t) (thSl h θ j + t_1 • Pi.single (MGauss.pos h.base.M r c) 1)) ∘ fun x : ℝ => x - θ n := by
    funext x
    simp only [Function.comp]
    rw [mgLp_eq]
    congr 1
    funext i
    simp only [thSl, Pi.add_apply, Pi.smul_apply, smul_eq_mul]
    by_cases hi : i = MGauss.pos h.base.M r c
    · subst hi
      rw [← hn, Function.update_self, Pi.single_eq_same]
      ring
    · rw [Function.update_of_ne (by omega), Pi.single_eq_of_ne hi]
      ring
  rw [e]
  refine hd'.congr_deriv ?_
  rw [mul_one]
  have h0 : ∀ x : ℝ, (∑ p : Fin h.base.M, ∑ c : Fin 0, x) = 0 := fun x => by simp
  simp only [Finset.univ_eq_empty, Finset.sum_empty, Finset.sum_const_zero, zero_add]
  rw [sum_eq_single r, sum_eq_single c]
  · rw [if_pos hrc, Pi.single_eq_same, one_mul]
    unfold MGauss.gradTheta dldtheta
    rw [dif_pos ⟨r.isLt, c.isLt⟩, Fin.sum_univ_one]
    simp only [Fin.eta, Fin.val_inj]
    congr 1
    split_ifs <;> simp
  · intro c' _ hne
    by_cases hl : r ≤ c'
    · rw [if_pos hl, Pi.single_eq_of_ne, zero_mul]
      intro he
      exact hne (MGauss.pos_inj _ _ _ _ _ hl hrc he).2
    · rw [if_neg hl]
  · intro hc; exact absurd (mem_univ _) hc
  · intro r' _ hne
    refine sum_eq_zero fun c' _ => ?_
    by_cases hl : r' ≤ c'
    · rw [if_pos hl, Pi.single_eq_of_ne, zero_mul]
      intro he
      exact hne (MGauss.pos_inj _ _ _ _ _ hl hrc he).1
    · rw [if_neg hl]
  · intro hc; exact absurd (mem_univ _) hc

end Verif.HMg
