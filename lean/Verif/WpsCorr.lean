import Verif.Wps
import Mathlib.LinearAlgebra.Matrix.Block

/-!
# Correction of the coefficient covariance for smoothing parameter uncertainty (C82)
-/

namespace Verif.Wps

open Matrix Verif.Reml Verif.LogDet Verif.DChol

variable {n K m : ℕ}

/-- A lower triangular factor with positive diagonal of the preconditioned matrix, as returned by `cpp_chol` on success. -/
structure CholOf (L M : Matrix (Fin n) (Fin n) ℝ) : Prop where
  lower : ∀ i j, i < j → L i j = 0
  pos : ∀ i, 0 < L i i
  prod : L * Lᵀ = M

/-- Inputs of the correction for a model without dropped coefficients. -/
structure CorrFits (x : CorrIn n K) (A : Matrix (Fin n) (Fin n) ℝ) (g : Fin n → ℝ) (ρ : Fin K → ℝ) : Prop where
  scale_pos : 0 < x.scale
  lam : ∀ k, x.lam k = Real.exp (ρ k)
  semb : x.Semb = wsum x.S ρ
  hess : x.H = -(x.scale⁻¹ • A)
  psd : ∀ k, (x.S k).PosSemidef
  pd : ∀ ρ' : Fin K → ℝ, (A + wsum x.S ρ').PosDef
  coef : x.coef = fitted A x.S (1 : Matrix (Fin n) (Fin n) ℝ) g ρ
  keep : x.dropped = false
  chol : ∃ L, x.chol = some L ∧ CholOf L (precond x)

section
variable {x : CorrIn n K} {A : Matrix (Fin n) (Fin n) ℝ} {g : Fin n → ℝ} {ρ : Fin K → ℝ}

theorem cnH_eq (h : CorrFits x A g ρ) : cnH x = A + wsum x.S ρ := by
  unfold cnH
  rw [h.hess, h.semb, neg_smul, one_smul, neg_neg, smul_smul, mul_inv_cancel₀ h.scale_pos.ne', one_smul]

theorem rfac_upper_of (x : CorrIn n K) (hL : ∀ L, x.chol = some L → ∀ i j, i < j → L i j = 0) : Upper (rfac x) := by
  intro i j hij
  unfold rfac
  rw [Matrix.transpose_apply, Matrix.diagonal_mul]
  cases hc : x.chol with
  | none => simp [Matrix.one_apply_ne (ne_of_lt hij)]
  | some L => simp [hL L hc j i hij]

theorem rfac_diag (x : CorrIn n K) (i : Fin n) : rfac x i i = sdiag x i * x.chol.getD 1 i i := by
  unfold rfac
  rw [Matrix.transpose_apply, Matrix.diagonal_mul]

theorem sdiag_pos (x : CorrIn n K) (i : Fin n) (h : cnH x i i ≠ 0) : 0 < sdiag x i := Real.sqrt_pos.2 (abs_pos.2 h)

/-- The factor formed from the preconditioned Cholesky factor is the Cholesky factor of the penalised Hessian. -/
theorem rfac_spec (h : CorrFits x A g ρ) :
    Upper (rfac x) ∧ (∀ i, 0 < rfac x i i) ∧ (rfac x)ᵀ * rfac x = A + wsum x.S ρ := by
  obtain ⟨L, hc, hL⟩ := h.chol
  have hd : ∀ i, 0 < sdiag x i := fun i => sdiag_pos x i (by
    rw [cnH_eq h]; exact ((h.pd ρ).diag_pos (i := i)).ne')
  refine ⟨rfac_upper_of x ?_, ?_, ?_⟩
  · intro L' hL'
    rw [hc] at hL'
    cases hL'
    exact hL.lower
  · intro i
    rw [rfac_diag, hc]
    exact mul_pos (hd i) (hL.pos i)
  · have e : (rfac x)ᵀ * rfac x = Matrix.diagonal (sdiag x) * (L * Lᵀ) * Matrix.diagonal (sdiag x) := by
      unfold rfac
      rw [hc, Option.getD_some, Matrix.transpose_transpose, Matrix.transpose_mul, Matrix.diagonal_transpose]
      simp only [Matrix.mul_assoc]
    rw [e, hL.prod, ← cnH_eq h]
    unfold precond
    have one : Matrix.diagonal (sdiag x) * Matrix.diagonal (fun i => 1 / sdiag x i) = 1 := by
      rw [Matrix.diagonal_mul_diagonal, ← Matrix.diagonal_one]
      congr 1
      funext i
      rw [mul_one_div, div_self (hd i).ne']
    have one' : Matrix.diagonal (fun i => 1 / sdiag x i) * Matrix.diagonal (sdiag x) = 1 := mul_eq_one_comm.1 one
    have : Matrix.diagonal (sdiag x) * (Matrix.diagonal (fun i => 1 / sdiag x i) * cnH x * Matrix.diagonal (fun i => 1 / sdiag x i))
        * Matrix.diagonal (sdiag x)
        = (Matrix.diagonal (sdiag x) * Matrix.diagonal (fun i => 1 / sdiag x i)) * cnH x
          * (Matrix.diagonal (fun i => 1 / sdiag x i) * Matrix.diagonal (sdiag x)) := by simp only [Matrix.mul_assoc]
    rw [this, one, one', Matrix.one_mul, Matrix.mul_one]

theorem upper_det {R : Matrix (Fin n) (Fin n) ℝ} (hR : Upper R) (hd : ∀ i, R i i ≠ 0) : IsUnit R.det := by
  have : R.BlockTriangular id := fun i j hij => hR i j hij
  rw [Matrix.det_of_isUpperTriangular this, isUnit_iff_ne_zero]
  exact Finset.prod_ne_zero_iff.2 fun i _ => hd i

theorem upper_inv {R : Matrix (Fin n) (Fin n) ℝ} (hR : Upper R) (hd : ∀ i, R i i ≠ 0) : Upper R⁻¹ := by
  have h1 : R.BlockTriangular id := fun i j hij => hR i j hij
  haveI : Invertible R := R.invertibleOfIsUnitDet (upper_det hR hd)
  have := Matrix.blockTriangular_inv_of_blockTriangular h1
  exact fun i j hij => this hij

theorem upper_mul {R R' : Matrix (Fin n) (Fin n) ℝ} (hR : Upper R) (hR' : Upper R') : Upper (R * R') := by
  have h1 : R.BlockTriangular id := fun i j hij => hR i j hij
  have h2 : R'.BlockTriangular id := fun i j hij => hR' i j hij
  exact fun i j hij => (h1.mul h2) hij

theorem cV_eq (h : CorrFits x A g ρ) : cV x = (A + wsum x.S ρ)⁻¹ := by
  obtain ⟨_, _, h3⟩ := rfac_spec h
  unfold cV
  rw [h.keep, if_neg (by simp), ← h3, Matrix.mul_inv_rev, Matrix.transpose_nonsing_inv]

/-- C82. Without dropped coefficients the columns of `dBetadRhos` are the derivatives of the fitted coefficients. -/
theorem cdBeta_is_derivative (h : CorrFits x A g ρ) (k : Fin K) (a : Fin n) :
    HasDerivAt (fun t => fitted A x.S (1 : Matrix (Fin n) (Fin n) ℝ) g (Function.update ρ k t) a) (cdBeta x k a) (ρ k) := by
  have hpd : ((1 : Matrix (Fin n) (Fin n) ℝ)ᵀ * (A + wsum x.S ρ) * 1).PosDef := by
    rw [Matrix.transpose_one, Matrix.one_mul, Matrix.mul_one]; exact h.pd ρ
  refine (fitted_deriv ρ hpd k a).congr_deriv ?_
  unfold cdBeta
  rw [cV_eq h, ← h.coef, h.lam, Matrix.transpose_one, Matrix.one_mul, Matrix.one_mul, Matrix.mul_one, Matrix.mul_one]

/-- C82. `Vc` is the first order (delta method) covariance of the coefficients: derivative times covariance of the log smoothing
parameters times derivative. -/
theorem vc_delta (x : CorrIn n K) (Vp : Matrix (Fin K) (Fin K) ℝ) (hV : x.Vrᵀ * x.Vr = Vp) (a b : Fin n) :
    vc x a b = ∑ k, ∑ l, cdBeta x k a * Vp k l * cdBeta x l b := by
  have : vc x = cdBetas x * Vp * (cdBetas x)ᵀ := by
    unfold vc
    rw [← hV, Matrix.transpose_mul, Matrix.transpose_transpose]
    simp only [Matrix.mul_assoc]
  rw [this, Matrix.mul_apply, Finset.sum_comm]
  refine Finset.sum_congr rfl fun l _ => ?_
  rw [Matrix.mul_apply, Finset.sum_mul]
  rfl

/-- C82. `Vcc` is `φ Σ_kl Vpr_kl E_k E_lᵀ` with `E_k` the derivative of the inverse Cholesky factor with respect to log smoothing
parameter `k`. (The factors in the code have the opposite sign, which cancels.) -/
theorem vcc_eq (h : CorrFits x A g ρ) (hV : x.Vprᵀ = x.Vpr) (R : Fin K → ℝ → Matrix (Fin n) (Fin n) ℝ)
    (hR : ∀ k t, Upper (R k t)) (hd : ∀ k t i, 0 < R k t i i)
    (hprod : ∀ k t, (R k t)ᵀ * R k t = A + wsum x.S (Function.update ρ k t)) (h0 : ∀ k, R k (ρ k) = rfac x) :
    ∃ E : Fin K → Matrix (Fin n) (Fin n) ℝ, (∀ k a b, HasDerivAt (fun t => (R k t)⁻¹ a b) (E k a b) (ρ k)) ∧
      vcc x = x.scale • ∑ k, ∑ l, x.Vpr k l • (E k * (E l)ᵀ) := by
  obtain ⟨hu, hpos, hRR⟩ := rfac_spec h
  refine ⟨fun k => -dRs x k, ?_, ?_⟩
  · intro k a b
    have hS' : ∀ i j, HasDerivAt (fun t => (A + wsum x.S (Function.update ρ k t)) i j) ((x.lam k • x.S k) i j) (ρ k) := by
      intro i j
      have h1 := ((hasDerivAt_shift (ρ k)).mul_const (x.S k i j)).const_add ((A + wsum x.S ρ) i j)
      refine HasDerivAt.congr_deriv (h1.congr_of_eventuallyEq (Filter.Eventually.of_forall fun t => ?_)) ?_
      · show (A + wsum x.S (Function.update ρ k t)) i j = _
        rw [line_update, Matrix.add_apply, Matrix.smul_apply, smul_eq_mul]
      · rw [Matrix.smul_apply, smul_eq_mul, h.lam]
    have hdet : ∀ t, IsUnit (R k t).det := fun t => upper_det (hR k t) fun i => (hd k t i).ne'
    have hfin := invdChol_is_neg_derivative_partial (fun t => A + wsum x.S (Function.update ρ k t)) (R k) (fun t => (R k t)⁻¹)
      (x.lam k • x.S k) (ρ k) (hR k) (hd k) (hprod k) hS' (fun t => Matrix.nonsing_inv_mul _ (hdet t)) a b
    refine hfin.congr_deriv ?_
    rw [h0]
    rfl
  · obtain ⟨L, hc, _⟩ := h.chol
    unfold vcc
    rw [hc, Option.isSome_some, if_pos rfl, computeV2_eq x.Vpr (dRs x) hV]
    · simp only [Matrix.transpose_neg, Matrix.neg_mul, Matrix.mul_neg, neg_neg]
    · intro k
      have hi := upper_inv hu fun i => (hpos i).ne'
      refine upper_mul (upper_mul hi ?_) hi
      refine (dChol_solves (rfac x) _ hu (fun i => (hpos i).ne') ?_).1
      rw [Matrix.transpose_smul, psd_symm (h.psd k)]

end

/-- C82. The correction never lowers the covariance: corrected minus uncorrected covariance is positive semi-definite. Holds with
dropped coefficients and when the factorisation failed. -/
theorem corrected_ge (x : CorrIn n K) (hs : 0 ≤ x.scale) (hV : x.Vpr.PosSemidef) (hS : ∀ k, (x.S k)ᵀ = x.S k)
    (hdiag : ∀ i, cnH x i i ≠ 0) (hL : ∀ L, x.chol = some L → (∀ i j, i < j → L i j = 0) ∧ ∀ i, 0 < L i i) :
    (corrected x - x.scale • (x.Vbrᵀ * x.Vbr)).PosSemidef := by
  have e : corrected x - x.scale • (x.Vbrᵀ * x.Vbr) = vc x + vcc x := by unfold corrected; rw [add_sub_cancel_right]
  rw [e]
  have h1 : (vc x).PosSemidef := by
    have := posSemidef_conjTranspose_mul_self (x.Vr * (cdBetas x)ᵀ)
    rwa [conjTranspose_eq_transpose_of_trivial] at this
  refine h1.add ?_
  unfold vcc
  cases hc : x.chol with
  | none => rw [Option.isSome_none, if_neg (by simp)]; exact PosSemidef.zero
  | some L =>
    rw [Option.isSome_some, if_pos rfl]
    refine PosSemidef.smul ?_ hs
    have hVs := psd_symm hV
    have hu : Upper (rfac x) := rfac_upper_of x fun L' h' => (hL L' h').1
    have hd : ∀ i, rfac x i i ≠ 0 := fun i => by
      rw [rfac_diag, hc]
      exact (mul_pos (sdiag_pos x i (hdiag i)) ((hL L hc).2 i)).ne'
    have hM : ∀ k, Upper (dRs x k) := by
      intro k
      have hi := upper_inv hu hd
      refine upper_mul (upper_mul hi ?_) hi
      refine (dChol_solves (rfac x) _ hu hd ?_).1
      rw [Matrix.transpose_smul, hS]
    refine PosSemidef.of_dotProduct_mulVec_nonneg ?_ ?_
    · rw [IsHermitian, conjTranspose_eq_transpose_of_trivial, computeV2_symm]
    · intro v
      have := computeV2_psd x.Vpr (dRs x) hVs (fun y => by
        have h := hV.dotProduct_mulVec_nonneg y
        simp only [star_trivial, dotProduct, mulVec, Finset.mul_sum] at h
        refine h.trans_eq (Finset.sum_congr rfl fun k _ => Finset.sum_congr rfl fun l _ => ?_)
        ring) hM v
      refine this.trans_eq ?_
      simp only [star_trivial, dotProduct, mulVec, Finset.mul_sum]
      exact Finset.sum_congr rfl fun k _ => Finset.sum_congr rfl fun l _ => by ring

/-- C82. Corrected standard errors are at least as large as uncorrected ones. -/
theorem corrected_diag_ge (x : CorrIn n K) (hs : 0 ≤ x.scale) (hV : x.Vpr.PosSemidef) (hS : ∀ k, (x.S k)ᵀ = x.S k)
    (hdiag : ∀ i, cnH x i i ≠ 0) (hL : ∀ L, x.chol = some L → (∀ i j, i < j → L i j = 0) ∧ ∀ i, 0 < L i i) (i : Fin n) :
    x.scale * (x.Vbrᵀ * x.Vbr) i i ≤ corrected x i i := by
  have := (corrected_ge x hs hV hS hdiag hL).diag_nonneg (i := i)
  rw [Matrix.sub_apply, Matrix.smul_apply, smul_eq_mul] at this
  linarith

/-- C82, negation. When coefficients were dropped, the vector used as derivative of the coefficients is the scale parameter times
the derivative. -/
theorem dropped_scaled (x : CorrIn n K) (A : Matrix (Fin n) (Fin n) ℝ) (g : Fin n → ℝ) (E : Matrix (Fin n) (Fin m) ℝ)
    (ρ : Fin K → ℝ) (hdrop : x.dropped = true) (hlam : ∀ k, x.lam k = Real.exp (ρ k))
    (hpd : (Eᵀ * (A + wsum x.S ρ) * E).PosDef) (hcov : x.Vbrᵀ * x.Vbr = E * (Eᵀ * (A + wsum x.S ρ) * E)⁻¹ * Eᵀ)
    (hcoef : x.coef = fitted A x.S E g ρ) (k : Fin K) (a : Fin n) :
    ∃ d, HasDerivAt (fun t => fitted A x.S E g (Function.update ρ k t) a) d (ρ k) ∧ cdBeta x k a = x.scale * d := by
  refine ⟨_, fitted_deriv ρ hpd k a, ?_⟩
  unfold cdBeta cV
  rw [hdrop, if_pos rfl, hlam, hcov, ← hcoef, smul_mulVec]
  simp only [Pi.smul_apply, smul_eq_mul]
  ring

/-- Hence it is wrong whenever the scale is not one and the derivative not zero. -/
theorem dropped_wrong (x : CorrIn n K) (A : Matrix (Fin n) (Fin n) ℝ) (g : Fin n → ℝ) (E : Matrix (Fin n) (Fin m) ℝ)
    (ρ : Fin K → ℝ) (hdrop : x.dropped = true) (hlam : ∀ k, x.lam k = Real.exp (ρ k))
    (hpd : (Eᵀ * (A + wsum x.S ρ) * E).PosDef) (hcov : x.Vbrᵀ * x.Vbr = E * (Eᵀ * (A + wsum x.S ρ) * E)⁻¹ * Eᵀ)
    (hcoef : x.coef = fitted A x.S E g ρ) (k : Fin K) (a : Fin n) (hs : x.scale ≠ 1) (hne : cdBeta x k a ≠ 0) :
    ¬ HasDerivAt (fun t => fitted A x.S E g (Function.update ρ k t) a) (cdBeta x k a) (ρ k) := by
  obtain ⟨d, hd, he⟩ := dropped_scaled x A g E ρ hdrop hlam hpd hcov hcoef k a
  intro hbad
  have := hbad.unique hd
  rw [he] at this hne
  have hd0 : d ≠ 0 := right_ne_zero_of_mul hne
  exact hs (mul_right_cancel₀ hd0 (by rw [this, one_mul]))

/-! ### Concrete inputs -/

/-- Penalty on the first of two coefficients. -/
noncomputable def cdemoS (_ : Fin 1) : Matrix (Fin 2) (Fin 2) ℝ := Matrix.diagonal ![1, 0]

/-- A model with scale 2, with or without the second coefficient dropped. -/
noncomputable def cdemo (drop : Bool) : CorrIn 2 1 where
  Vbr := Matrix.diagonal (if drop then ![1 / 2, 0] else ![1 / 2, 1 / 2])
  Vpr := 1
  Vr := 1
  H := -((2 : ℝ)⁻¹ • Matrix.diagonal ![3, 4])
  Semb := Matrix.diagonal ![1, 0]
  S := cdemoS
  lam := fun _ => 1
  coef := if drop then ![1, 0] else ![1, 1]
  scale := 2
  dropped := drop
  chol := some 1

theorem cdemo_wsum (ρ : Fin 1 → ℝ) : wsum cdemoS ρ = Matrix.diagonal ![Real.exp (ρ 0), 0] := by
  unfold wsum cdemoS
  rw [Fin.sum_univ_one, ← Matrix.diagonal_smul]
  congr 1
  funext a
  fin_cases a <;> simp

theorem cdemo_mat (ρ : Fin 1 → ℝ) : Matrix.diagonal ![3, 4] + wsum cdemoS ρ = Matrix.diagonal ![3 + Real.exp (ρ 0), 4] := by
  rw [cdemo_wsum, Matrix.diagonal_add]
  congr 1
  funext a
  fin_cases a <;> simp

theorem cdemo_pd (ρ : Fin 1 → ℝ) : (Matrix.diagonal ![3, 4] + wsum cdemoS ρ).PosDef := by
  rw [cdemo_mat]
  refine PosDef.diagonal fun a => ?_
  fin_cases a
  · have := Real.exp_pos (ρ 0)
    show 0 < 3 + Real.exp (ρ 0)
    linarith
  · show (0 : ℝ) < 4
    norm_num

theorem cdemo_nH (d : Bool) : cnH (cdemo d) = Matrix.diagonal ![4, 4] := by
  unfold cnH cdemo
  simp only
  rw [neg_smul, one_smul, neg_neg, smul_smul, mul_inv_cancel₀ two_ne_zero, one_smul, Matrix.diagonal_add]
  congr 1
  funext a
  fin_cases a <;> simp <;> norm_num

theorem cdemo_sdiag (d : Bool) (i : Fin 2) : sdiag (cdemo d) i = 2 := by
  unfold sdiag
  rw [cdemo_nH, Matrix.diagonal_apply_eq]
  have : |(![4, 4] : Fin 2 → ℝ) i| = 2 ^ 2 := by fin_cases i <;> simp <;> norm_num
  rw [this, Real.sqrt_sq (by norm_num)]

theorem cdemo_fits : CorrFits (cdemo false) (Matrix.diagonal ![3, 4]) ![4, 4] 0 where
  scale_pos := by simp [cdemo]
  lam := fun k => by simp [cdemo]
  semb := by
    show Matrix.diagonal ![1, 0] = wsum cdemoS 0
    rw [cdemo_wsum, Pi.zero_apply, Real.exp_zero]
  hess := rfl
  psd := fun k => PosSemidef.diagonal fun a => by fin_cases a <;> simp
  pd := cdemo_pd
  coef := by
    show (if false = true then ![1, 0] else ![1, 1]) = fitted _ cdemoS _ _ _
    unfold fitted
    rw [cdemo_mat, Matrix.transpose_one, Matrix.one_mul, Matrix.mul_one, one_mulVec, one_mulVec, Pi.zero_apply, Real.exp_zero]
    have : (Matrix.diagonal (![3 + 1, 4] : Fin 2 → ℝ))⁻¹ = Matrix.diagonal ![1 / 4, 1 / 4] := by
      refine Matrix.inv_eq_left_inv ?_
      rw [Matrix.diagonal_mul_diagonal, ← Matrix.diagonal_one]
      congr 1
      funext a
      fin_cases a <;> simp <;> norm_num
    rw [this]
    funext a
    rw [Matrix.mulVec_diagonal]
    fin_cases a <;> simp
  keep := rfl
  chol := by
    refine ⟨1, rfl, fun i j h => Matrix.one_apply_ne (ne_of_lt h), fun i => by simp, ?_⟩
    unfold precond
    simp only [cdemo_sdiag]
    rw [cdemo_nH, Matrix.diagonal_mul_diagonal, Matrix.diagonal_mul_diagonal, Matrix.transpose_one, Matrix.one_mul,
      ← Matrix.diagonal_one]
    congr 1
    funext a
    fin_cases a <;> simp <;> norm_num

example (a : Fin 2) := cdBeta_is_derivative cdemo_fits 0 a

example : vc (cdemo false) 0 0 = ∑ k, ∑ l, cdBeta (cdemo false) k 0 * (1 : Matrix (Fin 1) (Fin 1) ℝ) k l * cdBeta (cdemo false) l 0 :=
  vc_delta (cdemo false) 1 (by simp [cdemo]) 0 0

/-- A path of Cholesky factors for the example. -/
noncomputable def cdemoR (_ : Fin 1) (t : ℝ) : Matrix (Fin 2) (Fin 2) ℝ := Matrix.diagonal ![Real.sqrt (3 + Real.exp t), 2]

example : ∃ E : Fin 1 → Matrix (Fin 2) (Fin 2) ℝ, (∀ k a b, HasDerivAt (fun t => (cdemoR k t)⁻¹ a b) (E k a b) 0) ∧
    vcc (cdemo false) = (2 : ℝ) • ∑ k, ∑ l, (1 : Matrix (Fin 1) (Fin 1) ℝ) k l • (E k * (E l)ᵀ) := by
  have hp : ∀ t, 0 < 3 + Real.exp t := fun t => by have := Real.exp_pos t; linarith
  refine vcc_eq cdemo_fits (by simp [cdemo]) cdemoR ?_ ?_ ?_ ?_
  · intro k t i j hij
    exact Matrix.diagonal_apply_ne _ (ne_of_gt hij)
  · intro k t i
    unfold cdemoR
    rw [Matrix.diagonal_apply_eq]
    fin_cases i
    · exact Real.sqrt_pos.2 (hp t)
    · show (0 : ℝ) < 2
      norm_num
  · intro k t
    show _ = Matrix.diagonal ![3, 4] + wsum cdemoS _
    rw [cdemo_mat]
    unfold cdemoR
    rw [Matrix.diagonal_transpose, Matrix.diagonal_mul_diagonal]
    congr 1
    funext i
    have hk : k = 0 := Subsingleton.elim _ _
    subst hk
    fin_cases i
    · simp [Real.mul_self_sqrt (hp t).le]
    · simp; norm_num
  · intro k
    unfold rfac cdemoR
    have : Matrix.diagonal (sdiag (cdemo false)) = Matrix.diagonal ![2, 2] := by
      congr 1
      funext i
      rw [cdemo_sdiag]
      fin_cases i <;> simp
    rw [this]
    simp only [cdemo, Option.getD_some, Matrix.mul_one, Matrix.diagonal_transpose, Pi.zero_apply, Real.exp_zero]
    congr 1
    funext i
    have h4 : Real.sqrt (3 + 1) = 2 := by
      rw [show (3 + 1 : ℝ) = 2 ^ 2 by norm_num, Real.sqrt_sq (by norm_num)]
    fin_cases i
    · simp [h4]
    · simp

example (d : Bool) (i : Fin 2) : (cdemo d).scale * ((cdemo d).Vbrᵀ * (cdemo d).Vbr) i i ≤ corrected (cdemo d) i i := by
  refine corrected_diag_ge (cdemo d) (by simp [cdemo]) ?_ ?_ ?_ ?_ i
  · exact PosSemidef.one
  · intro k; exact Matrix.diagonal_transpose _
  · intro i
    rw [cdemo_nH, Matrix.diagonal_apply_eq]
    fin_cases i <;> simp
  · intro L h
    have : L = 1 := (Option.some.inj h).symm
    subst this
    exact ⟨fun i j h => Matrix.one_apply_ne (ne_of_lt h), fun i => by simp⟩

/-- The second coefficient is dropped. -/
noncomputable def cdemoE : Matrix (Fin 2) (Fin 1) ℝ := Matrix.of fun a _ => if a = 0 then 1 else 0

theorem cdemoE_sandwich : cdemoEᵀ * (Matrix.diagonal ![3, 4] + wsum cdemoS 0) * cdemoE = (4 : ℝ) • (1 : Matrix (Fin 1) (Fin 1) ℝ) := by
  rw [cdemo_mat]
  ext a b
  fin_cases a; fin_cases b
  simp [Matrix.mul_apply, cdemoE, Fin.sum_univ_two, Matrix.diagonal]
  norm_num

theorem cdemoE_inv : ((4 : ℝ) • (1 : Matrix (Fin 1) (Fin 1) ℝ))⁻¹ = (1 / 4 : ℝ) • (1 : Matrix (Fin 1) (Fin 1) ℝ) := by
  refine Matrix.inv_eq_left_inv ?_
  rw [Matrix.smul_mul, Matrix.mul_smul, Matrix.mul_one, smul_smul]
  norm_num

/-- C82, the negation on a concrete model. -/
theorem dropped_wrong_demo : ¬ HasDerivAt (fun t => fitted (Matrix.diagonal ![3, 4]) cdemoS cdemoE ![4, 4] (Function.update 0 0 t) 0)
    (cdBeta (cdemo true) 0 0) 0 := by
  refine dropped_wrong (cdemo true) (Matrix.diagonal ![3, 4]) ![4, 4] cdemoE 0 rfl (fun k => by simp [cdemo]) ?_ ?_ ?_ 0 0 ?_ ?_
  · show (cdemoEᵀ * (Matrix.diagonal ![3, 4] + wsum cdemoS 0) * cdemoE).PosDef
    rw [cdemoE_sandwich]
    exact PosDef.one.smul (by norm_num)
  · show _ = cdemoE * (cdemoEᵀ * (Matrix.diagonal ![3, 4] + wsum cdemoS 0) * cdemoE)⁻¹ * cdemoEᵀ
    rw [cdemoE_sandwich, cdemoE_inv]
    ext a b
    fin_cases a <;> fin_cases b <;> simp [cdemo, cdemoE, Matrix.mul_apply, Matrix.diagonal] <;> norm_num
  · show (if true = true then ![1, 0] else ![1, 1]) = fitted _ cdemoS _ _ _
    unfold fitted
    rw [cdemoE_sandwich, cdemoE_inv]
    funext a
    fin_cases a <;> simp [cdemoE, mulVec, dotProduct]
  · simp [cdemo]
  · unfold cdBeta cV
    simp [cdemo, cdemoS, smul_mulVec, Matrix.mulVec_diagonal]

end Verif.Wps
