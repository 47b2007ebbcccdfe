import Verif.ScaleModel
import Verif.Fam
import Verif.Ar1
import Mathlib.LinearAlgebra.Matrix.Trace
import Mathlib.MeasureTheory.Integral.Bochner.Basic
import Mathlib.MeasureTheory.Function.L2Space
import Verif.Mvn
import Mathlib.Probability.Distributions.Gaussian.Real
import Mathlib.Probability.Independence.Integration

/-!
# Estimated scale parameters (property C88)
-/

namespace Verif.Scale

open Verif Fl Fam Matrix Finset MeasureTheory

section Pearson

variable {N : ℕ} {fam : Fin N → FamKind} {lk : LinkKind} {y eta offset mu v : Fin N → ℝ}

/-- Fitted means and variances: `mu` belongs to `eta`, lies in the domain of the family, and `v` is its variance function. -/
structure Means (fam : Fin N → FamKind) (lk : LinkKind) (eta mu v : Fin N → ℝ) : Prop where
  ok : ∀ i, (fam i).ok
  mean : ∀ i, lk.fi (fin (eta i)) = fin (mu i)
  dom : ∀ i, mu i ∈ (fam i).dom
  var : ∀ i, (fam i).V (fin (mu i)) = fin (v i)

theorem Means.fiR (h : Means fam lk eta mu v) (i : Fin N) : lk.fiR (eta i) = mu i := by
  have := h.mean i
  rwa [fi_eq, fin_inj] at this

theorem Means.vpos (h : Means fam lk eta mu v) (i : Fin N) : 0 < v i := by
  have h1 := V_pos (h.ok i) (h.dom i)
  have h2 := h.var i
  rw [V_eq (h.ok i), fin_inj] at h2
  rwa [h2] at h1

theorem Means.dpos (h : Means fam lk eta mu v) (i : Fin N) : 0 < lk.d1R (mu i) := by
  have := d1_pos (fi_mem lk (eta i))
  rwa [h.fiR i] at this

theorem work_eq (h : Means fam lk eta mu v) (i : Fin N) :
    work fam lk y eta offset i
      = (fin (lk.d1R (mu i) * (y i - mu i) + (eta i - offset i)), fin (1 / (lk.d1R (mu i) ^ 2 * v i))) := by
  have h1 := h.dpos i
  have h2 := h.vpos i
  have hm : mu i ∈ lk.dom := by rw [← h.fiR i]; exact fi_mem lk _
  simp only [work, fisherZW]
  rw [h.mean i, d1_eq hm, h.var i, fin_sub, fin_mul, fin_add, pow_fin, fin_mul, fin_div (by positivity)]

theorem work_valid (h : Means fam lk eta mu v) (i : Fin N) : ¬ invalid (work fam lk y eta offset i) := by
  rw [work_eq h i]
  intro hn
  exact hn ⟨trivial, trivial⟩

/-- All observations are valid. -/
noncomputable def allValid (h : Means fam lk eta mu v) : Valid (work fam lk y eta offset) ≃ Fin N where
  toFun i := i.1
  invFun i := ⟨i, work_valid h i⟩
  left_inv _ := rfl
  right_inv _ := rfl

theorem wres_eq (h : Means fam lk eta mu v) (eta' : Fin N → ℝ) (i : Valid (work fam lk y eta offset)) :
    wres (work fam lk y eta offset) eta' none i
      = (y i.1 - mu i.1) / √(v i.1) + (eta i.1 - offset i.1 - eta' i.1) / (lk.d1R (mu i.1) * √(v i.1)) := by
  have h1 := h.dpos i.1
  have h2 := h.vpos i.1
  unfold wres
  dsimp only
  rw [work_eq h i.1]
  show √(1 / (lk.d1R (mu i.1) ^ 2 * v i.1)) * (lk.d1R (mu i.1) * (y i.1 - mu i.1) + (eta i.1 - offset i.1) - eta' i.1) = _
  rw [Real.sqrt_div zero_le_one, Real.sqrt_one, Real.sqrt_mul (by positivity), Real.sqrt_sq h1.le]
  have hs := Real.sqrt_pos.2 h2
  field_simp
  ring

theorem scale_eq (h : Means fam lk eta mu v) (eta' : Fin N → ℝ) (pen : Option ℝ) (colsX : ℕ) :
    scaleG none (work fam lk y eta offset) eta' none pen colsX
      = (∑ i, ((y i - mu i) / √(v i) + (eta i - offset i - eta' i) / (lk.d1R (mu i) * √(v i))) ^ 2) / (N - totalEdf pen colsX) := by
  have hc : Fintype.card (Valid (work fam lk y eta offset)) = N := by
    rw [Fintype.card_congr (allValid h), Fintype.card_fin]
  show estScale _ _ _ = _
  unfold estScale
  rw [hc, sub_self, sub_zero]
  congr 1
  rw [← Equiv.sum_comp (allValid (y := y) (offset := offset) h)]
  refine sum_congr rfl fun i _ => ?_
  rw [wres_eq h eta' i, ← sq]
  rfl

/-- **C88, partial.** Generalised models without offset: if the coefficients reproduce themselves (the predictor of the working
data is that of the coefficients), the estimated scale is the sum of squared Pearson residuals over the number of observations
minus degrees of freedom. What fails: with an offset, see `scale_offset_wrong`. -/
theorem scale_pearson_partial {p : ℕ} (X : Matrix (Fin N) (Fin p) ℝ) (coef : Fin p → ℝ) (hm : Means fam lk (etaOf X coef 0) mu v)
    (edf : ℝ) :
    scaleG none (work fam lk y (etaOf X coef 0) 0) (etaOf X coef 0) none (some edf) p
      = (∑ i, (y i - mu i) ^ 2 / v i) / (N - edf) := by
  rw [scale_eq hm]
  show _ / ((N : ℝ) - edf) = _
  congr 1
  refine sum_congr rfl fun i _ => ?_
  rw [Pi.zero_apply, sub_zero, sub_self, zero_div, add_zero, div_pow, Real.sq_sqrt (hm.vpos i).le]

/-- **C88, what fails (1).** A constant offset `c` with a Gamma family and log link: if the intercept is at its estimate
(the relative residuals sum to zero), the estimated scale is the Pearson estimate plus `N c² / (N - edf)`. -/
theorem scale_offset_wrong {p : ℕ} (X : Matrix (Fin N) (Fin p) ℝ) (coef : Fin p → ℝ) (c : ℝ)
    (hfam : fam = fun _ => .gamma) (hlk : lk = .log) (hm : Means fam lk (etaOf X coef fun _ => c) mu v)
    (hint : ∑ i, (y i - mu i) / mu i = 0) (edf : ℝ) :
    scaleG none (work fam lk y (etaOf X coef fun _ => c) fun _ => c) (etaOf X coef fun _ => c) none (some edf) p
      = (∑ i, (y i - mu i) ^ 2 / v i) / (N - edf) + N * c ^ 2 / (N - edf) := by
  rw [scale_eq hm]
  show _ / ((N : ℝ) - edf) = _
  rw [← add_div]
  congr 1
  have key : ∀ i, ((y i - mu i) / √(v i) + ((etaOf X coef fun _ => c) i - c - (etaOf X coef fun _ => c) i) / (lk.d1R (mu i) * √(v i))) ^ 2
      = (y i - mu i) ^ 2 / v i - 2 * c * ((y i - mu i) / mu i) + c ^ 2 := by
    intro i
    have hv := hm.var i
    have hd := hm.dom i
    subst hfam hlk
    have hpos : 0 < mu i := hd
    rw [V_eq (hm.ok i), fin_inj] at hv
    have hv' : v i = mu i ^ 2 := hv.symm
    rw [hv', Real.sqrt_sq hpos.le]
    show ((y i - mu i) / mu i + (_ - c - _) / (1 / mu i * mu i)) ^ 2 = _
    field_simp
    ring
  rw [sum_congr rfl fun i _ => key i, sum_add_distrib, sum_sub_distrib, ← mul_sum, hint]
  simp

end Pearson

/-! ### Gaussian models: the estimate has the right mean -/

section Unbiased

variable {Ω : Type} [MeasurableSpace Ω] {P : Measure Ω} [IsProbabilityMeasure P] {n p k : ℕ}

/-- Errors with second moments `σ² C`. -/
structure Errors (P : Measure Ω) (e : Fin n → Ω → ℝ) (C : Matrix (Fin n) (Fin n) ℝ) (σ2 : ℝ) : Prop where
  int : ∀ i j, Integrable (fun ω => e i ω * e j ω) P
  cov : ∀ i j, ∫ ω, e i ω * e j ω ∂P = σ2 * C i j

/-- Least squares coefficients in which only the columns `keep` are used: the other coefficients are zero and the residuals are
orthogonal to the columns used. -/
structure LeastSq (X : Matrix (Fin n) (Fin p) ℝ) (keep : Fin k → Fin p) (y : Fin n → ℝ) (coef : Fin p → ℝ) : Prop where
  zero : ∀ j, j ∉ Set.range keep → coef j = 0
  normal : (X.submatrix id keep)ᵀ *ᵥ (y - X *ᵥ coef) = 0

theorem kept_mulVec (X : Matrix (Fin n) (Fin p) ℝ) {keep : Fin k → Fin p} (hk : Function.Injective keep) {coef : Fin p → ℝ}
    (h0 : ∀ j, j ∉ Set.range keep → coef j = 0) : X *ᵥ coef = X.submatrix id keep *ᵥ (coef ∘ keep) := by
  funext i
  show ∑ j, X i j * coef j = ∑ l, X i (keep l) * coef (keep l)
  symm
  refine sum_of_injOn keep (fun a _ b _ h => hk h) (fun _ _ => mem_coe.2 (mem_univ _)) (fun j _ hj => ?_) (fun _ _ => rfl)
  have : j ∉ Set.range keep := fun ⟨l, hl⟩ => hj ⟨l, by simp, hl⟩
  rw [h0 j this, mul_zero]

/-- Residuals are the residual-maker matrix times the errors. -/
theorem resid_eq (X : Matrix (Fin n) (Fin p) ℝ) {keep : Fin k → Fin p} (hk : Function.Injective keep)
    (hX : IsUnit ((X.submatrix id keep)ᵀ * X.submatrix id keep).det) {β coef : Fin p → ℝ} (hβ : ∀ j, j ∉ Set.range keep → β j = 0)
    {e : Fin n → ℝ} (h : LeastSq X keep (X *ᵥ β + e) coef) :
    X *ᵥ β + e - X *ᵥ coef
      = (1 - X.submatrix id keep * ((X.submatrix id keep)ᵀ * X.submatrix id keep)⁻¹ * (X.submatrix id keep)ᵀ) *ᵥ e := by
  have hn := h.normal
  rw [kept_mulVec X hk hβ, kept_mulVec X hk h.zero] at hn ⊢
  obtain ⟨K, hK⟩ : ∃ K, K = X.submatrix id keep := ⟨_, rfl⟩
  obtain ⟨b, hb⟩ : ∃ b, b = β ∘ keep := ⟨_, rfl⟩
  obtain ⟨a, ha⟩ : ∃ a, a = coef ∘ keep := ⟨_, rfl⟩
  rw [← hK, ← hb, ← ha] at hn
  rw [← hK] at hX
  rw [← hK, ← hb, ← ha]
  have e1 : (Kᵀ * K) *ᵥ (a - b) = Kᵀ *ᵥ e := by
    rw [Matrix.mulVec_sub, ← Matrix.mulVec_mulVec, ← Matrix.mulVec_mulVec]
    rw [Matrix.mulVec_sub, Matrix.mulVec_add] at hn
    have := sub_eq_zero.1 hn
    rw [← this]
    abel
  have e2 : a - b = (Kᵀ * K)⁻¹ *ᵥ (Kᵀ *ᵥ e) := by
    rw [← e1, Matrix.mulVec_mulVec, Matrix.nonsing_inv_mul _ hX, Matrix.one_mulVec]
  rw [Matrix.sub_mulVec, Matrix.one_mulVec, ← Matrix.mulVec_mulVec, ← Matrix.mulVec_mulVec, ← e2, Matrix.mulVec_sub]
  abel

theorem maker_trace (K : Matrix (Fin n) (Fin k) ℝ) (hK : IsUnit (Kᵀ * K).det) :
    (1 - K * (Kᵀ * K)⁻¹ * Kᵀ).trace = (n : ℝ) - k := by
  rw [Matrix.trace_sub, Matrix.trace_one, Fintype.card_fin, Matrix.trace_mul_comm, ← Matrix.mul_assoc, Matrix.mul_nonsing_inv _ hK,
    Matrix.trace_one, Fintype.card_fin]

theorem maker_sq (K : Matrix (Fin n) (Fin k) ℝ) (hK : IsUnit (Kᵀ * K).det) :
    (1 - K * (Kᵀ * K)⁻¹ * Kᵀ)ᵀ * (1 - K * (Kᵀ * K)⁻¹ * Kᵀ) = 1 - K * (Kᵀ * K)⁻¹ * Kᵀ := by
  have ht : (K * (Kᵀ * K)⁻¹ * Kᵀ)ᵀ = K * (Kᵀ * K)⁻¹ * Kᵀ := by
    rw [Matrix.transpose_mul, Matrix.transpose_mul, Matrix.transpose_nonsing_inv, Matrix.transpose_mul, Matrix.transpose_transpose,
      Matrix.mul_assoc]
  rw [Matrix.transpose_sub, Matrix.transpose_one, ht, Matrix.sub_mul, Matrix.one_mul, Matrix.mul_sub, Matrix.mul_one]
  have : K * (Kᵀ * K)⁻¹ * Kᵀ * (K * (Kᵀ * K)⁻¹ * Kᵀ) = K * (Kᵀ * K)⁻¹ * Kᵀ := by
    rw [show K * (Kᵀ * K)⁻¹ * Kᵀ * (K * (Kᵀ * K)⁻¹ * Kᵀ) = K * ((Kᵀ * K)⁻¹ * (Kᵀ * K)) * (Kᵀ * K)⁻¹ * Kᵀ by
      simp only [Matrix.mul_assoc], Matrix.nonsing_inv_mul _ hK, Matrix.mul_one]
  rw [this]
  abel

theorem quad_mean {e : Fin n → Ω → ℝ} {σ2 : ℝ} (he : Errors P e 1 σ2) (M : Matrix (Fin n) (Fin n) ℝ) (hM : Mᵀ * M = M) :
    ∫ ω, ∑ i, (M *ᵥ fun j => e j ω) i * (M *ᵥ fun j => e j ω) i ∂P = σ2 * M.trace := by
  have hq : ∀ ω, ∑ i, (M *ᵥ fun j => e j ω) i * (M *ᵥ fun j => e j ω) i = ∑ j, ∑ l, M j l * (e j ω * e l ω) := by
    intro ω
    have : ∑ i, (M *ᵥ fun j => e j ω) i * (M *ᵥ fun j => e j ω) i = (fun j => e j ω) ⬝ᵥ ((Mᵀ * M) *ᵥ fun j => e j ω) := by
      rw [← Matrix.mulVec_mulVec, Matrix.dotProduct_mulVec, Matrix.vecMul_transpose]
      rfl
    rw [this, hM]
    show ∑ j, e j ω * ∑ l, M j l * e l ω = _
    refine sum_congr rfl fun j _ => ?_
    rw [mul_sum]
    exact sum_congr rfl fun l _ => by ring
  have hi : ∀ j ∈ univ, Integrable (fun ω => ∑ l, M j l * (e j ω * e l ω)) P :=
    fun j _ => integrable_finsetSum _ fun l _ => (he.int j l).const_mul _
  refine (integral_congr_ae (Filter.Eventually.of_forall hq)).trans ((integral_finsetSum univ hi).trans ?_)
  have : ∀ j, ∫ ω, ∑ l, M j l * (e j ω * e l ω) ∂P = σ2 * M j j := by
    intro j
    rw [integral_finsetSum _ fun l _ => (he.int j l).const_mul _]
    simp only [integral_const_mul, he.cov, Matrix.one_apply]
    rw [Finset.sum_eq_single j]
    · simp; ring
    · intro b _ hb
      rw [if_neg (Ne.symm hb)]
      ring
    · intro h; exact absurd (mem_univ _) h
  rw [sum_congr rfl fun j _ => this j, ← mul_sum]
  rfl

/-- Mean of the estimate if `k` of `p` columns are used. -/
theorem scale_mean (X : Matrix (Fin n) (Fin p) ℝ) {keep : Fin k → Fin p} (hk : Function.Injective keep)
    (hX : IsUnit ((X.submatrix id keep)ᵀ * X.submatrix id keep).det) {β : Fin p → ℝ} (hβ : ∀ j, j ∉ Set.range keep → β j = 0)
    {e : Fin n → Ω → ℝ} {σ2 : ℝ} (he : Errors P e 1 σ2) (coef : Ω → Fin p → ℝ)
    (h : ∀ ω, LeastSq X keep (X *ᵥ β + fun i => e i ω) (coef ω)) :
    ∫ ω, scaleA none (X *ᵥ β + fun i => e i ω) (etaOf X (coef ω) 0) none p ∂P = σ2 * (n - k) / (n - p) := by
  have hs : ∀ ω, scaleA none (X *ᵥ β + fun i => e i ω) (etaOf X (coef ω) 0) none p
      = (∑ i, ((1 - X.submatrix id keep * ((X.submatrix id keep)ᵀ * X.submatrix id keep)⁻¹ * (X.submatrix id keep)ᵀ) *ᵥ fun j => e j ω) i
          * ((1 - X.submatrix id keep * ((X.submatrix id keep)ᵀ * X.submatrix id keep)⁻¹ * (X.submatrix id keep)ᵀ) *ᵥ fun j => e j ω) i)
        / (n - p) := by
    intro ω
    rw [← resid_eq X hk hX hβ (h ω)]
    show estScale _ _ _ = _
    unfold estScale etaOf
    rw [add_zero]
    rfl
  simp only [hs]
  rw [integral_div, quad_mean he _ (maker_sq _ hX), maker_trace _ hX]

/-- **C88.** Gaussian model without penalties, columns independent, uncorrelated errors with variance `σ²`: the mean of the
estimated scale is `σ²`. -/
theorem scale_unbiased (hnp : p < n) (X : Matrix (Fin n) (Fin p) ℝ) (hX : IsUnit (Xᵀ * X).det) {β : Fin p → ℝ}
    {e : Fin n → Ω → ℝ} {σ2 : ℝ} (he : Errors P e 1 σ2) (coef : Ω → Fin p → ℝ)
    (h : ∀ ω, (Xᵀ * X) *ᵥ coef ω = Xᵀ *ᵥ (X *ᵥ β + fun i => e i ω)) :
    ∫ ω, scaleA none (X *ᵥ β + fun i => e i ω) (etaOf X (coef ω) 0) none p ∂P = σ2 := by
  rw [scale_mean X (keep := id) Function.injective_id hX (fun j hj => absurd ⟨j, rfl⟩ hj) he coef (fun ω => ⟨fun j hj => absurd ⟨j, rfl⟩ hj, by
    show Xᵀ *ᵥ _ = 0
    rw [Matrix.mulVec_sub, Matrix.mulVec_mulVec, h ω, sub_self]⟩)]
  have : (n : ℝ) - p ≠ 0 := sub_ne_zero.2 (by exact_mod_cast hnp.ne')
  rw [mul_div_assoc, div_self this, mul_one]

/-- **C88.** The same with an AR(1) model for the errors: `y` and `X` are transformed by `Lrhoi.T`. -/
theorem scale_unbiased_ar (ρ : ℝ) (hρ : ρ ^ 2 < 1) (start : List Bool) (h0 : start.getD 0 false = true) (hnp : p < start.length)
    (X : Matrix (Fin start.length) (Fin p) ℝ) (hX : IsUnit ((Ar1.W ρ start * X)ᵀ * (Ar1.W ρ start * X)).det) {β : Fin p → ℝ}
    {e : Fin start.length → Ω → ℝ} {σ2 : ℝ} (he : Errors P e (Ar1.V ρ start) σ2) (coef : Ω → Fin p → ℝ)
    (h : ∀ ω, ((Ar1.W ρ start * X)ᵀ * (Ar1.W ρ start * X)) *ᵥ coef ω = (Ar1.W ρ start * X)ᵀ *ᵥ (Ar1.W ρ start *ᵥ (X *ᵥ β + fun i => e i ω))) :
    ∫ ω, scaleA none (Ar1.W ρ start *ᵥ (X *ᵥ β + fun i => e i ω)) (etaOf (Ar1.W ρ start * X) (coef ω) 0) none p ∂P = σ2 := by
  obtain ⟨W, hW⟩ : ∃ W, W = Ar1.W ρ start := ⟨_, rfl⟩
  have hw := Ar1.ar1_whitens ρ hρ start h0
  rw [← hW] at hX h hw ⊢
  have hsplit : ∀ ω, W *ᵥ (X *ᵥ β + fun i => e i ω) = (W * X) *ᵥ β + fun i => (W *ᵥ fun j => e j ω) i := by
    intro ω
    rw [Matrix.mulVec_add, Matrix.mulVec_mulVec]
  have hexp : ∀ i j ω, (W *ᵥ fun l => e l ω) i * (W *ᵥ fun l => e l ω) j = ∑ a, ∑ b, W i a * W j b * (e a ω * e b ω) := by
    intro i j ω
    show (∑ a, W i a * e a ω) * (∑ b, W j b * e b ω) = _
    rw [sum_mul_sum]
    exact sum_congr rfl fun a _ => sum_congr rfl fun b _ => by ring
  have he' : Errors P (fun i ω => (W *ᵥ fun j => e j ω) i) 1 σ2 := by
    refine ⟨fun i j => ?_, fun i j => ?_⟩
    · simp only [hexp]
      exact integrable_finsetSum _ fun a _ => integrable_finsetSum _ fun b _ => (he.int a b).const_mul _
    · simp only [hexp]
      rw [integral_finsetSum _ fun a _ => integrable_finsetSum _ fun b _ => (he.int a b).const_mul _]
      have : ∀ a, ∫ ω, ∑ b, W i a * W j b * (e a ω * e b ω) ∂P = ∑ b, W i a * W j b * (σ2 * Ar1.V ρ start a b) := by
        intro a
        rw [integral_finsetSum _ fun b _ => (he.int a b).const_mul _]
        simp only [integral_const_mul, he.cov]
      rw [sum_congr rfl fun a _ => this a, ← hw, Matrix.mul_apply, mul_sum]
      simp only [Matrix.mul_apply, Matrix.transpose_apply, sum_mul, mul_sum]
      rw [sum_comm]
      exact sum_congr rfl fun a _ => sum_congr rfl fun b _ => by ring
  simp only [hsplit] at h ⊢
  exact scale_unbiased hnp (W * X) hX he' coef h

/-- **C88, what fails (2).** If the pivoted QR decomposition drops columns of an unpenalised model, the degrees of freedom are
still the number of all columns: the mean of the estimate is too large. -/
theorem scale_dropped_wrong (hkp : k < p) (hnp : p < n) (X : Matrix (Fin n) (Fin p) ℝ) {keep : Fin k → Fin p} (hk : Function.Injective keep)
    (hX : IsUnit ((X.submatrix id keep)ᵀ * X.submatrix id keep).det) {β : Fin p → ℝ} (hβ : ∀ j, j ∉ Set.range keep → β j = 0)
    {e : Fin n → Ω → ℝ} {σ2 : ℝ} (hσ : 0 < σ2) (he : Errors P e 1 σ2) (coef : Ω → Fin p → ℝ)
    (h : ∀ ω, LeastSq X keep (X *ᵥ β + fun i => e i ω) (coef ω)) :
    σ2 < ∫ ω, scaleA none (X *ᵥ β + fun i => e i ω) (etaOf X (coef ω) 0) none p ∂P := by
  rw [scale_mean X hk hX hβ he coef h]
  have h1 : (0 : ℝ) < n - p := sub_pos.2 (by exact_mod_cast hnp)
  have h2 : (k : ℝ) < p := by exact_mod_cast hkp
  rw [lt_div_iff₀ h1]
  exact mul_lt_mul_of_pos_left (by linarith) hσ

end Unbiased

/-! ### Cases meeting the hypotheses -/

open ProbabilityTheory

theorem std_errors (n : ℕ) : Errors (Mvn.std n) (fun i ω => ω i) 1 1 := by
  have hmp : ∀ j, MeasurePreserving (Function.eval j) (Mvn.std n) (gaussianReal 0 1) :=
    measurePreserving_eval (fun _ : Fin n => gaussianReal 0 1)
  have hL2 : ∀ j, MemLp (fun ω : Fin n → ℝ => ω j) 2 (Mvn.std n) := fun j =>
    (memLp_id_gaussianReal 2).comp_measurePreserving (hmp j)
  refine ⟨fun i j => (hL2 i).integrable_mul (hL2 j), fun i j => ?_⟩
  by_cases hij : i = j
  · subst hij
    have h1 : ∫ x : Fin n → ℝ, x i * x i ∂(Mvn.std n) = ∫ y, y * y ∂(gaussianReal 0 1) := by
      rw [← (hmp i).map_eq, integral_map (hmp i).measurable.aemeasurable (by fun_prop)]
    rw [h1, Matrix.one_apply_eq]
    have h2 := variance_fun_id_gaussianReal (μ := 0) (v := 1)
    rw [show (fun x : ℝ => x) = id from rfl, variance_eq_sub (memLp_id_gaussianReal 2)] at h2
    simp at h2
    simp only [← sq, h2]
    norm_num
  · rw [Matrix.one_apply_ne hij, mul_zero]
    have hind : IndepFun (fun ω : Fin n → ℝ => ω i) (fun ω => ω j) (Mvn.std n) :=
      (iIndepFun_pi (μ := fun _ : Fin n => gaussianReal 0 1) (X := fun _ x => x) (fun _ => measurable_id.aemeasurable)).indepFun hij
    have h1 : ∫ x : Fin n → ℝ, x i ∂(Mvn.std n) = 0 := by
      have : ∫ x : Fin n → ℝ, x i ∂(Mvn.std n) = ∫ y, y ∂(gaussianReal 0 1) := by
        rw [← (hmp i).map_eq, integral_map (hmp i).measurable.aemeasurable (by fun_prop)]
      rw [this, integral_id_gaussianReal]
    have := hind.integral_mul_eq_mul_integral (hL2 i).aestronglyMeasurable (hL2 j).aestronglyMeasurable
    rw [h1, zero_mul] at this
    exact this

instance (n : ℕ) : IsProbabilityMeasure (Mvn.std n) := by unfold Mvn.std; infer_instance

/-- Errors formed from standard normal variables. -/
theorem lin_errors {n : ℕ} (A : Matrix (Fin n) (Fin n) ℝ) : Errors (Mvn.std n) (fun i ω => (A *ᵥ ω) i) (A * Aᵀ) 1 := by
  have he := std_errors n
  have hexp : ∀ i j (ω : Fin n → ℝ), (A *ᵥ ω) i * (A *ᵥ ω) j = ∑ a, ∑ b, A i a * A j b * (ω a * ω b) := by
    intro i j ω
    show (∑ a, A i a * ω a) * (∑ b, A j b * ω b) = _
    rw [sum_mul_sum]
    exact sum_congr rfl fun a _ => sum_congr rfl fun b _ => by ring
  refine ⟨fun i j => ?_, fun i j => ?_⟩
  · simp only [hexp]
    exact integrable_finsetSum _ fun a _ => integrable_finsetSum _ fun b _ => (he.int a b).const_mul _
  · simp only [hexp]
    have hi : ∀ a ∈ univ, Integrable (fun ω : Fin n → ℝ => ∑ b, A i a * A j b * (ω a * ω b)) (Mvn.std n) :=
      fun a _ => integrable_finsetSum _ fun b _ => (he.int a b).const_mul _
    refine (integral_finsetSum univ hi).trans ?_
    rw [one_mul, Matrix.mul_apply]
    refine sum_congr rfl fun a _ => ?_
    rw [integral_finsetSum _ fun b _ => (he.int a b).const_mul _]
    simp only [integral_const_mul, he.cov, Matrix.one_apply, Matrix.transpose_apply]
    rw [Finset.sum_eq_single a]
    · simp
    · intro b _ hb
      rw [if_neg (Ne.symm hb)]
      ring
    · intro h; exact absurd (mem_univ _) h

/-- A mean estimated from three observations: the sample variance. -/
example : ∃ coef : (Fin 3 → ℝ) → Fin 1 → ℝ,
    ∫ ω, scaleA none ((Matrix.of fun _ _ => 1 : Matrix (Fin 3) (Fin 1) ℝ) *ᵥ ![5] + fun i => ω i)
      (etaOf (Matrix.of fun _ _ => 1 : Matrix (Fin 3) (Fin 1) ℝ) (coef ω) 0) none 1 ∂(Mvn.std 3) = 1 := by
  refine ⟨fun ω _ => 5 + (ω 0 + ω 1 + ω 2) / 3, scale_unbiased (by norm_num) _ ?_ (std_errors 3) _ fun ω => ?_⟩
  · rw [Matrix.det_fin_one, Matrix.mul_apply]
    simp
  · funext j
    simp [Matrix.mulVec, dotProduct, Matrix.mul_apply, Fin.sum_univ_three]
    ring

/-- Two equal columns, the second dropped. -/
example : ∃ coef : (Fin 3 → ℝ) → Fin 2 → ℝ,
    1 < ∫ ω, scaleA none ((Matrix.of fun _ _ => 1 : Matrix (Fin 3) (Fin 2) ℝ) *ᵥ ![5, 0] + fun i => ω i)
      (etaOf (Matrix.of fun _ _ => 1 : Matrix (Fin 3) (Fin 2) ℝ) (coef ω) 0) none 2 ∂(Mvn.std 3) := by
  have hz : ∀ (c : ℝ) (j : Fin 2), j ∉ Set.range (fun _ : Fin 1 => (0 : Fin 2)) → (![c, 0] : Fin 2 → ℝ) j = 0 := by
    intro c j hj
    fin_cases j
    · exact absurd ⟨0, rfl⟩ hj
    · rfl
  refine ⟨fun ω => ![5 + (ω 0 + ω 1 + ω 2) / 3, 0], scale_dropped_wrong (k := 1) (keep := fun _ => 0) (by norm_num) (by norm_num) _
    (fun _ _ _ => Subsingleton.elim _ _) ?_ (hz 5) (by norm_num) (std_errors 3) _ fun ω => ⟨hz _, ?_⟩⟩
  · rw [Matrix.det_fin_one, Matrix.mul_apply]
    simp
  · funext j
    simp [Matrix.mulVec, dotProduct, Fin.sum_univ_three, Fin.sum_univ_two]
    ring

/-- One series of two observations with AR(1) errors and one coefficient. -/
example : ∃ (X : Matrix (Fin 2) (Fin 1) ℝ) (e : Fin 2 → (Fin 2 → ℝ) → ℝ) (coef : (Fin 2 → ℝ) → Fin 1 → ℝ),
    ∫ ω, scaleA none (Ar1.W (1 / 2) [true, false] *ᵥ (X *ᵥ ![5] + fun i => e i ω)) (etaOf (Ar1.W (1 / 2) [true, false] * X) (coef ω) 0)
      none 1 ∂(Mvn.std 2) = 1 := by
  have hw := (Ar1.ar1_covariance (1 / 2) (by norm_num) [true, false] rfl).1
  have he : Errors (Mvn.std 2) (fun i ω => ((Ar1.W (1 / 2) [true, false])⁻¹ *ᵥ ω) i) (Ar1.V (1 / 2) [true, false]) 1 := by
    rw [← hw, Matrix.mul_inv_rev, ← Matrix.transpose_nonsing_inv]
    exact lin_errors (n := 2) (Ar1.W (1 / 2) [true, false])⁻¹
  have hX : IsUnit ((Ar1.W (1 / 2) [true, false] * (Matrix.of ![![1], ![0]] : Matrix (Fin 2) (Fin 1) ℝ))ᵀ
      * (Ar1.W (1 / 2) [true, false] * (Matrix.of ![![1], ![0]] : Matrix (Fin 2) (Fin 1) ℝ))).det := by
    rw [Matrix.det_fin_one, Matrix.mul_apply]
    show IsUnit (∑ x : Fin 2, _)
    rw [Fin.sum_univ_two]
    simp only [Matrix.transpose_apply, Matrix.mul_apply]
    show IsUnit ((∑ x : Fin 2, _) * (∑ x : Fin 2, _) + (∑ x : Fin 2, _) * (∑ x : Fin 2, _))
    simp only [Fin.sum_univ_two]
    simp [Ar1.W]
    have h1 : Ar1.Lrhoi 2⁻¹ [true, false] 0 0 = 1 := by 
      simp only [Ar1.Lrhoi, Ar1.d0, if_true]
      rw [if_pos (by decide)]
    rw [h1]
    nlinarith [mul_self_nonneg (Ar1.Lrhoi 2⁻¹ [true, false] 0 1)]
  exact ⟨_, _, _, scale_unbiased_ar (1 / 2) (by norm_num) [true, false] rfl (by decide) _ hX he
    (fun ω => ((Ar1.W (1 / 2) [true, false] * (Matrix.of ![![1], ![0]] : Matrix (Fin 2) (Fin 1) ℝ))ᵀ
      * (Ar1.W (1 / 2) [true, false] * (Matrix.of ![![1], ![0]] : Matrix (Fin 2) (Fin 1) ℝ)))⁻¹ *ᵥ _) fun ω => by
      rw [Matrix.mulVec_mulVec, Matrix.mul_nonsing_inv _ hX, Matrix.one_mulVec]⟩

/-- Gamma model of two observations with one mean and offset 1: Pearson estimate `1/2`, reported estimate `5/2`. -/
example : ∃ mu v : Fin 2 → ℝ, Means (fun _ => .gamma) .log (etaOf (Matrix.of fun _ _ => 1 : Matrix (Fin 2) (Fin 1) ℝ) ![0] fun _ => 1) mu v ∧
    scaleG none (work (fun _ => .gamma) .log ![Real.exp 1 / 2, 3 * Real.exp 1 / 2]
        (etaOf (Matrix.of fun _ _ => 1 : Matrix (Fin 2) (Fin 1) ℝ) ![0] fun _ => 1) fun _ => 1)
      (etaOf (Matrix.of fun _ _ => 1 : Matrix (Fin 2) (Fin 1) ℝ) ![0] fun _ => 1) none (some 1) 1 = 5 / 2 := by
  have he : ∀ i, (etaOf (Matrix.of fun _ _ => 1 : Matrix (Fin 2) (Fin 1) ℝ) ![0] fun _ => 1) i = 1 := by
    intro i
    simp [etaOf]
  have hm : Means (fun _ => .gamma) .log (etaOf (Matrix.of fun _ _ => 1 : Matrix (Fin 2) (Fin 1) ℝ) ![0] fun _ => 1)
      (fun _ => Real.exp 1) (fun _ => Real.exp 1 ^ 2) :=
    ⟨fun _ => trivial, fun i => by rw [he i]; rfl, fun _ => Real.exp_pos 1, fun i => V_eq (fam := .gamma) trivial _⟩
  refine ⟨_, _, hm, ?_⟩
  have hp := Real.exp_pos 1
  rw [scale_offset_wrong _ _ 1 rfl rfl hm (by simp [Fin.sum_univ_two]; field_simp; ring)]
  simp [Fin.sum_univ_two]
  have h2 : Real.exp 2 = Real.exp 1 ^ 2 := by rw [← Real.exp_nat_mul]; norm_num
  field_simp
  rw [h2]
  ring

end Verif.Scale
