import Verif.JointModel
import Verif.LogDetLemmas
import Verif.Mvn
import Mathlib.Analysis.Calculus.Deriv.Mul
import Mathlib.Analysis.Calculus.Deriv.Pow
import Mathlib.Analysis.SpecialFunctions.Sqrt
import Mathlib.LinearAlgebra.Matrix.Notation

/-!
# The target of the sampler (properties C69-C72)
-/

namespace Verif.Joint

open Matrix Verif.Reml Verif.LogDet

variable {ι κ : Type} [Fintype ι] [DecidableEq ι] [Fintype κ] [DecidableEq κ]

/-! ## Helper lemmas -/

theorem update_eq (c : ι → ℝ) (i : ι) (t : ℝ) :
    Function.update c i t = c + (t - c i) • (Pi.single i 1 : ι → ℝ) := by
  funext k
  by_cases h : k = i
  · subst h; simp
  · simp [h]

theorem quad_expand (M : Matrix ι ι ℝ) (hM : Mᵀ = M) (c : ι → ℝ) (i : ι) (x : ℝ) :
    (c + x • (Pi.single i 1 : ι → ℝ)) ⬝ᵥ M *ᵥ (c + x • (Pi.single i 1 : ι → ℝ))
      = c ⬝ᵥ M *ᵥ c + 2 * x * (M *ᵥ c) i + x ^ 2 * M i i := by
  have h1 : c ⬝ᵥ M *ᵥ (Pi.single i 1 : ι → ℝ) = (M *ᵥ c) i := by
    rw [dotProduct_mulVec, ← mulVec_transpose, hM, dotProduct_single_one]
  have h2 : (Pi.single i 1 : ι → ℝ) ⬝ᵥ M *ᵥ c = (M *ᵥ c) i := by
    rw [single_one_dotProduct]
  have h3 : (Pi.single i 1 : ι → ℝ) ⬝ᵥ M *ᵥ (Pi.single i 1 : ι → ℝ) = M i i := by
    rw [single_one_dotProduct, mulVec_single_one, col_apply]
  rw [mulVec_add, mulVec_smul, add_dotProduct, dotProduct_add, dotProduct_add, smul_dotProduct, dotProduct_smul,
    dotProduct_smul, smul_dotProduct, h1, h2, h3]
  simp only [smul_eq_mul]
  ring

theorem quad_deriv (M : Matrix ι ι ℝ) (hM : Mᵀ = M) (c : ι → ℝ) (i : ι) :
    HasDerivAt (fun t => Function.update c i t ⬝ᵥ M *ᵥ Function.update c i t) (2 * (M *ᵥ c) i) (c i) := by
  have hf : (fun t => Function.update c i t ⬝ᵥ M *ᵥ Function.update c i t)
      = fun t => c ⬝ᵥ M *ᵥ c + 2 * (t - c i) * (M *ᵥ c) i + (t - c i) ^ 2 * M i i := by
    funext t
    rw [update_eq, quad_expand M hM]
  rw [hf]
  have hx : HasDerivAt (fun t : ℝ => t - c i) 1 (c i) := (hasDerivAt_id (c i)).sub_const _
  have := (((hx.const_mul 2).mul_const ((M *ᵥ c) i)).const_add (c ⬝ᵥ M *ᵥ c)).fun_add
    ((hx.fun_pow 2).mul_const (M i i))
  refine this.congr_deriv ?_
  simp

/-- A generalised inverse exists. -/
theorem exists_ginv (T : Matrix ι ι ℝ) (hT : T.PosSemidef) : ∃ G : Matrix ι ι ℝ, T * G * T = T := by
  obtain ⟨r, _, _, U, hU, hker⟩ := range_basis T hT
  have hs : Tᵀ = T := by
    have := hT.1.eq
    rwa [conjTranspose_eq_transpose_of_trivial] at this
  have hrep := compress U hU T hs fun v hv => (hker v).1 hv
  have hpd := compress_pd U hU T hT fun v hv => (hker v).2 hv
  have hu : IsUnit (Uᵀ * T * U).det := isUnit_iff_ne_zero.2 hpd.det_pos.ne'
  set A := Uᵀ * T * U
  refine ⟨U * A⁻¹ * Uᵀ, ?_⟩
  rw [hrep]
  calc U * A * Uᵀ * (U * A⁻¹ * Uᵀ) * (U * A * Uᵀ)
      = U * A * (Uᵀ * U) * A⁻¹ * (Uᵀ * U) * A * Uᵀ := by simp only [Matrix.mul_assoc]
    _ = U * (A * A⁻¹) * A * Uᵀ := by rw [hU]; simp only [Matrix.mul_assoc, Matrix.one_mul]
    _ = U * A * Uᵀ := by rw [Matrix.mul_nonsing_inv _ hu, Matrix.mul_one]

theorem sEmb_exp (C : Ctx ι κ) (ρ : κ → ℝ) : sEmb C (fun k => Real.exp (ρ k)) = wsum C.S ρ := rfl

theorem sAll_symm (C : Ctx ι κ) (lam : κ → ℝ) (hS : ∀ k, (C.S k)ᵀ = C.S k) (hf : ∀ F, C.Sf = some F → Fᵀ = F) :
    (sAll C lam)ᵀ = sAll C lam := by
  have h : (sEmb C lam)ᵀ = sEmb C lam := by
    unfold sEmb
    rw [transpose_sum]
    exact Finset.sum_congr rfl fun k _ => by rw [transpose_smul, hS]
  unfold sAll
  cases hC : C.Sf with
  | none => exact h
  | some F => simp only [transpose_add, h, hf F hC]

/-! ## C69: the gradient -/

/-- **C69, fixed smoothing parameters.** The gradient handed to the sampler is the gradient of the log joint density
handed to it: each entry is the partial derivative. -/
theorem grad_fixed (C : Ctx ι κ) (lam : κ → ℝ) (hS : ∀ k, (C.S k)ᵀ = C.S k) (hf : ∀ F, C.Sf = some F → Fᵀ = F)
    (c : ι → ℝ) (i : ι) (hg : HasDerivAt (fun t => C.llk (Function.update c i t)) (C.grad c i) (c i)) :
    HasDerivAt (fun t => llkFixed C lam (Function.update c i t)) (gradFixed C lam c i) (c i) := by
  unfold llkFixed gradFixed
  refine (hg.fun_sub ((quad_deriv _ (sAll_symm C lam hS hf) c i).const_mul (1 / 2))).congr_deriv ?_
  ring

/-- What is known about the parts of the target: penalties positive semi-definite; the log determinant computed is that
of the nonzero eigenvalues (`Verif.Reml.lgdetS_eq`); a penalty for which `FS_use_rank` is set shares no coefficients
with another one and has its rank stored; for the others the trace is that with a generalised inverse
(`Verif.Pen.pinv_trace_partial`). -/
structure CtxOK (C : Ctx ι κ) : Prop where
  psd : ∀ k, (C.S k).PosSemidef
  sf : ∀ F, C.Sf = some F → Fᵀ = F
  det : ∀ ρ : κ → ℝ, C.lgdetS (fun k => Real.exp (ρ k)) = Real.log (pdet (sEmb C fun k => Real.exp (ρ k)))
  alone : ∀ k, C.useRank k = true → C.rank k = (C.S k).rank ∧ ∀ l, l ≠ k → C.S l * C.S k = 0
  overlap : ∀ k, C.useRank k = false → ∀ ρ : κ → ℝ, ∃ G : Matrix ι ι ℝ,
    sEmb C (fun k => Real.exp (ρ k)) * G * sEmb C (fun k => Real.exp (ρ k)) = sEmb C (fun k => Real.exp (ρ k)) ∧
    (C.S k * C.pinv fun k => Real.exp (ρ k)).trace = (C.S k * G).trace

theorem lgdet_deriv (C : Ctx ι κ) (h : CtxOK C) (ρ : κ → ℝ) (k : κ) :
    HasDerivAt (fun t => C.lgdetS (fun l => Real.exp (Function.update ρ k t l)))
      (Real.exp (ρ k) * trTerm C (fun l => Real.exp (ρ l)) k) (ρ k) := by
  have hf : (fun t => C.lgdetS (fun l => Real.exp (Function.update ρ k t l)))
      = fun t => Real.log (pdet (wsum C.S (Function.update ρ k t))) := by
    funext t
    rw [h.det, sEmb_exp]
  rw [hf]
  cases hk : C.useRank k with
  | true =>
    obtain ⟨hr, hd⟩ := h.alone k hk
    obtain ⟨G, hG⟩ := exists_ginv (wsum C.S ρ) (wsum_psd C.S h.psd ρ)
    refine (hasDerivAt_log_pdet C.S h.psd ρ k G hG).congr_deriv ?_
    unfold trTerm
    rw [if_pos hk, trace_rank C.S h.psd ρ k hd G hG, hr]
    field_simp
  | false =>
    obtain ⟨G, hG, ht⟩ := h.overlap k hk ρ
    refine (hasDerivAt_log_pdet C.S h.psd ρ k G hG).congr_deriv ?_
    unfold trTerm
    rw [if_neg (by simp [hk]), ht]

/-- **C69, sampled smoothing parameters.** Each entry of the gradient handed to the sampler, for coefficients and for
log smoothing parameters, is the partial derivative of the log joint density handed to it. -/
theorem grad_joint (C : Ctx ι κ) (h : CtxOK C) (w : ι ⊕ κ → ℝ)
    (hg : ∀ i, HasDerivAt (fun t => C.llk (Function.update (coefOf w) i t)) (C.grad (coefOf w) i) (w (.inl i)))
    (hp : ∀ k, HasDerivAt (fun t => C.logp (Function.update (rhoOf w) k t)) (C.dlogp (rhoOf w) k) (w (.inr k)))
    (x : ι ⊕ κ) : HasDerivAt (fun t => llkJoint C (Function.update w x t)) (gradJoint C w x) (w x) := by
  have hsym : ∀ k, (C.S k)ᵀ = C.S k := fun k => by
    have := (h.psd k).1.eq
    rwa [conjTranspose_eq_transpose_of_trivial] at this
  cases x with
  | inl i =>
    have e1 : ∀ t, coefOf (Function.update w (.inl i) t) = Function.update (coefOf w) i t := by
      intro t; funext j
      by_cases hj : j = i
      · subst hj; simp [coefOf]
      · simp [coefOf, hj]
    have e2 : ∀ t, rhoOf (Function.update w (.inl i) t) = rhoOf w := by
      intro t; funext j; simp [rhoOf]
    have e3 : ∀ t, lamOf (Function.update w (.inl i) t) = lamOf w := by
      intro t; funext j; simp [lamOf]
    simp only [llkJoint, e1, e2, e3]
    have hq := (quad_deriv _ (sAll_symm C (lamOf w) hsym h.sf) (coefOf w) i).const_mul (1 / 2)
    refine ((((hg i).add_const (C.logp (rhoOf w))).fun_sub hq).add_const (1 / 2 * C.lgdetS (lamOf w))).congr_deriv ?_
    show C.grad (coefOf w) i - 1 / 2 * (2 * (sAll C (lamOf w) *ᵥ coefOf w) i)
      = C.grad (coefOf w) i - (sAll C (lamOf w) *ᵥ coefOf w) i
    ring
  | inr k =>
    have e1 : ∀ t, coefOf (Function.update w (.inr k) t) = coefOf w := by
      intro t; funext j; simp [coefOf]
    have e2 : ∀ t, rhoOf (Function.update w (.inr k) t) = Function.update (rhoOf w) k t := by
      intro t; funext j
      by_cases hj : j = k
      · subst hj; simp [rhoOf]
      · simp [rhoOf, hj]
    have e3 : ∀ t, lamOf (Function.update w (.inr k) t) = fun l => Real.exp (Function.update (rhoOf w) k t l) := by
      intro t; funext l
      rw [← e2]
      rfl
    have e4 : ∀ t, coefOf w ⬝ᵥ sAll C (fun l => Real.exp (Function.update (rhoOf w) k t l)) *ᵥ coefOf w
        = coefOf w ⬝ᵥ sAll C (lamOf w) *ᵥ coefOf w
          + (Real.exp t - Real.exp (rhoOf w k)) * (coefOf w ⬝ᵥ C.S k *ᵥ coefOf w) := by
      intro t
      have hw : sAll C (fun l => Real.exp (Function.update (rhoOf w) k t l))
          = sAll C (lamOf w) + (Real.exp t - Real.exp (rhoOf w k)) • C.S k := by
        have hu := wsum_update C.S (rhoOf w) k t
        have hl : sEmb C (lamOf w) = wsum C.S (rhoOf w) := rfl
        unfold sAll
        cases C.Sf with
        | none => simp only; rw [sEmb_exp, hu, hl]
        | some F => simp only; rw [sEmb_exp, hu, hl]; abel
      rw [hw, add_mulVec, dotProduct_add, smul_mulVec, dotProduct_smul, smul_eq_mul]
    simp only [llkJoint, e1, e2, e3, e4]
    have hx : HasDerivAt (fun t => Real.exp t - Real.exp (rhoOf w k)) (Real.exp (rhoOf w k)) (w (.inr k)) :=
      (Real.hasDerivAt_exp (w (.inr k))).sub_const _
    have hq := ((hx.mul_const (coefOf w ⬝ᵥ C.S k *ᵥ coefOf w)).const_add
      (coefOf w ⬝ᵥ sAll C (lamOf w) *ᵥ coefOf w)).const_mul (1 / 2)
    have hd := (lgdet_deriv C h (rhoOf w) k).const_mul (1 / 2)
    refine ((((hp k).const_add (C.llk (coefOf w))).fun_sub hq).fun_add hd).congr_deriv ?_
    have hl : lamOf w = fun l => Real.exp (rhoOf w l) := rfl
    show _ = -(1 / 2) * lamOf w k * (coefOf w ⬝ᵥ C.S k *ᵥ coefOf w)
      + 1 / 2 * lamOf w k * trTerm C (lamOf w) k + C.dlogp (rhoOf w) k
    rw [hl]
    ring

/-- A context for the examples: one penalty on each of two coefficients, the first handled by rank, the second by the
inverse; normal log-likelihood; normal prior on the log smoothing parameters. -/
noncomputable def exCtx : Ctx (Fin 2) (Fin 2) where
  llk c := ∑ i, -(1 / 2) * (c i - 1) ^ 2
  grad c i := 1 - c i
  S k := diagonal (Pi.single k 1)
  rank _ := 1
  useRank k := decide (k = 0)
  pinv lam := (∑ k, lam k • diagonal (Pi.single k 1 : Fin 2 → ℝ))⁻¹
  lgdetS lam := Real.log (pdet (∑ k, lam k • diagonal (Pi.single k 1 : Fin 2 → ℝ)))
  logp ρ := ∑ k, -(1 / 2) * ρ k ^ 2
  dlogp ρ k := -ρ k
  Sf := some (diagonal fun _ => 3)

theorem exCtx_sum (lam : Fin 2 → ℝ) : (∑ k, lam k • diagonal (Pi.single k 1 : Fin 2 → ℝ)) = diagonal lam := by
  ext i j
  fin_cases i <;> fin_cases j <;> simp [Fin.sum_univ_two, Matrix.diagonal]

/-- The hypotheses of `grad_joint` hold in `exCtx`. -/
theorem exCtx_ok : CtxOK exCtx where
  psd k := PosSemidef.diagonal fun i => by
    by_cases h : i = k
    · subst h; simp
    · simp [h]
  sf F h := by
    obtain rfl := Option.some.inj h
    exact diagonal_transpose _
  det ρ := rfl
  alone k hk := by
    obtain rfl : k = 0 := by simpa [exCtx] using hk
    refine ⟨?_, fun l hl => ?_⟩
    · show 1 = (diagonal (Pi.single (0 : Fin 2) (1 : ℝ))).rank
      rw [Matrix.rank_diagonal, Fintype.card_subtype]
      have : (Finset.univ.filter fun i : Fin 2 => (Pi.single (0 : Fin 2) (1 : ℝ) : Fin 2 → ℝ) i ≠ 0) = {0} := by
        ext i; fin_cases i <;> simp
      rw [this]
      rfl
    · have : l = 1 := by fin_cases l <;> simp_all
      subst this
      show diagonal (Pi.single (1 : Fin 2) (1 : ℝ)) * diagonal (Pi.single (0 : Fin 2) (1 : ℝ)) = 0
      rw [diagonal_mul_diagonal]
      ext i j
      fin_cases i <;> fin_cases j <;> simp [Matrix.diagonal]
  overlap k _ ρ := by
    refine ⟨_, ?_, rfl⟩
    show (∑ k, Real.exp (ρ k) • diagonal (Pi.single k 1 : Fin 2 → ℝ))
      * (∑ k, Real.exp (ρ k) • diagonal (Pi.single k 1 : Fin 2 → ℝ))⁻¹
      * (∑ k, Real.exp (ρ k) • diagonal (Pi.single k 1 : Fin 2 → ℝ)) = _
    rw [exCtx_sum (fun k => Real.exp (ρ k)), Matrix.mul_nonsing_inv, Matrix.one_mul]
    · exact (exCtx_sum _).symm
    · rw [det_diagonal]
      exact isUnit_iff_ne_zero.2 (Finset.prod_ne_zero_iff.2 fun k _ => (Real.exp_pos _).ne')

example (w : Fin 2 ⊕ Fin 2 → ℝ) (x : Fin 2 ⊕ Fin 2) :
    HasDerivAt (fun t => llkJoint exCtx (Function.update w x t)) (gradJoint exCtx w x) (w x) := by
  refine grad_joint exCtx exCtx_ok w (fun i => ?_) (fun k => ?_) x
  · have h : ∀ j, HasDerivAt (fun t => -(1 / 2) * (Function.update (coefOf w) i t j - 1) ^ 2)
        (if j = i then 1 - coefOf w i else 0) (w (.inl i)) := by
      intro j
      by_cases hj : j = i
      · subst hj
        simp only [Function.update_self, if_true]
        refine ((((hasDerivAt_id (w (.inl j))).sub_const 1).fun_pow 2).const_mul (-(1 / 2))).congr_deriv ?_
        simp [coefOf]
      · simp only [Function.update_of_ne hj, if_neg hj]
        exact hasDerivAt_const _ _
    exact (HasDerivAt.fun_sum fun j (_ : j ∈ Finset.univ) => h j).congr_deriv (by simp [exCtx])
  · have h : ∀ j, HasDerivAt (fun t => -(1 / 2) * (Function.update (rhoOf w) k t j) ^ 2)
        (if j = k then -rhoOf w k else 0) (w (.inr k)) := by
      intro j
      by_cases hj : j = k
      · subst hj
        simp only [Function.update_self, if_true]
        refine (((hasDerivAt_id (w (.inr j))).fun_pow 2).const_mul (-(1 / 2))).congr_deriv ?_
        simp [rhoOf]
      · simp only [Function.update_of_ne hj, if_neg hj]
        exact hasDerivAt_const _ _
    exact (HasDerivAt.fun_sum fun j (_ : j ∈ Finset.univ) => h j).congr_deriv (by simp [exCtx])

/-! ## C70: metric and momentum -/

/-- `MLT` is a root of the inverse of `Minv`. -/
def Metric {m : Type} [Fintype m] [DecidableEq m] (MLT Minv : Matrix m m ℝ) : Prop := MLTᵀ * MLT * Minv = 1

theorem metric_coef {n : ℕ} {Minv : Matrix (Fin n) (Fin n) ℝ} (f : PFactor n Minv) : Metric (mltCoef f) Minv := by
  unfold Metric mltCoef
  have hPP : f.P * f.Pᵀ = 1 := mul_eq_one_comm.1 f.orth
  have hLt : f.Lᵀ * f.Liᵀ = 1 := by rw [← transpose_mul, f.inv, transpose_one]
  have hLt' : f.Liᵀ * f.Lᵀ = 1 := mul_eq_one_comm.1 hLt
  have hM : Minv = f.Pᵀ * (f.L * f.Lᵀ) * f.P := by
    rw [f.fact]
    calc Minv = (f.Pᵀ * f.P) * Minv * (f.Pᵀ * f.P) := by rw [f.orth, Matrix.one_mul, Matrix.mul_one]
      _ = _ := by simp only [Matrix.mul_assoc]
  have ht : (f.Li * f.P)ᵀ * (f.Li * f.P) * Minv = f.Pᵀ * f.Liᵀ * (f.Li * f.P) * (f.Pᵀ * (f.L * f.Lᵀ) * f.P) := by
    rw [transpose_mul, ← hM]
  rw [ht]
  calc f.Pᵀ * f.Liᵀ * (f.Li * f.P) * (f.Pᵀ * (f.L * f.Lᵀ) * f.P)
      = f.Pᵀ * f.Liᵀ * f.Li * (f.P * f.Pᵀ) * f.L * f.Lᵀ * f.P := by simp only [Matrix.mul_assoc]
    _ = f.Pᵀ * f.Liᵀ * (f.Li * f.L) * f.Lᵀ * f.P := by rw [hPP]; simp only [Matrix.mul_assoc, Matrix.one_mul]
    _ = f.Pᵀ * (f.Liᵀ * f.Lᵀ) * f.P := by rw [f.inv]; simp only [Matrix.mul_assoc, Matrix.one_mul]
    _ = 1 := by rw [hLt', Matrix.mul_one, f.orth]

theorem nHScale_pos (d2 : ℝ) (proper : Bool) (lam0 cov : ℝ) (h0 : 0 ≤ lam0) (hc : 0 < cov) :
    0 < nHScale d2 proper lam0 cov := by
  unfold nHScale
  refine div_pos ?_ hc
  have h1 : (0 : ℝ) < if -1 * d2 ≤ 0 then 1 / 10000 else -1 * d2 := by
    by_cases h : -1 * d2 ≤ 0
    · rw [if_pos h]; norm_num
    · rw [if_neg h]; exact lt_of_not_ge h
  have h2 : (0 : ℝ) ≤ if proper then lam0 else 0 := by cases proper <;> simp [h0]
  linarith

/-- The block for the log scale. -/
theorem metric_scale (d2 : ℝ) (proper : Bool) (lam0 cov : ℝ) (h0 : 0 ≤ lam0) (hc : 0 < cov) :
    Metric (diagonal fun _ : Fin 1 => √(nHScale d2 proper lam0 cov))
      (diagonal fun _ : Fin 1 => 1 / nHScale d2 proper lam0 cov) := by
  have hp := nHScale_pos d2 proper lam0 cov h0 hc
  unfold Metric
  rw [diagonal_transpose, diagonal_mul_diagonal, diagonal_mul_diagonal, ← diagonal_one]
  congr 1
  funext i
  rw [Real.mul_self_sqrt hp.le]
  field_simp

theorem raise_pos {m : Type} (thresh : ℝ) (ht : 0 < thresh) (e : m → ℝ) (i : m) : 0 < raise thresh e i := by
  unfold raise
  by_cases h : e i < thresh
  · rw [if_pos h]; exact ht
  · rw [if_neg h]; exact lt_of_lt_of_le ht (not_lt.1 h)

theorem diagT_gram {m : Type} [Fintype m] [DecidableEq m] (d : m → ℝ) (U : Matrix m m ℝ) :
    (diagT d U)ᵀ * diagT d U = U * diagonal (fun i => d i * d i) * Uᵀ := by
  unfold diagT
  rw [transpose_mul, transpose_transpose, diagonal_transpose]
  calc U * diagonal d * (diagonal d * Uᵀ) = U * (diagonal d * diagonal d) * Uᵀ := by simp only [Matrix.mul_assoc]
    _ = _ := by rw [diagonal_mul_diagonal]

theorem gram_inv {m : Type} [Fintype m] [DecidableEq m] (a b : m → ℝ) (U : Matrix m m ℝ) (hU : Uᵀ * U = 1)
    (hab : ∀ i, a i * b i = 1) : U * diagonal a * Uᵀ * (U * diagonal b * Uᵀ) = 1 := by
  have hU' : U * Uᵀ = 1 := mul_eq_one_comm.1 hU
  calc U * diagonal a * Uᵀ * (U * diagonal b * Uᵀ) = U * diagonal a * (Uᵀ * U) * diagonal b * Uᵀ := by
        simp only [Matrix.mul_assoc]
    _ = U * (diagonal a * diagonal b) * Uᵀ := by rw [hU, Matrix.mul_one]; simp only [Matrix.mul_assoc]
    _ = U * 1 * Uᵀ := by rw [diagonal_mul_diagonal]; simp only [hab]; rw [diagonal_one]
    _ = 1 := by rw [Matrix.mul_one, hU']

/-- The block for theta. -/
theorem metric_theta {m : Type} [Fintype m] [DecidableEq m] (thresh cov : ℝ) (ht : 0 < thresh) (hc : 0 < cov)
    (e : m → ℝ) (U : Matrix m m ℝ) (hU : Uᵀ * U = 1) :
    Metric (reTheta thresh cov e U) (inHTheta thresh cov e U) := by
  unfold Metric reTheta inHTheta
  rw [diagT_gram, diagT_gram]
  refine gram_inv _ _ U hU fun i => ?_
  have hr := (raise_pos thresh ht e i).ne'
  have hp : 0 < raise thresh e i / cov := div_pos (raise_pos thresh ht e i) hc
  rw [Real.mul_self_sqrt hp.le, Real.mul_self_sqrt (by positivity)]
  field_simp

/-- The block for the log smoothing parameters. -/
theorem metric_rho {m : Type} [Fintype m] [DecidableEq m] (thresh cov : ℝ) (ht : 0 < thresh) (hc : 0 < cov)
    (e : m → ℝ) (U : Matrix m m ℝ) (hU : Uᵀ * U = 1) :
    Metric (riRho thresh cov e U) (vpRho thresh cov e U) := by
  unfold Metric riRho vpRho
  rw [diagT_gram, diagT_gram]
  refine gram_inv _ _ U hU fun i => ?_
  have hp : 0 < raise thresh e i * cov := mul_pos (raise_pos thresh ht e i) hc
  have hs : √(raise thresh e i * cov) ≠ 0 := (Real.sqrt_pos.2 hp).ne'
  field_simp

theorem metric_stack {a b : Type} [Fintype a] [DecidableEq a] [Fintype b] [DecidableEq b] {A X : Matrix a a ℝ}
    {B Y : Matrix b b ℝ} (hA : Metric A X) (hB : Metric B Y) : Metric (stack A B) (stack X Y) := by
  unfold Metric at hA hB
  unfold Metric stack
  rw [fromBlocks_transpose, fromBlocks_multiply, fromBlocks_multiply]
  simp only [Matrix.mul_zero, Matrix.zero_mul, add_zero, zero_add, transpose_zero, hA, hB, fromBlocks_one]

/-- **C70.** With a scale parameter and sampled smoothing parameters, `MLT` is a root of the inverse of the metric used
for the energy. -/
theorem metric_gamm {n : ℕ} {m : Type} [Fintype m] [DecidableEq m] {Minv : Matrix (Fin n) (Fin n) ℝ} (f : PFactor n Minv)
    (d2 : ℝ) (proper : Bool) (lam0 cov : ℝ) (h0 : 0 ≤ lam0) (hc : 0 < cov) (thresh covr : ℝ) (ht : 0 < thresh)
    (hcr : 0 < covr) (e : m → ℝ) (U : Matrix m m ℝ) (hU : Uᵀ * U = 1) :
    Metric (stack (stack (mltCoef f) (diagonal fun _ : Fin 1 => √(nHScale d2 proper lam0 cov))) (riRho thresh covr e U))
      (stack (stack Minv (diagonal fun _ : Fin 1 => 1 / nHScale d2 proper lam0 cov)) (vpRho thresh covr e U)) :=
  metric_stack (metric_stack (metric_coef f) (metric_scale d2 proper lam0 cov h0 hc)) (metric_rho thresh covr ht hcr e U hU)

/-- **C70.** The same for extended families. -/
theorem metric_ext {n : ℕ} {l m : Type} [Fintype l] [DecidableEq l] [Fintype m] [DecidableEq m]
    {Minv : Matrix (Fin n) (Fin n) ℝ} (f : PFactor n Minv)
    (thresh1 cov : ℝ) (ht1 : 0 < thresh1) (hc : 0 < cov) (e1 : l → ℝ) (U1 : Matrix l l ℝ) (hU1 : U1ᵀ * U1 = 1)
    (thresh covr : ℝ) (ht : 0 < thresh) (hcr : 0 < covr) (e : m → ℝ) (U : Matrix m m ℝ) (hU : Uᵀ * U = 1) :
    Metric (stack (stack (mltCoef f) (reTheta thresh1 cov e1 U1)) (riRho thresh covr e U))
      (stack (stack Minv (inHTheta thresh1 cov e1 U1)) (vpRho thresh covr e U)) :=
  metric_stack (metric_stack (metric_coef f) (metric_theta thresh1 cov ht1 hc e1 U1 hU1))
    (metric_rho thresh covr ht hcr e U hU)

open MeasureTheory ProbabilityTheory WithLp in
/-- **C70.** The momentum is normal with mean zero and precision `Minv`, the matrix of the energy
(`Verif.Nuts.energy`); `e` numbers the parameters. -/
theorem momentum_law {p : ℕ} {m : Type} [Fintype m] [DecidableEq m] (e : Fin p ≃ m) (MLT Minv : Matrix m m ℝ)
    (h : Metric MLT Minv) :
    (Mvn.std p).map (fun z => toLp 2 (Mvn.sampleLI none 1 none (MLT.submatrix e e) z))
      = multivariateGaussian 0 (Minv.submatrix e e)⁻¹ := by
  rw [Mvn.sampleLI_law none 1 zero_le_one, Option.getD_none, Matrix.mul_one, one_smul]
  congr 1
  have h1 : (MLT.submatrix e e)ᵀ * MLT.submatrix e e * Minv.submatrix e e = 1 := by
    rw [transpose_submatrix, submatrix_mul_equiv, submatrix_mul_equiv, h, submatrix_one_equiv]
  exact (Matrix.inv_eq_left_inv h1).symm

/-- Factor of `diag(4, 9)` with the two rows exchanged, for the example. -/
noncomputable def exFactor : PFactor 2 !![4, 0; 0, 9] where
  P := !![0, 1; 1, 0]
  L := !![3, 0; 0, 2]
  Li := !![1 / 3, 0; 0, 1 / 2]
  orth := by ext i j; fin_cases i <;> fin_cases j <;> simp [Matrix.mul_apply, Fin.sum_univ_two]
  fact := by ext i j; fin_cases i <;> fin_cases j <;> norm_num [Matrix.mul_apply, Fin.sum_univ_two]
  inv := by ext i j; fin_cases i <;> fin_cases j <;> norm_num [Matrix.mul_apply, Fin.sum_univ_two]

/-- The hypotheses of `metric_gamm`: second derivative of the wrong sign, an eigenvalue below the threshold. -/
example := metric_gamm exFactor 5 true (1 / 100) 10 (by norm_num) (by norm_num) (1 / 1000) 2 (by norm_num) (by norm_num)
  ![0, 3] (!![0, 1; 1, 0] : Matrix (Fin 2) (Fin 2) ℝ)
  (by ext i j; fin_cases i <;> fin_cases j <;> simp [Matrix.mul_apply, Fin.sum_univ_two])

/-! ## C71: proper priors -/

theorem addNull_eq (fidx tidx : List ℕ) (lam0 : ℝ) (S : Matrix ι ι ℝ) (pens : List (NPen ι)) :
    addNull fidx tidx lam0 S pens = S + ((pens.filter fun p => p.form ∈ fidx ∧ p.term ∈ tidx ∧ p.null = true).map
      fun p => lam0 • p.S).sum := by
  unfold addNull
  induction pens generalizing S with
  | nil => simp
  | cons p ps ih =>
    rw [List.foldl_cons, ih]
    by_cases h : p.form ∈ fidx ∧ p.term ∈ tidx ∧ p.null = true
    · rw [if_pos h, List.filter_cons_of_pos (by simpa using h), List.map_cons, List.sum_cons, add_assoc]
    · rw [if_neg h, List.filter_cons_of_neg (by simpa using h)]

theorem psd_list (L : List (Matrix ι ι ℝ)) (h : ∀ A ∈ L, A.PosSemidef) : L.sum.PosSemidef := by
  induction L with
  | nil => exact PosSemidef.zero
  | cons A L ih =>
    rw [List.sum_cons]
    exact (h A (by simp)).add (ih fun B hB => h B (by simp [hB]))

theorem list_quad (L : List (Matrix ι ι ℝ)) (v : ι → ℝ) : v ⬝ᵥ L.sum *ᵥ v = (L.map fun A => v ⬝ᵥ A *ᵥ v).sum := by
  induction L with
  | nil => simp
  | cons A L ih => rw [List.sum_cons, add_mulVec, dotProduct_add, ih, List.map_cons, List.sum_cons]

theorem vague_quad (lin : ι → Bool) (lam0 : ℝ) (extra : ι → Option ℝ) (v : ι → ℝ) :
    v ⬝ᵥ vague lin lam0 extra *ᵥ v = ∑ i, ((if lin i then lam0 else 0) + (extra i).getD 0) * v i ^ 2 := by
  unfold vague dotProduct
  refine Finset.sum_congr rfl fun i _ => ?_
  rw [mulVec_diagonal]
  ring

/-- **C71.** With `make_proper` the total penalty on the coefficients is positive definite, so the normal prior is
proper, provided every coefficient that is neither linear nor an extra one is determined by the penalties together with
the null-space penalties added (`hfull`): this holds for smooth and random terms. -/
theorem proper_prior (C : Ctx ι κ) (lam : κ → ℝ) (hlam : ∀ k, 0 < lam k) (hS : ∀ k, (C.S k).PosSemidef)
    (lin : ι → Bool) (lam0 : ℝ) (h0 : 0 < lam0) (extra : ι → Option ℝ) (hex : ∀ i x, extra i = some x → 0 < x)
    (smooths : List (ℕ × ℕ)) (skip : ℕ × ℕ → Bool) (pens : List (NPen ι)) (hN : ∀ p ∈ pens, p.S.PosSemidef)
    (hf : C.Sf = some (addNull (updated smooths skip).1 (updated smooths skip).2 lam0 (vague lin lam0 extra) pens))
    (hfull : ∀ v : ι → ℝ, (∀ k, C.S k *ᵥ v = 0) →
      (∀ p ∈ pens, (p.form, p.term) ∈ smooths → skip (p.form, p.term) = false → p.null = true → p.S *ᵥ v = 0) →
      ∀ i, lin i = false → extra i = none → v i = 0) :
    (sAll C lam).PosDef := by
  set u := updated smooths skip with hu
  set N := pens.filter fun p => p.form ∈ u.1 ∧ p.term ∈ u.2 ∧ p.null = true with hNdef
  have hall : sAll C lam = sEmb C lam + (vague lin lam0 extra + (N.map fun p => lam0 • p.S).sum) := by
    unfold sAll
    rw [hf]
    simp only
    rw [addNull_eq]
  have hE : (sEmb C lam).PosSemidef := posSemidef_sum _ fun k _ => (hS k).smul (hlam k).le
  have hv : ∀ i, 0 ≤ (if lin i then lam0 else 0) + (extra i).getD 0 := by
    intro i
    have h1 : (0 : ℝ) ≤ if lin i then lam0 else 0 := by cases lin i <;> simp [h0.le]
    have h2 : 0 ≤ (extra i).getD 0 := by
      cases h : extra i with
      | none => simp
      | some x => simpa using (hex i x h).le
    linarith
  have hV : (vague lin lam0 extra).PosSemidef := PosSemidef.diagonal fun i => hv i
  have hNp : ∀ A ∈ N.map fun p => lam0 • p.S, A.PosSemidef := by
    intro A hA
    obtain ⟨p, hp, rfl⟩ := List.mem_map.1 hA
    exact (hN p (List.mem_of_mem_filter hp)).smul h0.le
  have hL := psd_list _ hNp
  have hpsd : (sAll C lam).PosSemidef := by
    rw [hall]
    exact hE.add (hV.add hL)
  refine PosDef.of_dotProduct_mulVec_pos hpsd.1 fun v hvne => ?_
  refine lt_of_le_of_ne (hpsd.dotProduct_mulVec_nonneg v) fun hz => hvne ?_
  rw [star_trivial, hall, add_mulVec, add_mulVec, dotProduct_add, dotProduct_add] at hz
  have n1 : 0 ≤ v ⬝ᵥ sEmb C lam *ᵥ v := by simpa using hE.dotProduct_mulVec_nonneg v
  have n2 : 0 ≤ v ⬝ᵥ vague lin lam0 extra *ᵥ v := by simpa using hV.dotProduct_mulVec_nonneg v
  have n3 : 0 ≤ v ⬝ᵥ (N.map fun p => lam0 • p.S).sum *ᵥ v := by simpa using hL.dotProduct_mulVec_nonneg v
  have z1 : v ⬝ᵥ sEmb C lam *ᵥ v = 0 := by linarith
  have z2 : v ⬝ᵥ vague lin lam0 extra *ᵥ v = 0 := by linarith
  have z3 : v ⬝ᵥ (N.map fun p => lam0 • p.S).sum *ᵥ v = 0 := by linarith
  have k1 : ∀ k, C.S k *ᵥ v = 0 := by
    have he : sEmb C lam = wsum C.S fun k => Real.log (lam k) := by
      unfold sEmb wsum
      exact Finset.sum_congr rfl fun k _ => by rw [Real.exp_log (hlam k)]
    rw [he] at z1
    have := psd_kernel _ (wsum_psd C.S hS _) v z1
    exact (wsum_kernel C.S hS _ v).1 this
  have k3 : ∀ p ∈ N, p.S *ᵥ v = 0 := by
    intro p hp
    rw [list_quad, List.map_map] at z3
    have hnn : ∀ x ∈ N.map ((fun A : Matrix ι ι ℝ => v ⬝ᵥ A *ᵥ v) ∘ fun p => lam0 • p.S), 0 ≤ x := by
      intro x hx
      obtain ⟨q, hq, rfl⟩ := List.mem_map.1 hx
      have := (hNp (lam0 • q.S) (List.mem_map.2 ⟨q, hq, rfl⟩)).dotProduct_mulVec_nonneg v
      simpa using this
    have := List.all_zero_of_le_zero_le_of_sum_eq_zero hnn z3 (List.mem_map.2 ⟨p, hp, rfl⟩)
    simp only [Function.comp_apply, smul_mulVec, dotProduct_smul, smul_eq_mul] at this
    exact psd_kernel _ (hN p (List.mem_of_mem_filter hp)) v ((mul_eq_zero.1 this).resolve_left h0.ne')
  funext i
  rw [vague_quad] at z2
  have z2i := (Finset.sum_eq_zero_iff_of_nonneg fun i _ => mul_nonneg (hv i) (sq_nonneg (v i))).1 z2 i (Finset.mem_univ i)
  by_cases hi : lin i = false ∧ extra i = none
  · refine hfull v k1 ?_ i hi.1 hi.2
    intro p hp hs hk hn
    refine k3 p (List.mem_filter.2 ⟨hp, ?_⟩)
    have hm : (p.form, p.term) ∈ smooths.filter fun t => !skip t := List.mem_filter.2 ⟨hs, by simp [hk]⟩
    have h1 : p.form ∈ u.1 := List.mem_map.2 ⟨_, hm, rfl⟩
    have h2 : p.term ∈ u.2 := List.mem_map.2 ⟨_, hm, rfl⟩
    simp [h1, h2, hn]
  · have hpos : 0 < (if lin i then lam0 else 0) + (extra i).getD 0 := by
      by_cases hl : lin i = true
      · have h2 : 0 ≤ (extra i).getD 0 := by
          cases h : extra i with
          | none => simp
          | some x => simpa using (hex i x h).le
        rw [if_pos hl]
        linarith
      · have hl' : lin i = false := by simpa using hl
        cases h : extra i with
        | none => exact absurd ⟨hl', h⟩ hi
        | some x =>
          have := hex i x h
          simp [hl', this]
    have := (mul_eq_zero.1 z2i).resolve_left hpos.ne'
    exact pow_eq_zero_iff (two_ne_zero) |>.1 this

/-- A linear coefficient, a smooth with a difference penalty on two coefficients, and a log scale, with `make_proper`. -/
noncomputable def exProper : Ctx (Fin 4) (Fin 1) where
  llk _ := 0
  grad _ _ := 0
  S _ := vecMulVec ![0, 1, -1, 0] ![0, 1, -1, 0]
  rank _ := 1
  useRank _ := true
  pinv _ := 0
  lgdetS _ := 0
  logp _ := 0
  dlogp _ _ := 0
  Sf := some (addNull (updated [(0, 1)] fun _ => false).1 (updated [(0, 1)] fun _ => false).2 (1 / 100)
    (vague (fun i => decide (i = 0)) (1 / 100) fun i => if i = 3 then some 1 else none)
    [⟨0, 1, true, vecMulVec ![0, 1, 1, 0] ![0, 1, 1, 0]⟩])

/-- The hypotheses of `proper_prior` hold there. -/
example : (sAll exProper fun _ => 2).PosDef := by
  have hpsd : ∀ a : Fin 4 → ℝ, (vecMulVec a a).PosSemidef := fun a => by
    simpa using posSemidef_vecMulVec_self_star a
  refine proper_prior exProper (fun _ => 2) (fun _ => by norm_num) (fun _ => hpsd _) (fun i => decide (i = 0)) (1 / 100)
    (by norm_num) (fun i => if i = 3 then some 1 else none) ?_ [(0, 1)] (fun _ => false)
    [⟨0, 1, true, vecMulVec ![0, 1, 1, 0] ![0, 1, 1, 0]⟩] ?_ rfl ?_
  · intro i x h
    by_cases hi : i = 3
    · rw [if_pos hi] at h
      obtain rfl := Option.some.inj h
      norm_num
    · rw [if_neg hi] at h
      exact absurd h (by simp)
  · intro p hp
    obtain rfl := List.mem_singleton.1 hp
    exact hpsd _
  · intro v h1 h2 i hl he
    have a1 := congrFun (h1 0) 1
    have a2 := congrFun (h2 _ (List.mem_singleton.2 rfl) (by simp) rfl rfl) 1
    simp [exProper, vecMulVec, mulVec, dotProduct, Fin.sum_univ_four] at a1 a2
    fin_cases i
    · simp at hl
    · show v 1 = 0
      linarith
    · show v 2 = 0
      linarith
    · simp at he

/-- **C71, disagreement.** Formula and term are compared separately (930-934): term 1 of formula 0, which has a
null-space penalty already, is given a second one because term 1 of formula 1 and term 2 of formula 0 were updated. -/
theorem null_added_twice :
    let smooths := [(0, 1), (0, 2), (1, 1)]
    let skip : ℕ × ℕ → Bool := fun t => t = (0, 1)
    let pen : NPen (Fin 1) := ⟨0, 1, true, 1⟩
    skip (pen.form, pen.term) = true ∧
      addNull (updated smooths skip).1 (updated smooths skip).2 1 0 [pen] = 1 := by
  refine ⟨by simp, ?_⟩
  rw [addNull_eq]
  simp [updated]

/-- **C71, disagreement.** Impulse response terms are neither linear nor smooth terms, so nothing is added for them:
with a difference penalty the constant response stays unpenalised and the prior is improper. -/
theorem irf_improper :
    let C : Ctx (Fin 2) (Fin 1) := {
      llk := fun _ => 0
      grad := fun _ _ => 0
      S := fun _ => !![1, -1; -1, 1]
      rank := fun _ => 1
      useRank := fun _ => true
      pinv := fun _ => 0
      lgdetS := fun _ => 0
      logp := fun _ => 0
      dlogp := fun _ _ => 0
      Sf := some (addNull (updated [] fun _ => false).1 (updated [] fun _ => false).2 1 (vague (fun _ => false) 1 fun _ => none) []) }
    ∀ lam, sAll C lam *ᵥ ![1, 1] = 0 := by
  intro C lam
  funext i
  fin_cases i <;>
    simp [sAll, C, sEmb, addNull, vague, updated, Matrix.mulVec, dotProduct, Fin.sum_univ_two]

/-! ## C72: target and fit -/

/-- **C72 (partial).** The coefficients of the fit satisfy `gradient = S c / scale`.  For families without scale
parameter (`scale = 1`), or when smoothing parameters are sampled, they are a stationary point of the target. Missing:
families with scale parameter and fixed smoothing parameters, see `target_ignores_scale`. -/
theorem target_mode_partial (C : Ctx ι κ) (lam : κ → ℝ) (hlam : ∀ k, 0 < lam k) (scale : ℝ) (hs : 0 < scale)
    (sampleRho twopar : Bool) (hcase : sampleRho = true ∧ twopar = true ∨ scale = 1) (hf : C.Sf = none) (c : ι → ℝ)
    (isCoef : ι → Prop) (hfit : ∀ i, isCoef i → C.grad c i = (sEmb C lam *ᵥ c) i / scale) (i : ι) (hi : isCoef i) :
    gradFixed C (lamStart sampleRho twopar scale lam) c i = 0 := by
  have h1 : sEmb C (lamStart sampleRho twopar scale lam) = (1 / scale) • sEmb C lam := by
    unfold sEmb
    rw [Finset.smul_sum]
    refine Finset.sum_congr rfl fun k _ => ?_
    rw [smul_smul]
    congr 1
    unfold lamStart
    by_cases h : sampleRho = true ∧ twopar = true
    · rw [if_pos h, Real.exp_log (div_pos (hlam k) hs)]
      ring
    · rw [if_neg h, hcase.resolve_left h]
      ring
  unfold gradFixed sAll
  rw [hf]
  simp only
  rw [h1, smul_mulVec, Pi.smul_apply, smul_eq_mul, hfit i hi]
  ring

/-- **C72, disagreement.** With fixed smoothing parameters and a scale other than one the fitted coefficients are not a
stationary point of the target: the penalty is not divided by the scale. -/
theorem target_ignores_scale (C : Ctx ι κ) (lam : κ → ℝ) (scale : ℝ) (hs : 0 < scale) (hs1 : scale ≠ 1) (hf : C.Sf = none)
    (c : ι → ℝ) (i : ι) (hfit : C.grad c i = (sEmb C lam *ᵥ c) i / scale) (hne : (sEmb C lam *ᵥ c) i ≠ 0) :
    gradFixed C (lamStart false true scale lam) c i ≠ 0 := by
  unfold gradFixed sAll lamStart
  rw [hf, if_neg (by simp)]
  simp only
  rw [hfit, sub_ne_zero]
  intro h
  rw [div_eq_iff hs.ne'] at h
  have : scale = 1 := by
    have h2 : (sEmb C lam *ᵥ c) i * scale = (sEmb C lam *ᵥ c) i * 1 := by rw [mul_one]; exact h.symm
    exact mul_left_cancel₀ hne h2
  exact hs1 this

/-- Two observations of 1 with a common mean, penalty one, scale one half: the fit is 2/3, and it is not the mode of the
target with fixed smoothing parameters. -/
example : gradFixed ({
      llk := fun c => -(c 0 - 1) ^ 2 / (1 / 2)
      grad := fun c _ => 2 * (1 - c 0) / (1 / 2)
      S := fun _ => 1
      rank := fun _ => 1
      useRank := fun _ => true
      pinv := fun _ => 1
      lgdetS := fun _ => 0
      logp := fun _ => 0
      dlogp := fun _ _ => 0
      Sf := none } : Ctx (Fin 1) (Fin 1)) (lamStart false true (1 / 2) fun _ => 1) (fun _ => 2 / 3) 0 ≠ 0 := by
  refine target_ignores_scale _ _ _ (by norm_num) (by norm_num) rfl _ _ ?_ ?_ <;>
    simp [sEmb] <;> norm_num

end Verif.Joint
