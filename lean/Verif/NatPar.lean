import Verif.NatParLemmas
import Mathlib.LinearAlgebra.Matrix.Notation
import Mathlib.Algebra.BigOperators.Field
import Mathlib.Logic.Equiv.Fin.Basic

/-!
# Properties of re-parameterised smooth terms (C92)
-/

namespace Verif.NatPar

open Matrix

variable {n k : ℕ} {R S : Matrix (Fin k) (Fin k) ℝ} {X : Matrix (Fin n) (Fin k) ℝ}
variable {eigh : Matrix (Fin k) (Fin k) ℝ → (Fin k → ℝ) × Matrix (Fin k) (Fin k) ℝ}

/-- **C92, partial.** `rp=1`: if every eigenvalue of the penalty relative to the basis is zero or larger than `1e-7`, the term is the same
term with other coefficients: every coefficient vector corresponds to exactly one new vector with the same function (at any data) and the same
penalty. The factor given with the penalty is a root of it, the new columns are orthogonal, `rank` is the rank of the penalty and the last
columns are the functions the penalty does not see. -/
theorem natural_partial (hR : Rᵀ * R = Xᵀ * X) (hd : IsUnit R.det) (he : EigSpec (natB R S) (eigh (natB R S)))
    (hgap : ∀ i, (eigh (natB R S)).1 i = 0 ∨ 1e-7 < (eigh (natB R S)).1 i) (identity scale : Bool) (o : Out k)
    (ho : o = reparam eigh X R S identity scale) :
    (∀ β : Fin k → ℝ, ∃! γ : Fin k → ℝ, (∀ (m : ℕ) (Xn : Matrix (Fin m) (Fin k) ℝ), (Xn * o.C) *ᵥ γ = Xn *ᵥ β) ∧
        γ ⬝ᵥ o.Srp *ᵥ γ = β ⬝ᵥ S *ᵥ β) ∧
      o.Srp = o.Cᵀ * S * o.C ∧ o.Drp * o.Drpᵀ = o.Srp ∧
      (∀ i j, i ≠ j → ((X * o.C)ᵀ * (X * o.C)) i j = 0) ∧ o.rank = S.rank ∧
      ∀ j : Fin k, o.rank ≤ j → (fun i => o.C i j) ⬝ᵥ S *ᵥ (fun i => o.C i j) = 0 := by
  classical
  have hU := flipU_orth he
  have hB := flip_fac he
  have ha := flip_anti he
  have hC := reparam_C (X := X) (R := R) (S := S) eigh identity scale
  have hS := reparam_Srp (X := X) eigh he identity scale
  have hD := reparam_Drp (X := X) eigh he identity scale
  have hr := reparam_rank (X := X) (R := R) (S := S) eigh identity scale
  have hv := divi_pos (X := X) (s := flipS (eigh (natB R S))) hU hR hd identity scale
  rw [← ho] at hC hS hD hr
  obtain ⟨s, hs⟩ : ∃ s, s = flipS (eigh (natB R S)) := ⟨_, rfl⟩
  obtain ⟨U, hU'⟩ : ∃ U, U = flipU (eigh (natB R S)) := ⟨_, rfl⟩
  rw [← hs, ← hU'] at hC hS hD hB hv
  rw [← hs] at hr ha
  rw [← hU'] at hU
  obtain ⟨v, hv'⟩ : ∃ v, v = divi X (base R s U identity) scale := ⟨_, rfl⟩
  rw [← hv'] at hC hS hD hv
  have hgap' : ∀ i, ¬ thr < s i → s i = 0 := fun i h => by
    rw [hs] at h ⊢
    rcases hgap i.rev with h0 | h0
    · exact h0
    · exact absurd h0 h
  have hfp := fac_pos (s := s) identity
  have hdne : ∀ i, fac s identity i / v i ≠ 0 := fun i => (div_pos (hfp i) (hv i)).ne'
  have hpen : o.Srp = o.Cᵀ * S * o.C := by
    rw [hC, core_pen hU hB, hS]
    congr 1; ext i
    split_ifs with h
    · rw [div_pow]; ring
    · rw [hgap' i h, mul_zero]
  have hdet : IsUnit o.C.det := by rw [hC]; exact core_det hU hd _ hdne
  refine ⟨fun β => ⟨o.C⁻¹ *ᵥ β, ⟨fun m Xn => ?_, ?_⟩, ?_⟩, hpen, ?_, ?_, ?_, ?_⟩
  · rw [Matrix.mulVec_mulVec, Matrix.mul_assoc, Matrix.mul_nonsing_inv _ hdet, Matrix.mul_one]
  · have h1 : o.C *ᵥ (o.C⁻¹ *ᵥ β) = β := by rw [Matrix.mulVec_mulVec, Matrix.mul_nonsing_inv _ hdet, Matrix.one_mulVec]
    rw [hpen, ← Matrix.mulVec_mulVec, ← Matrix.mulVec_mulVec, h1, Matrix.dotProduct_mulVec, Matrix.vecMul_transpose, h1]
  · rintro γ ⟨h, -⟩
    have := h k 1
    rw [Matrix.one_mul, Matrix.one_mulVec] at this
    rw [← this, Matrix.mulVec_mulVec, Matrix.nonsing_inv_mul _ hdet, Matrix.one_mulVec]
  · rw [hD, hS, Matrix.diagonal_transpose, Matrix.diagonal_mul_diagonal]
    congr 1; ext i
    split_ifs with h
    · have := Real.mul_self_sqrt (lt_trans thr_pos h).le
      rw [div_mul_div_comm, ← pow_two (v i)]
      congr 1
      linear_combination (fac s identity i) ^ 2 * this
    · simp
  · intro i j hij
    rw [hC, core_gram hU hR hd, Matrix.diagonal_apply_ne _ hij]
  · rw [hr, rank_S hd hU hB, Fintype.card_subtype, rank]
    congr 1
    ext i
    simp only [Finset.mem_filter, Finset.mem_univ, true_and]
    exact ⟨fun h => (lt_trans thr_pos h).ne', fun h => by_contra fun h' => h (hgap' i h')⟩
  · intro j hj
    have h0 : s j = 0 := hgap' j fun h => by
      have := (lt_rank ha j).2 h
      omega
    have := congrFun (congrFun (core_pen hU hB fun i => fac s identity i / v i) j) j
    rw [← hC, Matrix.diagonal_apply_eq, h0, mul_zero, Matrix.mul_assoc, Matrix.mul_apply] at this
    rw [← this]
    refine Finset.sum_congr rfl fun i _ => ?_
    rfl

/-- **C92.** With `scale` the penalised columns have mean square one, and so have the others. -/
theorem natural_unit (hR : Rᵀ * R = Xᵀ * X) (hd : IsUnit R.det) (he : EigSpec (natB R S) (eigh (natB R S))) (identity : Bool) (o : Out k)
    (ho : o = reparam eigh X R S identity true) :
    (0 < o.rank → (∑ i, ∑ j ∈ Finset.univ.filter (fun j : Fin k => (j : ℕ) < o.rank), (X * o.C) i j ^ 2) =
        n * (Finset.univ.filter (fun j : Fin k => (j : ℕ) < o.rank)).card) ∧
      (o.rank < k → (∑ i, ∑ j ∈ Finset.univ.filter (fun j : Fin k => ¬ (j : ℕ) < o.rank), (X * o.C) i j ^ 2) =
        n * (Finset.univ.filter (fun j : Fin k => ¬ (j : ℕ) < o.rank)).card) := by
  classical
  have hU := flipU_orth he
  have ha := flip_anti he
  have hC := reparam_C (X := X) (R := R) (S := S) eigh identity true
  have hr := reparam_rank (X := X) (R := R) (S := S) eigh identity true
  rw [← ho] at hC hr
  obtain ⟨s, hs⟩ : ∃ s, s = flipS (eigh (natB R S)) := ⟨_, rfl⟩
  obtain ⟨U, hU'⟩ : ∃ U, U = flipU (eigh (natB R S)) := ⟨_, rfl⟩
  rw [← hs, ← hU'] at hC
  rw [← hs] at hr ha
  rw [← hU'] at hU
  have hfp := fac_pos (s := s) identity
  have hbr : (base R s U identity).rank = o.rank := by rw [base_rank, hr]
  have key : ∀ sel : Finset (Fin k), sel.Nonempty → (∀ j ∈ sel, divi X (base R s U identity) true j = rms (X * (base R s U identity).C) sel) →
      (∑ i, ∑ j ∈ sel, (X * o.C) i j ^ 2) = n * sel.card := by
    intro sel hne hv
    rw [Finset.sum_comm]
    have hcol : ∀ j ∈ sel, ∑ i, (X * o.C) i j ^ 2 = fac s identity j ^ 2 / rms (X * (base R s U identity).C) sel ^ 2 := by
      intro j hj
      have := congrFun (congrFun (core_gram (X := X) hU hR hd fun i => fac s identity i / divi X (base R s U identity) true i) j) j
      rw [← hC, Matrix.mul_apply, Matrix.diagonal_apply_eq, hv j hj, div_pow] at this
      rw [← this]
      exact Finset.sum_congr rfl fun i _ => by rw [Matrix.transpose_apply]; ring
    have hpos := rms_pos (X := X) hU hR hd _ (fun i => (hfp i).ne') sel hne
    rw [Finset.sum_congr rfl hcol, ← Finset.sum_div]
    rw [base_C] at *
    have h2 := rms_core (X := X) hU hR hd (fac s identity) sel
    obtain ⟨j, hj⟩ := hne
    have hn : 0 < n := n_pos hR hd (lt_of_le_of_lt (Nat.zero_le _) j.2)
    have hc : (0 : ℝ) < n * sel.card := mul_pos (by exact_mod_cast hn) (by exact_mod_cast Finset.card_pos.2 ⟨j, hj⟩)
    have h0 : 0 < ∑ j ∈ sel, fac s identity j ^ 2 := Finset.sum_pos (fun i _ => by have := hfp i; positivity) ⟨j, hj⟩
    rw [h2, Real.sq_sqrt (div_pos h0 hc).le]
    field_simp
  refine ⟨fun h => key _ ?_ fun j hj => ?_, fun h => key _ ?_ fun j hj => ?_⟩
  · refine ⟨⟨0, ?_⟩, by simpa using h⟩
    by_contra hk
    have : k = 0 := by omega
    subst this
    rw [hr] at h
    simp [rank] at h
  · rw [Finset.mem_filter] at hj
    simp only [divi, if_true, hbr, hj.2]
    rfl
  · exact ⟨⟨o.rank, h⟩, by simp⟩
  · rw [Finset.mem_filter] at hj
    simp only [divi, if_true, hbr, if_neg hj.2]
    rfl

/-- **C92, what fails (1).** The threshold `1e-7` is absolute: a function with a positive eigenvalue up to `1e-7` is penalised before
and not after the re-parameterisation, and `rank` is too small. -/
theorem natural_threshold_wrong (hR : Rᵀ * R = Xᵀ * X) (hd : IsUnit R.det) (he : EigSpec (natB R S) (eigh (natB R S)))
    (j : Fin k) (h0 : 0 < (eigh (natB R S)).1 j) (h1 : (eigh (natB R S)).1 j ≤ 1e-7) (identity scale : Bool) (o : Out k)
    (ho : o = reparam eigh X R S identity scale) :
    (∃ γ : Fin k → ℝ, γ ⬝ᵥ o.Srp *ᵥ γ = 0 ∧ 0 < (o.C *ᵥ γ) ⬝ᵥ S *ᵥ (o.C *ᵥ γ)) ∧ o.rank < S.rank := by
  classical
  have hU := flipU_orth he
  have hB := flip_fac he
  have hC := reparam_C (X := X) (R := R) (S := S) eigh identity scale
  have hS := reparam_Srp (X := X) eigh he identity scale
  have hr := reparam_rank (X := X) (R := R) (S := S) eigh identity scale
  have hv := divi_pos (X := X) (s := flipS (eigh (natB R S))) hU hR hd identity scale
  have hj0 : 0 < flipS (eigh (natB R S)) j.rev := by simpa [flipS] using h0
  have hj1 : ¬ thr < flipS (eigh (natB R S)) j.rev := by simpa [flipS, thr] using h1
  rw [← ho] at hC hS hr
  obtain ⟨s, hs⟩ : ∃ s, s = flipS (eigh (natB R S)) := ⟨_, rfl⟩
  obtain ⟨U, hU'⟩ : ∃ U, U = flipU (eigh (natB R S)) := ⟨_, rfl⟩
  rw [← hs, ← hU'] at hC hS hB hv
  rw [← hs] at hr hj0 hj1
  rw [← hU'] at hU
  have hfp := fac_pos (s := s) identity
  refine ⟨⟨Pi.single j.rev 1, ?_, ?_⟩, ?_⟩
  · rw [hS, Matrix.mulVec_single_one, single_dotProduct, Matrix.col_apply, Matrix.diagonal_apply_eq, if_neg hj1, mul_zero]
  · have := congrFun (congrFun (core_pen hU hB fun i => fac s identity i / divi X (base R s U identity) scale i) j.rev) j.rev
    rw [← hC, Matrix.diagonal_apply_eq] at this
    have e : (o.C *ᵥ Pi.single j.rev 1) ⬝ᵥ S *ᵥ (o.C *ᵥ Pi.single j.rev 1) = (o.Cᵀ * S * o.C) j.rev j.rev := by
      rw [Matrix.mulVec_single_one, Matrix.mul_assoc, Matrix.mul_apply]
      rfl
    rw [e, this]
    have := div_pos (hfp j.rev) (hv j.rev)
    positivity
  · rw [hr, rank_S hd hU hB, Fintype.card_subtype, rank]
    refine Finset.card_lt_card ⟨fun i hi => ?_, fun h => ?_⟩
    · simp only [Finset.mem_filter, Finset.mem_univ, true_and] at hi ⊢
      exact (lt_trans thr_pos hi).ne'
    · have := @h j.rev (by simp [hj0.ne'])
      simp only [Finset.mem_filter, Finset.mem_univ, true_and] at this
      exact hj1 this

/-- Every row of the data `m` times. -/
def copies (X : Matrix (Fin n) (Fin k) ℝ) (m : ℕ) : Matrix (Fin (m * n)) (Fin k) ℝ := Matrix.of fun i j => X (finProdFinEquiv.symm i).2 j

theorem copies_gram (X : Matrix (Fin n) (Fin k) ℝ) (m : ℕ) : (copies X m)ᵀ * copies X m = (m : ℝ) • (Xᵀ * X) := by
  ext i j
  rw [Matrix.mul_apply, Matrix.smul_apply, Matrix.mul_apply]
  simp only [copies, Matrix.transpose_apply, Matrix.of_apply]
  rw [Equiv.sum_comp finProdFinEquiv.symm (fun q : Fin m × Fin n => X q.2 i * X q.2 j), Fintype.sum_prod_type]
  simp

/-- **C92, what fails (1).** With enough copies of the same data every function of the term counts as unpenalised: `rank` is zero,
whatever the penalty. (With `scale`, as `absorb_repara` has it, the mean of no columns is then not a number.) -/
theorem natural_copies_wrong (hX : IsUnit (Xᵀ * X).det) (hS : S.PosSemidef) :
    ∃ m₀ : ℕ, ∀ m ≥ m₀, ∀ (R : Matrix (Fin k) (Fin k) ℝ) (eigh : Matrix (Fin k) (Fin k) ℝ → (Fin k → ℝ) × Matrix (Fin k) (Fin k) ℝ)
      (identity scale : Bool), Rᵀ * R = (copies X m)ᵀ * copies X m → EigSpec (natB R S) (eigh (natB R S)) →
      (reparam eigh (copies X m) R S identity scale).rank = 0 ∧ (reparam eigh (copies X m) R S identity scale).Srp = 0 := by
  classical
  obtain ⟨m₀, hm₀⟩ := exists_nat_gt ((S * (Xᵀ * X)⁻¹).trace / thr)
  refine ⟨m₀ + 1, fun m hm R eigh identity scale hR he => ?_⟩
  have hmp : (0 : ℝ) < m := by
    have : 0 < m := by omega
    exact_mod_cast this
  have hmle : (m₀ : ℝ) ≤ m := by
    have : m₀ ≤ m := by omega
    exact_mod_cast this
  rw [copies_gram] at hR
  have hd : IsUnit R.det := by
    have := congrArg Matrix.det hR
    rw [Matrix.det_mul, Matrix.det_transpose, Matrix.det_smul] at this
    refine isUnit_iff_ne_zero.2 fun h => ?_
    rw [h, mul_zero] at this
    exact (mul_ne_zero (pow_ne_zero _ hmp.ne') hX.ne_zero) this.symm
  have hU := flipU_orth he
  have hB := flip_fac he
  have hSrp := reparam_Srp (X := copies X m) eigh he identity scale
  obtain ⟨s, hs⟩ : ∃ s, s = flipS (eigh (natB R S)) := ⟨_, rfl⟩
  obtain ⟨U, hU'⟩ : ∃ U, U = flipU (eigh (natB R S)) := ⟨_, rfl⟩
  rw [← hs, ← hU'] at hB hSrp
  rw [← hU'] at hU
  have hs0 : ∀ i, 0 ≤ s i := by
    intro i
    have := congrFun (congrFun (core_pen hU hB 1) i) i
    rw [Matrix.diagonal_apply_eq] at this
    simp only [Pi.one_apply, one_pow, one_mul] at this
    rw [← this]
    have hps := hS.conjTranspose_mul_mul_same (R⁻¹ * U * diagonal (1 : Fin k → ℝ))
    rw [Matrix.conjTranspose_eq_transpose_of_trivial] at hps
    exact hps.diag_nonneg
  have htr : ∑ i, s i = 1 / m * (S * (Xᵀ * X)⁻¹).trace := by
    have h1 : (natB R S).trace = ∑ i, s i := by
      rw [hB, Matrix.trace_mul_comm, ← Matrix.mul_assoc, hU, Matrix.one_mul, Matrix.trace_diagonal]
    have h2 : R⁻¹ * (R⁻¹)ᵀ = (1 / (m : ℝ)) • (Xᵀ * X)⁻¹ := by
      have h3 : R⁻¹ * (R⁻¹)ᵀ = (Rᵀ * R)⁻¹ := by rw [Matrix.mul_inv_rev, Matrix.transpose_nonsing_inv]
      rw [h3, hR]
      refine Matrix.inv_eq_left_inv ?_
      rw [Matrix.smul_mul, Matrix.mul_smul, smul_smul, Matrix.nonsing_inv_mul _ hX, one_div, inv_mul_cancel₀ hmp.ne', one_smul]
    rw [← h1, natB_eq, Matrix.mul_assoc, Matrix.trace_mul_comm, Matrix.mul_assoc, h2, Matrix.mul_smul, Matrix.trace_smul, smul_eq_mul]
  have hle : ∀ i, ¬ thr < s i := by
    intro i hi
    have h1 : s i ≤ ∑ i, s i := Finset.single_le_sum (fun i _ => hs0 i) (Finset.mem_univ i)
    rw [htr] at h1
    have h2 : thr < 1 / m * (S * (Xᵀ * X)⁻¹).trace := lt_of_lt_of_le hi h1
    rw [one_div, inv_mul_eq_div, lt_div_iff₀ hmp] at h2
    have h3 := (div_lt_iff₀ thr_pos).1 hm₀
    nlinarith [thr_pos]
  refine ⟨?_, ?_⟩
  · rw [reparam_rank, ← hs, rank, Finset.card_eq_zero]
    exact Finset.filter_eq_empty_iff.2 fun i _ => hle i
  · rw [hSrp]
    ext i j
    by_cases hij : i = j
    · subst hij; rw [Matrix.diagonal_apply_eq, if_neg (hle i)]; rfl
    · rw [Matrix.diagonal_apply_ne _ hij]; rfl

/-- **C92, what fails (2).** A smooth with `rp=1` and several penalties: every one of them becomes the first. Any coefficient vector for
which penalty `p` differs from the first shows it. -/
theorem natural_multi_wrong {P : ℕ → Matrix (Fin k) (Fin k) ℝ} (hR : Rᵀ * R = Xᵀ * X) (hd : IsUnit R.det)
    (he : EigSpec (natB R (P 0)) (eigh (natB R (P 0)))) (hgap : ∀ i, (eigh (natB R (P 0))).1 i = 0 ∨ 1e-7 < (eigh (natB R (P 0))).1 i)
    (p : ℕ) (β : Fin k → ℝ) (hβ : β ⬝ᵥ P p *ᵥ β ≠ β ⬝ᵥ P 0 *ᵥ β) :
    ∃ γ : Fin k → ℝ, (reparam eigh X R (P 0) true true).C *ᵥ γ = β ∧
      γ ⬝ᵥ natPen (fun S => reparam eigh X R S true true) P p *ᵥ γ = β ⬝ᵥ P 0 *ᵥ β ∧
      γ ⬝ᵥ natPen (fun S => reparam eigh X R S true true) P p *ᵥ γ ≠ β ⬝ᵥ P p *ᵥ β := by
  obtain ⟨h, -⟩ := natural_partial hR hd he hgap true true _ rfl
  obtain ⟨γ, ⟨h1, h2⟩, -⟩ := h β
  have h3 := h1 k 1
  rw [Matrix.one_mul, Matrix.one_mulVec] at h3
  exact ⟨γ, h3, h2, fun h => hβ (h.symm.trans h2)⟩

/-- What is assumed of `svd` for the matrix at hand. -/
structure SvdSpec (A : Matrix (Fin k) (Fin k) ℝ) (v : Matrix (Fin k) (Fin k) ℝ × (Fin k → ℝ) × Matrix (Fin k) (Fin k) ℝ) : Prop where
  u : v.1ᵀ * v.1 = 1
  vt : v.2.2 * v.2.2ᵀ = 1
  fac : A = v.1 * diagonal v.2.1 * v.2.2

/-- **C92.** `rp=2`: if the basis at the grid is invertible, the new coefficients of a marginal are the values of the function at the
grid: for every coefficient vector they give the same function at any data and the same penalty. -/
theorem tensor_same {svd : Matrix (Fin k) (Fin k) ℝ → Matrix (Fin k) (Fin k) ℝ × (Fin k → ℝ) × Matrix (Fin k) (Fin k) ℝ}
    {A : Matrix (Fin k) (Fin k) ℝ} (hv : SvdSpec A (svd A)) (h0 : ∀ i, (svd A).2.1 i ≠ 0) (o : Out k) (ho : o = tensorRp svd eigh A S) :
    (∀ γ, A *ᵥ (o.C *ᵥ γ) = γ) ∧ ∀ β : Fin k → ℝ, (∀ (m : ℕ) (Xn : Matrix (Fin m) (Fin k) ℝ), (Xn * o.C) *ᵥ (A *ᵥ β) = Xn *ᵥ β) ∧
      (A *ᵥ β) ⬝ᵥ o.Srp *ᵥ (A *ᵥ β) = β ⬝ᵥ S *ᵥ β := by
  have hinv : A * o.C = 1 := by
    have hC : o.C = svdInv (svd A) := by rw [ho]; rfl
    rw [hC]
    obtain ⟨v, hv'⟩ : ∃ v, v = svd A := ⟨_, rfl⟩
    rw [← hv'] at hv h0 ⊢
    unfold svdInv
    have e : A * (v.2.2ᵀ * diagonal (fun i => 1 / v.2.1 i) * v.1ᵀ) =
        v.1 * (diagonal v.2.1 * (v.2.2 * v.2.2ᵀ) * diagonal (fun i => 1 / v.2.1 i)) * v.1ᵀ := by
      rw [hv.fac]
      simp only [Matrix.mul_assoc]
    have e2 : diagonal v.2.1 * diagonal (fun i => 1 / v.2.1 i) = (1 : Matrix (Fin k) (Fin k) ℝ) := by
      rw [Matrix.diagonal_mul_diagonal, ← Matrix.diagonal_one]
      congr 1; ext i; exact mul_one_div_cancel (h0 i)
    rw [e, hv.vt, Matrix.mul_one, e2, Matrix.mul_one]
    exact mul_eq_one_comm.1 hv.u
  have hinv' : o.C * A = 1 := mul_eq_one_comm.1 hinv
  have hS : o.Srp = o.Cᵀ * S * o.C := by rw [ho]; rfl
  refine ⟨fun γ => by rw [Matrix.mulVec_mulVec, hinv, Matrix.one_mulVec], fun β => ⟨fun m Xn => ?_, ?_⟩⟩
  · rw [Matrix.mulVec_mulVec, Matrix.mul_assoc, hinv', Matrix.mul_one]
  · have h1 : o.C *ᵥ (A *ᵥ β) = β := by rw [Matrix.mulVec_mulVec, hinv', Matrix.one_mulVec]
    rw [hS, ← Matrix.mulVec_mulVec, ← Matrix.mulVec_mulVec, h1, Matrix.dotProduct_mulVec, Matrix.vecMul_transpose, h1]

/-- **C92.** The factor given with that penalty is a root of it, unless an eigenvalue is negative or lies below the threshold. -/
theorem tensor_root {svd : Matrix (Fin k) (Fin k) ℝ → Matrix (Fin k) (Fin k) ℝ × (Fin k → ℝ) × Matrix (Fin k) (Fin k) ℝ}
    {A : Matrix (Fin k) (Fin k) ℝ} (o : Out k) (ho : o = tensorRp svd eigh A S) (he : EigSpec o.Srp (eigh o.Srp))
    (hgap : ∀ i, (eigh o.Srp).1 i = 0 ∨ eps7 < (eigh o.Srp).1 i) : o.Drp * o.Drpᵀ = o.Srp := by
  classical
  have hpos : 0 < eps7 := by unfold eps7; positivity
  have hD : o.Drp = (eigh o.Srp).2 * diagonal fun i => if eps7 < (eigh o.Srp).1 i then √((eigh o.Srp).1 i) else 0 := by
    rw [ho]; show _ * diagonal _ = _; congr
  rw [hD, Matrix.transpose_mul, Matrix.diagonal_transpose]
  conv_rhs => rw [he.fac]
  rw [Matrix.mul_assoc, ← Matrix.mul_assoc (diagonal _), Matrix.diagonal_mul_diagonal, ← Matrix.mul_assoc]
  congr 3
  ext i
  rcases hgap i with h | h
  · rw [h]; simp
  · rw [if_pos h]; exact Real.mul_self_sqrt (hpos.trans h).le

/-- **C92, what fails (3).** `rp=2` with `q` penalties for each of the variables: all of them can be built only if there is one for each. -/
theorem tensor_multi_wrong (rp : ℕ → Matrix (Fin k) (Fin k) ℝ → Out k) (nv q : ℕ) (hnv : 2 ≤ nv) (P : ℕ → Matrix (Fin k) (Fin k) ℝ) :
    (∀ p < q * nv, tensorPen rp nv P p = .ok (rp p (P p)).Srp) ↔ q ≤ 1 := by
  constructor
  · intro h
    by_contra hq
    have hlt : nv < q * nv := by nlinarith
    have := h nv hlt
    simp [tensorPen] at this
  · intro hq p hp
    have : p < nv := by nlinarith
    simp [tensorPen, this]

/-- Column sums and the constraint found from them by QR: the columns of `Z` span what is orthogonal to `c`. -/
def QrCon {ι κ : Type} [Fintype ι] [Fintype κ] (c : ι → ℝ) (Z : Matrix ι κ ℝ) : Prop :=
  ∀ x : ι → ℝ, c ⬝ᵥ x = 0 ↔ ∃ γ, Z *ᵥ γ = x

/-- **C92.** A re-parameterised term which is not a `te` term sums to zero over the data, for all coefficients. -/
theorem marginal_sum {N k₀ : ℕ} (B : Matrix (Fin N) (Fin k₀) ℝ) (Z : Matrix (Fin k₀) (Fin k) ℝ) (C : Matrix (Fin k) (Fin k) ℝ)
    (hZ : QrCon (fun j => ∑ i, B i j) Z) (γ : Fin k → ℝ) : ∑ i, (marginal B Z C *ᵥ γ) i = 0 := by
  have h := (hZ (Z *ᵥ (C *ᵥ γ))).2 ⟨_, rfl⟩
  have e : marginal B Z C *ᵥ γ = B *ᵥ (Z *ᵥ (C *ᵥ γ)) := by
    unfold marginal; rw [Matrix.mulVec_mulVec, Matrix.mulVec_mulVec, Matrix.mul_assoc]
  rw [e, ← h]
  simp only [Matrix.mulVec, dotProduct]
  rw [Finset.sum_comm]
  exact Finset.sum_congr rfl fun j _ => by rw [Finset.sum_mul]

section Te

variable {N k₁ k₂ : ℕ} {κ : Type} [Fintype κ] (B₁ : Matrix (Fin N) (Fin k₁) ℝ) (B₂ : Matrix (Fin N) (Fin k₂) ℝ)
  (C₁ : Matrix (Fin k₁) (Fin k₁) ℝ) (C₂ : Matrix (Fin k₂) (Fin k₂) ℝ) (Z : Matrix (Fin k₁ × Fin k₂) κ ℝ)

/-- Column sums of the basis after the re-parameterisation. -/
def newSums : Fin k₁ × Fin k₂ → ℝ := fun j => ∑ i, (∑ a, B₁ i a * C₁ a j.1) * ∑ b, B₂ i b * C₂ b j.2

theorem te_sum (γ : κ → ℝ) : ∑ i, (teMat B₁ B₂ C₁ C₂ Z *ᵥ γ) i = newSums B₁ B₂ C₁ C₂ ⬝ᵥ Z *ᵥ γ := by
  have e : teMat B₁ B₂ C₁ C₂ Z *ᵥ γ = rowKron (B₁ * C₁) (B₂ * C₂) *ᵥ (Z *ᵥ γ) := by
    unfold teMat; rw [Matrix.mulVec_mulVec]
  rw [e]
  simp only [Matrix.mulVec, dotProduct]
  rw [Finset.sum_comm]
  refine Finset.sum_congr rfl fun j _ => ?_
  rw [← Finset.sum_mul]
  rfl

/-- **C92.** A `te` term sums to zero over the data for all coefficients exactly if the column sums after the re-parameterisation are
proportional to those before. -/
theorem te_sum_iff (hZ : QrCon (conVec B₁ B₂) Z) (h0 : conVec B₁ B₂ ≠ 0) :
    (∀ γ, ∑ i, (teMat B₁ B₂ C₁ C₂ Z *ᵥ γ) i = 0) ↔ ∃ t : ℝ, newSums B₁ B₂ C₁ C₂ = t • conVec B₁ B₂ := by
  simp only [te_sum]
  obtain ⟨c, hc⟩ : ∃ c, c = conVec B₁ B₂ := ⟨_, rfl⟩
  obtain ⟨d, hd⟩ : ∃ d, d = newSums B₁ B₂ C₁ C₂ := ⟨_, rfl⟩
  rw [← hc] at hZ h0 ⊢
  rw [← hd]
  have hcc : c ⬝ᵥ c ≠ 0 := fun h => h0 (dotProduct_self_eq_zero.1 h)
  constructor
  · intro h
    refine ⟨(c ⬝ᵥ d) / (c ⬝ᵥ c), ?_⟩
    obtain ⟨x, hx⟩ : ∃ x, x = d - ((c ⬝ᵥ d) / (c ⬝ᵥ c)) • c := ⟨_, rfl⟩
    have h1 : c ⬝ᵥ x = 0 := by
      rw [hx, dotProduct_sub, dotProduct_smul, smul_eq_mul, div_mul_cancel₀ _ hcc, sub_self]
    obtain ⟨γ, hγ⟩ := (hZ x).1 h1
    have h2 := h γ
    rw [hγ] at h2
    have h3 : x ⬝ᵥ x = 0 := by
      calc x ⬝ᵥ x = (d - ((c ⬝ᵥ d) / (c ⬝ᵥ c)) • c) ⬝ᵥ x := by rw [← hx]
        _ = 0 := by rw [sub_dotProduct, smul_dotProduct, h1, h2, smul_zero, sub_zero]
    have h4 := dotProduct_self_eq_zero.1 h3
    rw [hx] at h4
    exact sub_eq_zero.1 h4
  · rintro ⟨t, ht⟩ γ
    rw [ht, smul_dotProduct, (hZ _).2 ⟨γ, rfl⟩, smul_zero]

/-- **C92.** Without re-parameterisation it does. -/
theorem te_sum_plain (hZ : QrCon (conVec B₁ B₂) Z) (γ : κ → ℝ) : ∑ i, (teMat B₁ B₂ 1 1 Z *ᵥ γ) i = 0 := by
  rw [te_sum]
  have : newSums B₁ B₂ 1 1 = conVec B₁ B₂ := by
    ext j
    simp [newSums, conVec, rowKron, Matrix.one_apply]
  rw [this]
  exact (hZ _).2 ⟨γ, rfl⟩

end Te

/-! ### Cases meeting the hypotheses -/

/-- Two functions, one of them penalised. -/
def exX : Matrix (Fin 2) (Fin 2) ℝ := diagonal ![1, 2]
def exS : Matrix (Fin 2) (Fin 2) ℝ := diagonal ![0, 8]
def exEig : (Fin 2 → ℝ) × Matrix (Fin 2) (Fin 2) ℝ := (![0, 2], 1)

theorem diag2_inv (a b : ℝ) (ha : a ≠ 0) (hb : b ≠ 0) : (diagonal ![a, b] : Matrix (Fin 2) (Fin 2) ℝ)⁻¹ = diagonal ![1 / a, 1 / b] := by
  refine Matrix.inv_eq_left_inv ?_
  rw [Matrix.diagonal_mul_diagonal, ← Matrix.diagonal_one]
  congr 1
  ext i
  fin_cases i <;> simp [ha, hb]

theorem exB : natB exX exS = diagonal ![0, 2] := by
  rw [natB_eq, exX, exS, diag2_inv _ _ one_ne_zero two_ne_zero, Matrix.diagonal_transpose, Matrix.diagonal_mul_diagonal, Matrix.diagonal_mul_diagonal]
  congr 1
  ext i
  fin_cases i
  · simp
  · simp; norm_num

theorem exSpec : EigSpec (natB exX exS) exEig where
  orth := by simp [exEig]
  fac := by rw [exB]; simp [exEig]
  mono := by
    intro i j h
    fin_cases i <;> fin_cases j <;> simp_all [exEig]

theorem exR : exXᵀ * exX = exXᵀ * exX := rfl
theorem exDet : IsUnit exX.det := by simp [exX, Matrix.det_diagonal]

/-- The hypotheses of `natural_partial` and `natural_unit` hold; the new penalty has rank one. -/
example : (reparam (fun _ => exEig) exX exX exS true true).rank = exS.rank ∧
    (reparam (fun _ => exEig) exX exX exS true true).Srp =
      (reparam (fun _ => exEig) exX exX exS true true).Cᵀ * exS * (reparam (fun _ => exEig) exX exX exS true true).C := by
  have h := natural_partial (eigh := fun _ => exEig) exR exDet exSpec
    (fun i => by fin_cases i <;> simp [exEig] <;> norm_num) true true _ rfl
  exact ⟨h.2.2.2.2.1, h.2.1⟩

example : (reparam (fun _ => exEig) exX exX exS true true).rank = 1 := by
  rw [reparam_rank, rank]
  have : (Finset.univ.filter fun i => thr < flipS exEig i) = {0} := by
    ext i
    fin_cases i
    · simp [flipS, exEig, Fin.rev, thr]; norm_num
    · simp [flipS, exEig, Fin.rev, thr]; norm_num
  have h := congrArg Finset.card this
  rw [Finset.card_singleton] at h
  convert h

/-- Two penalties: the second is lost. -/
example : ∃ γ : Fin 2 → ℝ, γ ⬝ᵥ natPen (fun S => reparam (fun _ => exEig) exX exX S true true) (fun p => if p = 0 then exS else 1) 1 *ᵥ γ ≠
    ((reparam (fun _ => exEig) exX exX exS true true).C *ᵥ γ) ⬝ᵥ (1 : Matrix (Fin 2) (Fin 2) ℝ) *ᵥ
      ((reparam (fun _ => exEig) exX exX exS true true).C *ᵥ γ) := by
  obtain ⟨γ, h1, -, h3⟩ := natural_multi_wrong (eigh := fun _ => exEig) (P := fun p => if p = 0 then exS else 1) exR exDet exSpec
    (fun i => by fin_cases i <;> simp [exEig] <;> norm_num) 1 ![1, 0]
    (by simp [exS, Matrix.mulVec_diagonal, dotProduct, Fin.sum_univ_two])
  refine ⟨γ, ?_⟩
  have h1' : (reparam (fun _ => exEig) exX exX exS true true).C *ᵥ γ = ![1, 0] := h1
  rw [h1']
  exact h3

/-- Data with columns of different size and the identity as penalty: the second function is not penalised any more. -/
example : (∃ γ : Fin 2 → ℝ,
    γ ⬝ᵥ (reparam (fun _ => (![1e-8, 1], Matrix.of ![![0, 1], ![1, 0]])) (diagonal ![1, 10000]) (diagonal ![1, 10000]) 1 true true).Srp *ᵥ γ = 0 ∧
    0 < ((reparam (fun _ => (![1e-8, 1], Matrix.of ![![0, 1], ![1, 0]])) (diagonal ![1, 10000]) (diagonal ![1, 10000]) 1 true true).C *ᵥ γ) ⬝ᵥ
      (1 : Matrix (Fin 2) (Fin 2) ℝ) *ᵥ
      ((reparam (fun _ => (![1e-8, 1], Matrix.of ![![0, 1], ![1, 0]])) (diagonal ![1, 10000]) (diagonal ![1, 10000]) 1 true true).C *ᵥ γ)) := by
  have hB : natB (diagonal ![1, 10000]) (1 : Matrix (Fin 2) (Fin 2) ℝ) = diagonal ![1, 1e-8] := by
    rw [natB_eq, diag2_inv _ _ one_ne_zero (by norm_num), Matrix.diagonal_transpose, Matrix.mul_one, Matrix.diagonal_mul_diagonal]
    congr 1
    ext i
    fin_cases i
    · simp
    · simp; norm_num
  refine (natural_threshold_wrong (X := diagonal ![1, 10000]) (R := diagonal ![1, 10000]) (S := (1 : Matrix (Fin 2) (Fin 2) ℝ))
    (eigh := fun _ => (![1e-8, 1], Matrix.of ![![0, 1], ![1, 0]])) rfl (by simp [Matrix.det_diagonal]) ⟨?_, ?_, ?_⟩ 0 ?_ ?_ true true _ rfl).1
  · ext i j
    fin_cases i <;> fin_cases j <;> simp [Matrix.mul_apply]
  · rw [hB]
    ext i j
    rw [Matrix.mul_apply]
    simp only [Matrix.mul_diagonal, Fin.sum_univ_two]
    fin_cases i <;> fin_cases j <;> simp
  · intro i j h
    fin_cases i <;> fin_cases j <;> simp_all
    norm_num
  · norm_num
  · norm_num

/-- `natural_copies_wrong` for two observations at which two functions are one, with the identity as penalty. -/
example : ∃ m₀ : ℕ, ∀ m ≥ m₀, ∀ (R : Matrix (Fin 2) (Fin 2) ℝ) (eigh : Matrix (Fin 2) (Fin 2) ℝ → (Fin 2 → ℝ) × Matrix (Fin 2) (Fin 2) ℝ)
    (identity scale : Bool), Rᵀ * R = (copies (1 : Matrix (Fin 2) (Fin 2) ℝ) m)ᵀ * copies (1 : Matrix (Fin 2) (Fin 2) ℝ) m → EigSpec (natB R 1) (eigh (natB R 1)) →
      (reparam eigh (copies (1 : Matrix (Fin 2) (Fin 2) ℝ) m) R 1 identity scale).rank = 0 ∧ (reparam eigh (copies (1 : Matrix (Fin 2) (Fin 2) ℝ) m) R 1 identity scale).Srp = 0 :=
  natural_copies_wrong (by simp) Matrix.PosSemidef.one

/-- The basis `x ↦ ((3 - 2 x) / 4, (1 + 2 x) / 4)` on the unit interval at the grid `0, 1`. -/
noncomputable def exA : Matrix (Fin 2) (Fin 2) ℝ := Matrix.of ![![3 / 4, 1 / 4], ![1 / 4, 3 / 4]]
/-- Its inverse. -/
noncomputable def exAi : Matrix (Fin 2) (Fin 2) ℝ := Matrix.of ![![3 / 2, -1 / 2], ![-1 / 2, 3 / 2]]

theorem exA_inv : exAi * exA = 1 := by
  ext i j
  fin_cases i <;> fin_cases j <;> simp [exA, exAi, Matrix.mul_apply, Fin.sum_univ_two] <;> norm_num

noncomputable def hs : ℝ := √(1 / 2)
theorem hs_sq : hs * hs = 1 / 2 := Real.mul_self_sqrt (by norm_num)

/-- Singular value decomposition of that matrix. -/
noncomputable def exV : Matrix (Fin 2) (Fin 2) ℝ × (Fin 2 → ℝ) × Matrix (Fin 2) (Fin 2) ℝ :=
  (Matrix.of ![![hs, hs], ![hs, -hs]], ![1, 1 / 2], Matrix.of ![![hs, hs], ![hs, -hs]])

theorem exV_spec : SvdSpec exA exV where
  u := by
    ext i j
    fin_cases i <;> fin_cases j <;> simp [exV, Matrix.mul_apply, Fin.sum_univ_two] <;> linarith [hs_sq]
  vt := by
    ext i j
    fin_cases i <;> fin_cases j <;> simp [exV, Matrix.mul_apply, Fin.sum_univ_two] <;> linarith [hs_sq]
  fac := by
    ext i j
    rw [Matrix.mul_apply]
    simp only [Matrix.mul_diagonal, Fin.sum_univ_two]
    fin_cases i <;> fin_cases j <;> simp [exV, exA] <;> nlinarith [hs_sq]

/-- `tensor_same` for it and a ridge penalty. -/
example (eigh : Matrix (Fin 2) (Fin 2) ℝ → (Fin 2 → ℝ) × Matrix (Fin 2) (Fin 2) ℝ) (β : Fin 2 → ℝ) :
    (exA *ᵥ β) ⬝ᵥ (tensorRp (fun _ => exV) eigh exA 1).Srp *ᵥ (exA *ᵥ β) = β ⬝ᵥ (1 : Matrix (Fin 2) (Fin 2) ℝ) *ᵥ β :=
  ((tensor_same (svd := fun _ => exV) exV_spec (fun i => by fin_cases i <;> simp [exV]) _ rfl).2 β).2

/-- The columns of the projection are a constraint of the kind QR finds. -/
theorem qrCon_proj {ι : Type} [Fintype ι] [DecidableEq ι] (c : ι → ℝ) (h : c ≠ 0) :
    QrCon c (1 - (1 / (c ⬝ᵥ c)) • Matrix.vecMulVec c c) := by
  have hcc : c ⬝ᵥ c ≠ 0 := fun h' => h (dotProduct_self_eq_zero.1 h')
  have e : ∀ γ, (1 - (1 / (c ⬝ᵥ c)) • Matrix.vecMulVec c c) *ᵥ γ = γ - ((c ⬝ᵥ γ) / (c ⬝ᵥ c)) • c := by
    intro γ
    rw [Matrix.sub_mulVec, Matrix.one_mulVec, Matrix.smul_mulVec, Matrix.vecMulVec_mulVec]
    ext i
    simp [div_eq_mul_inv]
    ring
  intro x
  constructor
  · intro hx
    exact ⟨x, by rw [e, hx]; simp⟩
  · rintro ⟨γ, rfl⟩
    rw [e, dotProduct_sub, dotProduct_smul, smul_eq_mul, div_mul_cancel₀ _ hcc, sub_self]

/-- Both marginals at the data `0, 0, 1`. -/
noncomputable def exD : Matrix (Fin 3) (Fin 2) ℝ := Matrix.of ![![3 / 4, 1 / 4], ![3 / 4, 1 / 4], ![1 / 4, 3 / 4]]

theorem exD_old : conVec exD exD (0, 0) = 19 / 16 ∧ conVec exD exD (0, 1) = 9 / 16 := by
  constructor <;> simp [conVec, rowKron, exD, Fin.sum_univ_three] <;> norm_num

theorem exD_new : newSums exD exD exAi exAi (0, 0) = 2 ∧ newSums exD exD exAi exAi (0, 1) = 0 := by
  constructor <;> simp [newSums, exD, exAi, Fin.sum_univ_three, Fin.sum_univ_two] <;> norm_num

/-- **C92, what fails (4).** A `te` term with `rp=2`: the constraint is found before and applied after the re-parameterisation. Two
marginals with two functions each, three observations: whatever constraint QR finds, the term does not sum to zero over the data. -/
theorem te_sum_wrong {κ : Type} [Fintype κ] (Z : Matrix (Fin 2 × Fin 2) κ ℝ) (hZ : QrCon (conVec exD exD) Z) :
    (tensorRp (fun _ => exV) (fun _ => exV.2) exA 1).C = exAi ∧ ∃ γ, ∑ i, (teMat exD exD exAi exAi Z *ᵥ γ) i ≠ 0 := by
  have h0 : conVec exD exD ≠ 0 := fun h => by
    have := exD_old.1
    rw [h] at this
    norm_num at this
  refine ⟨?_, ?_⟩
  · have h := (tensor_same (svd := fun _ => exV) (S := 1) (eigh := fun _ => exV.2) exV_spec (fun i => by fin_cases i <;> simp [exV]) _ rfl).1
    obtain ⟨C, hC⟩ : ∃ C, C = (tensorRp (fun _ => exV) (fun _ => exV.2) exA 1).C := ⟨_, rfl⟩
    rw [← hC] at h ⊢
    have h1 : exA * C = 1 := by
      refine Matrix.ext_of_mulVec_single fun i => ?_
      rw [← Matrix.mulVec_mulVec, h, Matrix.one_mulVec]
    calc C = exAi * exA * C := by rw [exA_inv, Matrix.one_mul]
      _ = exAi := by rw [Matrix.mul_assoc, h1, Matrix.mul_one]
  · by_contra hc
    push Not at hc
    obtain ⟨t, ht⟩ := (te_sum_iff exD exD exAi exAi Z hZ h0).1 hc
    have h1 := congrFun ht (0, 0)
    have h2 := congrFun ht (0, 1)
    rw [exD_new.1, Pi.smul_apply, exD_old.1, smul_eq_mul] at h1
    rw [exD_new.2, Pi.smul_apply, exD_old.2, smul_eq_mul] at h2
    linarith

/-- Such a constraint exists. -/
example : ∃ γ, ∑ i, (teMat exD exD exAi exAi (1 - (1 / (conVec exD exD ⬝ᵥ conVec exD exD)) • Matrix.vecMulVec (conVec exD exD) (conVec exD exD)) *ᵥ γ) i ≠ 0 :=
  (te_sum_wrong _ (qrCon_proj _ fun h => by
    have := exD_old.1
    rw [h] at this
    norm_num at this)).2

/-- And without re-parameterisation the same term sums to zero. -/
example (γ : Fin 2 × Fin 2 → ℝ) : ∑ i, (teMat exD exD 1 1 (1 - (1 / (conVec exD exD ⬝ᵥ conVec exD exD)) •
    Matrix.vecMulVec (conVec exD exD) (conVec exD exD)) *ᵥ γ) i = 0 :=
  te_sum_plain _ _ _ (qrCon_proj _ fun h => by
    have := exD_old.1
    rw [h] at this
    norm_num at this) γ

end Verif.NatPar
