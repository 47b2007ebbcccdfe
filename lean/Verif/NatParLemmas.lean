import Verif.NatParModel
import Mathlib.LinearAlgebra.Matrix.PosDef
import Mathlib.Algebra.Order.Star.Real
import Mathlib.LinearAlgebra.Matrix.Rank
import Mathlib.Order.Interval.Finset.Fin
import Mathlib.LinearAlgebra.Matrix.Trace
import Mathlib.Algebra.Order.BigOperators.Group.Finset

/-! # Lemmas for re-parameterised smooth terms -/

namespace Verif.NatPar

open Matrix

variable {n k : ℕ}

/-- What is assumed of `eigh` for the matrix at hand: an orthogonal decomposition with increasing eigenvalues. -/
structure EigSpec (B : Matrix (Fin k) (Fin k) ℝ) (e : (Fin k → ℝ) × Matrix (Fin k) (Fin k) ℝ) : Prop where
  orth : e.2ᵀ * e.2 = 1
  fac : B = e.2 * diagonal e.1 * e.2ᵀ
  mono : Monotone e.1

theorem thr_pos : 0 < thr := by unfold thr; norm_num

theorem flipU_orth {B : Matrix (Fin k) (Fin k) ℝ} {e : (Fin k → ℝ) × Matrix (Fin k) (Fin k) ℝ} (h : EigSpec B e) :
    (flipU e)ᵀ * flipU e = 1 := by
  ext i j
  have := congrFun (congrFun h.orth i.rev) j.rev
  rw [Matrix.mul_apply] at this ⊢
  rw [Matrix.one_apply] at this ⊢
  simp only [Fin.rev_inj] at this
  exact this

theorem flip_fac {B : Matrix (Fin k) (Fin k) ℝ} {e : (Fin k → ℝ) × Matrix (Fin k) (Fin k) ℝ} (h : EigSpec B e) :
    B = flipU e * diagonal (flipS e) * (flipU e)ᵀ := by
  ext i j
  have := congrFun (congrFun h.fac i) j
  rw [this]
  rw [Matrix.mul_apply, Matrix.mul_apply]
  simp only [Matrix.mul_diagonal, Matrix.transpose_apply]
  exact (Equiv.sum_comp Fin.revPerm (fun x => e.2 i x * e.1 x * e.2 j x)).symm

theorem flip_anti {B : Matrix (Fin k) (Fin k) ℝ} {e : (Fin k → ℝ) × Matrix (Fin k) (Fin k) ℝ} (h : EigSpec B e) :
    Antitone (flipS e) := fun _ _ hij => h.mono (Fin.rev_le_rev.2 hij)

theorem natB_eq (R S : Matrix (Fin k) (Fin k) ℝ) : natB R S = (R⁻¹)ᵀ * S * R⁻¹ := by
  unfold natB
  rw [Matrix.transpose_mul, Matrix.transpose_transpose, ← Matrix.transpose_nonsing_inv, Matrix.transpose_transpose, Matrix.mul_assoc]

/-- Positive eigenvalues come first. -/
theorem lt_rank {s : Fin k → ℝ} (hs : Antitone s) (i : Fin k) : (i : ℕ) < rank s ↔ thr < s i := by
  classical
  constructor
  · intro h
    by_contra hc
    have hsub : (Finset.univ.filter fun j => thr < s j) ⊆ Finset.Iio i := by
      intro j hj
      rw [Finset.mem_filter] at hj
      rw [Finset.mem_Iio]
      by_contra hij
      exact hc (lt_of_lt_of_le hj.2 (hs (not_lt.1 hij)))
    have := Finset.card_le_card hsub
    rw [Fin.card_Iio] at this
    unfold rank at h
    convert absurd h (not_lt.2 _)
    convert this
  · intro h
    have hsub : Finset.Iic i ⊆ (Finset.univ.filter fun j => thr < s j) := by
      intro j hj
      rw [Finset.mem_filter]
      exact ⟨Finset.mem_univ _, lt_of_lt_of_le h (hs (Finset.mem_Iic.1 hj))⟩
    have := Finset.card_le_card hsub
    rw [Fin.card_Iic] at this
    have hr : rank s = (Finset.univ.filter fun j => thr < s j).card := by unfold rank; congr
    omega

variable {R S : Matrix (Fin k) (Fin k) ℝ} {X : Matrix (Fin n) (Fin k) ℝ} {s : Fin k → ℝ} {U : Matrix (Fin k) (Fin k) ℝ}

open Classical in
/-- Factors of the columns before scaling. -/
noncomputable def fac (s : Fin k → ℝ) (identity : Bool) (i : Fin k) : ℝ := if identity = true ∧ thr < s i then 1 / √(s i) else 1

theorem fac_pos (b : Bool) (i : Fin k) : 0 < fac s b i := by
  unfold fac
  split_ifs with h
  · exact one_div_pos.2 (Real.sqrt_pos.2 (lt_trans thr_pos h.2))
  · exact one_pos

theorem base_C (b : Bool) : (base R s U b).C = R⁻¹ * U * diagonal (fac s b) := by
  cases b
  · have : fac s false = 1 := by ext i; simp [fac]
    rw [this, show (diagonal (1 : Fin k → ℝ)) = 1 from Matrix.diagonal_one, Matrix.mul_one]
    rfl
  · show R⁻¹ * U * diagonal _ = _
    congr 2
    ext i
    simp [fac]

theorem base_rank (b : Bool) : (base R s U b).rank = rank s := by cases b <;> rfl

theorem core_pen (hU : Uᵀ * U = 1) (hB : natB R S = U * diagonal s * Uᵀ) (d : Fin k → ℝ) :
    (R⁻¹ * U * diagonal d)ᵀ * S * (R⁻¹ * U * diagonal d) = diagonal fun i => d i ^ 2 * s i := by
  have h1 : (R⁻¹ * U * diagonal d)ᵀ * S * (R⁻¹ * U * diagonal d) = diagonal d * (Uᵀ * (natB R S) * U) * diagonal d := by
    rw [natB_eq, Matrix.transpose_mul, Matrix.transpose_mul, Matrix.diagonal_transpose]
    simp only [Matrix.mul_assoc]
  rw [h1, hB]
  have h2 : Uᵀ * (U * diagonal s * Uᵀ) * U = diagonal s := by
    calc _ = (Uᵀ * U) * diagonal s * (Uᵀ * U) := by simp only [Matrix.mul_assoc]
      _ = _ := by rw [hU, Matrix.one_mul, Matrix.mul_one]
  rw [h2, Matrix.diagonal_mul_diagonal, Matrix.diagonal_mul_diagonal]
  congr 1; ext i; ring

theorem core_gram (hU : Uᵀ * U = 1) (hR : Rᵀ * R = Xᵀ * X) (hd : IsUnit R.det) (d : Fin k → ℝ) :
    (X * (R⁻¹ * U * diagonal d))ᵀ * (X * (R⁻¹ * U * diagonal d)) = diagonal fun i => d i ^ 2 := by
  have h1 : (X * (R⁻¹ * U * diagonal d))ᵀ * (X * (R⁻¹ * U * diagonal d)) =
      diagonal d * (Uᵀ * ((R⁻¹)ᵀ * (Xᵀ * X) * R⁻¹) * U) * diagonal d := by
    simp only [Matrix.transpose_mul, Matrix.diagonal_transpose, Matrix.mul_assoc]
  have h2 : (R⁻¹)ᵀ * (Rᵀ * R) * R⁻¹ = 1 := by
    calc _ = (R * R⁻¹)ᵀ * (R * R⁻¹) := by simp only [Matrix.transpose_mul, Matrix.mul_assoc]
      _ = 1 := by rw [Matrix.mul_nonsing_inv _ hd]; simp
  rw [h1, ← hR, h2, Matrix.mul_one, hU, Matrix.mul_one, Matrix.diagonal_mul_diagonal]
  congr 1; ext i; ring

theorem core_det (hU : Uᵀ * U = 1) (hd : IsUnit R.det) (d : Fin k → ℝ) (h : ∀ i, d i ≠ 0) : IsUnit (R⁻¹ * U * diagonal d).det := by
  rw [Matrix.det_mul, Matrix.det_mul, Matrix.det_diagonal]
  refine ((Matrix.isUnit_nonsing_inv_det _ hd).mul ?_).mul (isUnit_iff_ne_zero.2 (Finset.prod_ne_zero_iff.2 fun i _ => h i))
  refine isUnit_iff_ne_zero.2 fun h0 => ?_
  have := congrArg Matrix.det hU
  rw [Matrix.det_mul, h0, mul_zero, Matrix.det_one] at this
  exact zero_ne_one this

/-- Mean squares of groups of columns. -/
theorem rms_core (hU : Uᵀ * U = 1) (hR : Rᵀ * R = Xᵀ * X) (hd : IsUnit R.det) (d : Fin k → ℝ) (sel : Finset (Fin k)) :
    rms (X * (R⁻¹ * U * diagonal d)) sel = √((∑ j ∈ sel, d j ^ 2) / (n * sel.card)) := by
  unfold rms
  congr 2
  refine Finset.sum_congr rfl fun j _ => ?_
  have := congrFun (congrFun (core_gram (X := X) hU hR hd d) j) j
  rw [Matrix.mul_apply, Matrix.diagonal_apply_eq] at this
  rw [← this]
  exact Finset.sum_congr rfl fun i _ => by rw [Matrix.transpose_apply]; ring

theorem n_pos (hR : Rᵀ * R = Xᵀ * X) (hd : IsUnit R.det) (hk : 0 < k) : 0 < n := by
  rcases Nat.eq_zero_or_pos n with h | h
  · exfalso
    subst h
    have h0 : Xᵀ * X = 0 := by ext i j; simp [Matrix.mul_apply]
    have := congrArg Matrix.det (hR.trans h0)
    haveI ne : Nonempty (Fin k) := ⟨⟨0, hk⟩⟩
    rw [Matrix.det_mul, Matrix.det_transpose, Matrix.det_zero] at this
    exact hd.ne_zero (mul_self_eq_zero.1 this)
  · exact h

theorem rms_pos (hU : Uᵀ * U = 1) (hR : Rᵀ * R = Xᵀ * X) (hd : IsUnit R.det) (d : Fin k → ℝ) (h : ∀ i, d i ≠ 0)
    (sel : Finset (Fin k)) (hs : sel.Nonempty) : 0 < rms (X * (R⁻¹ * U * diagonal d)) sel := by
  rw [rms_core hU hR hd]
  obtain ⟨j, hj⟩ := hs
  have hn : 0 < n := n_pos hR hd (lt_of_le_of_lt (Nat.zero_le _) j.2)
  refine Real.sqrt_pos.2 (div_pos ?_ (mul_pos (by exact_mod_cast hn) (by exact_mod_cast Finset.card_pos.2 ⟨j, hj⟩)))
  exact Finset.sum_pos (fun i _ => by have := h i; positivity) ⟨j, hj⟩

/-- Divisors of the columns. -/
noncomputable def divi (X : Matrix (Fin n) (Fin k) ℝ) (o : Out k) (scale : Bool) (j : Fin k) : ℝ :=
  if scale then (if (j : ℕ) < o.rank then rms (X * o.C) (lo o.rank) else rms (X * o.C) (hi o.rank)) else 1

theorem divi_pos (hU : Uᵀ * U = 1) (hR : Rᵀ * R = Xᵀ * X) (hd : IsUnit R.det) (b sc : Bool) (j : Fin k) :
    0 < divi X (base R s U b) sc j := by
  unfold divi
  rw [base_C]
  split_ifs with h1 h2
  · exact rms_pos hU hR hd _ (fun i => (fac_pos b i).ne') _ ⟨j, by simp [lo, h2]⟩
  · exact rms_pos hU hR hd _ (fun i => (fac_pos b i).ne') _ ⟨j, by simpa [hi] using h2⟩
  · exact one_pos

theorem reparam_C (eigh : Matrix (Fin k) (Fin k) ℝ → (Fin k → ℝ) × Matrix (Fin k) (Fin k) ℝ) (b sc : Bool) :
    (reparam eigh X R S b sc).C = R⁻¹ * flipU (eigh (natB R S)) * diagonal fun j =>
      fac (flipS (eigh (natB R S))) b j / divi X (base R (flipS (eigh (natB R S))) (flipU (eigh (natB R S))) b) sc j := by
  cases sc
  · show (base _ _ _ _).C = _
    rw [base_C]
    simp [divi]
  · show Matrix.of _ = _
    ext i j
    rw [Matrix.of_apply, Matrix.mul_diagonal]
    simp only [divi, if_true]
    rw [base_C]
    simp only [Matrix.mul_diagonal]
    split_ifs <;> ring

theorem reparam_rank (eigh : Matrix (Fin k) (Fin k) ℝ → (Fin k → ℝ) × Matrix (Fin k) (Fin k) ℝ) (b sc : Bool) :
    (reparam eigh X R S b sc).rank = rank (flipS (eigh (natB R S))) := by
  cases sc
  · exact base_rank b
  · exact base_rank b

open Classical in
theorem reparam_Srp (eigh : Matrix (Fin k) (Fin k) ℝ → (Fin k → ℝ) × Matrix (Fin k) (Fin k) ℝ) (he : EigSpec (natB R S) (eigh (natB R S)))
    (b sc : Bool) :
    (reparam eigh X R S b sc).Srp = diagonal fun j => if thr < flipS (eigh (natB R S)) j then
      fac (flipS (eigh (natB R S))) b j ^ 2 * flipS (eigh (natB R S)) j /
        divi X (base R (flipS (eigh (natB R S))) (flipU (eigh (natB R S))) b) sc j ^ 2 else 0 := by
  obtain ⟨s, hs⟩ : ∃ s, s = flipS (eigh (natB R S)) := ⟨_, rfl⟩
  obtain ⟨U, hU⟩ : ∃ U, U = flipU (eigh (natB R S)) := ⟨_, rfl⟩
  have ha : Antitone s := hs ▸ flip_anti he
  have h0 : (base R s U b).Srp = diagonal fun j => if thr < s j then fac s b j ^ 2 * s j else 0 := by
    cases b
    · show diagonal _ = _
      congr 1; ext i; simp [fac]
    · show diagonal _ = _
      congr 1; ext i
      split_ifs with h
      · have hp := lt_trans thr_pos h
        simp only [fac, h, and_self, if_true, div_pow, one_pow, Real.sq_sqrt hp.le]
        field_simp
      · rfl
  rw [← hs, ← hU]
  cases sc
  · show (base R (flipS (eigh (natB R S))) (flipU (eigh (natB R S))) b).Srp = _
    rw [← hs, ← hU, h0]
    simp [divi]
  · show (_ : ℝ) • (base R (flipS (eigh (natB R S))) (flipU (eigh (natB R S))) b).Srp = _
    rw [← hs, ← hU, h0]
    ext i j
    rw [Matrix.smul_apply]
    by_cases hij : i = j
    · subst hij
      rw [Matrix.diagonal_apply_eq, Matrix.diagonal_apply_eq]
      by_cases h : thr < s i
      · have hr := (lt_rank ha i).2 h
        rw [if_pos h, if_pos h]
        simp only [divi, if_true, base_rank, hr]
        rw [smul_eq_mul]; ring
      · rw [if_neg h, if_neg h, smul_zero]
    · rw [Matrix.diagonal_apply_ne _ hij, Matrix.diagonal_apply_ne _ hij, smul_zero]

open Classical in
theorem reparam_Drp (eigh : Matrix (Fin k) (Fin k) ℝ → (Fin k → ℝ) × Matrix (Fin k) (Fin k) ℝ) (he : EigSpec (natB R S) (eigh (natB R S)))
    (b sc : Bool) :
    (reparam eigh X R S b sc).Drp = diagonal fun j => if thr < flipS (eigh (natB R S)) j then
      fac (flipS (eigh (natB R S))) b j * √(flipS (eigh (natB R S)) j) /
        divi X (base R (flipS (eigh (natB R S))) (flipU (eigh (natB R S))) b) sc j else 0 := by
  obtain ⟨s, hs⟩ : ∃ s, s = flipS (eigh (natB R S)) := ⟨_, rfl⟩
  obtain ⟨U, hU⟩ : ∃ U, U = flipU (eigh (natB R S)) := ⟨_, rfl⟩
  have ha : Antitone s := hs ▸ flip_anti he
  have h0 : (base R s U b).Drp = diagonal fun j => if thr < s j then fac s b j * √(s j) else 0 := by
    cases b
    · show diagonal _ = _
      congr 1; ext i; simp [fac]
    · show diagonal _ = _
      congr 1; ext i
      split_ifs with h
      · have hp := Real.sqrt_pos.2 (lt_trans thr_pos h)
        simp only [fac, h, and_self, if_true]
        field_simp
      · rfl
  rw [← hs, ← hU]
  cases sc
  · show (base R (flipS (eigh (natB R S))) (flipU (eigh (natB R S))) b).Drp = _
    rw [← hs, ← hU, h0]
    simp [divi]
  · show (_ : ℝ) • (base R (flipS (eigh (natB R S))) (flipU (eigh (natB R S))) b).Drp = _
    rw [← hs, ← hU, h0]
    ext i j
    rw [Matrix.smul_apply]
    by_cases hij : i = j
    · subst hij
      rw [Matrix.diagonal_apply_eq, Matrix.diagonal_apply_eq]
      by_cases h : thr < s i
      · have hr := (lt_rank ha i).2 h
        rw [if_pos h, if_pos h]
        simp only [divi, if_true, base_rank, hr]
        rw [smul_eq_mul]; ring
      · rw [if_neg h, if_neg h, smul_zero]
    · rw [Matrix.diagonal_apply_ne _ hij, Matrix.diagonal_apply_ne _ hij, smul_zero]

/-- Rank of the penalty: the number of eigenvalues which are not zero. -/
theorem rank_S (hd : IsUnit R.det) (hU : Uᵀ * U = 1) (hB : natB R S = U * diagonal s * Uᵀ) :
    S.rank = Fintype.card {i // s i ≠ 0} := by
  have hC : IsUnit (R⁻¹ * U).det := by
    have := core_det hU hd 1 (fun _ => one_ne_zero)
    rwa [show (diagonal (1 : Fin k → ℝ)) = 1 from Matrix.diagonal_one, Matrix.mul_one] at this
  have h := core_pen hU hB 1
  rw [show (diagonal (1 : Fin k → ℝ)) = 1 from Matrix.diagonal_one, Matrix.mul_one] at h
  have h' : (fun i => (1 : Fin k → ℝ) i ^ 2 * s i) = s := by ext i; simp
  rw [h'] at h
  rw [← Matrix.rank_diagonal s, ← h, Matrix.rank_mul_eq_left_of_isUnit_det _ _ hC,
    Matrix.rank_mul_eq_right_of_isUnit_det _ _ (by rwa [Matrix.det_transpose])]

end Verif.NatPar
