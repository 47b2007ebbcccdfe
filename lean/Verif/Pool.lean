import Verif.SmoLemmas
import Verif.Rl

/-!
# Separate levels and pooled levels (property C131)
-/

namespace Verif.Pool
open Matrix Rl Smo

variable {N p K : ℕ} {γ : Type} [DecidableEq γ]

/-! ### Blocks -/

/-- Solutions of two block structured systems that agree on one block agree on that block. -/
theorem block_solve {cg : Fin p → γ} {g : γ} {M M' : Matrix (Fin p) (Fin p) ℝ} (hM : IsUnit M.det)
    (hb : ∀ a b, M a b ≠ 0 → cg a = cg b) (hb' : ∀ a b, M' a b ≠ 0 → cg a = cg b)
    (he : ∀ a b, cg a = g → cg b = g → M' a b = M a b) {r r' v v' : Fin p → ℝ} (hr : ∀ a, cg a = g → r' a = r a)
    (hv : M *ᵥ v = r) (hv' : M' *ᵥ v' = r') {a : Fin p} (ha : cg a = g) : v' a = v a := by
  set c : Fin p → ℝ := fun a => if cg a = g then v' a else v a with hc
  have hcr : M *ᵥ c = r := by
    funext a
    show ∑ b, M a b * c b = r a
    by_cases ha : cg a = g
    · rw [← hr a ha, ← hv']
      show _ = ∑ b, M' a b * v' b
      refine Finset.sum_congr rfl fun b _ => ?_
      by_cases hb0 : cg b = g
      · rw [he a b ha hb0, hc]; simp only [if_pos hb0]
      · have h1 : M a b = 0 := by_contra fun h => hb0 ((hb a b h).symm.trans ha)
        have h2 : M' a b = 0 := by_contra fun h => hb0 ((hb' a b h).symm.trans ha)
        rw [h1, h2, zero_mul, zero_mul]
    · rw [← hv]
      show _ = ∑ b, M a b * v b
      refine Finset.sum_congr rfl fun b _ => ?_
      by_cases hb0 : cg b = g
      · have h1 : M a b = 0 := by_contra fun h => ha ((hb a b h).trans hb0)
        rw [h1, zero_mul, zero_mul]
      · rw [hc]; simp only [if_neg hb0]
  have hcv : c = v := by
    have : M⁻¹ *ᵥ (M *ᵥ c) = M⁻¹ *ᵥ (M *ᵥ v) := by rw [hcr, hv]
    rwa [mulVec_mulVec, mulVec_mulVec, nonsing_inv_mul _ hM, one_mulVec, one_mulVec] at this
  rw [← hcv, hc]
  simp only [if_pos ha]

variable {x x' : In N p K} {A : Matrix (Fin p) (Fin p) ℝ} {rg : Fin N → γ} {cg : Fin p → γ} {g : γ}

/-- In the basis `A` every column and every penalty belongs to one level: columns vanish in the rows of other levels. -/
structure Levels (x : In N p K) (A : Matrix (Fin p) (Fin p) ℝ) (rg : Fin N → γ) (cg : Fin p → γ) : Prop where
  X : ∀ i a, (x.X * A) i a ≠ 0 → cg a = rg i
  S : ∀ a b, (Aᵀ * penal x.S x.lam * A) a b ≠ 0 → cg a = cg b

theorem conj_M (x : In N p K) (A : Matrix (Fin p) (Fin p) ℝ) : Aᵀ * M x * A = (x.X * A)ᵀ * (x.X * A) + Aᵀ * penal x.S x.lam * A := by
  unfold M
  rw [Matrix.mul_add, Matrix.add_mul, transpose_mul]
  simp only [Matrix.mul_assoc]

theorem Levels.M (l : Levels x A rg cg) (a b : Fin p) (h : (Aᵀ * Smo.M x * A) a b ≠ 0) : cg a = cg b := by
  by_contra hne
  rw [conj_M, Matrix.add_apply, Matrix.mul_apply] at h
  have h1 : (Aᵀ * penal x.S x.lam * A) a b = 0 := by_contra fun h => hne (l.S a b h)
  have h2 : ∑ i, (x.X * A)ᵀ a i * (x.X * A) i b = 0 := Finset.sum_eq_zero fun i _ => by
    rw [transpose_apply]
    by_cases ha : (x.X * A) i a = 0
    · rw [ha, zero_mul]
    · have : (x.X * A) i b = 0 := by_contra fun hb => hne ((l.X i a ha).trans (l.X i b hb).symm)
      rw [this, mul_zero]
  exact h (by rw [h1, h2, add_zero])

/-- Two data sets that agree on level `g`: rows, and smoothing parameters of its penalties. -/
structure Agree (x x' : In N p K) (A : Matrix (Fin p) (Fin p) ℝ) (rg : Fin N → γ) (cg : Fin p → γ) (g : γ) : Prop where
  X : ∀ i, rg i = g → x'.X i = x.X i
  y : ∀ i, rg i = g → x'.y i = x.y i
  S : ∀ a b, cg a = g → cg b = g → (Aᵀ * penal x'.S x'.lam * A) a b = (Aᵀ * penal x.S x.lam * A) a b

theorem Agree.XA (e : Agree x x' A rg cg g) {i : Fin N} (hi : rg i = g) (a : Fin p) : (x'.X * A) i a = (x.X * A) i a := by
  simp only [Matrix.mul_apply, e.X i hi]

theorem Agree.M (e : Agree x x' A rg cg g) (l : Levels x A rg cg) (l' : Levels x' A rg cg) (a b : Fin p) (ha : cg a = g) (hb : cg b = g) :
    (Aᵀ * Smo.M x' * A) a b = (Aᵀ * Smo.M x * A) a b := by
  rw [conj_M, conj_M, Matrix.add_apply, Matrix.add_apply, e.S a b ha hb, Matrix.mul_apply, Matrix.mul_apply]
  congr 1
  refine Finset.sum_congr rfl fun i _ => ?_
  show (x'.X * A) i a * (x'.X * A) i b = (x.X * A) i a * (x.X * A) i b
  by_cases hi : rg i = g
  · rw [e.XA hi, e.XA hi]
  · have h1 : (x.X * A) i a = 0 := by_contra fun h => hi ((l.X i a h).symm.trans ha)
    have h2 : (x'.X * A) i a = 0 := by_contra fun h => hi ((l'.X i a h).symm.trans ha)
    rw [h1, h2, zero_mul, zero_mul]

theorem unit_conj (h : Core x) (hA : IsUnit A) : IsUnit (Aᵀ * Smo.M x * A).det := by
  have hd : IsUnit A.det := (Matrix.isUnit_iff_isUnit_det A).1 hA
  rw [det_mul, det_mul, det_transpose]
  exact (hd.mul (Core.unit h)).mul hd

theorem conj_solve (hA : IsUnit A) {Q : Matrix (Fin p) (Fin p) ℝ} {b r : Fin p → ℝ} (h : Q *ᵥ b = r) :
    (Aᵀ * Q * A) *ᵥ (A⁻¹ *ᵥ b) = Aᵀ *ᵥ r := by
  have hd : IsUnit A.det := (Matrix.isUnit_iff_isUnit_det A).1 hA
  rw [mulVec_mulVec, Matrix.mul_assoc, mul_nonsing_inv _ hd, Matrix.mul_one, ← mulVec_mulVec, h]

theorem through (hA : IsUnit A) (X : Matrix (Fin N) (Fin p) ℝ) (b : Fin p → ℝ) : X *ᵥ b = (X * A) *ᵥ (A⁻¹ *ᵥ b) := by
  have hd : IsUnit A.det := (Matrix.isUnit_iff_isUnit_det A).1 hA
  rw [mulVec_mulVec, Matrix.mul_assoc, mul_nonsing_inv _ hd, Matrix.mul_one]

/-- Fitted values of level `g` for solutions that agree on it. -/
theorem row_eq (hA : IsUnit A) (l : Levels x A rg cg) (e : Agree x x' A rg cg g) {b b' : Fin p → ℝ}
    (hb : ∀ a, cg a = g → (A⁻¹ *ᵥ b') a = (A⁻¹ *ᵥ b) a) {i : Fin N} (hi : rg i = g) : (x'.X *ᵥ b') i = (x.X *ᵥ b) i := by
  rw [through hA x'.X, through hA x.X]
  show ∑ a, (x'.X * A) i a * (A⁻¹ *ᵥ b') a = ∑ a, (x.X * A) i a * (A⁻¹ *ᵥ b) a
  refine Finset.sum_congr rfl fun a _ => ?_
  rw [e.XA hi]
  by_cases h0 : (x.X * A) i a = 0
  · rw [h0, zero_mul, zero_mul]
  · rw [hb a ((l.X i a h0).trans hi)]

/-- C131.  If the columns can be recombined such that each belongs to one level of a factor (smooths by level with the factor itself as
parametric term, in any coding), and no smoothing parameter is shared between levels, the fit of a level depends on its own rows and its own
smoothing parameters only: fitted values are those of any other data set that agrees on this level. -/
theorem separate (h : Core x) (h' : Core x') (hA : IsUnit A) (l : Levels x A rg cg) (l' : Levels x' A rg cg) (e : Agree x x' A rg cg g)
    {i : Fin N} (hi : rg i = g) : (x'.X *ᵥ coef x') i = (x.X *ᵥ coef x) i := by
  refine row_eq hA l e (fun a ha => ?_) hi
  refine block_solve (unit_conj h hA) l.M l'.M (e.M l l') (fun a ha => ?_) (conj_solve hA (normal h)) (conj_solve hA (normal h')) ha
  rw [mulVec_mulVec, mulVec_mulVec, ← transpose_mul, ← transpose_mul]
  show ∑ i, (x'.X * A) i a * x'.y i = ∑ i, (x.X * A) i a * x.y i
  refine Finset.sum_congr rfl fun k _ => ?_
  by_cases hk : rg k = g
  · rw [e.XA hk, e.y k hk]
  · have h1 : (x.X * A) k a = 0 := by_contra fun h => hk ((l.X k a h).symm.trans ha)
    have h2 : (x'.X * A) k a = 0 := by_contra fun h => hk ((l'.X k a h).symm.trans ha)
    rw [h1, h2, zero_mul, zero_mul]

/-- C131.  And so do the variances of fitted values, for given scale. -/
theorem separate_variance (h : Core x) (h' : Core x') (hA : IsUnit A) (l : Levels x A rg cg) (l' : Levels x' A rg cg)
    (e : Agree x x' A rg cg g) {i : Fin N} (hi : rg i = g) : ∑ a, (x'.Linv *ᵥ x'.X i) a ^ 2 = ∑ a, (x.Linv *ᵥ x.X i) a ^ 2 := by
  rw [sq_Linv h, sq_Linv h']
  have hs : ∀ {z : In N p K}, Core z → Smo.M z *ᵥ ((Smo.M z)⁻¹ *ᵥ z.X i) = z.X i := fun hz => by
    rw [mulVec_mulVec, mul_nonsing_inv _ (Core.unit hz), one_mulVec]
  refine row_eq (i := i) hA l e (b := (Smo.M x)⁻¹ *ᵥ x.X i) (b' := (Smo.M x')⁻¹ *ᵥ x'.X i) (fun a ha => ?_) hi
  refine block_solve (unit_conj h hA) l.M l'.M (e.M l l') (fun a _ => ?_) (conj_solve hA (hs h)) (conj_solve hA (hs h')) ha
  rw [e.X i hi]

/-! ### Random intercepts -/

variable {q : ℕ} {z : In N (q + 1) 1} {gr : Fin N → Fin q}

/-- An intercept and random intercepts for the levels `gr`, with the identity as penalty of the latter. -/
structure Ri (z : In N (q + 1) 1) (gr : Fin N → Fin q) : Prop where
  int : ∀ i, z.X i 0 = 1
  lev : ∀ i a, z.X i (Fin.succ a) = if gr i = a then 1 else 0
  S : z.S 0 = diagonal (Fin.cons 0 fun _ => 1)

/-- Number of rows of a level. -/
def size (gr : Fin N → Fin q) (a : Fin q) : ℕ := (Finset.univ.filter fun i => gr i = a).card

theorem ri_fit (w : Ri z gr) (b : Fin (q + 1) → ℝ) (i : Fin N) : (z.X *ᵥ b) i = b 0 + b (Fin.succ (gr i)) := by
  show ∑ a, z.X i a * b a = _
  rw [Fin.sum_univ_succ, w.int, one_mul]
  congr 1
  simp [w.lev]

theorem ri_normal (w : Ri z gr) (h : Core z) (a : Fin (q + 1)) :
    ∑ i, z.X i a * (coef z 0 + coef z (Fin.succ (gr i))) + z.lam 0 * ((Fin.cons 0 fun _ => 1 : Fin (q + 1) → ℝ) a * coef z a) =
      ∑ i, z.X i a * z.y i := by
  have hn := congrFun (normal h) a
  unfold Smo.M penal at hn
  rw [add_mulVec, ← mulVec_mulVec, Pi.add_apply, Fin.sum_univ_one, smul_mulVec, w.S, Pi.smul_apply, mulVec_diagonal, smul_eq_mul] at hn
  have e1 : (z.Xᵀ *ᵥ (z.X *ᵥ coef z)) a = ∑ i, z.X i a * (coef z 0 + coef z (Fin.succ (gr i))) := by
    show ∑ i, z.X i a * (z.X *ᵥ coef z) i = _
    exact Finset.sum_congr rfl fun i _ => by rw [ri_fit w]
  rw [e1] at hn
  exact hn

theorem ind_sum (w : Ri z gr) (a : Fin q) (f : Fin N → ℝ) :
    ∑ i, z.X i (Fin.succ a) * f i = ∑ i ∈ Finset.univ.filter (fun i => gr i = a), f i := by
  rw [Finset.sum_filter]
  exact Finset.sum_congr rfl fun i _ => by rw [w.lev]; split_ifs <;> simp

/-- C131.  A random intercept is the deviation of the level from the intercept, averaged over its rows and shrunken by the factor
`n / (n + lam)`: levels without rows get zero. -/
theorem random_intercept (w : Ri z gr) (h : Core z) (a : Fin q) :
    coef z (Fin.succ a) = (∑ i ∈ Finset.univ.filter (fun i => gr i = a), (z.y i - coef z 0)) / (size gr a + z.lam 0) := by
  have hl := h.pos 0
  have hn := ri_normal w h (Fin.succ a)
  rw [ind_sum w, ind_sum w, Fin.cons_succ, one_mul] at hn
  have e : ∑ i ∈ Finset.univ.filter (fun i => gr i = a), (coef z 0 + coef z (Fin.succ (gr i))) =
      size gr a * (coef z 0 + coef z (Fin.succ a)) := by
    rw [Finset.sum_congr rfl (g := fun _ => coef z 0 + coef z (Fin.succ a)) fun i hi => by rw [(Finset.mem_filter.1 hi).2],
      Finset.sum_const, nsmul_eq_mul]
    rfl
  have e2 : ∑ i ∈ Finset.univ.filter (fun i => gr i = a), (z.y i - coef z 0) =
      ∑ i ∈ Finset.univ.filter (fun i => gr i = a), z.y i - size gr a * coef z 0 := by
    rw [Finset.sum_sub_distrib, Finset.sum_const, nsmul_eq_mul]; rfl
  have hne : (size gr a : ℝ) + z.lam 0 ≠ 0 := by positivity
  rw [eq_div_iff hne, e2, ← hn, e]
  ring

/-- C131.  Random intercepts sum to zero. -/
theorem random_sum (w : Ri z gr) (h : Core z) : ∑ a : Fin q, coef z (Fin.succ a) = 0 := by
  have hl := h.pos 0
  have h0 := ri_normal w h 0
  have hs : ∑ a : Fin q, (∑ i, z.X i (Fin.succ a) * (coef z 0 + coef z (Fin.succ (gr i))) + z.lam 0 * coef z (Fin.succ a)) =
      ∑ a : Fin q, ∑ i, z.X i (Fin.succ a) * z.y i := Finset.sum_congr rfl fun a _ => by
    have := ri_normal w h (Fin.succ a)
    rw [Fin.cons_succ, one_mul] at this
    exact this
  have hc : ∀ f : Fin N → ℝ, ∑ a : Fin q, ∑ i, z.X i (Fin.succ a) * f i = ∑ i, f i := fun f => by
    rw [Finset.sum_comm]
    refine Finset.sum_congr rfl fun i _ => ?_
    simp [w.lev]
  rw [Finset.sum_add_distrib, hc, hc, ← Finset.mul_sum] at hs
  simp only [w.int, one_mul, Fin.cons_zero, zero_mul, mul_zero, add_zero] at h0
  have : z.lam 0 * ∑ a : Fin q, coef z (Fin.succ a) = 0 := by linarith
  exact (mul_eq_zero.1 this).resolve_left hl.ne'

/-- C131.  The intercept is the mean of the levels' means, weighted by `n lam / (n + lam)`: between the mean of all rows (strong pooling)
and the mean of means (`lam` small). -/
theorem intercept (w : Ri z gr) (h : Core z) :
    ∑ a : Fin q, (z.lam 0 / (size gr a + z.lam 0)) * (∑ i ∈ Finset.univ.filter (fun i => gr i = a), (z.y i - coef z 0)) = 0 := by
  have hs := random_sum w h
  simp only [random_intercept w h] at hs
  have : ∑ a : Fin q, (z.lam 0 / (size gr a + z.lam 0)) * (∑ i ∈ Finset.univ.filter (fun i => gr i = a), (z.y i - coef z 0)) =
      z.lam 0 * ∑ a : Fin q, (∑ i ∈ Finset.univ.filter (fun i => gr i = a), (z.y i - coef z 0)) / (size gr a + z.lam 0) := by
    rw [Finset.mul_sum]
    exact Finset.sum_congr rfl fun a _ => by ring
  rw [this, hs, mul_zero]

/-- C131.  The fitted value of a level lies between its mean and the intercept. -/
theorem between (w : Ri z gr) (h : Core z) {a : Fin q} (ha : 0 < size gr a) :
    ∃ t : ℝ, 0 < t ∧ t < 1 ∧ coef z 0 + coef z (Fin.succ a) =
      t * ((∑ i ∈ Finset.univ.filter (fun i => gr i = a), z.y i) / size gr a) + (1 - t) * coef z 0 := by
  have hl := h.pos 0
  have hn : (0 : ℝ) < size gr a := by exact_mod_cast ha
  refine ⟨size gr a / (size gr a + z.lam 0), by positivity, by rw [div_lt_one (by positivity)]; linarith, ?_⟩
  have e2 : ∑ i ∈ Finset.univ.filter (fun i => gr i = a), (z.y i - coef z 0) =
      ∑ i ∈ Finset.univ.filter (fun i => gr i = a), z.y i - size gr a * coef z 0 := by
    rw [Finset.sum_sub_distrib, Finset.sum_const, nsmul_eq_mul]; rfl
  rw [random_intercept w h, e2]
  have : (size gr a : ℝ) + z.lam 0 ≠ 0 := by positivity
  field_simp
  ring

end Verif.Pool
