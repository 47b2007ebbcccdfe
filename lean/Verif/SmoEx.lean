import Verif.Smo
import Verif.Pool

/-!
# Cases for properties C130 and C131
-/

namespace Verif.Smo
open Matrix Rl

variable {N p K : ℕ}

open scoped MatrixOrder Matrix.Norms.L2Operator in
theorem exists_linv {Q : Matrix (Fin p) (Fin p) ℝ} (h : Q.PosDef) : ∃ L : Matrix (Fin p) (Fin p) ℝ, Lᵀ * L * Q = 1 := by
  obtain ⟨B, hB⟩ := CStarAlgebra.nonneg_iff_eq_star_mul_self.mp h.inv.posSemidef.nonneg
  rw [star_eq_conjTranspose, conjTranspose_eq_transpose_of_trivial] at hB
  exact ⟨B, by rw [← hB, nonsing_inv_mul _ (posDef_unit h)]⟩

/-- A pass with data, roots of penalties and smoothing parameters. -/
noncomputable def mk (X : Matrix (Fin N) (Fin p) ℝ) (y : Fin N → ℝ) (D : Fin K → Matrix (Fin p) (Fin p) ℝ) (lam : Fin K → ℝ)
    (h : (Xᵀ * X + penal (fun j => D j * (D j)ᵀ) lam).PosDef) : In N p K :=
  ⟨X, y, fun j => D j * (D j)ᵀ, D, lam, fun _ => true, fun _ => 0, 0, (exists_linv h).choose, none⟩

theorem mk_core (X : Matrix (Fin N) (Fin p) ℝ) (y : Fin N → ℝ) (D : Fin K → Matrix (Fin p) (Fin p) ℝ) (lam : Fin K → ℝ)
    (h : (Xᵀ * X + penal (fun j => D j * (D j)ᵀ) lam).PosDef) (hl : ∀ j, 0 < lam j) : Core (mk X y D lam h) where
  root _ := rfl
  pos := hl
  pd := h
  inv := (exists_linv h).choose_spec

/-- Two penalties, of the level and of the difference, for two observations. -/
noncomputable def D2 : Fin 2 → Matrix (Fin 2) (Fin 2) ℝ := ![1, !![1, 0; -1, 0]]

theorem pd2 {lam : Fin 2 → ℝ} (hl : ∀ j, 0 < lam j) :
    ((1 : Matrix (Fin 2) (Fin 2) ℝ)ᵀ * 1 + penal (fun j => D2 j * (D2 j)ᵀ) lam).PosDef := by
  rw [transpose_one, Matrix.one_mul]
  refine PosDef.one.add_posSemidef ?_
  unfold penal
  refine posSemidef_sum _ fun j _ => PosSemidef.smul ?_ (hl j).le
  have := posSemidef_self_mul_conjTranspose (D2 j)
  rwa [conjTranspose_eq_transpose_of_trivial] at this

noncomputable def ex2 (s t : ℝ) (hs : 0 < s) (ht : 0 < t) : In 2 2 2 :=
  mk 1 ![1, 3] D2 ![s, t] (pd2 fun j => by fin_cases j <;> assumption)

theorem ex2_core {s t : ℝ} (hs : 0 < s) (ht : 0 < t) : Core (ex2 s t hs ht) := mk_core _ _ _ _ _ fun j => by fin_cases j <;> assumption

theorem ex2_raise {s s' t : ℝ} (hs : 0 < s) (hs' : 0 < s') (ht : 0 < t) (h : s ≤ s') : Raise (ex2 s t hs ht) (ex2 s' t hs' ht) 0 :=
  ⟨⟨rfl, rfl, rfl, rfl⟩, h, fun k hk => by fin_cases k; exacts [absurd rfl hk, rfl]⟩

example : edf (ex2 5 1 (by norm_num) one_pos) ≤ edf (ex2 1 1 one_pos one_pos) :=
  edf_antitone (ex2_core _ _) (ex2_core _ _) (ex2_raise one_pos (by norm_num) one_pos (by norm_num)).toSame
    (ex2_raise one_pos (by norm_num) one_pos (by norm_num)).le

example : 1 * bps (ex2 5 1 (by norm_num) one_pos) 1 ≤ 1 * bps (ex2 1 1 one_pos one_pos) 1 :=
  (term_edf (ex2_core _ _) (ex2_core _ _) (ex2_raise one_pos (by norm_num) one_pos (by norm_num))).2 1 (by decide)

example : bsb (ex2 5 1 (by norm_num) one_pos) 0 ≤ bsb (ex2 1 1 one_pos one_pos) 0 :=
  (smoother (ex2_core _ _) (ex2_core _ _) (ex2_raise one_pos (by norm_num) one_pos (by norm_num))).1

example : rss (ex2 1 1 one_pos one_pos) (coef (ex2 1 1 one_pos one_pos)) ≤
    rss (ex2 5 5 (by norm_num) (by norm_num)) (coef (ex2 5 5 (by norm_num) (by norm_num))) :=
  (common_factor (x := ex2 1 1 one_pos one_pos) (x' := ex2 5 5 (by norm_num) (by norm_num)) (ex2_core _ _) (ex2_core _ _) ⟨rfl, rfl, rfl, rfl⟩ (c := 5) (by norm_num) fun j => by
    show (![5, 5] : Fin 2 → ℝ) j = 5 * (![1, 1] : Fin 2 → ℝ) j
    fin_cases j <;> simp).1

/-- One penalty, of the difference. -/
theorem pd1 {t : ℝ} (ht : 0 < t) : ((1 : Matrix (Fin 2) (Fin 2) ℝ)ᵀ * 1 + penal (fun _ : Fin 1 => D2 1 * (D2 1)ᵀ) (fun _ => t)).PosDef := by
  rw [transpose_one, Matrix.one_mul]
  refine PosDef.one.add_posSemidef ?_
  unfold penal
  refine posSemidef_sum _ fun j _ => PosSemidef.smul ?_ ht.le
  have := posSemidef_self_mul_conjTranspose (D2 1)
  rwa [conjTranspose_eq_transpose_of_trivial] at this

noncomputable def ex1 (t : ℝ) (ht : 0 < t) : In 2 2 1 := mk 1 ![1, 3] (fun _ => D2 1) (fun _ => t) (pd1 ht)

/-- Observations 1 and 3 with a penalty on the difference: fitted values approach the mean 2, 2. -/
example {t : ℝ} (ht : 0 < t) : ∑ i, ((coef (ex1 t ht)) i - 2) ^ 2 ≤ 1 / t := by
  have hS : (ex1 t ht).S 0 = !![1, -1; -1, 1] := by
    show D2 1 * (D2 1)ᵀ = _
    ext i j
    fin_cases i <;> fin_cases j <;> simp [D2, Matrix.mul_apply]
  have h := null_limit (x := ex1 t ht) (mk_core _ _ _ _ _ fun _ => ht) 0 (b := fun _ => 2) (u := ![-1, 0])
    (by rw [hS]; funext i; fin_cases i <;> simp [Matrix.mulVec, dotProduct, Fin.sum_univ_two])
    (by
      rw [hS]
      have hx : (ex1 t ht).X = 1 := rfl
      have hy : (ex1 t ht).y = ![1, 3] := rfl
      rw [hx, hy, transpose_one, one_mulVec, one_mulVec]
      have he : (Finset.univ.erase (0 : Fin 1)) = ∅ := by decide
      rw [he, Finset.sum_empty, sub_zero]
      funext i
      fin_cases i
      · show (1 : ℝ) - 2 = _
        simp [Matrix.mulVec, dotProduct, Fin.sum_univ_two]; norm_num
      · show (3 : ℝ) - 2 = _
        simp [Matrix.mulVec, dotProduct, Fin.sum_univ_two]; norm_num)
  have hx : (ex1 t ht).X = 1 := rfl
  rw [hx, one_mulVec, one_mulVec] at h
  have hr : rough (ex1 t ht) 0 ![-1, 0] = 1 := by
    unfold rough
    rw [hS]
    simp [Matrix.mulVec, dotProduct, Fin.sum_univ_two]
  rw [hr] at h
  have h0 : 0 ≤ ∑ k, (ex1 t ht).lam k * rough (ex1 t ht) k (coef (ex1 t ht) - fun _ => 2) :=
    Finset.sum_nonneg fun k _ => mul_nonneg ht.le (rough_nonneg (mk_core _ _ _ _ _ fun _ => ht) k _)
  have hl : (ex1 t ht).lam 0 = t := rfl
  rw [hl] at h
  linarith

end Verif.Smo

namespace Verif.Pool
open Matrix Rl Smo

/-- Treatment coding: an intercept and the difference of the second level; the mean of the second level is penalised. -/
def XT : Matrix (Fin 4) (Fin 2) ℝ := !![1, 0; 1, 1; 1, 1; 1, 1]

/-- Means of levels as new coefficients. -/
def AT : Matrix (Fin 2) (Fin 2) ℝ := !![1, 0; -1, 1]

theorem rT : (!![1, 0; 1, 0] : Matrix (Fin 2) (Fin 2) ℝ) * (!![1, 0; 1, 0])ᵀ = !![1, 1; 1, 1] := by
  ext i j
  rw [Matrix.mul_apply]
  fin_cases i <;> fin_cases j <;> simp [Fin.sum_univ_two]

theorem pdT : (XTᵀ * XT + penal (fun _ : Fin 1 => (!![1, 0; 1, 0] : Matrix (Fin 2) (Fin 2) ℝ) * (!![1, 0; 1, 0])ᵀ) fun _ => 1).PosDef := by
  have e : XTᵀ * XT + penal (fun _ : Fin 1 => (!![1, 0; 1, 0] : Matrix (Fin 2) (Fin 2) ℝ) * (!![1, 0; 1, 0])ᵀ) (fun _ => 1) = !![5, 4; 4, 4] := by
    unfold penal
    rw [rT]
    ext i j
    fin_cases i <;> fin_cases j <;> simp [XT, Matrix.mul_apply, Fin.sum_univ_four] <;> norm_num
  rw [e]
  refine PosDef.of_dotProduct_mulVec_pos (by ext i j; fin_cases i <;> fin_cases j <;> rfl) fun v hv => ?_
  have : star v ⬝ᵥ (!![5, 4; 4, 4] *ᵥ v) = v 0 ^ 2 + 4 * (v 0 + v 1) ^ 2 := by
    simp [Matrix.mulVec, dotProduct, Fin.sum_univ_two]
    ring
  rw [this]
  by_contra hn
  have h0 : v 0 = 0 := by nlinarith [sq_nonneg (v 0), sq_nonneg (v 0 + v 1)]
  have h1 : v 1 = 0 := by rw [h0] at hn; nlinarith [sq_nonneg (v 1)]
  exact hv (funext fun i => by fin_cases i <;> assumption)

noncomputable def exT (y : Fin 4 → ℝ) : In 4 2 1 := mk XT y (fun _ => !![1, 0; 1, 0]) (fun _ => 1) pdT

theorem exT_levels (y : Fin 4 → ℝ) : Levels (exT y) AT ![0, 1, 1, 1] (id : Fin 2 → Fin 2) where
  X i a h := by
    have e : XT * AT = !![1, 0; 0, 1; 0, 1; 0, 1] := by
      ext i j; fin_cases i <;> fin_cases j <;> simp [XT, AT, Matrix.mul_apply, Fin.sum_univ_two]
    have h' : (XT * AT) i a ≠ 0 := h
    rw [e] at h'
    revert h'
    fin_cases i <;> fin_cases a <;> simp
  S a b h := by
    have e : ATᵀ * penal (exT y).S (exT y).lam * AT = !![0, 0; 0, 1] := by
      have : penal (exT y).S (exT y).lam = !![1, 1; 1, 1] := by
        show penal (fun _ : Fin 1 => (!![1, 0; 1, 0] : Matrix (Fin 2) (Fin 2) ℝ) * (!![1, 0; 1, 0])ᵀ) (fun _ => 1) = _
        unfold penal
        rw [rT]
        ext i j; fin_cases i <;> fin_cases j <;> simp
      rw [this]
      ext i j; fin_cases i <;> fin_cases j <;> simp [AT, Matrix.mul_apply, Fin.sum_univ_two]
    rw [e] at h
    revert h
    fin_cases a <;> fin_cases b <;> simp

/-- Observations of the second level are replaced: the fit of the first is the same. -/
example : ((exT ![1, 7, 8, 9]).X *ᵥ coef (exT ![1, 7, 8, 9])) 0 = ((exT ![1, 2, 3, 4]).X *ᵥ coef (exT ![1, 2, 3, 4])) 0 :=
  separate (x := exT ![1, 2, 3, 4]) (x' := exT ![1, 7, 8, 9]) (A := AT) (rg := ![0, 1, 1, 1]) (cg := (id : Fin 2 → Fin 2)) (g := 0) (mk_core _ _ _ _ _ fun _ => one_pos)
    (mk_core _ _ _ _ _ fun _ => one_pos)
    (by rw [Matrix.isUnit_iff_isUnit_det]; simp [AT, Matrix.det_fin_two]) (exT_levels _) (exT_levels _)
    ⟨fun i _ => rfl, fun i hi => by
      show (![1, 7, 8, 9] : Fin 4 → ℝ) i = (![1, 2, 3, 4] : Fin 4 → ℝ) i
      fin_cases i
      · rfl
      all_goals simp at hi, fun _ _ _ _ => rfl⟩ rfl

/-- Three rows, two levels, random intercepts. -/
def XR : Matrix (Fin 3) (Fin 3) ℝ := !![1, 1, 0; 1, 1, 0; 1, 0, 1]

theorem pdR : (XRᵀ * XR + penal (fun _ : Fin 1 => diagonal (Fin.cons 0 fun _ => 1 : Fin 3 → ℝ) * (diagonal (Fin.cons 0 fun _ => 1 : Fin 3 → ℝ))ᵀ)
    fun _ => 2).PosDef := by
  have hS : diagonal (Fin.cons 0 fun _ => 1 : Fin 3 → ℝ) * (diagonal (Fin.cons 0 fun _ => 1 : Fin 3 → ℝ))ᵀ = diagonal ![0, 1, 1] := by
    rw [diagonal_transpose, diagonal_mul_diagonal]
    congr 1
    funext i
    fin_cases i
    · show (0 : ℝ) * 0 = 0
      norm_num
    · show (1 : ℝ) * 1 = 1
      norm_num
    · show (1 : ℝ) * 1 = 1
      norm_num
  have e : XRᵀ * XR + penal (fun _ : Fin 1 => diagonal (Fin.cons 0 fun _ => 1 : Fin 3 → ℝ) * (diagonal (Fin.cons 0 fun _ => 1 : Fin 3 → ℝ))ᵀ)
      (fun _ => 2) = !![3, 2, 1; 2, 4, 0; 1, 0, 3] := by
    unfold penal
    rw [hS]
    ext i j
    fin_cases i <;> fin_cases j <;> simp [XR, Matrix.mul_apply, Fin.sum_univ_three] <;> norm_num
  rw [e]
  refine PosDef.of_dotProduct_mulVec_pos (by ext i j; fin_cases i <;> fin_cases j <;> rfl) fun v hv => ?_
  have : star v ⬝ᵥ (!![3, 2, 1; 2, 4, 0; 1, 0, 3] *ᵥ v) = 2 * (v 0 + v 1) ^ 2 + (v 0 + v 2) ^ 2 + 2 * v 1 ^ 2 + 2 * v 2 ^ 2 := by
    simp [Matrix.mulVec, dotProduct, Fin.sum_univ_three]
    ring
  rw [this]
  by_contra hn
  have h1 : v 1 = 0 := by nlinarith [sq_nonneg (v 0 + v 1), sq_nonneg (v 0 + v 2), sq_nonneg (v 1), sq_nonneg (v 2)]
  have h2 : v 2 = 0 := by nlinarith [sq_nonneg (v 0 + v 1), sq_nonneg (v 0 + v 2), sq_nonneg (v 1), sq_nonneg (v 2)]
  have h0 : v 0 = 0 := by rw [h1, h2] at hn; nlinarith [sq_nonneg (v 0)]
  exact hv (funext fun i => by fin_cases i <;> assumption)

noncomputable def exR : In 3 3 1 := mk XR ![1, 3, 6] (fun _ => diagonal (Fin.cons 0 fun _ => 1)) (fun _ => 2) pdR

theorem exR_ri : Ri exR ![0, 0, 1] where
  int i := by fin_cases i <;> rfl
  lev i a := by fin_cases i <;> fin_cases a <;> simp [exR, mk, XR]
  S := by
    show diagonal (Fin.cons 0 fun _ => 1 : Fin 3 → ℝ) * (diagonal (Fin.cons 0 fun _ => 1 : Fin 3 → ℝ))ᵀ = _
    rw [diagonal_transpose, diagonal_mul_diagonal]
    congr 1
    funext i
    fin_cases i
    · show (0 : ℝ) * 0 = 0
      norm_num
    · show (1 : ℝ) * 1 = 1
      norm_num
    · show (1 : ℝ) * 1 = 1
      norm_num

example : coef exR 2 = (6 - coef exR 0) / (1 + 2) := by
  have h := random_intercept exR_ri (mk_core _ _ _ _ _ fun _ => two_pos) 1
  have e : (Finset.univ.filter fun i : Fin 3 => (![0, 0, 1] : Fin 3 → Fin 2) i = 1) = {2} := by decide
  unfold size at h
  rw [e, Finset.sum_singleton, Finset.card_singleton, Nat.cast_one] at h
  exact h

example : coef exR 1 + coef exR 2 = 0 := by
  have h := random_sum exR_ri (mk_core _ _ _ _ _ fun _ => two_pos)
  rwa [Fin.sum_univ_two] at h

end Verif.Pool
