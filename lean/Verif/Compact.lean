import Verif.CompactLemmas
import Mathlib.LinearAlgebra.Matrix.PosDef
import Mathlib.Algebra.Order.Star.Real
import Mathlib.LinearAlgebra.Matrix.Notation
import Mathlib.Tactic.NormNum
import Mathlib.Tactic.FinCases
import Mathlib.Tactic.FieldSimp

/-!
# Compact quasi-Newton approximations: theorems (property C40)
-/

namespace Verif.Compact

open Matrix

variable {n m p : ℕ}

/-! ## Secant conditions -/

/-- Same with the most recent pair given by its index. -/
theorem hsr1_secant_max {s y : Fin m → Fin n → ℝ} {rho : Fin m → ℝ} {H0 : Matrix (Fin n) (Fin n) ℝ}
    (hr : ∀ k, rho k = 1 / (s k ⬝ᵥ y k)) (hs : H0ᵀ = H0) {f : Fac n m} (h : hsr1 s y rho H0 = some f) (k : Fin m)
    (hk : ∀ i, i ≤ k) : f.val H0 *ᵥ s k = y k := by
  refine secant_of h _ fun i => ?_
  rw [t1_mulVec hs, hMid_apply hr, if_pos (hk i)]

/-- The approximation maps the most recent step to the most recent gradient difference. -/
theorem hsr1_secant_last {s y : Fin (m + 1) → Fin n → ℝ} {rho : Fin (m + 1) → ℝ} {H0 : Matrix (Fin n) (Fin n) ℝ}
    (hr : ∀ k, rho k = 1 / (s k ⬝ᵥ y k)) (hs : H0ᵀ = H0) {f : Fac n (m + 1)} (h : hsr1 s y rho H0 = some f) :
    f.val H0 *ᵥ s (Fin.last m) = y (Fin.last m) := by
  refine secant_of h _ fun i => ?_
  rw [t1_mulVec hs, hMid_apply hr, if_pos (Fin.le_last i)]

/-- All stored pairs are reproduced when `s_k · y_l = s_l · y_k`, as for a quadratic criterion. -/
theorem hsr1_secant_all_partial {s y : Fin m → Fin n → ℝ} {rho : Fin m → ℝ} {H0 : Matrix (Fin n) (Fin n) ℝ}
    (hr : ∀ k, rho k = 1 / (s k ⬝ᵥ y k)) (hs : H0ᵀ = H0) (hsym : ∀ k l, s k ⬝ᵥ y l = s l ⬝ᵥ y k)
    {f : Fac n m} (h : hsr1 s y rho H0 = some f) (k : Fin m) :
    f.val H0 *ᵥ s k = y k := by
  refine secant_of h _ fun i => ?_
  rw [t1_mulVec hs, hMid_apply hr]
  by_cases hik : i ≤ k
  · rw [if_pos hik]
  · rw [if_neg hik, hsym]

/-- Same for the approximation of the inverse: the last difference is mapped to the last step. -/
theorem vsr1_secant_last {s y : Fin (m + 1) → Fin n → ℝ} {rho : Fin (m + 1) → ℝ} {V0 : Matrix (Fin n) (Fin n) ℝ}
    (hr : ∀ k, rho k = 1 / (s k ⬝ᵥ y k)) (hs : V0ᵀ = V0) {f : Fac n (m + 1)} (h : vsr1 s y rho V0 = some f) :
    f.val V0 *ᵥ y (Fin.last m) = s (Fin.last m) := by
  rw [vsr1_eq hr] at h
  exact hsr1_secant_last (fun k => by rw [hr k, dotProduct_comm]) hs h

theorem vsr1_secant_all_partial {s y : Fin m → Fin n → ℝ} {rho : Fin m → ℝ} {V0 : Matrix (Fin n) (Fin n) ℝ}
    (hr : ∀ k, rho k = 1 / (s k ⬝ᵥ y k)) (hs : V0ᵀ = V0) (hsym : ∀ k l, s k ⬝ᵥ y l = s l ⬝ᵥ y k)
    {f : Fac n m} (h : vsr1 s y rho V0 = some f) (k : Fin m) :
    f.val V0 *ᵥ y k = s k := by
  rw [vsr1_eq hr] at h
  refine hsr1_secant_all_partial (fun k => by rw [hr k, dotProduct_comm]) hs (fun a b => ?_) h k
  rw [dotProduct_comm, hsym b a, dotProduct_comm]

/-! ## The compact form is the sequence of rank one updates -/

/-- The symmetric rank one update (Nocedal & Wright, eq. 6.24). -/
noncomputable def sr1Step (H : Matrix (Fin n) (Fin n) ℝ) (s y : Fin n → ℝ) : Matrix (Fin n) (Fin n) ℝ :=
  H + ((y - H *ᵥ s) ⬝ᵥ s)⁻¹ • Matrix.vecMulVec (y - H *ᵥ s) (y - H *ᵥ s)

/-- All updates, oldest first. -/
noncomputable def sr1All (H0 : Matrix (Fin n) (Fin n) ℝ) (l : List ((Fin n → ℝ) × (Fin n → ℝ))) : Matrix (Fin n) (Fin n) ℝ :=
  l.foldl (fun H p => sr1Step H p.1 p.2) H0

/-- Adding a pair to the compact form is one rank one update with a nonzero denominator. -/
theorem hMid_succ {s y : Fin (m + 1) → Fin n → ℝ} {rho : Fin (m + 1) → ℝ} {H0 : Matrix (Fin n) (Fin n) ℝ}
    (hr : ∀ k, rho k = 1 / (s k ⬝ᵥ y k)) (hs : H0ᵀ = H0)
    (hA : IsUnit (hMid (fun k => s k.castSucc) (fun k => y k.castSucc) (fun k => rho k.castSucc) H0).det)
    (hM : IsUnit (hMid s y rho H0).det) :
    let H := (⟨cols (fun k => y k.castSucc) - H0 * cols (fun k => s k.castSucc),
      (hMid (fun k => s k.castSucc) (fun k => y k.castSucc) (fun k => rho k.castSucc) H0)⁻¹⟩ : Fac n m).val H0
    (y (Fin.last m) - H *ᵥ s (Fin.last m)) ⬝ᵥ s (Fin.last m) ≠ 0 ∧
    (⟨cols y - H0 * cols s, (hMid s y rho H0)⁻¹⟩ : Fac n (m + 1)).val H0 = sr1Step H (s (Fin.last m)) (y (Fin.last m)) := by
  intro H
  set s' : Fin m → Fin n → ℝ := fun k => s k.castSucc with hs'
  set y' : Fin m → Fin n → ℝ := fun k => y k.castSucc with hy'
  set r' : Fin m → ℝ := fun k => rho k.castSucc with hr'
  set sl := s (Fin.last m) with hsl
  set yl := y (Fin.last m) with hyl
  set A := hMid s' y' r' H0 with hAd
  set T := cols y' - H0 * cols s' with hT
  let e : Fin m ⊕ Fin 1 ≃ Fin (m + 1) := finSumFinEquiv
  let u : Matrix (Fin n) (Fin 1) ℝ := Matrix.of fun i _ => (yl - H0 *ᵥ sl) i
  let S1 : Matrix (Fin n) (Fin 1) ℝ := Matrix.of fun i _ => sl i
  let c : Matrix (Fin m) (Fin 1) ℝ := Tᵀ * S1
  let d : Matrix (Fin 1) (Fin 1) ℝ := uᵀ * S1
  have hrr : RhoOK s' y' r' := fun k => hr k.castSucc
  have hcc : ∀ i, c i 0 = hMid s y rho H0 i.castSucc (Fin.last m) := by
    intro i
    have : c i 0 = (Tᵀ *ᵥ sl) i := rfl
    rw [this, hT, t1_mulVec hs, hMid_apply hr, if_pos (Fin.le_last _)]
  have hdd : d 0 0 = hMid s y rho H0 (Fin.last m) (Fin.last m) := by
    have : d 0 0 = (yl - H0 *ᵥ sl) ⬝ᵥ sl := rfl
    rw [this, hMid_apply hr, if_pos le_rfl, sub_dotProduct, dotProduct_comm yl, dotProduct_comm (H0 *ᵥ sl)]
  have hsub : (hMid s y rho H0).submatrix e e = Matrix.fromBlocks A c cᵀ d := by
    have hsy : ∀ a b, hMid s y rho H0 a b = hMid s y rho H0 b a := fun a b => by
      conv_lhs => rw [← hMid_symm hs]
      rfl
    ext a b
    rcases a with a | a <;> rcases b with b | b
    · have : ((hMid s y rho H0).submatrix e e) (Sum.inl a) (Sum.inl b) = hMid s y rho H0 a.castSucc b.castSucc := rfl
      rw [this, Matrix.fromBlocks_apply₁₁, hAd, hMid_apply hr, hMid_apply hrr]
      simp only [Fin.castSucc_le_castSucc_iff, hs', hy']
    · obtain rfl : b = 0 := Subsingleton.elim _ _
      rw [Matrix.fromBlocks_apply₁₂, hcc]
      rfl
    · obtain rfl : a = 0 := Subsingleton.elim _ _
      rw [Matrix.fromBlocks_apply₂₁, Matrix.transpose_apply, hcc, hsy]
      rfl
    · obtain rfl : a = 0 := Subsingleton.elim _ _
      obtain rfl : b = 0 := Subsingleton.elim _ _
      rw [Matrix.fromBlocks_apply₂₂, hdd]
      rfl
  have hcol : (cols y - H0 * cols s).submatrix id e = Matrix.fromCols T u := by
    ext i b
    rcases b with b | b
    · rfl
    · obtain rfl : b = 0 := Subsingleton.elim _ _
      rfl
  have hMb : IsUnit (Matrix.fromBlocks A c cᵀ d).det := by
    rw [← hsub, Matrix.det_submatrix_equiv_self]
    exact hM
  obtain ⟨hσ, hb⟩ := border A c d T u hA (hMid_symm hs) hMb
  have hHs : yl - H *ᵥ sl = fun i => (u - T * A⁻¹ * c) i 0 := by
    have e2 : H *ᵥ sl = H0 *ᵥ sl + (T * A⁻¹ * Tᵀ) *ᵥ sl := by
      change (H0 + T * A⁻¹ * Tᵀ) *ᵥ sl = _
      rw [Matrix.add_mulVec]
    have e3 : ∀ i, (T * A⁻¹ * c) i 0 = ((T * A⁻¹ * Tᵀ) *ᵥ sl) i := by
      intro i
      change (T * A⁻¹ * (Tᵀ * S1)) i 0 = _
      rw [← Matrix.mul_assoc]
      rfl
    funext i
    rw [e2, Matrix.sub_apply, e3]
    change yl i - (_ + _) = (yl i - _) - _
    ring
  have hden : (d - cᵀ * A⁻¹ * c) 0 0 = (yl - H *ᵥ sl) ⬝ᵥ sl := by
    have e4 : d - cᵀ * A⁻¹ * c = (u - T * A⁻¹ * c)ᵀ * S1 := by
      have hAi : (A⁻¹)ᵀ = A⁻¹ := by rw [Matrix.transpose_nonsing_inv, hMid_symm hs]
      rw [Matrix.transpose_sub, Matrix.sub_mul, Matrix.transpose_mul (T * A⁻¹) c, Matrix.transpose_mul T, hAi]
      simp only [Matrix.mul_assoc]
      rfl
    rw [e4, hHs]
    rfl
  have hdet : (d - cᵀ * A⁻¹ * c).det = (yl - H *ᵥ sl) ⬝ᵥ sl := by
    rw [Matrix.det_fin_one, hden]
  refine ⟨by rw [← hdet]; exact hσ.ne_zero, ?_⟩
  have hval : (cols y - H0 * cols s) * (hMid s y rho H0)⁻¹ * (cols y - H0 * cols s)ᵀ
      = Matrix.fromCols T u * (Matrix.fromBlocks A c cᵀ d)⁻¹ * (Matrix.fromCols T u)ᵀ := by
    rw [← hsub, ← hcol, Matrix.inv_submatrix_equiv, Matrix.submatrix_mul_equiv, Matrix.transpose_submatrix,
      Matrix.submatrix_mul_equiv, Matrix.submatrix_id_id]
  have hinv : (d - cᵀ * A⁻¹ * c)⁻¹ 0 0 = ((yl - H *ᵥ sl) ⬝ᵥ sl)⁻¹ := by
    rw [Matrix.inv_def, Matrix.adjugate_fin_one, hdet]
    simp
  unfold Fac.val sr1Step
  rw [hval, hb, ← add_assoc]
  congr 1
  ext i j
  rw [Matrix.smul_apply, Matrix.vecMulVec_apply, hHs, smul_eq_mul, ← hHs, ← hinv, hHs, Matrix.mul_apply]
  rw [Fin.sum_univ_one, Matrix.mul_apply, Fin.sum_univ_one, Matrix.transpose_apply]
  ring

/-- The first `j` pairs. -/
def pre (j : ℕ) (hj : j ≤ m) {α : Type} (v : Fin m → α) : Fin j → α := fun k => v (Fin.castLE hj k)

/-- The compact form is what the successive rank one updates give, each of them defined. -/
theorem hsr1_eq_updates {s y : Fin m → Fin n → ℝ} {rho : Fin m → ℝ} {H0 : Matrix (Fin n) (Fin n) ℝ}
    (hr : ∀ k, rho k = 1 / (s k ⬝ᵥ y k)) (hs : H0ᵀ = H0)
    (hp : ∀ j (hj : j ≤ m), IsUnit (hMid (pre j hj s) (pre j hj y) (pre j hj rho) H0).det)
    {f : Fac n m} (h : hsr1 s y rho H0 = some f) :
    f.val H0 = sr1All H0 (List.ofFn fun k => (s k, y k)) := by
  obtain ⟨-, h1, h2⟩ := hsr1_some h
  have key : ∀ (m : ℕ) (s y : Fin m → Fin n → ℝ) (rho : Fin m → ℝ), (∀ k, rho k = 1 / (s k ⬝ᵥ y k)) →
      (∀ j (hj : j ≤ m), IsUnit (hMid (pre j hj s) (pre j hj y) (pre j hj rho) H0).det) →
      (⟨cols y - H0 * cols s, (hMid s y rho H0)⁻¹⟩ : Fac n m).val H0 = sr1All H0 (List.ofFn fun k => (s k, y k)) := by
    intro m
    induction m with
    | zero =>
      intro s y rho _ _
      unfold Fac.val sr1All
      rw [List.ofFn_zero, List.foldl_nil]
      ext i j
      rw [Matrix.add_apply, Matrix.mul_apply, Finset.sum_eq_zero (fun k _ => k.elim0), add_zero]
    | succ m ih =>
      intro s y rho hr hp
      have ih' := ih (fun k => s k.castSucc) (fun k => y k.castSucc) (fun k => rho k.castSucc) (fun k => hr _)
        (fun j hj => hp j (Nat.le_succ_of_le hj))
      have hstep := (hMid_succ hr hs (hp m (Nat.le_succ m)) (hp (m + 1) le_rfl)).2
      rw [hstep, ih', List.ofFn_succ']
      unfold sr1All
      rw [List.concat_eq_append, List.foldl_append]
      rfl
  have e : f = ⟨cols y - H0 * cols s, (hMid s y rho H0)⁻¹⟩ := by
    cases f
    simp only at h1 h2
    rw [h1, h2]
  rw [e]
  exact key m s y rho hr hp

/-! ## The approximation of the inverse is the inverse of the approximation -/

theorem vsr1_inverse {s y : Fin m → Fin n → ℝ} {rho : Fin m → ℝ} {H0 V0 : Matrix (Fin n) (Fin n) ℝ}
    (hs : H0ᵀ = H0) (hV : V0 * H0 = 1) {f g : Fac n m}
    (hf : hsr1 s y rho H0 = some f) (hg : vsr1 s y rho V0 = some g) :
    g.val V0 * f.val H0 = 1 := by
  have hV' : H0 * V0 = 1 := mul_eq_one_comm.1 hV
  have hVs : V0ᵀ = V0 := by
    have h1 : H0 * V0ᵀ = 1 := by
      have := congrArg Matrix.transpose hV
      rwa [Matrix.transpose_mul, hs, Matrix.transpose_one] at this
    calc V0ᵀ = V0 * H0 * V0ᵀ := by rw [hV, Matrix.one_mul]
      _ = V0 := by rw [Matrix.mul_assoc, h1, Matrix.mul_one]
  obtain ⟨hu, f1, f2⟩ := hsr1_some hf
  have hgg : IsUnit (vMid s y rho V0).det ∧ g.t1 = cols s - V0 * cols y ∧ g.t2 = (vMid s y rho V0)⁻¹ := by
    unfold vsr1 inv? at hg
    by_cases h0 : m = 0
    · rw [if_pos h0] at hg
      cases hg
    · rw [if_neg h0] at hg
      by_cases h1 : IsUnit (vMid s y rho V0).det
      · rw [if_pos h1] at hg
        simp only [Option.map_some, Option.some.injEq] at hg
        subst hg
        exact ⟨h1, rfl, rfl⟩
      · rw [if_neg h1] at hg
        cases hg
  obtain ⟨hu2, g1, g2⟩ := hgg
  unfold Fac.val
  rw [f1, f2, g1, g2]
  have hU : cols s - V0 * cols y = -(V0 * (cols y - H0 * cols s)) := by
    rw [Matrix.mul_sub, ← Matrix.mul_assoc, hV, Matrix.one_mul]
    abel
  have hN : vMid s y rho V0 = -hMid s y rho H0 - (cols y - H0 * cols s)ᵀ * V0 * (cols y - H0 * cols s) := by
    have e1 : (cols y - H0 * cols s)ᵀ * V0 * (cols y - H0 * cols s)
        = (cols y)ᵀ * V0 * cols y - (cols y)ᵀ * cols s - (cols s)ᵀ * cols y + (cols s)ᵀ * H0 * cols s := by
      rw [Matrix.transpose_sub, Matrix.transpose_mul, hs, Matrix.sub_mul, Matrix.mul_assoc (cols s)ᵀ, hV', Matrix.mul_one,
        Matrix.sub_mul, Matrix.mul_sub, Matrix.mul_sub, Matrix.mul_assoc (cols y)ᵀ V0 (H0 * cols s), ← Matrix.mul_assoc V0,
        hV, Matrix.one_mul, Matrix.mul_assoc (cols s)ᵀ H0]
      abel
    rw [e1]
    unfold vMid hMid Lmat
    rw [Matrix.transpose_sub, Matrix.transpose_mul, Matrix.transpose_transpose]
    abel
  rw [hU]
  generalize cols y - H0 * cols s = T at hN ⊢
  generalize hMid s y rho H0 = M at hN hu ⊢
  generalize vMid s y rho V0 = N at hN hu2 ⊢
  have hNN : N⁻¹ * (Tᵀ * V0 * T) * M⁻¹ = -M⁻¹ - N⁻¹ := by
    have e2 : Tᵀ * V0 * T = -N - M := by
      rw [hN]
      abel
    rw [e2, Matrix.mul_sub, Matrix.sub_mul, Matrix.mul_neg, Matrix.nonsing_inv_mul _ hu2, Matrix.mul_assoc,
      Matrix.mul_nonsing_inv _ hu, Matrix.mul_one, Matrix.neg_mul, Matrix.one_mul]
  rw [Matrix.transpose_neg, Matrix.transpose_mul, hVs, Matrix.neg_mul, Matrix.neg_mul, Matrix.mul_neg, neg_neg, Matrix.add_mul,
    Matrix.mul_add, Matrix.mul_add, hV]
  have e3 : V0 * T * N⁻¹ * (Tᵀ * V0) * H0 = V0 * T * N⁻¹ * Tᵀ := by
    rw [Matrix.mul_assoc _ (Tᵀ * V0), Matrix.mul_assoc Tᵀ, hV, Matrix.mul_one]
  have e4 : V0 * T * N⁻¹ * (Tᵀ * V0) * (T * M⁻¹ * Tᵀ) = V0 * T * (N⁻¹ * (Tᵀ * V0 * T) * M⁻¹) * Tᵀ := by
    simp only [Matrix.mul_assoc]
  rw [e3, e4, hNN, Matrix.mul_sub, Matrix.sub_mul, Matrix.mul_neg, Matrix.neg_mul]
  simp only [Matrix.mul_assoc]
  abel

/-! ## Shifted eigenvalues -/

/-- What the economic QR and the eigendecomposition return. -/
structure DecOK (f : Fac n m) (d : Dec n p m) : Prop where
  qr : f.t1 = d.Q * d.R
  orthQ : d.Qᵀ * d.Q = 1
  eig : d.R * f.t2 * d.Rᵀ = d.P * Matrix.diagonal d.ev * d.Pᵀ
  orthP : d.Pᵀ * d.P = 1

theorem dot_nonneg (x : Fin n → ℝ) : 0 ≤ x ⬝ᵥ x := Finset.sum_nonneg fun i _ => mul_self_nonneg (x i)

theorem quad_eq (W : Matrix (Fin n) (Fin p) ℝ) (hW : Wᵀ * W = 1) (omega : ℝ) (ev : Fin p → ℝ) (x : Fin n → ℝ) :
    x ⬝ᵥ ((omega • (1 : Matrix (Fin n) (Fin n) ℝ) + W * Matrix.diagonal ev * Wᵀ) *ᵥ x)
      = omega * ((x - W *ᵥ (Wᵀ *ᵥ x)) ⬝ᵥ (x - W *ᵥ (Wᵀ *ᵥ x))) + ∑ i, (ev i + omega) * (Wᵀ *ᵥ x) i ^ 2 := by
  have e1 : x ⬝ᵥ ((W * Matrix.diagonal ev * Wᵀ) *ᵥ x) = ∑ i, ev i * (Wᵀ *ᵥ x) i ^ 2 := by
    rw [← Matrix.mulVec_mulVec, ← Matrix.mulVec_mulVec, Matrix.dotProduct_mulVec, ← Matrix.mulVec_transpose]
    unfold dotProduct
    refine Finset.sum_congr rfl fun i _ => ?_
    rw [Matrix.mulVec_diagonal]
    ring
  have e2 : (W *ᵥ (Wᵀ *ᵥ x)) ⬝ᵥ (W *ᵥ (Wᵀ *ᵥ x)) = (Wᵀ *ᵥ x) ⬝ᵥ (Wᵀ *ᵥ x) := by
    rw [Matrix.dotProduct_mulVec, ← Matrix.mulVec_transpose, Matrix.mulVec_mulVec, hW, Matrix.one_mulVec]
  have e3 : x ⬝ᵥ (W *ᵥ (Wᵀ *ᵥ x)) = (Wᵀ *ᵥ x) ⬝ᵥ (Wᵀ *ᵥ x) := by
    rw [Matrix.dotProduct_mulVec, ← Matrix.mulVec_transpose]
  have e4 : (Wᵀ *ᵥ x) ⬝ᵥ (Wᵀ *ᵥ x) = ∑ i, (Wᵀ *ᵥ x) i ^ 2 := by
    unfold dotProduct
    exact Finset.sum_congr rfl fun i _ => by ring
  rw [Matrix.add_mulVec, dotProduct_add, e1, Matrix.smul_mulVec, Matrix.one_mulVec, dotProduct_smul, smul_eq_mul,
    sub_dotProduct, dotProduct_sub, dotProduct_sub, e2, dotProduct_comm (W *ᵥ (Wᵀ *ᵥ x)) x, e3, e4]
  simp only [add_mul, Finset.sum_add_distrib, ← Finset.mul_sum]
  ring

theorem shifted_symm (W : Matrix (Fin n) (Fin p) ℝ) (omega : ℝ) (ev : Fin p → ℝ) :
    (omega • (1 : Matrix (Fin n) (Fin n) ℝ) + W * Matrix.diagonal ev * Wᵀ).IsHermitian := by
  rw [Matrix.IsHermitian, Matrix.conjTranspose_eq_transpose_of_trivial, Matrix.transpose_add, Matrix.transpose_smul,
    Matrix.transpose_one, Matrix.transpose_mul, Matrix.transpose_mul, Matrix.transpose_transpose, Matrix.diagonal_transpose,
    Matrix.mul_assoc]

/-- All forms of the result are `omega I + W diag(ev) Wᵀ`. -/
theorem psdVal_form {f : Fac n m} {d : Dec n p m} (hd : DecOK f d) (omega : ℝ) (pd : Option (ℝ × ℝ)) :
    ∃ W : Matrix (Fin n) (Fin p) ℝ, Wᵀ * W = 1 ∧
      psdVal omega (omega • (1 : Matrix (Fin n) (Fin n) ℝ)) f d pd
        = omega • (1 : Matrix (Fin n) (Fin n) ℝ) + W * Matrix.diagonal (newEv omega d pd) * Wᵀ := by
  refine ⟨d.Q * d.P, ?_, ?_⟩
  · rw [Matrix.transpose_mul, Matrix.mul_assoc, ← Matrix.mul_assoc d.Qᵀ, hd.orthQ, Matrix.one_mul, hd.orthP]
  · unfold psdVal
    by_cases h : ∃ i, fix omega d i
    · rw [if_pos h, Matrix.transpose_mul]
    · rw [if_neg h]
      push Not at h
      have e1 : clip omega d = d.ev := by
        funext i
        unfold clip
        rw [if_neg (h i)]
      have e2 : ∀ eps mx, clipPd eps omega mx d = d.ev := by
        intro eps mx
        funext i
        unfold clipPd
        rw [if_neg (h i), e1]
      have e3 : newEv omega d pd = d.ev := by
        cases pd with
        | none => exact e1
        | some q => exact e2 q.1 q.2
      rw [e3]
      unfold Fac.val
      rw [hd.qr, Matrix.transpose_mul, Matrix.transpose_mul]
      have e5 : d.Q * d.R * f.t2 * (d.Rᵀ * d.Qᵀ) = d.Q * (d.R * f.t2 * d.Rᵀ) * d.Qᵀ := by
        simp only [Matrix.mul_assoc]
      rw [e5, hd.eig]
      simp only [Matrix.mul_assoc]

/-- With `make_psd` the approximation started from a scaled identity is positive semidefinite. -/
theorem make_psd_psd {f : Fac n m} {d : Dec n p m} (hd : DecOK f d) {omega : ℝ} (ho : 0 ≤ omega) :
    (psdVal omega (omega • (1 : Matrix (Fin n) (Fin n) ℝ)) f d none).PosSemidef := by
  obtain ⟨W, hW, e⟩ := psdVal_form hd omega none
  rw [e]
  refine Matrix.PosSemidef.of_dotProduct_mulVec_nonneg (shifted_symm _ _ _) fun x => ?_
  rw [star_trivial, quad_eq W hW]
  refine add_nonneg (mul_nonneg ho (dot_nonneg _)) (Finset.sum_nonneg fun i _ => mul_nonneg ?_ (sq_nonneg _))
  change 0 ≤ clip omega d i + omega
  unfold clip
  by_cases h : fix omega d i
  · rw [if_pos h]
    linarith
  · rw [if_neg h]
    exact (not_le.1 h).le

/-- With `make_pd` it is positive definite when some shifted eigenvalue is positive. -/
theorem make_pd_pd_partial {f : Fac n m} {d : Dec n p m} (hd : DecOK f d) {omega eps mx : ℝ} (ho : 0 < omega) (he : 0 < eps)
    (hmx : IsGreatest (Set.range fun i => clip omega d i + omega) mx) (hpos : ∃ i, 0 < d.ev i + omega) :
    (psdVal omega (omega • (1 : Matrix (Fin n) (Fin n) ℝ)) f d (some (eps, mx))).PosDef := by
  obtain ⟨W, hW, e⟩ := psdVal_form hd omega (some (eps, mx))
  have hm : 0 < mx := by
    obtain ⟨i, hi⟩ := hpos
    refine lt_of_lt_of_le hi ?_
    have h1 := hmx.2 ⟨i, rfl⟩
    have h2 : clip omega d i = d.ev i := by
      unfold clip fix
      rw [if_neg (not_le.2 hi)]
    simpa only [h2] using h1
  have hc : ∀ i, 0 < clipPd eps omega mx d i + omega := by
    intro i
    unfold clipPd clip
    by_cases h : fix omega d i
    · rw [if_pos h, if_pos h]
      have := mul_pos he hm
      linarith
    · rw [if_neg h, if_neg h]
      exact not_le.1 h
  rw [e]
  refine Matrix.PosDef.of_dotProduct_mulVec_pos (shifted_symm _ _ _) fun x hx => ?_
  rw [star_trivial, quad_eq W hW]
  have h1 : 0 ≤ omega * ((x - W *ᵥ (Wᵀ *ᵥ x)) ⬝ᵥ (x - W *ᵥ (Wᵀ *ᵥ x))) := mul_nonneg ho.le (dot_nonneg _)
  have h2 : ∀ i ∈ Finset.univ, 0 ≤ (clipPd eps omega mx d i + omega) * (Wᵀ *ᵥ x) i ^ 2 :=
    fun i _ => mul_nonneg (hc i).le (sq_nonneg _)
  rcases (add_nonneg h1 (Finset.sum_nonneg h2)).lt_or_eq with h | h
  · exact h
  · exfalso
    have h3 : omega * ((x - W *ᵥ (Wᵀ *ᵥ x)) ⬝ᵥ (x - W *ᵥ (Wᵀ *ᵥ x))) = 0 := by
      have := Finset.sum_nonneg h2
      linarith
    have h4 : ∑ i, (clipPd eps omega mx d i + omega) * (Wᵀ *ᵥ x) i ^ 2 = 0 := by
      rw [h3] at h
      linarith
    have h5 : Wᵀ *ᵥ x = 0 := by
      funext i
      have := (Finset.sum_eq_zero_iff_of_nonneg h2).1 h4 i (Finset.mem_univ i)
      rcases mul_eq_zero.1 this with h6 | h6
      · exact absurd h6 (hc i).ne'
      · exact pow_eq_zero_iff (two_ne_zero) |>.1 h6
    have h6 : x - W *ᵥ (Wᵀ *ᵥ x) = 0 := by
      rcases mul_eq_zero.1 h3 with h7 | h7
      · exact absurd h7 ho.ne'
      · exact dotProduct_self_eq_zero.1 h7
    rw [h5, Matrix.mulVec_zero, sub_zero] at h6
    exact hx h6

/-- When every eigenvalue is shifted, `make_pd` adds a multiple of zero and the result stays singular. -/
theorem make_pd_singular {f : Fac n m} {d : Dec n p m} (hd : DecOK f d) {omega eps mx : ℝ}
    (hmx : IsGreatest (Set.range fun i => clip omega d i + omega) mx) (hall : ∀ i, d.ev i + omega ≤ 0) :
    ¬ (psdVal omega (omega • (1 : Matrix (Fin n) (Fin n) ℝ)) f d (some (eps, mx))).PosDef := by
  obtain ⟨W, hW, e⟩ := psdVal_form hd omega (some (eps, mx))
  have hcl : ∀ i, clip omega d i = -omega := fun i => by
    unfold clip fix
    rw [if_pos (hall i)]
  obtain ⟨⟨i0, hi0⟩, -⟩ := hmx
  have hm : mx = 0 := by
    rw [← hi0]
    simp only [hcl]
    ring
  have hcp : ∀ i, clipPd eps omega mx d i = -omega := fun i => by
    unfold clipPd fix
    rw [if_pos (hall i), hcl, hm]
    ring
  intro hpd
  rw [e] at hpd
  have hx : W *ᵥ Pi.single i0 1 ≠ 0 := by
    intro h0
    have h1 : (Wᵀ * W) *ᵥ Pi.single i0 (1 : ℝ) = 0 := by
      rw [← Matrix.mulVec_mulVec, h0, Matrix.mulVec_zero]
    rw [hW, Matrix.one_mulVec] at h1
    have := congrFun h1 i0
    simp at this
  have h2 := hpd.dotProduct_mulVec_pos hx
  rw [star_trivial, quad_eq W hW] at h2
  have h3 : Wᵀ *ᵥ (W *ᵥ Pi.single i0 (1 : ℝ)) = Pi.single i0 1 := by
    rw [Matrix.mulVec_mulVec, hW, Matrix.one_mulVec]
  rw [h3, sub_self, zero_dotProduct, mul_zero, zero_add] at h2
  refine absurd h2 (not_lt.2 (le_of_eq ?_))
  refine Finset.sum_eq_zero fun i _ => ?_
  change (clipPd eps omega mx d i + omega) * _ = 0
  rw [hcp]
  ring

/-- Without eigenvalues to shift the approximation is left as it is. -/
theorem psd_unchanged {f : Fac n m} {d : Dec n p m} {omega : ℝ} (H0 : Matrix (Fin n) (Fin n) ℝ) (h : ∀ i, 0 < d.ev i + omega)
    (pd : Option (ℝ × ℝ)) : psdVal omega H0 f d pd = f.val H0 := by
  unfold psdVal
  rw [if_neg]
  rintro ⟨i, hi⟩
  exact absurd (h i) (not_lt.2 hi)

end Verif.Compact
