import Verif.QfacModel
import Verif.CompactInv
import Mathlib.Analysis.Matrix.LDL
import Mathlib.LinearAlgebra.Matrix.Block
import Mathlib.Algebra.BigOperators.Fin

/-!
# Lemmas for `Qfac.lean`
-/

namespace Verif.Qfac

open Matrix Verif.Compact

variable {n m p q t f a : ℕ}

/-- Lower triangular with a positive diagonal. -/
def Tri (L : Mat n) : Prop := (∀ i j, i < j → L i j = 0) ∧ ∀ i, 0 < L i i

/-- What the routines of Eigen return. -/
structure ExtOK (x : Ext n) : Prop where
  perm : ∀ A, Function.Bijective (x.chol A).pr
  ok : ∀ A, Aᵀ = A → ((x.chol A).ok = true ↔ A.PosDef)
  fac : ∀ A, Aᵀ = A → (x.chol A).ok = true → Tri (x.chol A).L ∧ (x.chol A).L * (x.chol A).Lᵀ = permM (x.chol A).pr * A * (permM (x.chol A).pr)ᵀ
  fail : ∀ A, (x.chol A).ok = false → (x.chol A).L = 1
  upd : ∀ L u sigma, Tri L → (L * Lᵀ + sigma • Matrix.vecMulVec u u).PosDef →
    Tri (x.upd L u sigma) ∧ x.upd L u sigma * (x.upd L u sigma)ᵀ = L * Lᵀ + sigma • Matrix.vecMulVec u u
  linv : ∀ L, Tri L → x.linv L * L = 1

theorem permM_orth {pr : Fin n → Fin n} (h : Function.Bijective pr) : (permM pr)ᵀ * permM pr = 1 := by
  ext i j
  rw [Matrix.mul_apply, Finset.sum_eq_single (pr i)]
  · unfold permM
    rw [Matrix.transpose_apply, Matrix.of_apply, Matrix.of_apply, if_pos rfl, one_mul, Matrix.one_apply]
    by_cases hij : i = j
    · rw [if_pos (by rw [hij]), if_pos hij]
    · rw [if_neg (fun e => hij (h.1 e).symm), if_neg hij]
  · intro b _ hb
    unfold permM
    rw [Matrix.transpose_apply, Matrix.of_apply, if_neg (Ne.symm hb), zero_mul]
  · intro hh
    exact absurd (Finset.mem_univ _) hh

theorem permM_orth' {pr : Fin n → Fin n} (h : Function.Bijective pr) : permM pr * (permM pr)ᵀ = 1 := mul_eq_one_comm.1 (permM_orth h)

theorem pd_symm {A : Mat n} (h : A.PosDef) : Aᵀ = A := by
  rw [← Matrix.conjTranspose_eq_transpose_of_trivial]
  exact h.1

theorem tri_unit {L : Mat n} (h : Tri L) : IsUnit L := by
  rw [Matrix.isUnit_iff_isUnit_det]
  have hb : L.BlockTriangular OrderDual.toDual := by
    intro i j hij
    exact h.1 i j hij
  rw [Matrix.det_of_lowerTriangular L hb, isUnit_iff_ne_zero]
  exact Finset.prod_ne_zero_iff.2 fun i _ => (h.2 i).ne'

theorem sq_pd {L : Mat n} (h : IsUnit L) : (L * Lᵀ).PosDef := by
  have := Matrix.PosDef.mul_mul_conjTranspose_same (A := (1 : Mat n)) (B := L) Matrix.PosDef.one
    (Matrix.vecMul_injective_of_isUnit h)
  rwa [Matrix.mul_one, Matrix.conjTranspose_eq_transpose_of_trivial] at this

theorem vv_psd (u : Fin n → ℝ) : (Matrix.vecMulVec u u).PosSemidef := by
  have := Matrix.posSemidef_vecMulVec_self_star u
  rwa [star_trivial] at this

theorem sum_psd (us : List (Fin n → ℝ)) : ((us.map fun u => Matrix.vecMulVec u u).sum).PosSemidef := by
  induction us with
  | nil => simpa using Matrix.PosSemidef.zero
  | cons u us ih =>
    rw [List.map_cons, List.sum_cons]
    exact (vv_psd u).add ih

/-- Updates. -/
theorem uChol_up {x : Ext n} (hx : ExtOK x) (us : List (Fin n → ℝ)) {L : Mat n} (h : Tri L) :
    Tri (uChol x L us 1) ∧ uChol x L us 1 * (uChol x L us 1)ᵀ = L * Lᵀ + (us.map fun u => Matrix.vecMulVec u u).sum := by
  induction us generalizing L with
  | nil => exact ⟨h, by simp [uChol]⟩
  | cons u us ih =>
    have hp : (L * Lᵀ + (1 : ℝ) • Matrix.vecMulVec u u).PosDef := by
      rw [one_smul]
      exact (sq_pd (tri_unit h)).add_posSemidef (vv_psd u)
    obtain ⟨h1, h2⟩ := hx.upd L u 1 h hp
    obtain ⟨h3, h4⟩ := ih h1
    refine ⟨h3, ?_⟩
    change uChol x (x.upd L u 1) us 1 * (uChol x (x.upd L u 1) us 1)ᵀ = _
    rw [h4, h2, one_smul, List.map_cons, List.sum_cons, add_assoc]

/-- Downdates: the matrices in between are positive definite because the last one is. -/
theorem uChol_down {x : Ext n} (hx : ExtOK x) (us : List (Fin n → ℝ)) {L : Mat n} (h : Tri L)
    (hp : (L * Lᵀ - (us.map fun u => Matrix.vecMulVec u u).sum).PosDef) :
    Tri (uChol x L us (-1)) ∧ uChol x L us (-1) * (uChol x L us (-1))ᵀ = L * Lᵀ - (us.map fun u => Matrix.vecMulVec u u).sum := by
  induction us generalizing L with
  | nil => exact ⟨h, by simp [uChol]⟩
  | cons u us ih =>
    rw [List.map_cons, List.sum_cons] at hp ⊢
    have e1 : L * Lᵀ + (-1 : ℝ) • Matrix.vecMulVec u u
        = L * Lᵀ - (Matrix.vecMulVec u u + (us.map fun u => Matrix.vecMulVec u u).sum) + (us.map fun u => Matrix.vecMulVec u u).sum := by
      rw [neg_one_smul]
      abel
    obtain ⟨h1, h2⟩ := hx.upd L u (-1) h (by
      rw [e1]
      exact hp.add_posSemidef (sum_psd us))
    have e2 : x.upd L u (-1) * (x.upd L u (-1))ᵀ - (us.map fun u => Matrix.vecMulVec u u).sum
        = L * Lᵀ - (Matrix.vecMulVec u u + (us.map fun u => Matrix.vecMulVec u u).sum) := by
      rw [h2, neg_one_smul]
      abel
    obtain ⟨h3, h4⟩ := ih h1 (by rw [e2]; exact hp)
    refine ⟨h3, ?_⟩
    change uChol x (x.upd L u (-1)) us (-1) * (uChol x (x.upd L u (-1)) us (-1))ᵀ = _
    rw [h4, e2]

theorem filter_sum {M : Type*} [AddCommMonoid M] (F : Fin p → M) (c : Fin p → Bool) :
    (((List.finRange p).filter c).map F).sum = ∑ i, if c i then F i else 0 := by
  rw [Fin.sum_univ_def]
  induction List.finRange p with
  | nil => rfl
  | cons b l ih =>
    rw [List.map_cons, List.sum_cons, ← ih, List.filter_cons]
    by_cases h : c b
    · rw [if_pos h, if_pos h, List.map_cons, List.sum_cons]
    · rw [if_neg h, if_neg h, zero_add]

/-- Updates minus downdates. -/
theorem updCols_sum (P : Mat n) {k : ℕ} (e : Dec2 n k) :
    ((updCols P e true).map fun u => Matrix.vecMulVec u u).sum - ((updCols P e false).map fun u => Matrix.vecMulVec u u).sum
      = Pᵀ * (e.d.Q * e.d.P * Matrix.diagonal e.d.ev * (e.d.Q * e.d.P)ᵀ) * P := by
  unfold updCols
  rw [List.map_map, List.map_map, filter_sum, filter_sum, ← Finset.sum_sub_distrib]
  have e0 : Pᵀ * (e.d.Q * e.d.P * Matrix.diagonal e.d.ev * (e.d.Q * e.d.P)ᵀ) * P
      = (Pᵀ * e.d.Q * e.d.P) * Matrix.diagonal e.d.ev * (Pᵀ * e.d.Q * e.d.P)ᵀ := by
    simp only [Matrix.transpose_mul, Matrix.transpose_transpose, Matrix.mul_assoc]
  rw [e0]
  generalize Pᵀ * e.d.Q * e.d.P = N
  ext r c
  rw [Matrix.sum_apply, Matrix.mul_apply]
  refine Finset.sum_congr rfl fun i _ => ?_
  rw [Matrix.mul_diagonal, Matrix.transpose_apply]
  by_cases hp : 0 < e.d.ev i
  · have hn : ¬ e.d.ev i < 0 := not_lt.2 hp.le
    have hs : √|e.d.ev i| * √|e.d.ev i| = e.d.ev i := by rw [Real.mul_self_sqrt (abs_nonneg _), abs_of_pos hp]
    simp only [hp, hn, if_true, decide_true, decide_false, Bool.false_eq_true, if_false, sub_zero, Function.comp_apply, Matrix.vecMulVec_apply]
    linear_combination N r i * N c i * hs
  · by_cases hn : e.d.ev i < 0
    · have hs : √|e.d.ev i| * √|e.d.ev i| = -e.d.ev i := by rw [Real.mul_self_sqrt (abs_nonneg _), abs_of_neg hn]
      simp only [hp, hn, if_true, decide_true, decide_false, Bool.false_eq_true, if_false, zero_sub, Function.comp_apply, Matrix.vecMulVec_apply, Matrix.neg_apply]
      linear_combination -(N r i * N c i) * hs
    · have h0 : e.d.ev i = 0 := le_antisymm (not_lt.1 hp) (not_lt.1 hn)
      simp [h0]

/-- What the second decomposition returns. -/
def Dec2OK (l : Low n) (e : Dec2 n l.k) : Prop := DecOK (⟨l.t1, l.t2⟩ : Fac n l.k) e.d

theorem dec2_val {l : Low n} {e : Dec2 n l.k} (h : Dec2OK l e) :
    e.d.Q * e.d.P * Matrix.diagonal e.d.ev * (e.d.Q * e.d.P)ᵀ = l.t1 * l.t2 * l.t1ᵀ := by
  have h1 : l.t1 = e.d.Q * e.d.R := h.qr
  have h2 : e.d.R * l.t2 * e.d.Rᵀ = e.d.P * Matrix.diagonal e.d.ev * e.d.Pᵀ := h.eig
  have e1 : e.d.Q * e.d.P * Matrix.diagonal e.d.ev * (e.d.Q * e.d.P)ᵀ = e.d.Q * (e.d.P * Matrix.diagonal e.d.ev * e.d.Pᵀ) * e.d.Qᵀ := by
    rw [Matrix.transpose_mul]
    simp only [Matrix.mul_assoc]
  rw [e1, ← h2, h1, Matrix.transpose_mul]
  simp only [Matrix.mul_assoc]

/-- The factor accumulated by updates and downdates. -/
theorem cholUpd_ok {ι : Type} [Fintype ι] {x : Ext n} (hx : ExtOK x) {E : Matrix (Fin n) ι ℝ} {l : Low n} {e : Dec2 n l.k} (he : Dec2OK l e)
    (h0 : (E * Eᵀ).PosDef) (hT : (E * Eᵀ + l.t1 * l.t2 * l.t1ᵀ).PosDef) :
    ∃ L P, cholUpd x E l e = some (L, P) ∧ Tri L ∧ Pᵀ * P = 1 ∧ (P * L) * (P * L)ᵀ = E * Eᵀ + l.t1 * l.t2 * l.t1ᵀ := by
  have hs := pd_symm h0
  have hok := (hx.ok _ hs).2 h0
  obtain ⟨hL, hLL⟩ := hx.fac _ hs hok
  have hb := hx.perm (E * Eᵀ)
  have hP := permM_orth hb
  have hP' := permM_orth' hb
  unfold cholUpd
  simp only [hok, if_true]
  generalize (x.chol (E * Eᵀ)).L = L0 at hL hLL ⊢
  generalize (x.chol (E * Eᵀ)).pr = pr at hL hLL hb hP hP' ⊢
  obtain ⟨h1, h2⟩ := uChol_up hx (updCols (permM pr)ᵀ e true) hL
  have e1 : uChol x L0 (updCols (permM pr)ᵀ e true) 1 * (uChol x L0 (updCols (permM pr)ᵀ e true) 1)ᵀ
      - ((updCols (permM pr)ᵀ e false).map fun u => Matrix.vecMulVec u u).sum = permM pr * (E * Eᵀ + l.t1 * l.t2 * l.t1ᵀ) * (permM pr)ᵀ := by
    rw [h2, hLL, add_sub_assoc, updCols_sum, dec2_val he, Matrix.transpose_transpose, ← Matrix.add_mul, ← Matrix.mul_add]
  have hpd : (permM pr * (E * Eᵀ + l.t1 * l.t2 * l.t1ᵀ) * (permM pr)ᵀ).PosDef := by
    have := Matrix.PosDef.mul_mul_conjTranspose_same (B := permM pr) hT
      (Matrix.vecMul_injective_of_isUnit (IsUnit.of_mul_eq_one _ hP'))
    rwa [Matrix.conjTranspose_eq_transpose_of_trivial] at this
  obtain ⟨h3, h4⟩ := uChol_down hx (updCols (permM pr)ᵀ e false) h1 (by rw [e1]; exact hpd)
  refine ⟨_, _, rfl, h3, by rw [Matrix.transpose_transpose, hP'], ?_⟩
  rw [Matrix.transpose_mul, Matrix.transpose_transpose]
  have e2 : ∀ X : Mat n, (permM pr)ᵀ * X * (Xᵀ * permM pr) = (permM pr)ᵀ * (X * Xᵀ) * permM pr := by
    intro X
    simp only [Matrix.mul_assoc]
  rw [e2, h4, e1]
  have e3 : ∀ X : Mat n, (permM pr)ᵀ * (permM pr * X * (permM pr)ᵀ) * permM pr = ((permM pr)ᵀ * permM pr) * X * ((permM pr)ᵀ * permM pr) := by
    intro X
    simp only [Matrix.mul_assoc]
  rw [e3, hP, Matrix.one_mul, Matrix.mul_one]

/-- Inverse from a factor. -/
theorem finish_ok {x : Ext n} (hx : ExtOK x) {L P A : Mat n} (hL : Tri L) (hP : Pᵀ * P = 1) (h : (P * L) * (P * L)ᵀ = A) :
    (finish x (L, P)).1 * (finish x (L, P)).1ᵀ = A ∧ (finish x (L, P)).2ᵀ * (finish x (L, P)).2 = A⁻¹ := by
  refine ⟨h, ?_⟩
  change (x.linv L * Pᵀ)ᵀ * (x.linv L * Pᵀ) = A⁻¹
  have hl := hx.linv L hL
  have hl' : L * x.linv L = 1 := mul_eq_one_comm.1 hl
  have hP' : P * Pᵀ = 1 := mul_eq_one_comm.1 hP
  refine (Matrix.inv_eq_left_inv ?_).symm
  rw [← h, Matrix.transpose_mul, Matrix.transpose_mul, Matrix.transpose_transpose]
  have e1 : P * (x.linv L)ᵀ * (x.linv L * Pᵀ) * (P * L * (Lᵀ * Pᵀ)) = P * ((x.linv L)ᵀ * ((x.linv L * (Pᵀ * P) * L) * Lᵀ)) * Pᵀ := by
    simp only [Matrix.mul_assoc]
  rw [e1, hP, Matrix.mul_one, hl, Matrix.one_mul, ← Matrix.transpose_mul, hl', Matrix.transpose_one, Matrix.mul_one, hP']

/-! ## Roots -/

theorem lowHSR1_val (omega : ℝ) (g : Fac n m) (d : Dec n p m) (pd : Option (ℝ × ℝ)) (H0 : Mat n) :
    H0 + (lowHSR1 omega g d pd).t1 * (lowHSR1 omega g d pd).t2 * (lowHSR1 omega g d pd).t1ᵀ = psdVal omega H0 g d pd := by
  unfold lowHSR1 psdVal
  by_cases h : ∃ i, fix omega d i
  · rw [if_pos h, if_pos h, Matrix.transpose_mul]
  · rw [if_neg h, if_neg h]
    rfl

theorem rootFull_sq (Sroot : Matrix (Fin n) (Fin q) ℝ) {omega : ℝ} (ho : 0 ≤ omega) :
    rootFull Sroot omega * (rootFull Sroot omega)ᵀ = Sroot * Srootᵀ + omega • (1 : Mat n) := by
  unfold rootFull
  rw [Matrix.transpose_fromCols, Matrix.fromCols_mul_fromRows, Matrix.transpose_smul, Matrix.transpose_one, Matrix.smul_mul, Matrix.mul_smul, Matrix.one_mul, smul_smul,
    Real.mul_self_sqrt ho]

theorem fdSqrt_mul {x : Fin f → ℝ} (hx : ∀ i, 0 ≤ x i) (i : Fin f) : fdSqrt x i * fdSqrt x i = x i := by
  unfold fdSqrt
  by_cases h : 0 < x i
  · rw [if_pos h, Real.mul_self_sqrt h.le]
  · rw [if_neg h, mul_zero]
    exact le_antisymm (hx i) (not_lt.1 h)

/-- `root2` squares to the scaled identity for the quasi-Newton coefficients. -/
theorem root2_sq {tcols : Fin f ⊕ Fin a → Fin t} (hb : Function.Bijective tcols) {omega : ℝ} (ho : 0 ≤ omega) :
    root2 tcols omega * (root2 tcols omega)ᵀ = P2 tcols * (omega • (1 : Mat a)) * (P2 tcols)ᵀ := by
  unfold root2
  rw [Matrix.diagonal_transpose, Matrix.diagonal_mul_diagonal]
  ext r c
  rw [Matrix.mul_smul, Matrix.mul_one, Matrix.smul_mul, Matrix.smul_apply, Matrix.mul_apply, Matrix.diagonal_apply]
  unfold P2
  simp only [Matrix.of_apply, Matrix.transpose_apply]
  by_cases hrc : r = c
  · subst hrc
    rw [if_pos rfl]
    by_cases h : ∃ j, tcols (Sum.inr j) = r
    · obtain ⟨j, hj⟩ := h
      rw [if_pos ⟨j, hj⟩, Real.mul_self_sqrt ho, Finset.sum_eq_single j]
      · rw [if_pos hj, mul_one, smul_eq_mul, mul_one]
      · intro b _ hbj
        rw [if_neg, mul_zero]
        intro e
        exact hbj (Sum.inr_injective (hb.1 (e.trans hj.symm)))
      · intro hh
        exact absurd (Finset.mem_univ _) hh
    · rw [if_neg h, mul_zero, Finset.sum_eq_zero, smul_zero]
      intro j _
      rw [if_neg (fun e => h ⟨j, e⟩), mul_zero]
  · rw [if_neg hrc, Finset.sum_eq_zero, smul_zero]
    intro j _
    by_cases h : tcols (Sum.inr j) = r
    · rw [if_neg (fun e => hrc (h.symm.trans e)), mul_zero]
    · rw [if_neg h, zero_mul]

/-- Conditions on the finite difference block: `eigh` decomposes it, its eigenvalues are left as they are by `getCholnH`, and `IonHBB` inverts it on the range of the mixed block. -/
structure PartOK (tcols : Fin f ⊕ Fin a → Fin t) (nHfd : Mat t) (I : Mat f) (pd : Option (ℝ × ℝ)) (e : Eig f) : Prop where
  fd : FdOK tcols nHfd
  orth : EigOK e
  eig : BB tcols nHfd = e.U * Matrix.diagonal e.ev * e.Uᵀ
  keep : ∀ i, fdEv pd e i = e.ev i
  nonneg : ∀ i, 0 ≤ e.ev i
  symm : Iᵀ = I
  range : BB tcols nHfd * I * Bb tcols nHfd = Bb tcols nHfd

theorem fdInv_eq {tcols : Fin f ⊕ Fin a → Fin t} {nHfd : Mat t} {I : Mat f} {pd : Option (ℝ × ℝ)} {e : Eig f} (h : PartOK tcols nHfd I pd e) (i : Fin f) :
    fdInv pd e i = if 0 < e.ev i then 1 / e.ev i else 0 := by
  unfold fdInv
  rw [h.keep]

theorem root1_sq {tcols : Fin f ⊕ Fin a → Fin t} {nHfd : Mat t} {I : Mat f} {pd : Option (ℝ × ℝ)} {e : Eig f} (h : PartOK tcols nHfd I pd e) :
    root1 tcols nHfd pd e * (root1 tcols nHfd pd e)ᵀ
      = P1 tcols * Matrix.fromBlocks (BB tcols nHfd) (Bb tcols nHfd) (Bb tcols nHfd)ᵀ ((Bb tcols nHfd)ᵀ * I * Bb tcols nHfd) * (P1 tcols)ᵀ := by
  have hev : fdEv pd e = e.ev := funext h.keep
  have hin : ∀ i, 0 ≤ fdInv pd e i := by
    intro i
    rw [fdInv_eq h]
    by_cases hi : 0 < e.ev i
    · rw [if_pos hi]
      exact (one_div_pos.2 hi).le
    · rw [if_neg hi]
  have hprod : ∀ i, fdSqrt e.ev i * fdSqrt (fdInv pd e) i = e.ev i * fdInv pd e i := by
    intro i
    rw [fdInv_eq h]
    unfold fdSqrt
    rw [fdInv_eq h]
    by_cases hi : 0 < e.ev i
    · rw [if_pos hi, if_pos hi, if_pos (one_div_pos.2 hi), ← Real.sqrt_mul hi.le]
      have : e.ev i * (1 / e.ev i) = 1 := by field_simp
      rw [this, Real.sqrt_one]
    · rw [if_neg hi, if_neg hi, zero_mul, mul_zero]
  set D := Matrix.diagonal (fdSqrt e.ev) with hD
  set D' := Matrix.diagonal (fdSqrt (fdInv pd e)) with hD'
  set G := e.U * Matrix.diagonal (fdInv pd e) * e.Uᵀ with hG
  have hDD : D * D = Matrix.diagonal e.ev := by
    rw [hD, Matrix.diagonal_mul_diagonal]
    congr 1
    funext i
    exact fdSqrt_mul h.nonneg i
  have hDD' : D' * D' = Matrix.diagonal (fdInv pd e) := by
    rw [hD', Matrix.diagonal_mul_diagonal]
    congr 1
    funext i
    exact fdSqrt_mul hin i
  have hDx : D * D' = Matrix.diagonal (fun i => e.ev i * fdInv pd e i) := by
    rw [hD, hD', Matrix.diagonal_mul_diagonal]
    congr 1
    funext i
    exact hprod i
  have hDx' : D' * D = Matrix.diagonal (fun i => e.ev i * fdInv pd e i) := by
    rw [← hDx, hD, hD', Matrix.diagonal_mul_diagonal, Matrix.diagonal_mul_diagonal]
    congr 1
    funext i
    exact mul_comm _ _
  have hBG : BB tcols nHfd * G = e.U * Matrix.diagonal (fun i => e.ev i * fdInv pd e i) * e.Uᵀ := by
    rw [h.eig, hG, diag_sandwich h.orth]
  have hBGB : BB tcols nHfd * G * BB tcols nHfd = BB tcols nHfd := by
    rw [hBG, h.eig, diag_sandwich h.orth]
    congr 2
    congr 1
    funext i
    rw [fdInv_eq h]
    by_cases hi : 0 < e.ev i
    · rw [if_pos hi]
      field_simp
    · rw [if_neg hi]
      have := le_antisymm (not_lt.1 hi) (h.nonneg i)
      rw [this]
      ring
  have hBs : (BB tcols nHfd)ᵀ = BB tcols nHfd := by rw [h.eig, diag_symm]
  have hGs : Gᵀ = G := by rw [hG, diag_symm]
  have hBGb : BB tcols nHfd * G * Bb tcols nHfd = Bb tcols nHfd := by
    conv_lhs => rw [← h.range]
    rw [← Matrix.mul_assoc, ← Matrix.mul_assoc, hBGB, h.range]
  have hr' : (Bb tcols nHfd)ᵀ * I * BB tcols nHfd = (Bb tcols nHfd)ᵀ := by
    have := congrArg Matrix.transpose h.range
    rw [Matrix.transpose_mul, Matrix.transpose_mul, h.symm, hBs, ← Matrix.mul_assoc] at this
    exact this
  have hbGb : (Bb tcols nHfd)ᵀ * G * Bb tcols nHfd = (Bb tcols nHfd)ᵀ * I * Bb tcols nHfd := by
    conv_lhs => rw [← hr']
    rw [Matrix.mul_assoc ((Bb tcols nHfd)ᵀ * I), Matrix.mul_assoc ((Bb tcols nHfd)ᵀ * I), hBGb]
  have hDs : Dᵀ = D := Matrix.diagonal_transpose _
  have hDs' : D'ᵀ = D' := Matrix.diagonal_transpose _
  unfold root1
  rw [hev, Matrix.transpose_mul, ← hD, ← hD']
  have e1 : ∀ X : Matrix (Fin f ⊕ Fin a) (Fin f) ℝ, P1 tcols * X * (Xᵀ * (P1 tcols)ᵀ) = P1 tcols * (X * Xᵀ) * (P1 tcols)ᵀ := by
    intro X
    simp only [Matrix.mul_assoc]
  rw [e1, Matrix.transpose_fromRows, Matrix.fromRows_mul_fromCols]
  simp only [Matrix.transpose_mul, Matrix.transpose_transpose, hDs, hDs']
  have f1 : e.U * D * (D * e.Uᵀ) = BB tcols nHfd := by
    rw [h.eig, ← hDD]
    simp only [Matrix.mul_assoc]
  have f2 : e.U * D * (D' * (e.Uᵀ * Bb tcols nHfd)) = Bb tcols nHfd := by
    have : e.U * D * (D' * (e.Uᵀ * Bb tcols nHfd)) = e.U * (D * D') * e.Uᵀ * Bb tcols nHfd := by simp only [Matrix.mul_assoc]
    rw [this, hDx, ← hBG, hBGb]
  have f3 : (Bb tcols nHfd)ᵀ * e.U * D' * (D * e.Uᵀ) = (Bb tcols nHfd)ᵀ := by
    have : (Bb tcols nHfd)ᵀ * e.U * D' * (D * e.Uᵀ) = (Bb tcols nHfd)ᵀ * (e.U * (D' * D) * e.Uᵀ) := by simp only [Matrix.mul_assoc]
    rw [this, hDx', ← hBG]
    have h2 := congrArg Matrix.transpose hBGb
    have h3 : (BB tcols nHfd * G)ᵀ = BB tcols nHfd * G := by rw [hBG, diag_symm]
    rw [Matrix.transpose_mul, h3] at h2
    exact h2
  have f4 : (Bb tcols nHfd)ᵀ * e.U * D' * (D' * (e.Uᵀ * Bb tcols nHfd)) = (Bb tcols nHfd)ᵀ * I * Bb tcols nHfd := by
    have : (Bb tcols nHfd)ᵀ * e.U * D' * (D' * (e.Uᵀ * Bb tcols nHfd)) = (Bb tcols nHfd)ᵀ * (e.U * (D' * D') * e.Uᵀ) * Bb tcols nHfd := by
      simp only [Matrix.mul_assoc]
    rw [this, hDD', ← hG, hbGb]
  rw [f1, f2, f3, f4]

/-- The pieces collected in `E` and the low-rank part add up to the explicit Hessian plus penalty. -/
theorem rootPart_val {tcols : Fin f ⊕ Fin a → Fin t} {nHfd : Mat t} {I : Mat f} {pd : Option (ℝ × ℝ)} {e : Eig f} (h : PartOK tcols nHfd I pd e)
    (Sroot : Matrix (Fin t) (Fin q) ℝ) {omega : ℝ} (ho : 0 ≤ omega) (l : Low a) :
    rootPart Sroot tcols nHfd pd e omega * (rootPart Sroot tcols nHfd pd e omega)ᵀ + (embedLow tcols l).t1 * (embedLow tcols l).t2 * (embedLow tcols l).t1ᵀ
      = explicitPart tcols nHfd I omega l + Sroot * Srootᵀ := by
  have e0 : rootPart Sroot tcols nHfd pd e omega * (rootPart Sroot tcols nHfd pd e omega)ᵀ
      = Sroot * Srootᵀ + root1 tcols nHfd pd e * (root1 tcols nHfd pd e)ᵀ + root2 tcols omega * (root2 tcols omega)ᵀ := by
    unfold rootPart
    rw [Matrix.transpose_fromCols, Matrix.fromCols_mul_fromRows, Matrix.transpose_fromCols, Matrix.fromCols_mul_fromRows]
  have e1 : (embedLow tcols l).t1 * (embedLow tcols l).t2 * (embedLow tcols l).t1ᵀ = P2 tcols * (l.t1 * l.t2 * l.t1ᵀ) * (P2 tcols)ᵀ := by
    unfold embedLow
    rw [Matrix.transpose_mul]
    simp only [Matrix.mul_assoc]
  rw [e0, e1, root1_sq h, root2_sq h.fd.bij ho, P2_embed, P2_embed]
  unfold explicitPart shExplicit onHbb
  rw [onHfd_blocks h.fd]
  have e2 : ∀ A B C : Matrix (Fin f ⊕ Fin a) (Fin f ⊕ Fin a) ℝ, P1 tcols * A * (P1 tcols)ᵀ + P1 tcols * B * (P1 tcols)ᵀ + P1 tcols * C * (P1 tcols)ᵀ
      = P1 tcols * (A + B + C) * (P1 tcols)ᵀ := by
    intro A B C
    rw [Matrix.mul_add, Matrix.mul_add, Matrix.add_mul, Matrix.add_mul]
  rw [add_assoc (Sroot * Srootᵀ), add_assoc (Sroot * Srootᵀ), e2, Matrix.fromBlocks_add, Matrix.fromBlocks_add, Matrix.fromBlocks_add, add_comm (Sroot * Srootᵀ)]
  congr 4
  all_goals first | abel | simp only [add_zero]

/-- If the penalised Hessian is positive definite then so is the part that is factorised first. -/
theorem base_pd {tcols : Fin f ⊕ Fin a → Fin t} (hb : Function.Bijective tcols) (nHfd : Mat t) (pd : Option (ℝ × ℝ)) (e : Eig f)
    (Sroot : Matrix (Fin t) (Fin q) ℝ) {omega : ℝ} (ho : 0 < omega) (l : Low a)
    (hT : (rootPart Sroot tcols nHfd pd e omega * (rootPart Sroot tcols nHfd pd e omega)ᵀ
      + (embedLow tcols l).t1 * (embedLow tcols l).t2 * (embedLow tcols l).t1ᵀ).PosDef) :
    (rootPart Sroot tcols nHfd pd e omega * (rootPart Sroot tcols nHfd pd e omega)ᵀ).PosDef := by
  set E := rootPart Sroot tcols nHfd pd e omega with hE
  have hsq : ∀ (ι : Type) [Fintype ι] (A : Matrix (Fin t) ι ℝ) (x : Fin t → ℝ), x ⬝ᵥ (A * Aᵀ) *ᵥ x = (Aᵀ *ᵥ x) ⬝ᵥ (Aᵀ *ᵥ x) := by
    intro ι _ A x
    rw [← Matrix.mulVec_mulVec, Matrix.dotProduct_mulVec, ← Matrix.mulVec_transpose]
  refine Matrix.PosDef.of_dotProduct_mulVec_pos (Matrix.isHermitian_mul_conjTranspose_self E) fun x hx => ?_
  rw [star_trivial, hsq]
  refine lt_of_le_of_ne (Finset.sum_nonneg fun i _ => mul_self_nonneg _) fun h0 => ?_
  have hz : Eᵀ *ᵥ x = 0 := dotProduct_self_eq_zero.1 h0.symm
  have hz2 : (root2 tcols omega)ᵀ *ᵥ x = 0 := by
    have : Eᵀ = Matrix.fromRows (Matrix.fromCols Sroot (root1 tcols nHfd pd e))ᵀ (root2 tcols omega)ᵀ := by
      rw [hE]
      unfold rootPart
      rw [Matrix.transpose_fromCols]
    rw [this, Matrix.fromRows_mulVec] at hz
    funext i
    exact congrFun hz (Sum.inr i)
  have hz3 : (P2 tcols)ᵀ *ᵥ x = 0 := by
    have h1 : x ⬝ᵥ (root2 tcols omega * (root2 tcols omega)ᵀ) *ᵥ x = 0 := by rw [hsq, hz2, dotProduct_zero]
    rw [root2_sq hb ho.le, Matrix.mul_smul, Matrix.mul_one, Matrix.smul_mul, Matrix.smul_mulVec, dotProduct_smul, hsq, smul_eq_mul, mul_eq_zero] at h1
    exact dotProduct_self_eq_zero.1 (h1.resolve_left ho.ne')
  have h2 := hT.dotProduct_mulVec_pos hx
  rw [star_trivial, Matrix.add_mulVec, dotProduct_add, hsq, hz, dotProduct_zero, zero_add] at h2
  have e1 : (embedLow tcols l).t1 * (embedLow tcols l).t2 * (embedLow tcols l).t1ᵀ = P2 tcols * (l.t1 * l.t2 * l.t1ᵀ) * (P2 tcols)ᵀ := by
    unfold embedLow
    rw [Matrix.transpose_mul]
    simp only [Matrix.mul_assoc]
  rw [e1, ← Matrix.mulVec_mulVec, hz3, Matrix.mulVec_zero, dotProduct_zero] at h2
  exact lt_irrefl _ h2

/-! ## There are such routines -/

/-- A positive definite matrix has a lower triangular factor with positive diagonal. -/
theorem tri_exists {A : Mat n} (h : A.PosDef) : ∃ L, Tri L ∧ L * Lᵀ = A := by
  set K := LDL.lowerInv h with hK
  have hu : IsUnit K := isUnit_of_invertible _
  have hdiag := LDL.diag_eq_lowerInv_conj h
  have hpos : ∀ i, 0 < LDL.diagEntries h i := by
    have hpd : (K * A * Kᴴ).PosDef := Matrix.PosDef.mul_mul_conjTranspose_same h (Matrix.vecMul_injective_of_isUnit hu)
    intro i
    have := hpd.diag_pos (i := i)
    rw [← hdiag] at this
    simpa [LDL.diag] using this
  have htri : ∀ i j, i < j → K⁻¹ i j = 0 := by
    have hb : K.BlockTriangular OrderDual.toDual := fun i j hij => LDL.lowerInv_triangular h hij
    haveI : Invertible K := hu.invertible
    have := Matrix.blockTriangular_inv_of_blockTriangular hb
    intro i j hij
    exact this hij
  have hdg : ∀ i, K⁻¹ i i ≠ 0 := by
    have hb : (K⁻¹).BlockTriangular OrderDual.toDual := fun i j hij => htri i j hij
    have hd : (K⁻¹).det ≠ 0 := by
      have : IsUnit (K⁻¹) := (Matrix.isUnit_nonsing_inv_iff).2 hu
      rw [Matrix.isUnit_iff_isUnit_det, isUnit_iff_ne_zero] at this
      exact this
    rw [Matrix.det_of_lowerTriangular _ hb] at hd
    intro i
    exact Finset.prod_ne_zero_iff.1 hd i (Finset.mem_univ i)
  let s : Fin n → ℝ := fun i => if 0 < K⁻¹ i i then √(LDL.diagEntries h i) else -√(LDL.diagEntries h i)
  have hss : ∀ i, s i * s i = LDL.diagEntries h i := by
    intro i
    change (if 0 < K⁻¹ i i then √(LDL.diagEntries h i) else -√(LDL.diagEntries h i)) * (if 0 < K⁻¹ i i then √(LDL.diagEntries h i) else -√(LDL.diagEntries h i)) = _
    by_cases hi : 0 < K⁻¹ i i
    · rw [if_pos hi, Real.mul_self_sqrt (hpos i).le]
    · rw [if_neg hi, neg_mul_neg, Real.mul_self_sqrt (hpos i).le]
  refine ⟨K⁻¹ * Matrix.diagonal s, ⟨?_, ?_⟩, ?_⟩
  · intro i j hij
    rw [Matrix.mul_diagonal, htri i j hij, zero_mul]
  · intro i
    rw [Matrix.mul_diagonal]
    change 0 < K⁻¹ i i * (if 0 < K⁻¹ i i then √(LDL.diagEntries h i) else -√(LDL.diagEntries h i))
    by_cases hi : 0 < K⁻¹ i i
    · rw [if_pos hi]
      exact mul_pos hi (Real.sqrt_pos.2 (hpos i))
    · rw [if_neg hi]
      exact mul_pos_of_neg_of_neg (lt_of_le_of_ne (not_lt.1 hi) (hdg i)) (neg_lt_zero.2 (Real.sqrt_pos.2 (hpos i)))
  · rw [Matrix.transpose_mul, Matrix.diagonal_transpose]
    have e1 : K⁻¹ * Matrix.diagonal s * (Matrix.diagonal s * (K⁻¹)ᵀ) = K⁻¹ * (Matrix.diagonal s * Matrix.diagonal s) * (K⁻¹)ᵀ := by
      simp only [Matrix.mul_assoc]
    rw [e1, Matrix.diagonal_mul_diagonal]
    have e2 : (fun i => s i * s i) = LDL.diagEntries h := funext hss
    rw [e2]
    have := LDL.lower_conj_diag h
    rw [Matrix.conjTranspose_eq_transpose_of_trivial] at this
    exact this

theorem permM_id : permM (id : Fin n → Fin n) = 1 := by
  ext i j
  unfold permM
  rw [Matrix.of_apply, Matrix.one_apply]
  by_cases h : i = j
  · rw [if_pos (show id j = i from h.symm), if_pos h]
  · rw [if_neg (show ¬ id j = i from fun e => h e.symm), if_neg h]

open Classical in
/-- The assumptions on the routines can be met, for every size. -/
theorem ext_exists (n : ℕ) : ∃ x : Ext n, ExtOK x := by
  refine ⟨⟨fun A => if h : A.PosDef then ⟨(tri_exists h).choose, id, true⟩ else ⟨1, id, false⟩,
    fun L u sigma => if h : (L * Lᵀ + sigma • Matrix.vecMulVec u u).PosDef then (tri_exists h).choose else L, fun L => L⁻¹⟩, ?_, ?_, ?_, ?_, ?_, ?_⟩
  · intro A
    by_cases h : A.PosDef
    · simp only [dif_pos h]
      exact Function.bijective_id
    · simp only [dif_neg h]
      exact Function.bijective_id
  · intro A _
    by_cases h : A.PosDef
    · simp only [dif_pos h, true_iff]
      exact h
    · simp only [dif_neg h, Bool.false_eq_true, false_iff]
      exact h
  · intro A _ hok
    by_cases h : A.PosDef
    · simp only [dif_pos h]
      refine ⟨(tri_exists h).choose_spec.1, ?_⟩
      rw [(tri_exists h).choose_spec.2, permM_id, Matrix.transpose_one, Matrix.one_mul, Matrix.mul_one]
    · simp only [dif_neg h, Bool.false_eq_true] at hok
  · intro A hok
    by_cases h : A.PosDef
    · simp only [dif_pos h, Bool.true_eq_false] at hok
    · simp only [dif_neg h]
  · intro L u sigma _ h
    simp only [dif_pos h]
    exact ⟨(tri_exists h).choose_spec.1, (tri_exists h).choose_spec.2⟩
  · intro L h
    exact Matrix.nonsing_inv_mul _ ((Matrix.isUnit_iff_isUnit_det L).1 (tri_unit h))

end Verif.Qfac
