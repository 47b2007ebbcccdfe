import Verif.Compact

/-!
# Structured approximation and its inverse (property C40)
-/

namespace Verif.Compact

open Matrix

variable {n m p : ℕ} {t f a : ℕ}

/-! ## Explicit and implicit structured approximation -/

theorem P1_orth {tcols : Fin f ⊕ Fin a → Fin t} (hb : Function.Bijective tcols) : (P1 tcols)ᵀ * P1 tcols = 1 := by
  ext i j
  rw [Matrix.mul_apply, Finset.sum_eq_single (tcols i)]
  · unfold P1
    rw [Matrix.transpose_apply, Matrix.of_apply, Matrix.of_apply, if_pos rfl, one_mul, Matrix.one_apply]
    exact if_congr ⟨fun h => (hb.1 h).symm, fun h => by rw [h]⟩ rfl rfl
  · intro b _ hne
    unfold P1
    rw [Matrix.transpose_apply, Matrix.of_apply, if_neg (Ne.symm hne), zero_mul]
  · intro h
    exact absurd (Finset.mem_univ _) h

theorem P1_orth' {tcols : Fin f ⊕ Fin a → Fin t} (hb : Function.Bijective tcols) : P1 tcols * (P1 tcols)ᵀ = 1 := by
  ext i j
  obtain ⟨b, rfl⟩ := hb.2 i
  rw [Matrix.mul_apply, Finset.sum_eq_single b]
  · unfold P1
    rw [Matrix.transpose_apply, Matrix.of_apply, Matrix.of_apply, if_pos rfl, one_mul, Matrix.one_apply]
  · intro b' _ hne
    unfold P1
    rw [Matrix.of_apply, if_neg (fun h => hne (hb.1 h)), zero_mul]
  · intro h
    exact absurd (Finset.mem_univ _) h

theorem P2_eq (tcols : Fin f ⊕ Fin a → Fin t) :
    P2 tcols = P1 tcols * Matrix.fromRows (0 : Matrix (Fin f) (Fin a) ℝ) 1 := by
  ext i j
  rw [Matrix.mul_apply, Fintype.sum_sum_type]
  simp only [Matrix.fromRows_apply_inl, Matrix.fromRows_apply_inr, Matrix.zero_apply, mul_zero, Finset.sum_const_zero, zero_add]
  rw [Finset.sum_eq_single j]
  · rw [Matrix.one_apply_eq, mul_one]
    rfl
  · intro b _ hne
    rw [Matrix.one_apply_ne hne, mul_zero]
  · intro h
    exact absurd (Finset.mem_univ _) h

theorem P2_embed (tcols : Fin f ⊕ Fin a → Fin t) (X : Matrix (Fin a) (Fin a) ℝ) :
    P2 tcols * X * (P2 tcols)ᵀ = P1 tcols * Matrix.fromBlocks 0 0 0 X * (P1 tcols)ᵀ := by
  rw [P2_eq, Matrix.transpose_mul, Matrix.transpose_fromRows]
  have : Matrix.fromRows (0 : Matrix (Fin f) (Fin a) ℝ) 1 * X * Matrix.fromCols (0 : Matrix (Fin f) (Fin a) ℝ)ᵀ (1 : Matrix (Fin a) (Fin a) ℝ)ᵀ
      = Matrix.fromBlocks 0 0 0 X := by
    rw [Matrix.fromRows_mul, Matrix.fromRows_mul_fromCols]
    simp
  rw [← this]
  simp only [Matrix.mul_assoc]

/-- The finite difference part: symmetric mixed blocks, nothing for the quasi-Newton coefficients. -/
structure FdOK (tcols : Fin f ⊕ Fin a → Fin t) (nHfd : Matrix (Fin t) (Fin t) ℝ) : Prop where
  bij : Function.Bijective tcols
  mixed : ∀ i j, nHfd (tcols (Sum.inr i)) (tcols (Sum.inl j)) = nHfd (tcols (Sum.inl j)) (tcols (Sum.inr i))
  rest : ∀ i j, nHfd (tcols (Sum.inr i)) (tcols (Sum.inr j)) = 0

theorem onHfd_apply (tcols : Fin f ⊕ Fin a → Fin t) (nHfd : Matrix (Fin t) (Fin t) ℝ) (i j : Fin f ⊕ Fin a) :
    onHfd tcols nHfd i j = nHfd (tcols i) (tcols j) := by
  unfold onHfd
  rw [Matrix.mul_apply, Finset.sum_eq_single (tcols j)]
  · rw [Matrix.mul_apply, Finset.sum_eq_single (tcols i)]
    · unfold P1
      rw [Matrix.transpose_apply, Matrix.of_apply, Matrix.of_apply, if_pos rfl, if_pos rfl, one_mul, mul_one]
    · intro b _ hne
      unfold P1
      rw [Matrix.transpose_apply, Matrix.of_apply, if_neg (Ne.symm hne), zero_mul]
    · intro h
      exact absurd (Finset.mem_univ _) h
  · intro b _ hne
    unfold P1
    rw [Matrix.of_apply, if_neg (Ne.symm hne), mul_zero]
  · intro h
    exact absurd (Finset.mem_univ _) h

theorem onHfd_blocks {tcols : Fin f ⊕ Fin a → Fin t} {nHfd : Matrix (Fin t) (Fin t) ℝ} (h : FdOK tcols nHfd) :
    onHfd tcols nHfd = Matrix.fromBlocks (BB tcols nHfd) (Bb tcols nHfd) (Bb tcols nHfd)ᵀ 0 := by
  ext i j
  rcases i with i | i <;> rcases j with j | j
  · rfl
  · rfl
  · rw [Matrix.fromBlocks_apply₂₁, Matrix.transpose_apply, onHfd_apply, h.mixed]
    exact (onHfd_apply tcols nHfd (Sum.inl j) (Sum.inr i)).symm
  · rw [Matrix.fromBlocks_apply₂₂, Matrix.zero_apply, onHfd_apply, h.rest]

/-- The pieces returned with `explicit=False` add up to the matrix returned with `explicit=True`. -/
theorem sh_implicit_eq {tcols : Fin f ⊕ Fin a → Fin t} {nHfd : Matrix (Fin t) (Fin t) ℝ} (h : FdOK tcols nHfd)
    (I : Matrix (Fin f) (Fin f) ℝ) (H0 : Matrix (Fin a) (Fin a) ℝ) (damp : Bool) (hdamp : damp = true → Bb tcols nHfd = 0)
    {q : ℕ} (qa1 : Matrix (Fin a) (Fin q) ℝ) (qa2 : Matrix (Fin q) (Fin q) ℝ) (qa3 : Matrix (Fin q) (Fin a) ℝ) :
    shImplicit tcols nHfd I H0 damp qa1 qa2 qa3 = shExplicit tcols nHfd I H0 (qa1 * qa2 * qa3) := by
  unfold shImplicit shExplicit
  have e2 : nH2t1 tcols nHfd * I * nH2t3 tcols nHfd
      = P1 tcols * Matrix.fromBlocks 0 0 0 ((Bb tcols nHfd)ᵀ * I * Bb tcols nHfd) * (P1 tcols)ᵀ := by
    rw [← P2_embed]
    unfold nH2t1 nH2t3
    simp only [Matrix.mul_assoc]
  have e4 : (P2 tcols * qa1) * qa2 * (qa3 * (P2 tcols)ᵀ)
      = P1 tcols * Matrix.fromBlocks 0 0 0 (qa1 * qa2 * qa3) * (P1 tcols)ᵀ := by
    rw [← P2_embed]
    simp only [Matrix.mul_assoc]
  have e3 : (if damp then (0 : Matrix (Fin t) (Fin t) ℝ) else nH3t1 tcols nHfd * nH3t3 tcols nHfd)
      = P1 tcols * Matrix.fromBlocks 0 (Bb tcols nHfd) (Bb tcols nHfd)ᵀ 0 * (P1 tcols)ᵀ := by
    cases damp with
    | true =>
      rw [hdamp rfl, if_pos rfl, Matrix.transpose_zero, Matrix.fromBlocks_zero, Matrix.mul_zero, Matrix.zero_mul]
    | false =>
      rw [if_neg (by simp)]
      unfold nH3t1 nH3t3
      rw [Matrix.mul_assoc, ← Matrix.mul_assoc (Matrix.fromBlocks _ _ _ _), Matrix.fromBlocks_multiply, ← Matrix.mul_assoc]
      simp
  rw [e2, e3, e4, onHfd_blocks h]
  unfold nH1 onHbb
  rw [← Matrix.add_mul, ← Matrix.add_mul, ← Matrix.add_mul, ← Matrix.mul_add, ← Matrix.mul_add, ← Matrix.mul_add]
  simp only [Matrix.fromBlocks_add, add_zero, zero_add]
  congr 3
  abel

/-- Positive semidefinite, given the range condition that `makepdd_fd2llk` establishes. -/
theorem sh_psd {tcols : Fin f ⊕ Fin a → Fin t} {nHfd : Matrix (Fin t) (Fin t) ℝ} (h : FdOK tcols nHfd)
    {I : Matrix (Fin f) (Fin f) ℝ} {H0 qa : Matrix (Fin a) (Fin a) ℝ}
    (hBB : (BB tcols nHfd).PosSemidef) (hI : Iᵀ = I) (hI2 : I * BB tcols nHfd * I = I)
    (hr : BB tcols nHfd * I * Bb tcols nHfd = Bb tcols nHfd) (hS : (H0 + qa).PosSemidef) :
    (shExplicit tcols nHfd I H0 qa).PosSemidef := by
  have e1 : onHfd tcols nHfd + Matrix.fromBlocks 0 0 0 (onHbb tcols nHfd I H0 qa)
      = (Matrix.fromCols 1 (I * Bb tcols nHfd))ᵀ * BB tcols nHfd * Matrix.fromCols 1 (I * Bb tcols nHfd)
        + (Matrix.fromCols 0 1)ᵀ * (H0 + qa) * Matrix.fromCols (0 : Matrix (Fin a) (Fin f) ℝ) 1 := by
    have hBs : (BB tcols nHfd)ᵀ = BB tcols nHfd := by
      rw [← Matrix.conjTranspose_eq_transpose_of_trivial]
      exact hBB.1
    have hr' : (Bb tcols nHfd)ᵀ * I * BB tcols nHfd = (Bb tcols nHfd)ᵀ := by
      conv_rhs => rw [← hr]
      rw [Matrix.transpose_mul, Matrix.transpose_mul, hI, hBs, Matrix.mul_assoc]
    rw [onHfd_blocks h, Matrix.transpose_fromCols, Matrix.transpose_fromCols, Matrix.fromRows_mul _ _ (BB tcols nHfd), Matrix.fromRows_mul _ _ (H0 + qa),
      Matrix.fromRows_mul_fromCols, Matrix.fromRows_mul_fromCols, Matrix.fromBlocks_add, Matrix.fromBlocks_add]
    unfold onHbb
    rw [Matrix.transpose_mul, hI, hr']
    have e3 : (Bb tcols nHfd)ᵀ * (I * Bb tcols nHfd) = (Bb tcols nHfd)ᵀ * I * Bb tcols nHfd := (Matrix.mul_assoc _ _ _).symm
    have e4 : BB tcols nHfd * (I * Bb tcols nHfd) = Bb tcols nHfd := by rw [← Matrix.mul_assoc, hr]
    simp [e3, e4, add_comm]
  have hPS : ∀ (X : Matrix (Fin f ⊕ Fin a) (Fin f ⊕ Fin a) ℝ), X.PosSemidef → (P1 tcols * X * (P1 tcols)ᵀ).PosSemidef := by
    intro X hX
    have := hX.mul_mul_conjTranspose_same (P1 tcols)
    rwa [Matrix.conjTranspose_eq_transpose_of_trivial] at this
  unfold shExplicit
  rw [e1]
  refine hPS _ (Matrix.PosSemidef.add ?_ ?_)
  · have := hBB.conjTranspose_mul_mul_same (Matrix.fromCols (1 : Matrix (Fin f) (Fin f) ℝ) (I * Bb tcols nHfd))
    rwa [Matrix.conjTranspose_eq_transpose_of_trivial] at this
  · have := hS.conjTranspose_mul_mul_same (Matrix.fromCols (0 : Matrix (Fin a) (Fin f) ℝ) (1 : Matrix (Fin a) (Fin a) ℝ))
    rwa [Matrix.conjTranspose_eq_transpose_of_trivial] at this

/-- The structured approximation reproduces the gradient difference in the quasi-Newton coefficients. -/
theorem sh_secant {tcols : Fin f ⊕ Fin a → Fin t} {nHfd : Matrix (Fin t) (Fin t) ℝ} (h : FdOK tcols nHfd)
    {I : Matrix (Fin f) (Fin f) ℝ} {H0 qa : Matrix (Fin a) (Fin a) ℝ} {s y : Fin t → ℝ}
    (hq : (H0 + qa) *ᵥ (fun i => s (tcols (Sum.inr i))) = fun i => ycorr tcols nHfd I s y (tcols (Sum.inr i))) (i : Fin a) :
    (shExplicit tcols nHfd I H0 qa *ᵥ s) (tcols (Sum.inr i)) = y (tcols (Sum.inr i)) := by
  have e1 : shExplicit tcols nHfd I H0 qa
      = nHfd + P2 tcols * ((H0 + qa) + (Bb tcols nHfd)ᵀ * I * Bb tcols nHfd) * (P2 tcols)ᵀ := by
    unfold shExplicit
    rw [Matrix.mul_add, Matrix.add_mul, P2_embed]
    congr 1
    unfold onHfd
    have := P1_orth' h.bij
    calc P1 tcols * ((P1 tcols)ᵀ * nHfd * P1 tcols) * (P1 tcols)ᵀ
        = (P1 tcols * (P1 tcols)ᵀ) * nHfd * (P1 tcols * (P1 tcols)ᵀ) := by simp only [Matrix.mul_assoc]
      _ = nHfd := by rw [this, Matrix.one_mul, Matrix.mul_one]
  have hP2 : ∀ v : Fin a → ℝ, (P2 tcols *ᵥ v) (tcols (Sum.inr i)) = v i := by
    intro v
    change ∑ j, P2 tcols (tcols (Sum.inr i)) j * v j = _
    rw [Finset.sum_eq_single i]
    · unfold P2
      rw [Matrix.of_apply, if_pos rfl, one_mul]
    · intro b _ hne
      unfold P2
      rw [Matrix.of_apply, if_neg (fun hh => hne (Sum.inr_injective (h.bij.1 hh))), zero_mul]
    · intro hh
      exact absurd (Finset.mem_univ _) hh
  have hP2t : (P2 tcols)ᵀ *ᵥ s = fun j => s (tcols (Sum.inr j)) := by
    funext j
    change ∑ k, (P2 tcols)ᵀ j k * s k = _
    rw [Finset.sum_eq_single (tcols (Sum.inr j))]
    · unfold P2
      rw [Matrix.transpose_apply, Matrix.of_apply, if_pos rfl, one_mul]
    · intro b _ hne
      unfold P2
      rw [Matrix.transpose_apply, Matrix.of_apply, if_neg (Ne.symm hne), zero_mul]
    · intro hh
      exact absurd (Finset.mem_univ _) hh
  have hq' := congrFun hq i
  unfold ycorr at hq'
  rw [e1, Matrix.add_mulVec, Matrix.mul_add, Matrix.add_mul, Matrix.add_mulVec]
  have e5 : ((P2 tcols * (H0 + qa) * (P2 tcols)ᵀ) *ᵥ s) (tcols (Sum.inr i))
      = ((H0 + qa) *ᵥ (fun j => s (tcols (Sum.inr j)))) i := by
    rw [← Matrix.mulVec_mulVec, hP2t, ← Matrix.mulVec_mulVec, hP2]
  have e6 : P2 tcols * ((Bb tcols nHfd)ᵀ * I * Bb tcols nHfd) * (P2 tcols)ᵀ
      = P2 tcols * (Bb tcols nHfd)ᵀ * I * Bb tcols nHfd * (P2 tcols)ᵀ := by
    simp only [Matrix.mul_assoc]
  rw [Pi.add_apply, Pi.add_apply, e5, hq', e6]
  simp only [Pi.sub_apply]
  ring

/-! ## The finite difference block made positive (semi)definite -/

/-- What `eigh` returns for `onHBB`. -/
structure EigOK (e : Eig f) : Prop where
  orth : e.Uᵀ * e.U = 1

theorem diag_sandwich {e : Eig f} (he : EigOK e) (x z : Fin f → ℝ) :
    (e.U * Matrix.diagonal x * e.Uᵀ) * (e.U * Matrix.diagonal z * e.Uᵀ) = e.U * Matrix.diagonal (fun i => x i * z i) * e.Uᵀ := by
  have : (e.U * Matrix.diagonal x * e.Uᵀ) * (e.U * Matrix.diagonal z * e.Uᵀ)
      = e.U * Matrix.diagonal x * (e.Uᵀ * e.U) * Matrix.diagonal z * e.Uᵀ := by simp only [Matrix.mul_assoc]
  rw [this, he.orth, Matrix.mul_one, Matrix.mul_assoc e.U, Matrix.diagonal_mul_diagonal]

theorem diag_symm (e : Eig f) (x : Fin f → ℝ) : (e.U * Matrix.diagonal x * e.Uᵀ)ᵀ = e.U * Matrix.diagonal x * e.Uᵀ := by
  rw [Matrix.transpose_mul, Matrix.transpose_mul, Matrix.transpose_transpose, Matrix.diagonal_transpose, Matrix.mul_assoc]

/-- `makepdd_fd2llk` establishes the hypotheses of `sh_psd` on its blocks. -/
theorem makepdd_ok {e : Eig f} (he : EigOK e) (mkPd : Bool) {thresh : ℝ} (ht : 0 < thresh) (damp : ℝ)
    (B : Matrix (Fin f) (Fin a) ℝ) :
    (pdBB true mkPd thresh e).PosSemidef ∧ (pdInv true mkPd thresh e)ᵀ = pdInv true mkPd thresh e ∧
    pdInv true mkPd thresh e * pdBB true mkPd thresh e * pdInv true mkPd thresh e = pdInv true mkPd thresh e ∧
    pdBB true mkPd thresh e * pdInv true mkPd thresh e * pdBb true mkPd thresh damp e B = pdBb true mkPd thresh damp e B := by
  have hnn : ∀ i, 0 ≤ pdEv true mkPd thresh e i := by
    intro i
    unfold pdEv
    cases mkPd with
    | true =>
      simp only [Bool.and_self, if_true]
      by_cases h : e.ev i ≤ thresh
      · rw [if_pos h]
        exact ht.le
      · rw [if_neg h]
        exact (ht.trans (not_le.1 h)).le
    | false =>
      simp only [Bool.false_and, if_true]
      rw [if_neg (by simp)]
      by_cases h : e.ev i ≤ 0
      · rw [if_pos h]
      · rw [if_neg h]
        exact (not_le.1 h).le
  refine ⟨?_, diag_symm _ _, ?_, ?_⟩
  · unfold pdBB
    have hd : (Matrix.diagonal (pdEv true mkPd thresh e)).PosSemidef := Matrix.PosSemidef.diagonal hnn
    have := hd.mul_mul_conjTranspose_same e.U
    rwa [Matrix.conjTranspose_eq_transpose_of_trivial] at this
  · unfold pdBB pdInv
    rw [diag_sandwich he, diag_sandwich he]
    congr 2
    congr 1
    funext i
    by_cases h0 : pdEv true mkPd thresh e i = 0
    · simp [h0]
    · simp [h0]
  · cases mkPd with
    | false =>
      unfold pdBb
      rw [if_pos (by rfl)]
      unfold pdBB pdInv
      rw [← Matrix.mul_assoc, diag_sandwich he, diag_sandwich he]
      congr 3
      congr 1
      funext i
      by_cases h0 : pdEv true false thresh e i = 0
      · simp [h0]
      · simp [h0]
    | true =>
      have hpos : ∀ i, pdEv true true thresh e i ≠ 0 := by
        intro i
        unfold pdEv
        simp only [Bool.and_self, if_true]
        by_cases h : e.ev i ≤ thresh
        · rw [if_pos h]
          exact ht.ne'
        · rw [if_neg h]
          exact (ht.trans (not_le.1 h)).ne'
      have h1 : pdBB true true thresh e * pdInv true true thresh e = 1 := by
        unfold pdBB pdInv
        rw [diag_sandwich he]
        have : (fun i => pdEv true true thresh e i * (if (true && true) = true then 1 / pdEv true true thresh e i
            else if pdEv true true thresh e i ≠ 0 then 1 / pdEv true true thresh e i else 0)) = fun _ => 1 := by
          funext i
          simp [hpos i]
        rw [this, Matrix.diagonal_one, Matrix.mul_one]
        exact mul_eq_one_comm.1 he.orth
      rw [h1, Matrix.one_mul]

/-! ## The Woodbury steps -/

/-- What the singular value decomposition returns. -/
structure SvdOK {k : ℕ} (K : Matrix (Fin k) (Fin k) ℝ) (d : Svd k) : Prop where
  dec : K = d.U * Matrix.diagonal d.sv * d.VT
  orthU : d.Uᵀ * d.U = 1
  orthV : d.VT * d.VTᵀ = 1

theorem svdInv_mul {k : ℕ} {K : Matrix (Fin k) (Fin k) ℝ} {d : Svd k} (h : SvdOK K d) (eps : ℝ) :
    svdInv eps d * K = d.VTᵀ * Matrix.diagonal (fun i => 1 / (if d.sv i < eps then eps else d.sv i) * d.sv i) * d.VT := by
  conv_lhs => rw [h.dec]
  unfold svdInv
  have : d.VTᵀ * Matrix.diagonal (fun i => 1 / (if d.sv i < eps then eps else d.sv i)) * d.Uᵀ * (d.U * Matrix.diagonal d.sv * d.VT)
      = d.VTᵀ * Matrix.diagonal (fun i => 1 / (if d.sv i < eps then eps else d.sv i)) * (d.Uᵀ * d.U) * Matrix.diagonal d.sv * d.VT := by
    simp only [Matrix.mul_assoc]
  rw [this, h.orthU, Matrix.mul_one, Matrix.mul_assoc d.VTᵀ, Matrix.diagonal_mul_diagonal]

/-- Inverting through the singular values is exact exactly when none is raised. -/
theorem svdInv_exact_iff {k : ℕ} {K : Matrix (Fin k) (Fin k) ℝ} {d : Svd k} (h : SvdOK K d) {eps : ℝ} (he : 0 < eps) :
    svdInv eps d * K = 1 ↔ ∀ i, eps ≤ d.sv i := by
  rw [svdInv_mul h]
  constructor
  · intro h1 i
    have h2 : Matrix.diagonal (fun i => 1 / (if d.sv i < eps then eps else d.sv i) * d.sv i) = (1 : Matrix (Fin k) (Fin k) ℝ) := by
      have h3 : d.VT * (d.VTᵀ * Matrix.diagonal (fun i => 1 / (if d.sv i < eps then eps else d.sv i) * d.sv i) * d.VT) * d.VTᵀ
          = d.VT * 1 * d.VTᵀ := by rw [h1]
      have h4 : ∀ X : Matrix (Fin k) (Fin k) ℝ, d.VT * (d.VTᵀ * X * d.VT) * d.VTᵀ = X := by
        intro X
        calc d.VT * (d.VTᵀ * X * d.VT) * d.VTᵀ = (d.VT * d.VTᵀ) * X * (d.VT * d.VTᵀ) := by simp only [Matrix.mul_assoc]
          _ = X := by rw [h.orthV, Matrix.one_mul, Matrix.mul_one]
      rwa [h4, Matrix.mul_one, h.orthV] at h3
    by_contra hlt
    push Not at hlt
    have h5 := congrFun (congrFun h2 i) i
    rw [Matrix.diagonal_apply_eq, Matrix.one_apply_eq, if_pos hlt] at h5
    rw [one_div, inv_mul_eq_one₀ he.ne'] at h5
    exact absurd h5 hlt.ne'
  · intro h1
    have : (fun i => 1 / (if d.sv i < eps then eps else d.sv i) * d.sv i) = fun _ => 1 := by
      funext i
      rw [if_neg (not_lt.2 (h1 i)), one_div, inv_mul_cancel₀ (he.trans_le (h1 i)).ne']
    rw [this, Matrix.diagonal_one, Matrix.mul_one]
    exact mul_eq_one_comm.1 h.orthV

/-- Along the corrections: decompositions are right and no singular value is raised. -/
def StepsOK (svd : (k : ℕ) → Matrix (Fin k) (Fin k) ℝ → Svd k) (eps : ℝ) : Matrix (Fin t) (Fin t) ℝ → List (Corr t) → Prop
  | _, [] => True
  | V, c :: cs => SvdOK (invt2 V c) (svd c.k (invt2 V c)) ∧ (∀ i, eps ≤ (svd c.k (invt2 V c)).sv i ∧ 0 < (svd c.k (invt2 V c)).sv i) ∧
      StepsOK svd eps (woodbury svd eps V c) cs

theorem woodbury_inv {svd : (k : ℕ) → Matrix (Fin k) (Fin k) ℝ → Svd k} {eps : ℝ} {V A : Matrix (Fin t) (Fin t) ℝ} {c : Corr t}
    (hV : V * A = 1) (hK : svdInv eps (svd c.k (invt2 V c)) * invt2 V c = 1) :
    woodbury svd eps V c * (A + c.val) = 1 := by
  unfold woodbury Corr.val
  have hK' : svdInv eps (svd c.k (invt2 V c)) * (1 + c.t2 * c.t3 * (V * c.t1)) = 1 := hK
  generalize svdInv eps (svd c.k (invt2 V c)) = Ki at hK' ⊢
  rw [Matrix.mul_add, Matrix.mul_one] at hK'
  have h1 : Ki * (c.t2 * c.t3 * (V * c.t1)) = 1 - Ki := by
    rw [← hK']
    abel
  rw [Matrix.sub_mul, Matrix.mul_add, Matrix.mul_add, hV]
  have e1 : V * c.t1 * Ki * (c.t2 * (c.t3 * V)) * A = V * c.t1 * Ki * (c.t2 * c.t3) := by
    calc _ = V * c.t1 * Ki * (c.t2 * c.t3) * (V * A) := by simp only [Matrix.mul_assoc]
      _ = _ := by rw [hV, Matrix.mul_one]
  have e2 : V * c.t1 * Ki * (c.t2 * (c.t3 * V)) * (c.t1 * c.t2 * c.t3)
      = V * c.t1 * (Ki * (c.t2 * c.t3 * (V * c.t1))) * (c.t2 * c.t3) := by simp only [Matrix.mul_assoc]
  rw [e1, e2, h1, Matrix.mul_sub, Matrix.mul_one, Matrix.sub_mul]
  have e3 : V * (c.t1 * c.t2 * c.t3) = V * c.t1 * (c.t2 * c.t3) := by simp only [Matrix.mul_assoc]
  rw [e3]
  abel

theorem foldl_inv {svd : (k : ℕ) → Matrix (Fin k) (Fin k) ℝ → Svd k} {eps : ℝ} (cs : List (Corr t)) :
    ∀ {V A : Matrix (Fin t) (Fin t) ℝ}, V * A = 1 → StepsOK svd eps V cs →
      cs.foldl (woodbury svd eps) V * (A + (cs.map Corr.val).sum) = 1 := by
  induction cs with
  | nil =>
    intro V A hV _
    simpa using hV
  | cons c cs ih =>
    intro V A hV hs
    obtain ⟨h1, h2, h3⟩ := hs
    have hK : svdInv eps (svd c.k (invt2 V c)) * invt2 V c = 1 := by
      rw [svdInv_mul h1]
      have : (fun i => 1 / (if (svd c.k (invt2 V c)).sv i < eps then eps else (svd c.k (invt2 V c)).sv i)
          * (svd c.k (invt2 V c)).sv i) = fun _ => 1 := by
        funext i
        rw [if_neg (not_lt.2 (h2 i).1), one_div, inv_mul_cancel₀ (h2 i).2.ne']
      rw [this, Matrix.diagonal_one, Matrix.mul_one]
      exact mul_eq_one_comm.1 h1.orthV
    have := ih (woodbury_inv hV hK) h3
    rw [List.foldl_cons, List.map_cons, List.sum_cons, ← add_assoc]
    exact this

/-- The implicitly formed inverse is the inverse of approximation plus penalty. -/
theorem svps_inverse {svd : (k : ℕ) → Matrix (Fin k) (Fin k) ℝ → Svd k} {eps : ℝ}
    {inv0 : Matrix (Fin t) (Fin t) ℝ → Matrix (Fin t) (Fin t) ℝ} {pre : Bool} {H1 S : Matrix (Fin t) (Fin t) ℝ} {cs : List (Corr t)}
    (hd : ∀ i, (H1 + S) i i ≠ 0)
    (h0 : inv0 (precond pre (H1 + S) * (H1 + S) * precond pre (H1 + S)) * (precond pre (H1 + S) * (H1 + S) * precond pre (H1 + S)) = 1)
    (hs : StepsOK svd eps (inv0 (precond pre (H1 + S) * (H1 + S) * precond pre (H1 + S))) (cs.map (Corr.cond (precond pre (H1 + S))))) :
    svps svd eps inv0 pre H1 S cs * (H1 + (cs.map Corr.val).sum + S) = 1 := by
  have hD : ∃ E : Matrix (Fin t) (Fin t) ℝ, precond pre (H1 + S) * E = 1 := by
    refine ⟨Matrix.diagonal fun i => (if pre then |(H1 + S) i i| ^ (-(1 / 2 : ℝ)) else 1)⁻¹, ?_⟩
    unfold precond
    rw [Matrix.diagonal_mul_diagonal, ← Matrix.diagonal_one]
    congr 1
    funext i
    refine mul_inv_cancel₀ ?_
    cases pre with
    | true =>
      rw [if_pos rfl]
      exact (Real.rpow_pos_of_pos (abs_pos.2 (hd i)) _).ne'
    | false => simp
  unfold svps
  generalize precond pre (H1 + S) = D at hD h0 hs ⊢
  obtain ⟨E, hE⟩ := hD
  have h1 := foldl_inv _ h0 hs
  have h2 : ((cs.map (Corr.cond D)).map Corr.val).sum = D * (cs.map Corr.val).sum * D := by
    clear hs h1
    induction cs with
    | nil => simp
    | cons c cs ih =>
      rw [List.map_cons, List.map_cons, List.sum_cons, List.map_cons, List.sum_cons, ih, Matrix.mul_add, Matrix.add_mul]
      congr 1
      unfold Corr.cond Corr.val
      simp only [Matrix.mul_assoc]
  rw [h2, ← Matrix.add_mul, ← Matrix.mul_add] at h1
  simp only
  generalize (List.map (Corr.cond D) cs).foldl (woodbury svd eps) (inv0 (D * (H1 + S) * D)) = W at h1 ⊢
  have h3 : H1 + (cs.map Corr.val).sum + S = H1 + S + (cs.map Corr.val).sum := by abel
  rw [h3]
  generalize H1 + S + (cs.map Corr.val).sum = X at h1 ⊢
  calc D * W * D * X = D * (W * (D * X * D)) * E := by
        have : D * (W * (D * X * D)) * E = D * W * D * X * (D * E) := by simp only [Matrix.mul_assoc]
        rw [this, hE, Matrix.mul_one]
    _ = 1 := by rw [h1, Matrix.mul_one, hE]

/-- Without finite differences: the inverse of the (shifted) approximation plus penalty. -/
theorem implicitV_inverse {svd : (k : ℕ) → Matrix (Fin k) (Fin k) ℝ → Svd k}
    {inv0 : Matrix (Fin t) (Fin t) ℝ → Matrix (Fin t) (Fin t) ℝ} {omega : ℝ} {S : Matrix (Fin t) (Fin t) ℝ} {c : Corr t}
    (h0 : inv0 (omega • (1 : Matrix (Fin t) (Fin t) ℝ) + S) * (omega • (1 : Matrix (Fin t) (Fin t) ℝ) + S) = 1)
    (hs : StepsOK svd 0 (inv0 (omega • (1 : Matrix (Fin t) (Fin t) ℝ) + S)) [c]) :
    implicitV svd inv0 omega S c * ((omega • (1 : Matrix (Fin t) (Fin t) ℝ) + c.val) + S) = 1 := by
  have h := foldl_inv [c] h0 hs
  have e : (omega • (1 : Matrix (Fin t) (Fin t) ℝ) + c.val) + S = omega • (1 : Matrix (Fin t) (Fin t) ℝ) + S + ([c].map Corr.val).sum := by
    simp only [List.map_cons, List.map_nil, List.sum_cons, List.sum_nil, add_zero]
    abel
  rw [e]
  exact h

end Verif.Compact
