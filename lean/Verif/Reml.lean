import Verif.RemlModel
import Verif.ReparaAsm
import Mathlib.Analysis.Matrix.Spectrum
import Mathlib.Analysis.Matrix.PosDef
import Mathlib.LinearAlgebra.Matrix.Charpoly.Basic
import Mathlib.LinearAlgebra.Matrix.Block
import Mathlib.Algebra.Order.Star.Real

/-!
# The REML score (property C38)
-/

namespace Verif.Reml

open Verif.ReparaAsm Matrix Polynomial

/-- Generalised determinant: product of the nonzero eigenvalues. -/
noncomputable def pdet {n : Type} [Fintype n] [DecidableEq n] (A : Matrix n n ℝ) : ℝ :=
  (A.charpoly.roots.filter (fun x => x ≠ 0)).prod

/-- The same for a polynomial. -/
noncomputable def nzProd (p : ℝ[X]) : ℝ := (p.roots.filter (fun x => x ≠ 0)).prod

theorem nzProd_mul (p q : ℝ[X]) (hp : p ≠ 0) (hq : q ≠ 0) : nzProd (p * q) = nzProd p * nzProd q := by
  unfold nzProd
  rw [Polynomial.roots_mul (mul_ne_zero hp hq), Multiset.filter_add, Multiset.prod_add]

theorem nzProd_X_pow (k : ℕ) : nzProd (X ^ k) = 1 := by
  unfold nzProd
  rw [Polynomial.roots_pow, Polynomial.roots_X, Multiset.nsmul_singleton, Multiset.filter_eq_nil.2]
  · rfl
  · intro a ha
    have := Multiset.eq_of_mem_replicate ha
    simp [this]

theorem nzProd_posDef {n : Type} [Fintype n] [DecidableEq n] (A : Matrix n n ℝ) (hA : A.PosDef) :
    nzProd A.charpoly = A.det := by
  unfold nzProd
  rw [Multiset.filter_eq_self.2]
  · rw [Matrix.det_eq_prod_roots_charpoly_of_splits hA.1.splits_charpoly]
  · intro a ha
    rw [hA.1.roots_charpoly_eq_eigenvalues, Multiset.mem_map] at ha
    obtain ⟨i, -, rfl⟩ := ha
    have := hA.eigenvalues_pos i
    simpa using this.ne'

/-! ## Characteristic polynomial of a block diagonal matrix -/

theorem seq_shift (f : Piece → Arr) (L : List Piece) (c d i j : ℕ) :
    seq f L (c + d) (c + i) (c + j) = seq f L d i j := by
  induction L generalizing d with
  | nil => rfl
  | cons x L ih =>
    rw [seq_cons, seq_cons, show c + d + x.sz = c + (d + x.sz) by omega, ih]
    congr 1
    unfold blk
    by_cases h : d ≤ i ∧ i < d + x.sz ∧ d ≤ j ∧ j < d + x.sz
    · rw [if_pos h, if_pos (by omega)]
      congr 1 <;> omega
    · rw [if_neg h, if_neg (by omega)]

theorem toM_blocks (a b : ℕ) (M A B : Arr) (h11 : ∀ i j, i < a → j < a → M i j = A i j)
    (h12 : ∀ i j, i < a → j < b → M i (a + j) = 0) (h21 : ∀ i j, i < b → j < a → M (a + i) j = 0)
    (h22 : ∀ i j, i < b → j < b → M (a + i) (a + j) = B i j) :
    toM (a + b) M = Matrix.reindex finSumFinEquiv finSumFinEquiv
      (Matrix.fromBlocks (toM a A) 0 0 (toM b B)) := by
  ext i j
  rw [Matrix.reindex_apply, Matrix.submatrix_apply]
  obtain ⟨i, rfl⟩ := finSumFinEquiv.surjective i
  obtain ⟨j, rfl⟩ := finSumFinEquiv.surjective j
  rw [Equiv.symm_apply_apply, Equiv.symm_apply_apply]
  unfold toM
  rcases i with i | i <;> rcases j with j | j
  · simpa using h11 i j i.2 j.2
  · simpa using h12 i j i.2 j.2
  · simpa using h21 i j i.2 j.2
  · simpa using h22 i j i.2 j.2

theorem charpoly_blocks (a b : ℕ) (M A B : Arr) (h11 : ∀ i j, i < a → j < a → M i j = A i j)
    (h12 : ∀ i j, i < a → j < b → M i (a + j) = 0) (h21 : ∀ i j, i < b → j < a → M (a + i) j = 0)
    (h22 : ∀ i j, i < b → j < b → M (a + i) (a + j) = B i j) :
    (toM (a + b) M).charpoly = (toM a A).charpoly * (toM b B).charpoly := by
  rw [toM_blocks a b M A B h11 h12 h21 h22, Matrix.charpoly_reindex, Matrix.charpoly_fromBlocks_zero₁₂]

theorem toM_zero (n : ℕ) : toM n zero = 0 := by
  ext i j; rfl

theorem charpoly_seq (f : Piece → Arr) (L : List Piece) (n : ℕ) (hn : n = len L) :
    (toM n (seq f L 0)).charpoly = (L.map fun x => (toM x.sz (f x)).charpoly).prod := by
  induction L generalizing n with
  | nil =>
    have : n = 0 := hn
    subst this
    rw [show seq f [] 0 = zero from rfl, toM_zero, Matrix.charpoly_zero]
    simp
  | cons x L ih =>
    have hl : len (x :: L) = x.sz + len L := by simp [len]
    subst hn
    rw [hl, charpoly_blocks x.sz (len L) _ (f x) (seq f L 0), ih _ rfl, List.map_cons, List.prod_cons]
    · intro i j hi hj
      rw [seq_cons, seq_out _ _ _ _ _ (by omega), add_zero]
      unfold blk
      rw [if_pos (by omega), Nat.sub_zero, Nat.sub_zero]
    · intro i j hi hj
      rw [seq_cons, seq_out _ _ _ _ _ (by omega), blk_out _ _ _ _ _ (by omega), add_zero]
    · intro i j hi hj
      rw [seq_cons, seq_out _ _ _ _ _ (by omega), blk_out _ _ _ _ _ (by omega), add_zero]
    · intro i j hi hj
      rw [seq_cons, blk_out _ _ _ _ _ (by omega), zero_add]
      have := seq_shift f L x.sz 0 i j
      rw [zero_add]
      rwa [add_zero] at this

/-- `S_rep` of a term: positive definite in its first `rk t` rows and columns, zero elsewhere. -/
structure RankOK (rk : Term → ℕ) (t : Term) : Prop where
  le : rk t ≤ t.size
  pd : (toM (rk t) t.R).PosDef
  out : ∀ i j, rk t ≤ i ∨ rk t ≤ j → t.R i j = 0

theorem over_pd {rk : Term → ℕ} {t : Term} (h : RankOK rk t) {scale : ℝ} (hs : 0 < scale) :
    (toM (rk t) (over scale t.R)).PosDef := by
  have he : toM (rk t) (over scale t.R) = scale⁻¹ • toM (rk t) t.R := by
    ext i j
    show t.R i j / scale = scale⁻¹ * t.R i j
    rw [div_eq_inv_mul]
  rw [he]
  exact h.pd.smul (inv_pos.2 hs)

theorem charpoly_term {rk : Term → ℕ} {t : Term} (h : RankOK rk t) (scale : ℝ) :
    (toM t.size (over scale t.R)).charpoly
      = (toM (rk t) (over scale t.R)).charpoly * X ^ (t.size - rk t) := by
  have hsz : t.size = rk t + (t.size - rk t) := by have := h.le; omega
  have hz : ∀ i j, rk t ≤ i ∨ rk t ≤ j → over scale t.R i j = 0 := fun i j hij => by
    unfold over; rw [h.out i j hij, zero_div]
  have h1 := charpoly_blocks (rk t) (t.size - rk t) (over scale t.R) (over scale t.R) zero
    (fun _ _ _ _ => rfl) (fun i j _ _ => hz i _ (Or.inr (by omega))) (fun i j _ _ => hz _ j (Or.inl (by omega)))
    (fun i j _ _ => hz _ _ (Or.inl (by omega)))
  rw [← hsz, toM_zero, Matrix.charpoly_zero, Fintype.card_fin] at h1
  exact h1

theorem nz_term {rk : Term → ℕ} {t : Term} (h : RankOK rk t) {scale : ℝ} (hs : 0 < scale) :
    nzProd (toM t.size (over scale t.R)).charpoly = (toM (rk t) (over scale t.R)).det := by
  rw [charpoly_term h, nzProd_mul _ _ (Matrix.charpoly_monic _).ne_zero (pow_ne_zero _ Polynomial.X_ne_zero),
    nzProd_X_pow, mul_one, nzProd_posDef _ (over_pd h hs)]

theorem monic_list (L : List ℝ[X]) (h : ∀ p ∈ L, p.Monic) : L.prod.Monic := by
  induction L with
  | nil => exact Polynomial.monic_one
  | cons p L ih =>
    rw [List.prod_cons]
    exact (h p List.mem_cons_self).mul (ih fun q hq => h q (List.mem_cons_of_mem _ hq))

theorem nz_list (L : List ℝ[X]) (h : ∀ p ∈ L, p.Monic) : nzProd L.prod = (L.map nzProd).prod := by
  induction L with
  | nil => simp [nzProd]
  | cons p L ih =>
    have hL : ∀ q ∈ L, q.Monic := fun q hq => h q (List.mem_cons_of_mem _ hq)
    rw [List.prod_cons, nzProd_mul _ _ (h p List.mem_cons_self).ne_zero
      (monic_list L hL).ne_zero, ih hL, List.map_cons, List.prod_cons]

/-- Sum of the log determinants of the pieces. -/
theorem log_pieces (rk : Term → ℕ) (scale : ℝ) (hs : 0 < scale) (L : List Piece)
    (h : ∀ t, Piece.pen t ∈ L → RankOK rk t) :
    0 < (L.map fun x => nzProd (toM x.sz (lift (fun t => over scale t.R) x)).charpoly).prod ∧
    Real.log (L.map fun x => nzProd (toM x.sz (lift (fun t => over scale t.R) x)).charpoly).prod
      = (L.map fun x => match x with
          | .unpen _ => 0
          | .pen t => Real.log (toM (rk t) (over scale t.R)).det).sum := by
  induction L with
  | nil => simp
  | cons x L ih =>
    obtain ⟨i1, i2⟩ := ih fun t ht => h t (List.mem_cons_of_mem _ ht)
    rw [List.map_cons, List.prod_cons, List.map_cons, List.sum_cons]
    cases x with
    | unpen s =>
      have hz : nzProd (toM (Piece.unpen s).sz (lift (fun t => over scale t.R) (.unpen s))).charpoly = 1 := by
        show nzProd (toM s zero).charpoly = 1
        rw [toM_zero, Matrix.charpoly_zero, nzProd_X_pow]
      rw [hz, one_mul]
      exact ⟨i1, by rw [i2]; simp⟩
    | pen t =>
      have ht := h t List.mem_cons_self
      have hz : nzProd (toM (Piece.pen t).sz (lift (fun t => over scale t.R) (.pen t))).charpoly
          = (toM (rk t) (over scale t.R)).det := nz_term ht hs
      have hp := (over_pd ht hs).det_pos
      rw [hz]
      exact ⟨mul_pos hp i1, by rw [Real.log_mul hp.ne' i1.ne', i2]⟩

/-! ## Preconditioned Cholesky factors -/

/-- `L` is the Cholesky factor of `A` with rows and columns permuted by `σ`. -/
structure CholOf {n : ℕ} (A L : Matrix (Fin n) (Fin n) ℝ) (σ : Equiv.Perm (Fin n)) : Prop where
  lower : ∀ i j, i < j → L i j = 0
  pos : ∀ i, 0 < L i i
  eq : L * Lᵀ = A.submatrix σ σ

/-- The log determinant does not depend on preconditioning and pivoting. -/
theorem logDiag_eq {n : ℕ} (A L : Matrix (Fin n) (Fin n) ℝ) (σ : Equiv.Perm (Fin n)) (hA : A.PosDef)
    (h : CholOf (precond A) L σ) : logDiag A L = Real.log A.det := by
  have hd : ∀ i, 0 < sdiag A i := fun i => Real.sqrt_pos.2 (abs_pos.2 (hA.diag_pos (i := i)).ne')
  have hprec : precond A = Matrix.diagonal (fun i => 1 / sdiag A i) * A * Matrix.diagonal (fun i => 1 / sdiag A i) := by
    ext i j
    rw [Matrix.mul_diagonal, Matrix.diagonal_mul]
    rfl
  have hdet : (∏ i, L i i) * (∏ i, L i i) = (∏ i, 1 / sdiag A i) * A.det * ∏ i, 1 / sdiag A i := by
    have h1 := congrArg Matrix.det h.eq
    have hL : L.det = ∏ i, L i i := Matrix.det_of_lowerTriangular L fun i j hij => h.lower i j hij
    rw [Matrix.det_mul, Matrix.det_transpose, Matrix.det_submatrix_equiv_self, hprec, Matrix.det_mul,
      Matrix.det_mul, Matrix.det_diagonal, hL] at h1
    exact h1
  have hpos : 0 < ∏ i, sdiag A i := Finset.prod_pos fun i _ => hd i
  have hLp : 0 < ∏ i, L i i := Finset.prod_pos fun i _ => h.pos i
  have hAdet : A.det = ((∏ i, L i i) * ∏ i, sdiag A i) ^ 2 := by
    rw [Finset.prod_div_distrib, Finset.prod_const_one] at hdet
    field_simp at hdet
    rw [mul_pow]
    nlinarith [hdet]
  unfold logDiag
  rw [← Real.log_prod (f := fun i => L i i * sdiag A i) (fun i _ => (mul_pos (h.pos i) (hd i)).ne'),
    Finset.prod_mul_distrib, hAdet, Real.log_pow]
  norm_num

/-! ## The log generalised determinant of the penalty -/

theorem sum_pieces (G : Term → ℝ) (fs : List Form) :
    ((mPieces fs).map fun x => match x with | .unpen _ => 0 | .pen t => G t).sum
      = ((fs.flatMap Form.terms).map fun t => t.reps * G t).sum := by
  have h1 : ∀ ts : List Term, ((tsPieces ts).map fun x => match x with | .unpen _ => 0 | .pen t => G t).sum
      = (ts.map fun t => t.reps * G t).sum := by
    intro ts
    induction ts with
    | nil => rfl
    | cons t ts ih =>
      rw [show tsPieces (t :: ts) = tPieces t ++ tsPieces ts from rfl, List.map_append, List.sum_append, ih]
      simp [tPieces]
  induction fs with
  | nil => rfl
  | cons f fs ih =>
    rw [show mPieces (f :: fs) = Piece.unpen f.up :: tsPieces f.terms ++ mPieces fs from rfl, List.map_append,
      List.sum_append, List.map_cons, List.sum_cons, h1, ih, List.flatMap_cons, List.map_append, List.sum_append]
    simp

theorem map_place (k pos : ℕ) (ts : List Term) : (place k pos ts).map Grp.t = ts := by
  induction ts generalizing pos with
  | nil => rfl
  | cons t ts ih => rw [place, List.map_cons, ih]

theorem map_groups (k off : ℕ) (fs : List Form) : (groupsOf k off fs).map Grp.t = fs.flatMap Form.terms := by
  induction fs generalizing k off with
  | nil => rfl
  | cons f fs ih => rw [groupsOf, List.map_append, map_place, ih, List.flatMap_cons]

theorem toM_mul (n : ℕ) (A B : Arr) : toM n (mul n A B) = toM n A * toM n B := by
  ext i j
  rw [Matrix.mul_apply]
  exact (Fin.sum_univ_eq_sum_range (fun k => A i k * B k j) n).symm

/-- Orthogonal change of coefficients keeps the eigenvalues of the penalty. -/
theorem charpoly_penalty (fs : List Form) (hne : fs ≠ []) (hok : AllOK fs) (scale : ℝ) :
    (toM (fs.map Form.nCoef).sum (over scale (total Term.S (groupsOf 0 0 fs)))).charpoly
      = (toM (fs.map Form.nCoef).sum (seq (lift fun t => over scale t.R) (mPieces fs) 0)).charpoly := by
  set n := (fs.map Form.nCoef).sum with hn
  set Q := toM n (bigQ fs) with hQ
  set S := toM n (total Term.S (groupsOf 0 0 fs)) with hS
  have htr : toM n (tr (bigQ fs)) = Qᵀ := rfl
  have horth : Qᵀ * Q = 1 := by
    rw [← htr, hQ, ← toM_mul]
    ext i j
    rw [Matrix.one_apply]
    have := (model_penalty fs hne hok i j (by rw [← hn]; exact i.2)).1
    show mul n (tr (bigQ fs)) (bigQ fs) i j = _
    refine this.trans ?_
    by_cases h : i = j
    · rw [if_pos h, if_pos (congrArg Fin.val h)]
    · rw [if_neg h, if_neg (fun hh => h (Fin.ext hh))]
  have horth' := mul_eq_one_comm.1 horth
  have hR : Qᵀ * S * Q = toM n (total Term.R (groupsOf 0 0 fs)) := by
    rw [← htr, hQ, hS, ← toM_mul, ← toM_mul]
    ext i j
    exact (model_penalty fs hne hok i j (by rw [← hn]; exact i.2)).2
  have hover : ∀ A : Arr, toM n (over scale A) = scale⁻¹ • toM n A := by
    intro A
    ext i j
    show A i j / scale = scale⁻¹ * A i j
    rw [div_eq_inv_mul]
  have hRs : toM n (seq (lift fun t => over scale t.R) (mPieces fs) 0) = scale⁻¹ • (Qᵀ * S * Q) := by
    rw [hR, ← hover, total_eq]
    congr 1
    funext i j
    unfold over
    generalize 0 = c
    induction mPieces fs generalizing c with
    | nil => show (0 : ℝ) = 0 / scale; rw [zero_div]
    | cons x L ih =>
      rw [seq_cons, seq_cons, ih, add_div]
      congr 1
      unfold blk
      by_cases h : c ≤ i ∧ i < c + x.sz ∧ c ≤ j ∧ j < c + x.sz
      · rw [if_pos h, if_pos h]
        cases x with
        | unpen s => show (0 : ℝ) = 0 / scale; rw [zero_div]
        | pen t => rfl
      · rw [if_neg h, if_neg h, zero_div]
  rw [hover, hRs, Matrix.mul_assoc, ← Matrix.mul_smul, Matrix.charpoly_mul_comm, Matrix.smul_mul,
    Matrix.mul_assoc, horth', Matrix.mul_one]

/-- The generalised determinant from the groups. -/
theorem log_pdet (fs : List Form) (hne : fs ≠ []) (hok : AllOK fs) (rk : Term → ℕ)
    (hrk : ∀ f ∈ fs, ∀ t ∈ f.terms, RankOK rk t) (scale : ℝ) (hs : 0 < scale) :
    Real.log (pdet (toM (fs.map Form.nCoef).sum (over scale (total Term.S (groupsOf 0 0 fs)))))
      = ((fs.flatMap Form.terms).map fun t => t.reps * Real.log (toM (rk t) (over scale t.R)).det).sum := by
  have h0 : pdet (toM (fs.map Form.nCoef).sum (over scale (total Term.S (groupsOf 0 0 fs))))
      = nzProd (toM (fs.map Form.nCoef).sum (over scale (total Term.S (groupsOf 0 0 fs)))).charpoly := rfl
  rw [h0, charpoly_penalty fs hne hok, charpoly_seq _ _ _ (len_mPieces fs).symm, nz_list, List.map_map]
  · have := (log_pieces rk scale hs (mPieces fs) fun t ht => by
      obtain ⟨f, hf, h⟩ := mem_pieces fs t ht
      exact hrk f hf t h).2
    rw [← sum_pieces, ← this]
    rfl
  · intro p hp
    rw [List.mem_map] at hp
    obtain ⟨x, -, rfl⟩ := hp
    exact Matrix.charpoly_monic _

/-- The Cholesky factorisations of the groups succeed. -/
def CholOK (lib : Lib) (scale : ℝ) (rk : Term → ℕ) (t : Term) : Prop :=
  ∃ L, lib.chol (rk t) (precond (toM (rk t) (over scale t.R))) = some L ∧
    CholOf (precond (toM (rk t) (over scale t.R))) L 1

theorem lgdetS_eq (fs : List Form) (hne : fs ≠ []) (hok : AllOK fs) (rk : Term → ℕ)
    (hrk : ∀ f ∈ fs, ∀ t ∈ f.terms, RankOK rk t) (scale : ℝ) (hs : 0 < scale) (lib : Lib)
    (hch : ∀ f ∈ fs, ∀ t ∈ f.terms, CholOK lib scale rk t) :
    lgdetS lib scale rk (groupsOf 0 0 fs)
      = Real.log (pdet (toM (fs.map Form.nCoef).sum (over scale (total Term.S (groupsOf 0 0 fs))))) := by
  rw [log_pdet fs hne hok rk hrk scale hs]
  unfold lgdetS
  rw [show (fun g : Grp => ldetTerm lib scale rk g.t) = (ldetTerm lib scale rk) ∘ Grp.t from rfl, ← List.map_map,
    map_groups]
  congr 1
  refine List.map_congr_left fun t ht => ?_
  rw [List.mem_flatMap] at ht
  obtain ⟨f, hf, ht⟩ := ht
  obtain ⟨L, h1, h2⟩ := hch f hf t ht
  unfold ldetTerm
  rw [h1]
  dsimp only
  rw [logDiag_eq _ L 1 (over_pd (hrk f hf t ht) hs) h2]
  ring

/-- **C38.** The REML score: penalised log-likelihood plus half the log generalised determinant of the
penalty minus half the log determinant of the penalised Hessian, plus a constant. -/
theorem reml_value (fs : List Form) (hne : fs ≠ []) (hok : AllOK fs) (rk : Term → ℕ)
    (hrk : ∀ f ∈ fs, ∀ t ∈ f.terms, RankOK rk t) (scale llk : ℝ) (hs : 0 < scale) (lib : Lib)
    (hch : ∀ f ∈ fs, ∀ t ∈ f.terms, CholOK lib scale rk t) (coef : ℕ → ℝ) {k : ℕ}
    (nH : Matrix (Fin (fs.map Form.nCoef).sum) (Fin (fs.map Form.nCoef).sum) ℝ)
    (keep : Fin k → Fin (fs.map Form.nCoef).sum) (L : Matrix (Fin k) (Fin k) ℝ) (σ : Equiv.Perm (Fin k))
    (hpd : (hPen scale nH (groupsOf 0 0 fs) keep).PosDef)
    (hP : lib.cholP k (precond (hPen scale nH (groupsOf 0 0 fs) keep)) = some (L, σ))
    (hL : CholOf (precond (hPen scale nH (groupsOf 0 0 fs) keep)) L σ) :
    reml lib rk llk scale nH coef (groupsOf 0 0 fs) keep = some (
      (llk - quad (fs.map Form.nCoef).sum (total Term.S (groupsOf 0 0 fs)) coef / scale / 2)
      + Real.log (pdet (toM (fs.map Form.nCoef).sum (over scale (total Term.S (groupsOf 0 0 fs))))) / 2
      - Real.log (hPen scale nH (groupsOf 0 0 fs) keep).det / 2
      + mp rk (groupsOf 0 0 fs) * Real.log (2 * Real.pi) / 2) := by
  unfold reml
  rw [hP]
  dsimp only
  rw [logDiag_eq _ L σ hpd hL, lgdetS_eq fs hne hok rk hrk scale hs lib hch]

/-! ## The constant -/

/-- Dimension of the kernel: multiplicity of the eigenvalue zero. -/
noncomputable def nullity {n : Type} [Fintype n] [DecidableEq n] (A : Matrix n n ℝ) : ℕ :=
  A.charpoly.roots.count 0

theorem count_list (L : List ℝ[X]) (h : ∀ p ∈ L, p.Monic) :
    L.prod.roots.count 0 = (L.map fun p => p.roots.count 0).sum := by
  induction L with
  | nil => simp
  | cons p L ih =>
    have hL : ∀ q ∈ L, q.Monic := fun q hq => h q (List.mem_cons_of_mem _ hq)
    rw [List.prod_cons, Polynomial.roots_mul (mul_ne_zero (h p List.mem_cons_self).ne_zero (monic_list L hL).ne_zero),
      Multiset.count_add, ih hL, List.map_cons, List.sum_cons]

theorem count_posDef {n : Type} [Fintype n] [DecidableEq n] (A : Matrix n n ℝ) (hA : A.PosDef) :
    A.charpoly.roots.count 0 = 0 := by
  rw [Multiset.count_eq_zero, hA.1.roots_charpoly_eq_eigenvalues, Multiset.mem_map]
  rintro ⟨i, -, h⟩
  have := hA.eigenvalues_pos i
  simp at h
  linarith

theorem count_X_pow (k : ℕ) : (X ^ k : ℝ[X]).roots.count 0 = k := by
  rw [Polynomial.roots_pow, Polynomial.roots_X, Multiset.nsmul_singleton, Multiset.count_replicate_self]

theorem sum_pieces_nat (U : ℕ → ℕ) (G : Term → ℕ) (fs : List Form) :
    ((mPieces fs).map fun x => match x with | .unpen s => U s | .pen t => G t).sum
      = (fs.map fun f => U f.up + (f.terms.map fun t => t.reps * G t).sum).sum := by
  have h1 : ∀ ts : List Term, ((tsPieces ts).map fun x => match x with | .unpen s => U s | .pen t => G t).sum
      = (ts.map fun t => t.reps * G t).sum := by
    intro ts
    induction ts with
    | nil => rfl
    | cons t ts ih =>
      rw [show tsPieces (t :: ts) = tPieces t ++ tsPieces ts from rfl, List.map_append, List.sum_append, ih]
      simp [tPieces]
  induction fs with
  | nil => rfl
  | cons f fs ih =>
    rw [show mPieces (f :: fs) = Piece.unpen f.up :: tsPieces f.terms ++ mPieces fs from rfl, List.map_append,
      List.sum_append, List.map_cons, List.sum_cons, h1, ih, List.map_cons, List.sum_cons]

/-- The kernel of the penalty: the unpenalised coefficients of every formula and the kernel of every
repetition of every term. -/
theorem nullity_eq (fs : List Form) (hne : fs ≠ []) (hok : AllOK fs) (rk : Term → ℕ)
    (hrk : ∀ f ∈ fs, ∀ t ∈ f.terms, RankOK rk t) (scale : ℝ) (hs : 0 < scale) :
    nullity (toM (fs.map Form.nCoef).sum (over scale (total Term.S (groupsOf 0 0 fs))))
      = (fs.map fun f => f.up + (f.terms.map fun t => t.reps * (t.size - rk t)).sum).sum := by
  unfold nullity
  rw [charpoly_penalty fs hne hok, charpoly_seq _ _ _ (len_mPieces fs).symm, count_list, List.map_map,
    ← sum_pieces_nat (fun s => s)]
  · congr 1
    refine List.map_congr_left fun x hx => ?_
    show Multiset.count 0 (toM x.sz (lift (fun t => over scale t.R) x)).charpoly.roots = _
    cases x with
    | unpen s =>
      show Multiset.count 0 (toM s zero).charpoly.roots = s
      rw [toM_zero, Matrix.charpoly_zero, count_X_pow, Fintype.card_fin]
    | pen t =>
      obtain ⟨f, hf, h⟩ := mem_pieces fs t hx
      have ht := hrk f hf t h
      show Multiset.count 0 (toM t.size (over scale t.R)).charpoly.roots = t.size - rk t
      rw [charpoly_term ht, Polynomial.roots_mul (mul_ne_zero (Matrix.charpoly_monic _).ne_zero
        (pow_ne_zero _ Polynomial.X_ne_zero)), Multiset.count_add, count_posDef _ (over_pd ht hs), count_X_pow, zero_add]
  · intro p hp
    rw [List.mem_map] at hp
    obtain ⟨x, -, rfl⟩ := hp
    exact Matrix.charpoly_monic _

/-- **C38.** With a single formula and no repeated penalties the constant uses the dimension of the kernel
of the penalty. -/
theorem mp_partial (f : Form) (hne : f.terms ≠ []) (hok : AllOK [f]) (rk : Term → ℕ)
    (hrk : ∀ t ∈ f.terms, RankOK rk t) (hrep : ∀ t ∈ f.terms, t.reps = 1) (scale : ℝ) (hs : 0 < scale) :
    mp rk (groupsOf 0 0 [f]) = nullity (toM ([f].map Form.nCoef).sum (over scale (total Term.S (groupsOf 0 0 [f])))) := by
  rw [nullity_eq [f] (by simp) hok rk (fun g hg t ht => by rw [List.mem_singleton] at hg; subst hg; exact hrk t ht) scale hs]
  unfold mp
  rw [show (fun g : Grp => g.t.size - rk g.t) = (fun t : Term => t.size - rk t) ∘ Grp.t from rfl, ← List.map_map, map_groups]
  have h1 : (groupsOf 0 0 [f]).head?.map Grp.start = some f.up := by
    obtain ⟨t, ts, hts⟩ := List.exists_cons_of_ne_nil hne
    simp [groupsOf, hts, place]
  rw [h1]
  simp only [Option.getD_some, List.flatMap_cons, List.flatMap_nil, List.append_nil, List.map_cons, List.map_nil,
    List.sum_cons, List.sum_nil, add_zero]
  congr 2
  refine List.map_congr_left fun t ht => ?_
  rw [hrep t ht, one_mul]

/-- **C38 (violated).** If the Cholesky factorisation of the penalty of a group fails, the scale is
forgotten: the log determinant is that of the penalty instead of that of the penalty divided by the scale. -/
theorem qr_fallback_scale (lib : Lib) (scale : ℝ) (hs : 0 < scale) (rk : Term → ℕ) (t : Term) (hrk : RankOK rk t)
    (hfail : lib.chol (rk t) (precond (toM (rk t) (over scale t.R))) = none)
    (hqr : ∏ i, |lib.qr (rk t) (toM (rk t) t.R) i i| = |(toM (rk t) t.R).det|) :
    ldetTerm lib scale rk t
      = t.reps * (Real.log (toM (rk t) (over scale t.R)).det + rk t * Real.log scale) := by
  have he : toM (rk t) (over scale t.R) = scale⁻¹ • toM (rk t) t.R := by
    ext i j
    show t.R i j / scale = scale⁻¹ * t.R i j
    rw [div_eq_inv_mul]
  have hp := hrk.pd.det_pos
  have hne : ∀ i, |lib.qr (rk t) (toM (rk t) t.R) i i| ≠ 0 := by
    intro i h0
    have : ∏ i, |lib.qr (rk t) (toM (rk t) t.R) i i| = 0 := Finset.prod_eq_zero (Finset.mem_univ i) h0
    rw [hqr, abs_of_pos hp] at this
    exact hp.ne' this
  unfold ldetTerm
  rw [hfail]
  dsimp only
  rw [← Real.log_prod (f := fun i => |lib.qr (rk t) (toM (rk t) t.R) i i|) (fun i _ => hne i), hqr, abs_of_pos hp, he,
    Matrix.det_smul, Fintype.card_fin, Real.log_mul (pow_ne_zero _ (inv_ne_zero hs.ne')) hp.ne', Real.log_pow, Real.log_inv]
  ring

/-! ## Concrete case -/

/-- One penalised coefficient pair: penalty 4 on the first, nothing on the second. -/
def exTerm (reps : ℕ) : Term :=
  ⟨2, reps, ident, fun i j => if i = 0 ∧ j = 0 then 4 else 0, fun i j => if i = 0 ∧ j = 0 then 4 else 0⟩

theorem exTerm_ok (reps : ℕ) : TermOK (exTerm reps) := by
  have hr2 : ∀ F : ℕ → ℝ, ∑ k ∈ Finset.range 2, F k = F 0 + F 1 := fun F => by
    rw [Finset.sum_range_succ, Finset.sum_range_one]
  refine ⟨?_, ?_, ?_⟩ <;> intro i j hi hj <;> change i < 2 at hi <;> change j < 2 at hj <;>
    interval_cases i <;> interval_cases j <;> simp [mul, tr, ident, exTerm, hr2]

theorem exTerm_rank (reps : ℕ) : RankOK (fun _ => 1) (exTerm reps) := by
  refine ⟨by show 1 ≤ 2; norm_num, ?_, ?_⟩
  · have : toM 1 (exTerm reps).R = Matrix.diagonal fun _ => 4 := by
      ext i j
      rw [Subsingleton.elim i 0, Subsingleton.elim j 0]
      simp [toM, exTerm]
    show (toM 1 (exTerm reps).R).PosDef
    rw [this]
    exact Matrix.PosDef.diagonal fun _ => by norm_num
  · intro i j hij
    show (if i = 0 ∧ j = 0 then (4 : ℝ) else 0) = 0
    rw [if_neg (by omega)]

theorem exOK (reps : ℕ) : AllOK [⟨1, [exTerm reps]⟩] := by
  intro f hf t ht
  rw [List.mem_singleton] at hf
  subst hf
  rw [List.mem_singleton] at ht
  subst ht
  exact exTerm_ok reps

/-- **C38 (violated).** A penalty repeated for two levels: the kernel has dimension three, the constant uses
two. -/
theorem mp_repeated : mp (fun _ => 1) (groupsOf 0 0 [⟨1, [exTerm 2]⟩]) = 2 ∧
    nullity (toM ([(⟨1, [exTerm 2]⟩ : Form)].map Form.nCoef).sum
      (over 1 (total Term.S (groupsOf 0 0 [⟨1, [exTerm 2]⟩])))) = 3 := by
  refine ⟨rfl, ?_⟩
  rw [nullity_eq _ (by simp) (exOK 2) (fun _ => 1) (fun f hf t ht => by
    rw [List.mem_singleton] at hf
    subst hf
    rw [List.mem_singleton] at ht
    subst ht
    exact exTerm_rank 2) 1 one_pos]
  rfl

/-- The generalised determinant of the concrete penalty repeated three times is `4 ^ 3` (with scale 1). -/
example : Real.log (pdet (toM ([(⟨1, [exTerm 3]⟩ : Form)].map Form.nCoef).sum
    (over 1 (total Term.S (groupsOf 0 0 [⟨1, [exTerm 3]⟩]))))) = 3 * Real.log 4 := by
  rw [log_pdet _ (by simp) (exOK 3) (fun _ => 1) (fun f hf t ht => by
    rw [List.mem_singleton] at hf
    subst hf
    rw [List.mem_singleton] at ht
    subst ht
    exact exTerm_rank 3) 1 one_pos]
  have : (toM 1 (over 1 (exTerm 3).R)).det = 4 := by
    rw [Matrix.det_fin_one]
    show (if (0 : ℕ) = 0 ∧ (0 : ℕ) = 0 then (4 : ℝ) else 0) / 1 = 4
    norm_num
  simp only [List.flatMap_cons, List.flatMap_nil, List.append_nil, List.map_cons, List.map_nil, List.sum_cons,
    List.sum_nil, add_zero]
  rw [this]
  norm_num [exTerm]

/-- Libraries that factorise matrices of size one, enough for the example. -/
noncomputable def exLib : Lib where
  chol := fun _ A => some (Matrix.diagonal fun i => Real.sqrt (A i i))
  cholP := fun _ A => some (Matrix.diagonal fun i => Real.sqrt (A i i), 1)
  qr := fun _ A => A

theorem exChol {n : ℕ} (A : Matrix (Fin n) (Fin n) ℝ) (hd : ∀ i j, i ≠ j → A i j = 0) (hp : ∀ i, 0 < A i i) :
    CholOf A (Matrix.diagonal fun i => Real.sqrt (A i i)) 1 := by
  refine ⟨fun i j hij => Matrix.diagonal_apply_ne _ (ne_of_lt hij), fun i => ?_, ?_⟩
  · rw [Matrix.diagonal_apply_eq]; exact Real.sqrt_pos.2 (hp i)
  · rw [Matrix.diagonal_transpose, Matrix.diagonal_mul_diagonal]
    ext i j
    rw [Matrix.submatrix_apply]
    show _ = A i j
    by_cases h : i = j
    · subst h; rw [Matrix.diagonal_apply_eq, Real.mul_self_sqrt (hp i).le]
    · rw [Matrix.diagonal_apply_ne _ h, hd i j h]

theorem precond_diag {n : ℕ} (A : Matrix (Fin n) (Fin n) ℝ) (hd : ∀ i j, i ≠ j → A i j = 0) (hp : ∀ i, 0 < A i i) :
    (∀ i j, i ≠ j → precond A i j = 0) ∧ ∀ i, 0 < precond A i i := by
  refine ⟨fun i j h => ?_, fun i => ?_⟩
  · show 1 / sdiag A i * A i j * (1 / sdiag A j) = 0
    rw [hd i j h]; ring
  · have hs : 0 < sdiag A i := Real.sqrt_pos.2 (abs_pos.2 (hp i).ne')
    show 0 < 1 / sdiag A i * A i i * (1 / sdiag A i)
    have := hp i
    positivity

theorem exPen : (hPen 2 (1 : Matrix (Fin 3) (Fin 3) ℝ) (groupsOf 0 0 [⟨1, [exTerm 1]⟩]) id)
    = Matrix.diagonal ![1, 3, 1] := by
  ext i j
  unfold hPen toM over
  rw [total_eq]
  fin_cases i <;> fin_cases j <;>
    norm_num [mPieces, fPieces, tsPieces, tPieces, seq, blk, lift, Piece.sz, exTerm, ReparaAsm.zero, Matrix.one_apply, Matrix.diagonal]

/-- One unpenalised coefficient and a pair penalised by 4 on its first member, Hessian the identity, scale 2. -/
example : ∃ v, reml exLib (fun _ => 1) (-10) 2 (1 : Matrix (Fin 3) (Fin 3) ℝ) (fun i => i)
    (groupsOf 0 0 [⟨1, [exTerm 1]⟩]) id = some v := by
  have hd : ∀ i j : Fin 3, i ≠ j → (Matrix.diagonal ![1, 3, 1] : Matrix (Fin 3) (Fin 3) ℝ) i j = 0 :=
    fun i j h => Matrix.diagonal_apply_ne _ h
  have hp : ∀ i : Fin 3, 0 < (Matrix.diagonal ![1, 3, 1] : Matrix (Fin 3) (Fin 3) ℝ) i i := by
    intro i; fin_cases i <;> norm_num
  have hpre := precond_diag _ hd hp
  have hpd : (Matrix.diagonal ![1, 3, 1] : Matrix (Fin 3) (Fin 3) ℝ).PosDef :=
    Matrix.PosDef.diagonal fun i => by fin_cases i <;> norm_num
  exact ⟨_, reml_value [⟨1, [exTerm 1]⟩] (by simp) (exOK 1) (fun _ => 1) (fun f hf t ht => by
    rw [List.mem_singleton] at hf
    subst hf
    rw [List.mem_singleton] at ht
    subst ht
    exact exTerm_rank 1) 2 (-10) (by norm_num) exLib (fun f hf t ht => by
    rw [List.mem_singleton] at hf
    subst hf
    rw [List.mem_singleton] at ht
    subst ht
    refine ⟨_, rfl, ?_⟩
    have h := precond_diag (toM 1 (over 2 (exTerm 1).R)) (fun i j h => absurd (Subsingleton.elim i j) h)
      (fun i => by rw [Subsingleton.elim i 0]; norm_num [toM, over, exTerm])
    exact exChol _ h.1 h.2) (fun i => i) (1 : Matrix (Fin 3) (Fin 3) ℝ) id
    (Matrix.diagonal fun i => Real.sqrt ((precond (Matrix.diagonal ![1, 3, 1] : Matrix (Fin 3) (Fin 3) ℝ)) i i)) 1
    (by erw [exPen]; exact hpd)
    (by erw [exPen]; rfl)
    (by erw [exPen]; exact exChol _ hpre.1 hpre.2)⟩

end Verif.Reml
