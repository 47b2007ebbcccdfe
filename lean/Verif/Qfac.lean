import Verif.QfacLemmas
import Verif.Compact

/-!
# Cholesky factor, Hessian and degrees of freedom of a quasi-Newton fit belong together (property C108)
-/

namespace Verif.Qfac

open Matrix Verif.Compact

variable {n m p q t f a : ℕ}

/-! ## The factor -/

/-- Approximation of all coefficients: the factor built from the root of the penalty by updates and downdates is a lower triangular factor of the explicit Hessian plus penalty. -/
theorem chol_full {x : Ext n} (hx : ExtOK x) (Sroot : Matrix (Fin n) (Fin q) ℝ) {omega : ℝ} (ho : 0 < omega) (g : Fac n m) (d : Dec n p m)
    (pd : Option (ℝ × ℝ)) {e : Dec2 n (lowHSR1 omega g d pd).k} (he : Dec2OK _ e)
    (hT : (psdVal omega (omega • (1 : Mat n)) g d pd + Sroot * Srootᵀ).PosDef) :
    ∃ L P, cholUpd x (rootFull Sroot omega) (lowHSR1 omega g d pd) e = some (L, P) ∧ Tri L ∧ Pᵀ * P = 1 ∧
      (P * L) * (P * L)ᵀ = psdVal omega (omega • (1 : Mat n)) g d pd + Sroot * Srootᵀ := by
  have h0 : (rootFull Sroot omega * (rootFull Sroot omega)ᵀ).PosDef := by
    rw [rootFull_sq Sroot ho.le, add_comm]
    have h1 : (Sroot * Srootᵀ).PosSemidef := by
      have := Matrix.posSemidef_self_mul_conjTranspose Sroot
      rwa [Matrix.conjTranspose_eq_transpose_of_trivial] at this
    exact (Matrix.PosDef.one.smul ho).add_posSemidef h1
  have e1 : rootFull Sroot omega * (rootFull Sroot omega)ᵀ + (lowHSR1 omega g d pd).t1 * (lowHSR1 omega g d pd).t2 * (lowHSR1 omega g d pd).t1ᵀ
      = psdVal omega (omega • (1 : Mat n)) g d pd + Sroot * Srootᵀ := by
    rw [rootFull_sq Sroot ho.le, ← lowHSR1_val]
    abel
  obtain ⟨L, P, h1, h2, h3, h4⟩ := cholUpd_ok hx he h0 (by rw [e1]; exact hT)
  exact ⟨L, P, h1, h2, h3, h4.trans e1⟩

/-- The same with finite difference blocks for some coefficients. -/
theorem chol_part {x : Ext t} (hx : ExtOK x) (Sroot : Matrix (Fin t) (Fin q) ℝ) {tcols : Fin f ⊕ Fin a → Fin t} {nHfd : Mat t} {I : Mat f}
    {pd : Option (ℝ × ℝ)} {e : Eig f} (h : PartOK tcols nHfd I pd e) {omega : ℝ} (ho : 0 < omega) (l : Low a) {e2 : Dec2 t (embedLow tcols l).k}
    (he : Dec2OK _ e2) (hT : (explicitPart tcols nHfd I omega l + Sroot * Srootᵀ).PosDef) :
    ∃ L P, cholUpd x (rootPart Sroot tcols nHfd pd e omega) (embedLow tcols l) e2 = some (L, P) ∧ Tri L ∧ Pᵀ * P = 1 ∧
      (P * L) * (P * L)ᵀ = explicitPart tcols nHfd I omega l + Sroot * Srootᵀ := by
  have e1 := rootPart_val h Sroot ho.le l
  have hT' := hT
  rw [← e1] at hT'
  obtain ⟨L, P, h1, h2, h3, h4⟩ := cholUpd_ok hx he (base_pd h.fd.bij nHfd pd e Sroot ho l hT') hT'
  exact ⟨L, P, h1, h2, h3, h4.trans e1⟩

/-- Direct factorisation. -/
theorem direct_ok {x : Ext n} (hx : ExtOK x) {A : Mat n} (hA : A.PosDef) :
    (finish x (direct x A)).1 * (finish x (direct x A)).1ᵀ = A ∧ (finish x (direct x A)).2ᵀ * (finish x (direct x A)).2 = A⁻¹ := by
  have hs := pd_symm hA
  obtain ⟨h1, h2⟩ := hx.fac A hs ((hx.ok A hs).2 hA)
  have hP := permM_orth (hx.perm A)
  have hP' := permM_orth' (hx.perm A)
  refine finish_ok hx h1 (by rw [Matrix.transpose_transpose, hP']) ?_
  rw [Matrix.transpose_mul, Matrix.transpose_transpose]
  have e1 : (permM (x.chol A).pr)ᵀ * (x.chol A).L * ((x.chol A).Lᵀ * permM (x.chol A).pr)
      = (permM (x.chol A).pr)ᵀ * ((x.chol A).L * (x.chol A).Lᵀ) * permM (x.chol A).pr := by simp only [Matrix.mul_assoc]
  rw [e1, h2]
  have e2 : (permM (x.chol A).pr)ᵀ * (permM (x.chol A).pr * A * (permM (x.chol A).pr)ᵀ) * permM (x.chol A).pr
      = ((permM (x.chol A).pr)ᵀ * permM (x.chol A).pr) * A * ((permM (x.chol A).pr)ᵀ * permM (x.chol A).pr) := by simp only [Matrix.mul_assoc]
  rw [e2, hP, Matrix.one_mul, Matrix.mul_one]

/-- What intervals are computed from: whatever the number of pairs, the stored factors are those of explicit Hessian plus penalty and of its inverse. -/
theorem intervals_full {x : Ext n} (hx : ExtOK x) (pairs : ℕ) (Sroot : Matrix (Fin n) (Fin q) ℝ) {omega eps mx : ℝ} (ho : 0 < omega) (heps : 0 < eps)
    {g : Fac n m} {d : Dec n p m} (hd : DecOK g d) (hmx : IsGreatest (Set.range fun i => clip omega d i + omega) mx) (hpos : ∃ i, 0 < d.ev i + omega)
    {e : Dec2 n (lowHSR1 omega g d (some (eps, mx))).k} (he : Dec2OK _ e) :
    ∃ L LV, formV x pairs (psdVal omega (omega • (1 : Mat n)) g d (some (eps, mx))) (Sroot * Srootᵀ)
        (cholUpd x (rootFull Sroot omega) (lowHSR1 omega g d (some (eps, mx))) e) = some (L, LV) ∧
      L * Lᵀ = psdVal omega (omega • (1 : Mat n)) g d (some (eps, mx)) + Sroot * Srootᵀ ∧
      LVᵀ * LV = (psdVal omega (omega • (1 : Mat n)) g d (some (eps, mx)) + Sroot * Srootᵀ)⁻¹ := by
  have h1 : (Sroot * Srootᵀ).PosSemidef := by
    have := Matrix.posSemidef_self_mul_conjTranspose Sroot
    rwa [Matrix.conjTranspose_eq_transpose_of_trivial] at this
  have hT := (make_pd_pd_partial hd ho heps hmx hpos).add_posSemidef h1
  unfold formV
  split_ifs
  · exact ⟨_, _, rfl, direct_ok hx hT⟩
  · obtain ⟨L, P, e1, e2, e3, e4⟩ := chol_full hx Sroot ho g d (some (eps, mx)) he hT
    exact ⟨_, _, by rw [e1]; rfl, finish_ok hx e2 e3 e4⟩

/-- The same with finite difference blocks. -/
theorem intervals_part {x : Ext t} (hx : ExtOK x) (pairs : ℕ) (Sroot : Matrix (Fin t) (Fin q) ℝ) {tcols : Fin f ⊕ Fin a → Fin t} {nHfd : Mat t} {I : Mat f}
    {pd : Option (ℝ × ℝ)} {e : Eig f} (h : PartOK tcols nHfd I pd e) {omega : ℝ} (ho : 0 < omega) (l : Low a) {e2 : Dec2 t (embedLow tcols l).k}
    (he : Dec2OK _ e2) (hT : (explicitPart tcols nHfd I omega l + Sroot * Srootᵀ).PosDef) :
    ∃ L LV, formV x pairs (explicitPart tcols nHfd I omega l) (Sroot * Srootᵀ)
        (cholUpd x (rootPart Sroot tcols nHfd pd e omega) (embedLow tcols l) e2) = some (L, LV) ∧
      L * Lᵀ = explicitPart tcols nHfd I omega l + Sroot * Srootᵀ ∧
      LVᵀ * LV = (explicitPart tcols nHfd I omega l + Sroot * Srootᵀ)⁻¹ := by
  unfold formV
  split_ifs
  · exact ⟨_, _, rfl, direct_ok hx hT⟩
  · obtain ⟨L, P, e1, e3, e4, e5⟩ := chol_part hx Sroot h ho l he hT
    exact ⟨_, _, by rw [e1]; rfl, finish_ok hx e3 e4 e5⟩

/-- A structured approximation is positive definite if the finite difference block and the quasi-Newton block are. -/
theorem part_pd {tcols : Fin f ⊕ Fin a → Fin t} {nHfd : Mat t} {I : Mat f} {pd : Option (ℝ × ℝ)} {e : Eig f} (h : PartOK tcols nHfd I pd e)
    (hBB : (BB tcols nHfd).PosDef) {omega : ℝ} {l : Low a} (hq : (omega • (1 : Mat a) + l.t1 * l.t2 * l.t1ᵀ).PosDef) :
    (explicitPart tcols nHfd I omega l).PosDef := by
  have hBs := pd_symm hBB
  have hr' : (Bb tcols nHfd)ᵀ * I * BB tcols nHfd = (Bb tcols nHfd)ᵀ := by
    have := congrArg Matrix.transpose h.range
    rw [Matrix.transpose_mul, Matrix.transpose_mul, h.symm, hBs, ← Matrix.mul_assoc] at this
    exact this
  have e1 : onHfd tcols nHfd + Matrix.fromBlocks 0 0 0 (onHbb tcols nHfd I (omega • (1 : Mat a)) (l.t1 * l.t2 * l.t1ᵀ))
      = (Matrix.fromCols 1 (I * Bb tcols nHfd))ᵀ * BB tcols nHfd * Matrix.fromCols 1 (I * Bb tcols nHfd)
        + (Matrix.fromCols 0 1)ᵀ * (omega • (1 : Mat a) + l.t1 * l.t2 * l.t1ᵀ) * Matrix.fromCols (0 : Matrix (Fin a) (Fin f) ℝ) 1 := by
    rw [onHfd_blocks h.fd, Matrix.transpose_fromCols, Matrix.transpose_fromCols, Matrix.fromRows_mul _ _ (BB tcols nHfd),
      Matrix.fromRows_mul _ _ (omega • (1 : Mat a) + l.t1 * l.t2 * l.t1ᵀ),
      Matrix.fromRows_mul_fromCols, Matrix.fromRows_mul_fromCols, Matrix.fromBlocks_add, Matrix.fromBlocks_add]
    unfold onHbb
    rw [Matrix.transpose_mul, h.symm, hr']
    have e3 : (Bb tcols nHfd)ᵀ * (I * Bb tcols nHfd) = (Bb tcols nHfd)ᵀ * I * Bb tcols nHfd := (Matrix.mul_assoc _ _ _).symm
    have e4 : BB tcols nHfd * (I * Bb tcols nHfd) = Bb tcols nHfd := by rw [← Matrix.mul_assoc, h.range]
    simp [e3, e4, add_comm]
  have hPS : ∀ X : Matrix (Fin f ⊕ Fin a) (Fin f ⊕ Fin a) ℝ, X.PosDef → (P1 tcols * X * (P1 tcols)ᵀ).PosDef := by
    intro X hX
    have hinj : Function.Injective fun v => v ᵥ* P1 tcols := by
      intro v w hvw
      have h1 : ∀ v, v ᵥ* P1 tcols = fun j => v (tcols j) := by
        intro v
        funext j
        unfold P1 Matrix.vecMul
        simp only [dotProduct, Matrix.of_apply]
        rw [Finset.sum_eq_single (tcols j)]
        · rw [if_pos rfl, mul_one]
        · intro b _ hb
          rw [if_neg (Ne.symm hb), mul_zero]
        · intro hh
          exact absurd (Finset.mem_univ _) hh
      simp only [h1] at hvw
      funext i
      obtain ⟨j, rfl⟩ := h.fd.bij.2 i
      exact congrFun hvw j
    have := hX.mul_mul_conjTranspose_same (B := P1 tcols) hinj
    rwa [Matrix.conjTranspose_eq_transpose_of_trivial] at this
  unfold explicitPart shExplicit
  refine hPS _ ?_
  rw [e1]
  have hsq : ∀ (k : ℕ) (C : Matrix (Fin k) (Fin f ⊕ Fin a) ℝ) (M : Mat k) (v : Fin f ⊕ Fin a → ℝ), v ⬝ᵥ (Cᵀ * M * C) *ᵥ v = (C *ᵥ v) ⬝ᵥ M *ᵥ (C *ᵥ v) := by
    intro k C M v
    rw [← Matrix.mulVec_mulVec, ← Matrix.mulVec_mulVec, Matrix.dotProduct_mulVec, Matrix.vecMul_transpose]
  refine Matrix.PosDef.of_dotProduct_mulVec_pos ?_ fun v hv => ?_
  · refine Matrix.IsHermitian.add ?_ ?_
    · have := Matrix.isHermitian_conjTranspose_mul_mul (Matrix.fromCols (1 : Mat f) (I * Bb tcols nHfd)) hBB.1
      rwa [Matrix.conjTranspose_eq_transpose_of_trivial] at this
    · have := Matrix.isHermitian_conjTranspose_mul_mul (Matrix.fromCols (0 : Matrix (Fin a) (Fin f) ℝ) (1 : Mat a)) hq.1
      rwa [Matrix.conjTranspose_eq_transpose_of_trivial] at this
  · rw [star_trivial, Matrix.add_mulVec, dotProduct_add, hsq, hsq]
    by_cases hz : Matrix.fromCols (0 : Matrix (Fin a) (Fin f) ℝ) (1 : Mat a) *ᵥ v = 0
    · have hz' : Matrix.fromCols (1 : Mat f) (I * Bb tcols nHfd) *ᵥ v ≠ 0 := by
        intro h0
        apply hv
        rw [Matrix.fromCols_mulVec, Matrix.zero_mulVec, Matrix.one_mulVec, zero_add] at hz
        rw [Matrix.fromCols_mulVec, Matrix.one_mulVec, hz, Matrix.mulVec_zero, add_zero] at h0
        funext i
        rcases i with i | i
        · exact congrFun h0 i
        · exact congrFun hz i
      have h1 := hBB.dotProduct_mulVec_pos hz'
      rw [star_trivial] at h1
      rw [hz, Matrix.mulVec_zero, dotProduct_zero, add_zero]
      exact h1
    · have h1 := hq.dotProduct_mulVec_pos hz
      have h2 := hBB.posSemidef.dotProduct_mulVec_nonneg (Matrix.fromCols (1 : Mat f) (I * Bb tcols nHfd) *ᵥ v)
      rw [star_trivial] at h1 h2
      exact add_pos_of_nonneg_of_pos h2 h1

/-- Whatever the block is, with `PD_HBB` no eigenvalue is used that is below the threshold, and those above it are kept. -/
theorem fd_floor (e : Eig f) (eps mx : ℝ) (h0 : 0 ≤ eps * mx) (i : Fin f) :
    fdEv (some (eps, mx)) e i = max (e.ev i) (eps * mx) := by
  unfold fdEv
  dsimp only
  by_cases h : e.ev i < 0
  · rw [if_pos h, max_eq_right (by linarith)]
    split_ifs with h1
    · rfl
    · linarith
  · rw [if_neg h]
    split_ifs with h1
    · exact (max_eq_right h1.le).symm
    · exact (max_eq_left (not_lt.1 h1)).symm

/-! ## The finite difference block is not changed again -/

/-- `getCholnH` decomposes the block that `makepdd_fd2llk` returned, and its eigenvalues pass the second threshold: they lie between the first threshold and the largest absolute
eigenvalue before. -/
theorem fd_keep {e0 e : Eig f} (h0 : EigOK e0) (h : EigOK e) {eps mx0 mx : ℝ} (heps : 0 < eps) (heps1 : eps ≤ 1)
    (hmx0 : ∀ i, |e0.ev i| ≤ mx0) (hmxp : 0 ≤ mx0) (heig : pdBB true true (eps * mx0) e0 = e.U * Matrix.diagonal e.ev * e.Uᵀ)
    (hmx : IsGreatest (Set.range fun i => |e.ev i|) mx) :
    ∀ i, 0 ≤ e.ev i ∧ fdEv (some (eps, mx)) e i = e.ev i := by
  have hth : 0 ≤ eps * mx0 := mul_nonneg heps.le hmxp
  have hlo : ∀ j, eps * mx0 ≤ pdEv true true (eps * mx0) e0 j := by
    intro j
    unfold pdEv
    simp only [Bool.and_self, if_true]
    split_ifs with hj
    · exact le_refl _
    · exact (not_le.1 hj).le
  have hhi : ∀ j, pdEv true true (eps * mx0) e0 j ≤ mx0 := by
    intro j
    unfold pdEv
    simp only [Bool.and_self, if_true]
    split_ifs with hj
    · nlinarith
    · exact (le_abs_self _).trans (hmx0 j)
  have hray : ∀ i, ∃ w : Fin f → ℝ, (∑ j, w j * w j = 1) ∧ e.ev i = ∑ j, pdEv true true (eps * mx0) e0 j * (w j * w j) := by
    intro i
    refine ⟨fun j => (e0.Uᵀ * e.U) j i, ?_, ?_⟩
    · have h1 : (e0.Uᵀ * e.U)ᵀ * (e0.Uᵀ * e.U) = 1 := by
        rw [Matrix.transpose_mul, Matrix.transpose_transpose]
        have : e.Uᵀ * e0.U * (e0.Uᵀ * e.U) = e.Uᵀ * (e0.U * e0.Uᵀ) * e.U := by simp only [Matrix.mul_assoc]
        rw [this, mul_eq_one_comm.1 h0.orth, Matrix.mul_one, h.orth]
      have h2 := congrFun (congrFun h1 i) i
      rw [Matrix.mul_apply, Matrix.one_apply_eq] at h2
      exact h2
    · have h1 : e.Uᵀ * (e.U * Matrix.diagonal e.ev * e.Uᵀ) * e.U = Matrix.diagonal e.ev := by
        have : e.Uᵀ * (e.U * Matrix.diagonal e.ev * e.Uᵀ) * e.U = (e.Uᵀ * e.U) * Matrix.diagonal e.ev * (e.Uᵀ * e.U) := by simp only [Matrix.mul_assoc]
        rw [this, h.orth, Matrix.one_mul, Matrix.mul_one]
      rw [← heig] at h1
      have h2 : (e0.Uᵀ * e.U)ᵀ * Matrix.diagonal (pdEv true true (eps * mx0) e0) * (e0.Uᵀ * e.U) = Matrix.diagonal e.ev := by
        rw [← h1, Matrix.transpose_mul, Matrix.transpose_transpose]
        unfold pdBB
        simp only [Matrix.mul_assoc]
      have h3 := congrFun (congrFun h2 i) i
      rw [Matrix.diagonal_apply_eq, Matrix.mul_apply] at h3
      rw [← h3]
      refine Finset.sum_congr rfl fun j _ => ?_
      rw [Matrix.mul_diagonal, Matrix.transpose_apply]
      ring
  have hlo' : ∀ i, eps * mx0 ≤ e.ev i := by
    intro i
    obtain ⟨w, h1, h2⟩ := hray i
    rw [h2]
    calc eps * mx0 = ∑ j, eps * mx0 * (w j * w j) := by rw [← Finset.mul_sum, h1, mul_one]
      _ ≤ _ := Finset.sum_le_sum fun j _ => mul_le_mul_of_nonneg_right (hlo j) (mul_self_nonneg _)
  have hhi' : ∀ i, e.ev i ≤ mx0 := by
    intro i
    obtain ⟨w, h1, h2⟩ := hray i
    rw [h2]
    calc _ ≤ ∑ j, mx0 * (w j * w j) := Finset.sum_le_sum fun j _ => mul_le_mul_of_nonneg_right (hhi j) (mul_self_nonneg _)
      _ = mx0 := by rw [← Finset.mul_sum, h1, mul_one]
  intro i
  have hnn := hth.trans (hlo' i)
  refine ⟨hnn, ?_⟩
  obtain ⟨k, hk⟩ := hmx.1
  have hmm : mx ≤ mx0 := by
    rw [← hk]
    simp only
    rw [abs_of_nonneg (hth.trans (hlo' k))]
    exact hhi' k
  unfold fdEv
  simp only [if_neg (not_lt.2 hnn)]
  rw [if_neg (not_lt.2 ((mul_le_mul_of_nonneg_left hmm heps.le).trans (hlo' i)))]

/-! ## One stored pair -/

/-- The only eigenvalue of the update by a single pair, started from `yᵀy/yᵀs`, is exactly minus the starting value. -/
theorem one_pair_eig (s y : Fin n → ℝ) (rho : ℝ) (hys : 0 < y ⬝ᵥ s) {g : Fac n 1}
    (hg : hsr1 (fun _ => s) (fun _ => y) (fun _ => rho) (omegaNoWr y s • (1 : Mat n)) = some g) {d : Dec n 1 1} (hd : DecOK g d) :
    ∀ i, d.ev i + omegaNoWr y s = 0 := by
  have hyy : 0 ≤ y ⬝ᵥ y := Finset.sum_nonneg fun i _ => mul_self_nonneg _
  have hom : omegaNoWr y s = (y ⬝ᵥ y) / (y ⬝ᵥ s) := by
    unfold omegaNoWr
    simp only
    rw [if_neg (not_lt.2 (div_nonneg hyy hys.le))]
  set w := omegaNoWr y s with hw
  have hwy : w * (y ⬝ᵥ s) = y ⬝ᵥ y := by
    rw [hom]
    field_simp
  unfold hsr1 at hg
  rw [if_neg one_ne_zero] at hg
  unfold inv? at hg
  split_ifs at hg with hu
  · rw [Option.map_some, Option.some.injEq] at hg
    have hM : hMid (fun _ : Fin 1 => s) (fun _ => y) (fun _ => rho) (w • (1 : Mat n)) = Matrix.of fun _ _ => (y ⬝ᵥ s - w * (s ⬝ᵥ s)) := by
      ext i j
      have hi : i = 0 := Subsingleton.elim _ _
      have hj : j = 0 := Subsingleton.elim _ _
      subst hi
      subst hj
      unfold hMid DK Lmat Rmat
      have hsy : ((cols fun _ : Fin 1 => s)ᵀ * cols fun _ : Fin 1 => y) 0 0 = s ⬝ᵥ y := rfl
      have hss : ((cols fun _ : Fin 1 => s)ᵀ * (w • (1 : Mat n)) * cols fun _ : Fin 1 => s) 0 0 = w * (s ⬝ᵥ s) := by
        rw [Matrix.mul_smul, Matrix.mul_one, Matrix.smul_mul, Matrix.smul_apply, smul_eq_mul]
        rfl
      simp only [Matrix.add_apply, Matrix.sub_apply, Matrix.transpose_apply, Matrix.diagonal_apply_eq, Matrix.of_apply, hsy, hss, lt_irrefl, if_false, if_true, Fin.val_zero]
      rw [dotProduct_comm s y]
      ring
    set c := y ⬝ᵥ s - w * (s ⬝ᵥ s) with hc
    have hdet : (hMid (fun _ : Fin 1 => s) (fun _ => y) (fun _ => rho) (w • (1 : Mat n))).det = c := by
      rw [hM, Matrix.det_fin_one, Matrix.of_apply]
    have hc0 : c ≠ 0 := by
      rw [← hdet]
      exact hu.ne_zero
    have ht2 : g.t2 0 0 = c⁻¹ := by
      rw [← hg]
      simp only
      rw [Matrix.inv_def, hdet, Matrix.adjugate_fin_one, Ring.inverse_eq_inv', Matrix.smul_apply, Matrix.one_apply_eq, smul_eq_mul, mul_one]
    have ht1 : (g.t1ᵀ * g.t1) 0 0 = (y - w • s) ⬝ᵥ (y - w • s) := by
      rw [← hg]
      have e1 : (cols fun _ : Fin 1 => y) - w • (1 : Mat n) * (cols fun _ : Fin 1 => s) = Matrix.of fun i (_ : Fin 1) => (y - w • s) i := by
        rw [Matrix.smul_mul, Matrix.one_mul]
        rfl
      simp only
      rw [e1]
      rfl
    have hq : (g.t1ᵀ * g.t1) 0 0 = d.R 0 0 * d.R 0 0 := by
      rw [hd.qr, Matrix.transpose_mul]
      have : d.Rᵀ * d.Qᵀ * (d.Q * d.R) = d.Rᵀ * (d.Qᵀ * d.Q) * d.R := by simp only [Matrix.mul_assoc]
      rw [this, hd.orthQ, Matrix.mul_one, Matrix.mul_apply, Fin.sum_univ_one, Matrix.transpose_apply]
    have hev : d.ev 0 = d.R 0 0 * g.t2 0 0 * d.R 0 0 := by
      have h1 := congrFun (congrFun hd.eig 0) 0
      have h2 := congrFun (congrFun hd.orthP 0) 0
      simp only [Matrix.mul_apply, Fin.sum_univ_one, Matrix.transpose_apply, Matrix.diagonal_apply_eq, Matrix.one_apply_eq] at h1 h2
      rw [h1]
      linear_combination -(d.ev 0) * h2
    intro i
    have hi : i = 0 := Subsingleton.elim _ _
    subst hi
    have hexp : (y - w • s) ⬝ᵥ (y - w • s) = -(w * c) := by
      rw [sub_dotProduct, dotProduct_sub, dotProduct_sub, smul_dotProduct, dotProduct_smul, smul_dotProduct, dotProduct_smul, dotProduct_comm s y]
      simp only [smul_eq_mul]
      rw [hc]
      linear_combination -hwy
    rw [hev, ht2]
    have : d.R 0 0 * d.R 0 0 = -(w * c) := by rw [← hq, ht1, hexp]
    have h3 : d.R 0 0 * c⁻¹ * d.R 0 0 = d.R 0 0 * d.R 0 0 * c⁻¹ := by ring
    rw [h3, this]
    field_simp
    ring
  · simp at hg

/-- With one pair the Hessian is not positive definite although positive definiteness was asked for. -/
theorem one_pair_wrong (s y : Fin n → ℝ) (rho : ℝ) (hys : 0 < y ⬝ᵥ s) {g : Fac n 1}
    (hg : hsr1 (fun _ => s) (fun _ => y) (fun _ => rho) (omegaNoWr y s • (1 : Mat n)) = some g) {d : Dec n 1 1} (hd : DecOK g d) {eps mx : ℝ}
    (hmx : IsGreatest (Set.range fun i => clip (omegaNoWr y s) d i + omegaNoWr y s) mx) :
    ¬ (psdVal (omegaNoWr y s) (omegaNoWr y s • (1 : Mat n)) g d (some (eps, mx))).PosDef :=
  make_pd_singular hd hmx fun i => (one_pair_eig s y rho hys hg hd i).le

/-- If the penalised Hessian is not positive definite the direct factorisation fails, and what is stored for intervals is a permutation: every coefficient gets variance one. -/
theorem failed_wrong {x : Ext n} (hx : ExtOK x) {pairs : ℕ} (hp : (pairs : ℝ) > 0.3 * n) {nH S : Mat n} (hs : (nH + S)ᵀ = nH + S) (h : ¬ (nH + S).PosDef)
    (upd : Option (Mat n × Mat n)) : ∃ L LV, formV x pairs nH S upd = some (L, LV) ∧ LVᵀ * LV = 1 := by
  unfold formV
  rw [if_pos hp]
  refine ⟨_, _, rfl, ?_⟩
  have hok : (x.chol (nH + S)).ok = false := by
    rw [Bool.eq_false_iff]
    intro hh
    exact h ((hx.ok _ hs).1 hh)
  have hL := hx.fail _ hok
  have hl1 : x.linv 1 = 1 := by
    have h1 : Tri (1 : Mat n) := ⟨fun i j hij => Matrix.one_apply_ne hij.ne, fun i => by rw [Matrix.one_apply_eq]; exact one_pos⟩
    have := hx.linv 1 h1
    rwa [Matrix.mul_one] at this
  change (x.linv (x.chol (nH + S)).L * (permM (x.chol (nH + S)).pr)ᵀᵀ)ᵀ * (x.linv (x.chol (nH + S)).L * (permM (x.chol (nH + S)).pr)ᵀᵀ) = 1
  simp only [hL, hl1, Matrix.one_mul, Matrix.transpose_transpose]
  exact permM_orth (hx.perm _)

/-! ## Degrees of freedom -/

/-- The trace computed column by column is the trace of the represented inverse times the penalty, if the penalty has no columns outside of its block. -/
theorem trace_spec (V0 : Mat n) (cs : List (Corr n)) (S : Mat n) (start len : ℕ) (hS : ∀ c : Fin n, ¬ (start ≤ c.1 ∧ c.1 < start + len) → ∀ r, S r c = 0) :
    trVS V0 cs S start len = ((V0 - (cs.map Corr.val).sum) * S).trace := by
  have hcol : ∀ (A : Mat n) (c : Fin n), ¬ (start ≤ c.1 ∧ c.1 < start + len) → (A * S) c c = 0 := by
    intro A c hc
    rw [Matrix.mul_apply]
    exact Finset.sum_eq_zero fun r _ => by rw [hS c hc r, mul_zero]
  have hsum : ∀ c : Fin n, (cs.map fun k : Corr n => (k.val * S) c c).sum = ((cs.map Corr.val).sum * S) c c := by
    intro c
    induction cs with
    | nil => simp
    | cons k cs ih => rw [List.map_cons, List.sum_cons, List.map_cons, List.sum_cons, Matrix.add_mul, Matrix.add_apply, ih]
  unfold trVS Matrix.trace
  refine Finset.sum_congr rfl fun c _ => ?_
  rw [Matrix.diag_apply, Matrix.sub_mul, Matrix.sub_apply]
  by_cases hc : start ≤ c.1 ∧ c.1 < start + len
  · rw [if_pos hc, hsum]
  · rw [if_neg hc, hcol _ c hc, hcol _ c hc, sub_zero]

theorem inv_inj' {A B : Mat n} (hA : A.PosDef) (hB : B.PosDef) (h : A⁻¹ = B⁻¹) : A = B := by
  rw [← Matrix.nonsing_inv_nonsing_inv A ((Matrix.isUnit_iff_isUnit_det A).1 hA.isUnit), h,
    Matrix.nonsing_inv_nonsing_inv B ((Matrix.isUnit_iff_isUnit_det B).1 hB.isUnit)]

/-- If no eigenvalue had to be moved, degrees of freedom and intervals use the inverse of the same matrix. -/
theorem edf_matrix_partial {g : Fac n m} {d : Dec n p m} {omega : ℝ} (h : ∀ i, 0 < d.ev i + omega) (S : Mat n) (pd : Option (ℝ × ℝ)) :
    (psdVal omega (omega • (1 : Mat n)) g d none + S)⁻¹ = (psdVal omega (omega • (1 : Mat n)) g d pd + S)⁻¹ := by
  rw [psd_unchanged _ h, psd_unchanged _ h]

/-- If some but not all had to be moved, the matrices differ: `getImplicitV` does not pass `make_pd`. -/
theorem edf_matrix_wrong {g : Fac n m} {d : Dec n p m} (hd : DecOK g d) {omega eps mx : ℝ} (heps : 0 < eps)
    (hmx : IsGreatest (Set.range fun i => clip omega d i + omega) mx) (hpos : ∃ i, 0 < d.ev i + omega) {i : Fin p} (hi : d.ev i + omega ≤ 0) {S : Mat n}
    (h1 : (psdVal omega (omega • (1 : Mat n)) g d none + S).PosDef) (h2 : (psdVal omega (omega • (1 : Mat n)) g d (some (eps, mx)) + S).PosDef) :
    (psdVal omega (omega • (1 : Mat n)) g d none + S)⁻¹ ≠ (psdVal omega (omega • (1 : Mat n)) g d (some (eps, mx)) + S)⁻¹ := by
  intro h
  have e1 := add_right_cancel (inv_inj' h1 h2 h)
  have hm : 0 < mx := by
    obtain ⟨j, hj⟩ := hpos
    refine lt_of_lt_of_le hj ?_
    have h3 := hmx.2 ⟨j, rfl⟩
    have h4 : clip omega d j = d.ev j := by
      unfold clip fix
      rw [if_neg (not_le.2 hj)]
    simpa only [h4] using h3
  have hex : ∃ i, fix omega d i := ⟨i, hi⟩
  unfold psdVal at e1
  rw [if_pos hex, if_pos hex] at e1
  have e2 := add_left_cancel e1
  have hW : (d.Pᵀ * d.Qᵀ) * (d.Q * d.P) = 1 := by
    have : (d.Pᵀ * d.Qᵀ) * (d.Q * d.P) = d.Pᵀ * (d.Qᵀ * d.Q) * d.P := by simp only [Matrix.mul_assoc]
    rw [this, hd.orthQ, Matrix.mul_one, hd.orthP]
  have hX : ∀ D : Matrix (Fin p) (Fin p) ℝ, (d.Pᵀ * d.Qᵀ) * (d.Q * d.P * D * (d.Pᵀ * d.Qᵀ)) * (d.Q * d.P) = D := by
    intro D
    have : (d.Pᵀ * d.Qᵀ) * (d.Q * d.P * D * (d.Pᵀ * d.Qᵀ)) * (d.Q * d.P)
        = ((d.Pᵀ * d.Qᵀ) * (d.Q * d.P)) * D * ((d.Pᵀ * d.Qᵀ) * (d.Q * d.P)) := by simp only [Matrix.mul_assoc]
    rw [this, hW, Matrix.one_mul, Matrix.mul_one]
  have e3 : Matrix.diagonal (newEv omega d none) = Matrix.diagonal (newEv omega d (some (eps, mx))) := by
    rw [← hX (Matrix.diagonal (newEv omega d none)), e2, hX]
  have e4 := congrFun (congrFun e3 i) i
  rw [Matrix.diagonal_apply_eq, Matrix.diagonal_apply_eq] at e4
  change clip omega d i = clipPd eps omega mx d i at e4
  unfold clipPd at e4
  rw [if_pos (show fix omega d i from hi)] at e4
  have := mul_pos heps hm
  linarith

/-! ## Smoothing parameters after the last iteration -/

theorem penalty_end {k : ℕ} (S : Fin k → Mat n) (conv : Bool) (lam delta : Fin k → ℝ) :
    penalty S (lamEnd conv lam delta) = penalty S lam + if conv then 0 else penalty S delta := by
  unfold penalty lamEnd
  cases conv with
  | true => simp
  | false =>
    simp only [Bool.false_eq_true, if_false]
    rw [← Finset.sum_add_distrib]
    exact Finset.sum_congr rfl fun j _ => add_smul _ _ _

/-- Few pairs: the root of the penalty is computed from the smoothing parameters held at the end. If the loop converged these belong to the coefficients. -/
theorem interval_penalty_partial {x : Ext n} (hx : ExtOK x) {pairs : ℕ} (hp : ¬ (pairs : ℝ) > 0.3 * n) {k : ℕ} (S : Fin k → Mat n) (conv : Bool) (lam delta : Fin k → ℝ)
    {Sroot : Matrix (Fin n) (Fin q) ℝ} (hS : Sroot * Srootᵀ = penalty S (lamEnd conv lam delta)) {omega : ℝ} (ho : 0 < omega) (g : Fac n m) (d : Dec n p m)
    (pd : Option (ℝ × ℝ)) {e : Dec2 n (lowHSR1 omega g d pd).k} (he : Dec2OK _ e) (hT : (psdVal omega (omega • (1 : Mat n)) g d pd + Sroot * Srootᵀ).PosDef) :
    ∃ L LV, formV x pairs (psdVal omega (omega • (1 : Mat n)) g d pd) (penalty S lam) (cholUpd x (rootFull Sroot omega) (lowHSR1 omega g d pd) e) = some (L, LV) ∧
      LVᵀ * LV = (psdVal omega (omega • (1 : Mat n)) g d pd + penalty S (lamEnd conv lam delta))⁻¹ ∧
      (conv = true → LVᵀ * LV = (psdVal omega (omega • (1 : Mat n)) g d pd + penalty S lam)⁻¹) := by
  unfold formV
  rw [if_neg hp]
  obtain ⟨L, P, e1, e2, e3, e4⟩ := chol_full hx Sroot ho g d pd he hT
  have h := (finish_ok hx e2 e3 e4).2
  rw [hS] at h
  refine ⟨_, _, by rw [e1]; rfl, h, fun hc => ?_⟩
  rw [h, penalty_end, hc, if_pos rfl, add_zero]

/-- If the iterations run out the proposed step was already taken, and with few pairs the intervals belong to other smoothing parameters than coefficients, Hessian and degrees of
freedom. -/
theorem moved_wrong {x : Ext n} (hx : ExtOK x) {pairs : ℕ} (hp : ¬ (pairs : ℝ) > 0.3 * n) {k : ℕ} (S : Fin k → Mat n) (lam delta : Fin k → ℝ)
    {Sroot : Matrix (Fin n) (Fin q) ℝ} (hS : Sroot * Srootᵀ = penalty S (lamEnd false lam delta)) {omega : ℝ} (ho : 0 < omega) (g : Fac n m) (d : Dec n p m)
    (pd : Option (ℝ × ℝ)) {e : Dec2 n (lowHSR1 omega g d pd).k} (he : Dec2OK _ e) (hT : (psdVal omega (omega • (1 : Mat n)) g d pd + Sroot * Srootᵀ).PosDef)
    (hT0 : (psdVal omega (omega • (1 : Mat n)) g d pd + penalty S lam).PosDef) (hδ : penalty S delta ≠ 0) :
    ∃ L LV, formV x pairs (psdVal omega (omega • (1 : Mat n)) g d pd) (penalty S lam) (cholUpd x (rootFull Sroot omega) (lowHSR1 omega g d pd) e) = some (L, LV) ∧
      LVᵀ * LV ≠ (psdVal omega (omega • (1 : Mat n)) g d pd + penalty S lam)⁻¹ := by
  obtain ⟨L, LV, h1, h2, -⟩ := interval_penalty_partial hx hp S false lam delta hS ho g d pd he hT
  refine ⟨L, LV, h1, fun h => hδ ?_⟩
  rw [hS] at hT
  rw [h2] at h
  have h3 := add_left_cancel (inv_inj' hT hT0 h)
  rw [penalty_end, if_neg Bool.false_ne_true] at h3
  exact add_eq_left.1 h3

/-- Degrees of freedom recomputed after the step was taken multiply the traces for the old smoothing parameters by the new ones, and can be negative. -/
theorem edf_moved_wrong : ∃ (nH : Mat 1) (S : Fin 1 → Mat 1) (lam delta : Fin 1 → ℝ), nH.PosDef ∧ (S 0).PosDef ∧ 0 < lam 0 ∧
    0 < edfOf (nH + penalty S lam)⁻¹ lam S ∧ edfOf (nH + penalty S lam)⁻¹ (lamEnd false lam delta) S < 0 := by
  have hV : ((1 : Mat 1) + penalty (fun _ : Fin 1 => (1 : Mat 1)) fun _ => 1)⁻¹ = Matrix.of fun _ _ => (1 / 2 : ℝ) := by
    refine Matrix.inv_eq_left_inv ?_
    ext i j
    have hi : i = 0 := Subsingleton.elim _ _
    have hj : j = 0 := Subsingleton.elim _ _
    subst hi
    subst hj
    unfold penalty
    simp [Matrix.mul_apply]
    norm_num
  refine ⟨1, fun _ => 1, fun _ => 1, fun _ => 9, Matrix.PosDef.one, Matrix.PosDef.one, one_pos, ?_, ?_⟩
  · rw [hV]
    unfold edfOf
    simp [Matrix.trace]
    norm_num
  · rw [hV]
    unfold edfOf lamEnd
    simp [Matrix.trace]
    norm_num

/-! ## Pairs sampled after the fit -/

/-- Pairs sampled for an operator that already had pairs are used for the degrees of freedom. -/
theorem resample_partial (pairs0 : List (Pair n)) (h0 : pairs0 ≠ []) (nHfd0 : Mat n) {updates : ℕ} (hu : 0 < updates) (pairs : List (Pair n)) (nHfd : Mat n)
    (omega : List (Pair n) → ℝ) (whole : List (Pair n) → Mat n → Mat n) :
    ((Linop.new pairs0 nHfd0).resample updates pairs nHfd).hess omega whole = whole pairs nHfd := by
  unfold Linop.resample Linop.new Linop.hess
  rw [if_pos hu]
  exact if_neg fun h => h0 (List.length_eq_zero_iff.1 h)

/-- For an operator without pairs the count stays zero: the sampled pairs only enter through a multiple of the identity, and the finite differences do not enter. -/
theorem resample_wrong (nHfd0 : Mat n) {updates : ℕ} (hu : 0 < updates) {pairs : List (Pair n)} (hp : pairs ≠ []) (nHfd : Mat n)
    (omega : List (Pair n) → ℝ) (whole : List (Pair n) → Mat n → Mat n) :
    ((Linop.new [] nHfd0).resample updates pairs nHfd).hess omega whole = omega pairs • (1 : Mat n) := by
  unfold Linop.resample Linop.new Linop.hess
  rw [if_pos hu]
  change (if ([] : List (Pair n)).length = 0 then (if pairs = [] then 1 else omega pairs) • (1 : Mat n) else _) = _
  rw [if_pos List.length_nil, if_neg hp]

/-! ## Cases meeting the hypotheses -/

/-- Four coefficients, an update along the first one. -/
def exG : Fac 4 1 := ⟨Matrix.of fun i _ => if i = 0 then 1 else 0, 1⟩

def exD : Dec 4 1 1 := ⟨Matrix.of fun i _ => if i = 0 then 1 else 0, 1, fun _ => 1, 1⟩

theorem exD_ok : DecOK exG exD := by
  refine ⟨by simp [exG, exD], ?_, ?_, by simp [exD]⟩
  · ext i j
    have hi : i = 0 := Subsingleton.elim _ _
    have hj : j = 0 := Subsingleton.elim _ _
    subst hi
    subst hj
    simp [exD, Matrix.mul_apply, Fin.sum_univ_four]
  · ext i j
    have hi : i = 0 := Subsingleton.elim _ _
    have hj : j = 0 := Subsingleton.elim _ _
    subst hi
    subst hj
    simp [exG, exD]

theorem exD_pos : ∀ i, 0 < exD.ev i + 1 := fun i => by
  change (0 : ℝ) < 1 + 1
  norm_num

theorem exLow (pd : Option (ℝ × ℝ)) : lowHSR1 1 exG exD pd = ⟨1, exG.t1, exG.t2⟩ := by
  unfold lowHSR1
  rw [if_neg]
  rintro ⟨i, hi⟩
  exact absurd (exD_pos i) (not_lt.2 hi)

theorem exDec2 (pd : Option (ℝ × ℝ)) : ∃ e : Dec2 4 (lowHSR1 1 exG exD pd).k, Dec2OK _ e := by
  rw [exLow]
  exact ⟨⟨1, exD⟩, exD_ok⟩

theorem exMx : IsGreatest (Set.range fun i => clip 1 exD i + 1) 2 := by
  have h : ∀ i, clip 1 exD i + 1 = 2 := by
    intro i
    unfold clip
    rw [if_neg (show ¬ fix 1 exD i from not_le.2 (exD_pos i))]
    change (1 : ℝ) + 1 = 2
    norm_num
  refine ⟨⟨0, h 0⟩, ?_⟩
  rintro _ ⟨i, rfl⟩
  exact (h i).le

theorem exPd : (psdVal 1 ((1 : ℝ) • (1 : Mat 4)) exG exD (some (1 / 10, 2))).PosDef :=
  make_pd_pd_partial exD_ok one_pos (by norm_num) exMx ⟨0, exD_pos 0⟩

example : ∃ x : Ext 4, ExtOK x ∧ (∃ e, Dec2OK (lowHSR1 1 exG exD (some (1 / 10, 2))) e) ∧ DecOK exG exD ∧
    IsGreatest (Set.range fun i => clip 1 exD i + 1) 2 ∧ (∃ i, 0 < exD.ev i + 1) := by
  obtain ⟨x, hx⟩ := ext_exists 4
  exact ⟨x, hx, exDec2 _, exD_ok, exMx, ⟨0, exD_pos 0⟩⟩

/-- One pair for four coefficients is few; the step of the smoothing parameter was taken. -/
example : ¬ ((1 : ℕ) : ℝ) > 0.3 * (4 : ℕ) ∧ (psdVal 1 ((1 : ℝ) • (1 : Mat 4)) exG exD (some (1 / 10, 2)) + penalty (fun _ : Fin 1 => (1 : Mat 4)) fun _ => 1).PosDef ∧
    ((2 : ℝ) • (1 : Mat 4)) * ((2 : ℝ) • (1 : Mat 4))ᵀ = penalty (fun _ : Fin 1 => (1 : Mat 4)) (lamEnd false (fun _ => 1) fun _ => 3) ∧
    penalty (fun _ : Fin 1 => (1 : Mat 4)) (fun _ => 3) ≠ 0 := by
  refine ⟨by norm_num, exPd.add_posSemidef ?_, ?_, ?_⟩
  · simpa [penalty] using (Matrix.PosDef.one (n := Fin 4) (R := ℝ)).posSemidef
  · unfold penalty lamEnd
    rw [Matrix.transpose_smul, Matrix.transpose_one, Matrix.smul_mul, Matrix.one_mul, smul_smul, Fin.sum_univ_one]
    norm_num
  · intro h
    have := congrFun (congrFun h 0) 0
    simp [penalty] at this

/-- A structured approximation: one coefficient with finite differences, one without. -/
def exT : Fin 1 ⊕ Fin 1 → Fin 2 := Sum.elim (fun _ => 0) fun _ => 1

def exFd : Mat 2 := Matrix.of fun i j => if i = 0 ∧ j = 0 then 1 else 0

def exE : Eig 1 := ⟨1, fun _ => 1⟩

theorem exT_bij : Function.Bijective exT := by
  constructor
  · rintro (i | i) (j | j) h
    · rw [Subsingleton.elim i j]
    · simp [exT] at h
    · simp [exT] at h
    · rw [Subsingleton.elim i j]
  · intro k
    fin_cases k
    · exact ⟨Sum.inl 0, rfl⟩
    · exact ⟨Sum.inr 0, rfl⟩

theorem exBB : BB exT exFd = 1 := by
  ext i j
  have hi : i = 0 := Subsingleton.elim _ _
  have hj : j = 0 := Subsingleton.elim _ _
  subst hi
  subst hj
  change onHfd exT exFd (Sum.inl 0) (Sum.inl 0) = _
  rw [onHfd_apply]
  simp [exT, exFd]

theorem exBb : Bb exT exFd = 0 := by
  ext i j
  change onHfd exT exFd (Sum.inl i) (Sum.inr j) = _
  rw [onHfd_apply]
  simp [exT, exFd]

theorem exPart : PartOK exT exFd 1 (some (1 / 2, 1)) exE := by
  refine ⟨⟨exT_bij, ?_, ?_⟩, ⟨by simp [exE]⟩, ?_, ?_, fun _ => zero_le_one, Matrix.transpose_one, ?_⟩
  · intro i j
    simp [exT, exFd]
  · intro i j
    simp [exT, exFd]
  · rw [exBB]
    simp [exE]
  · intro i
    unfold fdEv exE
    norm_num
  · rw [exBb, Matrix.mul_zero]

example : ∃ e2, Dec2OK (embedLow exT ⟨1, 1, 1⟩) e2 := by
  refine ⟨⟨1, ⟨P2 exT, (1 : Mat 1), fun _ => 1, 1⟩⟩, ⟨?_, ?_, ?_, by simp⟩⟩
  · change P2 exT * (1 : Mat 1) = P2 exT * (1 : Mat 1)
    rfl
  · ext i j
    have hi : i = 0 := Subsingleton.elim _ _
    have hj : j = 0 := Subsingleton.elim _ _
    subst hi
    subst hj
    simp [P2, exT, Matrix.mul_apply]
  · ext i j
    have hi : i = 0 := Subsingleton.elim _ _
    have hj : j = 0 := Subsingleton.elim _ _
    subst hi
    subst hj
    change ((1 : Mat 1) * (1 : Mat 1) * (1 : Mat 1)ᵀ) 0 0 = ((1 : Mat 1) * (Matrix.diagonal (fun _ => 1) : Mat 1) * (1 : Mat 1)ᵀ) 0 0
    simp

example : (explicitPart exT exFd 1 1 ⟨1, 1, 1⟩).PosDef := by
  refine part_pd exPart (by rw [exBB]; exact Matrix.PosDef.one) ?_
  rw [one_smul, Matrix.transpose_one, Matrix.mul_one, Matrix.mul_one]
  exact Matrix.PosDef.one.add_posSemidef Matrix.PosDef.one.posSemidef

example : pdBB true true (1 / 2 * 2) (⟨1, fun _ => 2⟩ : Eig 1) = (⟨1, fun _ => 2⟩ : Eig 1).U * Matrix.diagonal (fun _ => 2) * (⟨1, fun _ => 2⟩ : Eig 1).Uᵀ := by
  unfold pdBB pdEv
  norm_num

/-- A pair in the plane. -/
example : ∃ g d, hsr1 (fun _ : Fin 1 => ![1, 0]) (fun _ => ![1, 1]) (fun _ => 1) (omegaNoWr ![1, 1] ![1, 0] • (1 : Mat 2)) = some g ∧
    DecOK g (d : Dec 2 1 1) := by
  have hw : omegaNoWr ![1, 1] ![1, 0] = (2 : ℝ) := by
    unfold omegaNoWr
    norm_num
  have hM : hMid (fun _ : Fin 1 => ![1, 0]) (fun _ => ![1, 1]) (fun _ => 1) ((2 : ℝ) • (1 : Mat 2)) = Matrix.of fun _ _ => -1 := by
    ext i j
    have hi : i = 0 := Subsingleton.elim _ _
    have hj : j = 0 := Subsingleton.elim _ _
    subst hi
    subst hj
    unfold hMid DK Lmat Rmat cols
    simp [Matrix.mul_apply, Fin.sum_univ_two]
    norm_num
  have hinv : (Matrix.of fun _ _ => -1 : Mat 1)⁻¹ = Matrix.of fun _ _ => -1 := by
    refine Matrix.inv_eq_left_inv ?_
    ext i j
    have hi : i = 0 := Subsingleton.elim _ _
    have hj : j = 0 := Subsingleton.elim _ _
    subst hi
    subst hj
    simp [Matrix.mul_apply]
  have ht1 : (cols fun _ : Fin 1 => ![1, 1]) - (2 : ℝ) • (1 : Mat 2) * (cols fun _ : Fin 1 => ![1, 0]) = Matrix.of fun i (_ : Fin 1) => ![-1, 1] i := by
    rw [Matrix.smul_mul, Matrix.one_mul]
    ext i j
    fin_cases i
    · simp [cols]
      norm_num
    · simp [cols]
  have h2 : √2 * √2 = (2 : ℝ) := Real.mul_self_sqrt (by norm_num)
  have h20 : √2 ≠ (0 : ℝ) := by
    intro h
    rw [h] at h2
    norm_num at h2
  refine ⟨⟨Matrix.of fun i _ => ![-1, 1] i, Matrix.of fun _ _ => -1⟩, ⟨Matrix.of fun i _ => ![-1, 1] i / √2, Matrix.of fun _ _ => √2, fun _ => -2, 1⟩, ?_, ?_, ?_, ?_, ?_⟩
  · rw [hw]
    unfold hsr1
    rw [if_neg one_ne_zero, hM]
    unfold inv?
    rw [if_pos (by rw [Matrix.det_fin_one]; simp), Option.map_some, hinv, ht1]
  · ext i j
    rw [Matrix.mul_apply, Fin.sum_univ_one]
    simp only [Matrix.of_apply]
    field_simp
  · ext i j
    have hi : i = 0 := Subsingleton.elim _ _
    have hj : j = 0 := Subsingleton.elim _ _
    subst hi
    subst hj
    rw [Matrix.mul_apply, Fin.sum_univ_two]
    simp only [Matrix.transpose_apply, Matrix.of_apply, Matrix.one_apply_eq, Matrix.cons_val_zero, Matrix.cons_val_one]
    field_simp
    rw [pow_two, h2]
    norm_num
  · ext i j
    have hi : i = 0 := Subsingleton.elim _ _
    have hj : j = 0 := Subsingleton.elim _ _
    subst hi
    subst hj
    simp [Matrix.mul_apply, h2]
  · simp

/-- One of two eigenvalues has to be moved. -/
example : ∃ (g : Fac 2 2) (d : Dec 2 2 2), DecOK g d ∧ IsGreatest (Set.range fun i => clip 1 d i + 1) 2 ∧ (∃ i, 0 < d.ev i + 1) ∧ d.ev 0 + 1 ≤ 0 := by
  refine ⟨⟨1, Matrix.diagonal ![-1, 1]⟩, ⟨1, 1, ![-1, 1], 1⟩, ⟨by simp, by simp, by simp, by simp⟩, ⟨⟨1, ?_⟩, ?_⟩, ⟨1, ?_⟩, ?_⟩
  · unfold clip fix
    norm_num
  · rintro _ ⟨i, rfl⟩
    unfold clip fix
    fin_cases i <;> norm_num
  · norm_num
  · norm_num

example : ¬ ((0 : Mat 1) + 0).PosDef ∧ ((1 : ℕ) : ℝ) > 0.3 * (1 : ℕ) := by
  refine ⟨fun h => ?_, by norm_num⟩
  have := h.diag_pos (i := 0)
  simp at this

end Verif.Qfac
