import Verif.PirlsInvModel
import Verif.PirlsInvLemmas
import Verif.Pirls

/-!
# Fits of generalised additive models do not depend on how the data are written down (property C129)
-/

namespace Verif.PInv
open Verif Matrix Fl Fam Pirls

variable {N N' p : ℕ} {x : In N p}

/-! ### Recombined columns -/

open Classical in
/-- Square root of the weight, zero for rows left out. -/
noncomputable def sw (x : In N p) (b : Fin p → ℝ) (i : Fin N) : ℝ := if invalid (zw x b i) then 0 else Real.sqrt (zw x b i).2.val

theorem gram_mat (x : In N p) (b : Fin p → ℝ) :
    Pirls.gram x b = (diagonal (sw x b) * x.X)ᵀ * (diagonal (sw x b) * x.X) + x.S := by
  classical
  ext a c
  rw [gram_rows, Matrix.add_apply, Matrix.mul_apply]
  congr 1
  refine Finset.sum_congr rfl fun i _ => ?_
  rw [transpose_apply, diagonal_mul, diagonal_mul]
  unfold sw
  split_ifs
  · ring
  · rfl

theorem rhs_mat (x : In N p) (b : Fin p → ℝ) :
    Pirls.rhs x b = (diagonal (sw x b) * x.X)ᵀ *ᵥ fun i => sw x b i * (zw x b i).1.val := by
  classical
  funext a
  rw [rhs_rows]
  simp only [Matrix.mulVec, dotProduct]
  refine Finset.sum_congr rfl fun i _ => ?_
  rw [transpose_apply, diagonal_mul]
  unfold sw
  split_ifs
  · ring
  · rfl

variable {A : Matrix (Fin p) (Fin p) ℝ}

theorem eta_recomb (c : Fin p → ℝ) : eta (recomb A x) c = eta x (A *ᵥ c) := by
  funext i
  show ((x.X * A) *ᵥ c) i + x.off i = (x.X *ᵥ (A *ᵥ c)) i + x.off i
  rw [Matrix.mulVec_mulVec]

theorem zw_recomb (c : Fin p → ℝ) : zw (recomb A x) c = zw x (A *ᵥ c) := by
  funext i
  unfold zw
  rw [eta_recomb]; rfl

theorem sw_recomb (c : Fin p → ℝ) : sw (recomb A x) c = sw x (A *ᵥ c) := by
  funext i
  unfold sw
  rw [zw_recomb]

theorem gram_recomb (c : Fin p → ℝ) : Pirls.gram (recomb A x) c = Aᵀ * Pirls.gram x (A *ᵥ c) * A := by
  rw [gram_mat, gram_mat, sw_recomb]
  show (diagonal (sw x (A *ᵥ c)) * (x.X * A))ᵀ * (diagonal (sw x (A *ᵥ c)) * (x.X * A)) + Aᵀ * x.S * A = _
  rw [← Matrix.mul_assoc (diagonal (sw x (A *ᵥ c))), Matrix.transpose_mul (diagonal (sw x (A *ᵥ c)) * x.X) A, Matrix.mul_add, Matrix.add_mul]
  simp only [Matrix.mul_assoc]

theorem rhs_recomb (c : Fin p → ℝ) : rhs (recomb A x) c = Aᵀ *ᵥ rhs x (A *ᵥ c) := by
  rw [rhs_mat, rhs_mat, sw_recomb, zw_recomb]
  show (diagonal (sw x (A *ᵥ c)) * (x.X * A))ᵀ *ᵥ _ = _
  rw [← Matrix.mul_assoc, Matrix.transpose_mul (diagonal (sw x (A *ᵥ c)) * x.X) A, Matrix.mulVec_mulVec]

theorem posDef_conj (hA : IsUnit A) (M : Matrix (Fin p) (Fin p) ℝ) : (Aᵀ * M * A).PosDef ↔ M.PosDef := by
  have := Matrix.IsUnit.posDef_star_left_conjugate_iff (x := M) hA
  rwa [Matrix.star_eq_conjTranspose, Matrix.conjTranspose_eq_transpose_of_trivial] at this

theorem inv_conj (hA : IsUnit A) (M : Matrix (Fin p) (Fin p) ℝ) : A * (Aᵀ * M * A)⁻¹ * Aᵀ = M⁻¹ := by
  have hd : IsUnit A.det := (Matrix.isUnit_iff_isUnit_det A).1 hA
  have hdt : IsUnit Aᵀ.det := by rwa [Matrix.det_transpose]
  rw [Matrix.mul_inv_rev, Matrix.mul_inv_rev, ← Matrix.mul_assoc, Matrix.mul_nonsing_inv _ hd, Matrix.one_mul, Matrix.mul_assoc,
    Matrix.nonsing_inv_mul _ hdt, Matrix.mul_one]

theorem sim_recomb (hA : IsUnit A) : Sim x (recomb A x) (A *ᵥ ·) 0 where
  mid c d := by unfold Step.mid; rw [Matrix.mulVec_smul, Matrix.mulVec_add]
  pen c := by
    rw [fl_add_zero]
    show (prob (recomb A x)).devF (fun i => x.lk.fi (fin (eta (recomb A x) c i))) + fin (c ⬝ᵥ ((Aᵀ * x.S * A) *ᵥ c)) =
      (prob x).devF (fun i => x.lk.fi (fin (eta x (A *ᵥ c) i))) + fin ((A *ᵥ c) ⬝ᵥ (x.S *ᵥ (A *ᵥ c)))
    have e : c ⬝ᵥ ((Aᵀ * x.S * A) *ᵥ c) = (A *ᵥ c) ⬝ᵥ (x.S *ᵥ (A *ᵥ c)) := by
      rw [← Matrix.mulVec_mulVec, ← Matrix.mulVec_mulVec, Matrix.dotProduct_mulVec, Matrix.vecMul_transpose]
    rw [eta_recomb, e]; rfl
  next c := by
    unfold Pirls.next Gauss.solveXX
    rw [gram_recomb, rhs_recomb]
    by_cases h : (Pirls.gram x (A *ᵥ c)).PosDef
    · rw [if_pos h, if_pos ((posDef_conj hA _).2 h)]
      show A *ᵥ ((Aᵀ * Pirls.gram x (A *ᵥ c) * A)⁻¹ *ᵥ (Aᵀ *ᵥ rhs x (A *ᵥ c))) = (Pirls.gram x (A *ᵥ c))⁻¹ *ᵥ rhs x (A *ᵥ c)
      rw [Matrix.mulVec_mulVec, Matrix.mulVec_mulVec, inv_conj hA]
    · rw [if_neg h, if_neg (fun h' => h ((posDef_conj hA _).1 h'))]
      exact Matrix.mulVec_zero A

/-- C129.  With recombined columns (other units, another basis) and the penalty rewritten accordingly, the fit for given smoothing parameters
ends with the same coefficients, expressed in the new columns, and the same linear predictor: for every start, number of passes, family, link
and data, whatever rows are left out and steps halved. -/
theorem recombined (hA : IsUnit A) (m : ℕ) (c : Fin p → ℝ) :
    (Pirls.inner (recomb A x) m c).map (A *ᵥ ·) = Pirls.inner x m (A *ᵥ c) ∧
      (Pirls.inner (recomb A x) m c).map (eta (recomb A x)) = (Pirls.inner x m (A *ᵥ c)).map (eta x) := by
  have h := inner_sim (sim_recomb (x := x) hA) m c
  refine ⟨h, ?_⟩
  rw [← h, Option.map_map]
  exact congrArg (fun g => Option.map g (Pirls.inner (recomb A x) m c)) (funext fun b => eta_recomb b)

/-- C129.  Other units: coefficients are divided by the factor their column is multiplied with. -/
theorem units {s : Fin p → ℝ} (hs : ∀ k, s k ≠ 0) (m : ℕ) (c : Fin p → ℝ) :
    (Pirls.inner (recomb (diagonal s) x) m c).map (fun b k => s k * b k) = Pirls.inner x m (fun k => s k * c k) := by
  have hu : IsUnit (diagonal s) := by
    rw [Matrix.isUnit_iff_isUnit_det, Matrix.det_diagonal]
    exact isUnit_iff_ne_zero.2 (Finset.prod_ne_zero_iff.2 fun k _ => hs k)
  have e : ∀ b : Fin p → ℝ, diagonal s *ᵥ b = fun k => s k * b k := fun b => by
    funext k; exact Matrix.mulVec_diagonal s b k
  have h := (recombined (x := x) hu m c).1
  rw [e c] at h
  rw [← h]
  exact congrArg (fun g => Option.map g (Pirls.inner (recomb (diagonal s) x) m c)) (funext fun b => (e b).symm)

/-- C129.  Standard errors of predictions and effective degrees of freedom from the last system are the same as well: a row `v` of the old
model matrix is the row `v A` of the new one. -/
theorem spread (hA : IsUnit A) (c v : Fin p → ℝ) :
    (v ᵥ* A) ⬝ᵥ ((Pirls.gram (recomb A x) c)⁻¹ *ᵥ (v ᵥ* A)) = v ⬝ᵥ ((Pirls.gram x (A *ᵥ c))⁻¹ *ᵥ v) ∧
      ((Pirls.gram (recomb A x) c)⁻¹ * (recomb A x).S).trace = ((Pirls.gram x (A *ᵥ c))⁻¹ * x.S).trace := by
  rw [gram_recomb, ← inv_conj hA (Pirls.gram x (A *ᵥ c))]
  constructor
  · rw [← Matrix.mulVec_mulVec, ← Matrix.mulVec_mulVec, Matrix.dotProduct_mulVec v A, Matrix.mulVec_transpose]
  · show ((Aᵀ * Pirls.gram x (A *ᵥ c) * A)⁻¹ * (Aᵀ * x.S * A)).trace = _
    rw [← Matrix.mul_assoc, Matrix.trace_mul_comm]
    simp only [Matrix.mul_assoc]

/-! ### Order of the rows -/

theorem sim_reorder (σ : Equiv.Perm (Fin N)) : Sim x (reorder σ x) id 0 where
  mid c d := rfl
  pen c := by
    rw [fl_add_zero]
    classical
    have e : (prob (reorder σ x)).devF (fun i => x.lk.fi (fin (eta x c (σ i)))) = (prob x).devF (fun i => x.lk.fi (fin (eta x c i))) :=
      fl_sum_perm σ fun i => if x.lk.fi (fin (eta x c i)) = .nan then fin 0 else (x.fam i).D (fin (x.y i)) (x.lk.fi (fin (eta x c i)))
    show (prob (reorder σ x)).devF (fun i => x.lk.fi (fin (eta x c (σ i)))) + fin (c ⬝ᵥ (x.S *ᵥ c)) = _
    rw [e]; rfl
  next c := by
    classical
    have eg : Pirls.gram (reorder σ x) c = Pirls.gram x c := by
      ext a b
      rw [gram_rows, gram_rows]
      congr 1
      exact Equiv.sum_comp σ fun i => if invalid (zw x c i) then 0 else
        Real.sqrt (zw x c i).2.val * x.X i a * (Real.sqrt (zw x c i).2.val * x.X i b)
    have er : rhs (reorder σ x) c = rhs x c := by
      funext a
      rw [rhs_rows, rhs_rows]
      exact Equiv.sum_comp σ fun i => if invalid (zw x c i) then 0 else
        Real.sqrt (zw x c i).2.val * x.X i a * (Real.sqrt (zw x c i).2.val * (zw x c i).1.val)
    show Pirls.next (reorder σ x) c = Pirls.next x c
    unfold Pirls.next
    rw [eg, er]

/-- C129.  The order of the rows does not matter. -/
theorem rows (σ : Equiv.Perm (Fin N)) (m : ℕ) (c : Fin p → ℝ) : Pirls.inner (reorder σ x) m c = Pirls.inner x m c := by
  have := inner_sim (sim_reorder (x := x) σ) m c
  rwa [Option.map_id] at this

/-! ### Offsets -/

theorem eta_shift (b0 c : Fin p → ℝ) : eta (shift b0 x) c = eta x (c + b0) := by
  funext i
  show (x.X *ᵥ c) i + (x.off i + (x.X *ᵥ b0) i) = (x.X *ᵥ (c + b0)) i + x.off i
  rw [Matrix.mulVec_add, Pi.add_apply]; ring

theorem zw_shift (b0 c : Fin p → ℝ) (i : Fin N) :
    zw (shift b0 x) c i = ((zw x (c + b0) i).1 + fin (-(x.X *ᵥ b0) i), (zw x (c + b0) i).2) := by
  unfold zw fisherZW
  rw [eta_shift]
  dsimp only
  refine Prod.ext ?_ rfl
  show x.lk.dy1 _ * (fin (x.y i) - _) + (fin (eta x (c + b0) i) - fin (x.off i + (x.X *ᵥ b0) i)) =
    x.lk.dy1 _ * (fin (x.y i) - _) + (fin (eta x (c + b0) i) - fin (x.off i)) + fin (-(x.X *ᵥ b0) i)
  rw [fl_add_assoc, fin_sub, fin_sub, fin_add]
  congr 2
  ring

theorem invalid_shift (b0 c : Fin p → ℝ) (i : Fin N) : invalid (zw (shift b0 x) c i) ↔ invalid (zw x (c + b0) i) := by
  rw [zw_shift]
  unfold invalid
  dsimp only
  rw [fin_add_iff]

theorem sw_shift (b0 c : Fin p → ℝ) : sw (shift b0 x) c = sw x (c + b0) := by
  classical
  funext i
  unfold sw
  rw [if_congr (invalid_shift b0 c i) rfl rfl, zw_shift]

theorem sim_shift {b0 : Fin p → ℝ} (hS : x.S.IsSymm) (h0 : x.S *ᵥ b0 = 0) (hp : ∀ b, (Pirls.gram x b).PosDef) :
    Sim x (shift b0 x) (· + b0) 0 where
  mid c d := by
    unfold Step.mid
    funext a
    simp only [Pi.add_apply, Pi.smul_apply, smul_eq_mul]
    ring
  pen c := by
    rw [fl_add_zero]
    show (prob (shift b0 x)).devF (fun i => x.lk.fi (fin (eta (shift b0 x) c i))) + fin (c ⬝ᵥ (x.S *ᵥ c)) =
      (prob x).devF (fun i => x.lk.fi (fin (eta x (c + b0) i))) + fin ((c + b0) ⬝ᵥ (x.S *ᵥ (c + b0)))
    have e : b0 ⬝ᵥ (x.S *ᵥ c) = 0 := by
      rw [Matrix.dotProduct_mulVec, ← Matrix.mulVec_transpose, hS, h0, zero_dotProduct]
    rw [eta_shift, Matrix.mulVec_add, h0, add_zero, add_dotProduct, e, add_zero]; rfl
  next c := by
    have eg : Pirls.gram (shift b0 x) c = Pirls.gram x (c + b0) := by
      rw [gram_mat, gram_mat, sw_shift]; rfl
    have er : rhs (shift b0 x) c = rhs x (c + b0) - Pirls.gram x (c + b0) *ᵥ b0 := by
      classical
      have e1 : (fun i => sw x (c + b0) i * (zw (shift b0 x) c i).1.val) =
          (fun i => sw x (c + b0) i * (zw x (c + b0) i).1.val) - (diagonal (sw x (c + b0)) * x.X) *ᵥ b0 := by
        funext i
        rw [Pi.sub_apply, ← Matrix.mulVec_mulVec, Matrix.mulVec_diagonal]
        by_cases hi : invalid (zw x (c + b0) i)
        · have : sw x (c + b0) i = 0 := if_pos hi
          rw [this]; ring
        · rw [zw_shift, ← mul_sub]
          congr 1
          unfold invalid at hi
          rw [not_not] at hi
          dsimp only
          cases hz : (zw x (c + b0) i).1 with
          | fin z => simp [sub_eq_add_neg]
          | pinf => rw [hz] at hi; exact absurd hi.1 id
          | ninf => rw [hz] at hi; exact absurd hi.1 id
          | nan => rw [hz] at hi; exact absurd hi.1 id
      rw [rhs_mat, sw_shift, e1, rhs_mat, gram_mat, Matrix.mulVec_sub, Matrix.add_mulVec, h0, add_zero,
        ← Matrix.mulVec_mulVec b0 (diagonal (sw x (c + b0)) * x.X)ᵀ]
      rfl
    unfold Pirls.next Gauss.solveXX
    have hM := hp (c + b0)
    have hu : IsUnit (Pirls.gram x (c + b0)).det := hM.isUnit.map Matrix.detMonoidHom
    rw [eg, er, if_pos hM, if_pos hM]
    show (Pirls.gram x (c + b0))⁻¹ *ᵥ (rhs x (c + b0) - Pirls.gram x (c + b0) *ᵥ b0) + b0 = (Pirls.gram x (c + b0))⁻¹ *ᵥ rhs x (c + b0)
    rw [Matrix.mulVec_sub, Matrix.mulVec_mulVec, Matrix.nonsing_inv_mul _ hu, Matrix.one_mulVec, sub_add_cancel]

/-- C129.  A known effect may be moved into the offset: with `X @ b0` added to the offset, for coefficients `b0` that are not penalised,
coefficients are smaller by `b0` and linear predictors are the same. -/
theorem offset {b0 : Fin p → ℝ} (hS : x.S.IsSymm) (h0 : x.S *ᵥ b0 = 0) (hp : ∀ b, (Pirls.gram x b).PosDef) (m : ℕ) (c : Fin p → ℝ) :
    (Pirls.inner (shift b0 x) m c).map (· + b0) = Pirls.inner x m (c + b0) ∧
      (Pirls.inner (shift b0 x) m c).map (eta (shift b0 x)) = (Pirls.inner x m (c + b0)).map (eta x) := by
  have h := inner_sim (sim_shift hS h0 hp) m c
  refine ⟨h, ?_⟩
  rw [← h, Option.map_map]
  exact congrArg (fun g => Option.map g (Pirls.inner (shift b0 x) m c)) (funext fun b => eta_shift b0 b)

/-! ### Trials of binomial rows -/

variable {x' : In N' p} {r : Fin N' → Fin N} {n : Fin N → ℕ}

theorem eta_trials (h : Trials x x' r n) (c : Fin p → ℝ) (k : Fin N') : eta x' c k = eta x c (r k) := by
  unfold eta
  rw [h.off]
  congr 1
  simp only [Matrix.mulVec, dotProduct, h.X]

theorem sum_trials (h : Trials x x' r n) (u w : Fin N → ℝ) :
    ∑ k, (x'.y k * u (r k) + w (r k)) = ∑ i, n i * (x.y i * u i + w i) := by
  rw [← Finset.sum_fiberwise Finset.univ r]
  refine Finset.sum_congr rfl fun i _ => ?_
  have e : ∑ k ∈ Finset.univ.filter (fun k => r k = i), (x'.y k * u (r k) + w (r k)) =
      ∑ k ∈ Finset.univ.filter (fun k => r k = i), (x'.y k * u i + w i) := by
    refine Finset.sum_congr rfl fun k hk => ?_
    rw [(Finset.mem_filter.1 hk).2]
  rw [e, Finset.sum_add_distrib, ← Finset.sum_mul, h.y, Finset.sum_const, h.count, nsmul_eq_mul]
  ring

theorem adm_logit {N p : ℕ} {x : In N p} {n : Fin N → ℕ} (hf : ∀ i, x.fam i = .binomial (n i)) (hl : x.lk = .logit) (b : Fin p → ℝ) :
    Adm x b := adm_total (fun i => by rw [hf i, hl]; trivial) b

theorem wR_trials (h : Trials x x' r n) (hg : Good x 1) (c : Fin p → ℝ) (k : Fin N') : wR x c (r k) = n (r k) * wR x' c k := by
  have hn : (n (r k) : ℝ) ≠ 0 := by
    have := ok_of_obs (hg.obs (r k))
    rw [h.fam] at this
    have h' : 0 < n (r k) := this
    exact_mod_cast h'.ne'
  unfold wR
  rw [eta_trials h, h.fam, h.fam', h.lk, h.lk']
  simp only [FamKind.VR, Nat.cast_one, div_one]
  rw [mul_div_assoc', one_div_div]
  ring

theorem sim_trials (h : Trials x x' r n) (hg : Good x 1) (hg' : Good x' 1) : ∃ K, Sim x x' id K := by
  have ha : ∀ b, Adm x b := adm_logit h.fam h.lk
  have ha' : ∀ b, Adm x' b := adm_logit h.fam' h.lk'
  obtain ⟨K1, h1⟩ := pen_eq hg
  obtain ⟨K2, h2⟩ := pen_eq hg'
  refine ⟨K2 - K1 + 2 * ((∑ i, (x.fam i).cR (x.y i) 1) - ∑ k, (x'.fam k).cR (x'.y k) 1), ⟨fun c d => rfl, fun c => ?_, fun c => ?_⟩⟩
  · rw [h2 c (ha' c), id, h1 c (ha c), fin_add]
    have hl : (∑ k, (x'.fam k).lR (x'.y k) (x'.lk.fiR (eta x' c k)) 1) = ∑ i, (x.fam i).lR (x.y i) (x.lk.fiR (eta x c i)) 1 := by
      have e := sum_trials h (fun i => Real.log (x.lk.fiR (eta x c i)) - Real.log (1 - x.lk.fiR (eta x c i)))
        (fun i => Real.log (1 - x.lk.fiR (eta x c i)))
      have e1 : (∑ k, (x'.fam k).lR (x'.y k) (x'.lk.fiR (eta x' c k)) 1) = ∑ k, (x'.y k * (Real.log (x.lk.fiR (eta x c (r k))) -
          Real.log (1 - x.lk.fiR (eta x c (r k)))) + Real.log (1 - x.lk.fiR (eta x c (r k)))) := by
        refine Finset.sum_congr rfl fun k _ => ?_
        rw [eta_trials h, h.fam', h.lk', h.lk]
        simp only [FamKind.lR, Nat.cast_one]
        ring
      rw [e1, e]
      refine Finset.sum_congr rfl fun i _ => ?_
      rw [h.fam]
      simp only [FamKind.lR]
      ring
    congr 1
    unfold PR phi
    rw [Finset.sum_add_distrib, Finset.sum_add_distrib, hl, h.S]
    ring
  · have eg : Pirls.gram x' c = Pirls.gram x c := by
      ext a b
      rw [gram_eq hg' (ha' c), gram_eq hg (ha c), h.S]
      congr 1
      have e := sum_trials h (fun _ => 0) (fun i => wR x c i / n i * x.X i a * x.X i b)
      have e1 : (∑ k, wR x' c k * x'.X k a * x'.X k b) =
          ∑ k, (x'.y k * 0 + wR x c (r k) / n (r k) * x.X (r k) a * x.X (r k) b) := by
        refine Finset.sum_congr rfl fun k _ => ?_
        have hn : (n (r k) : ℝ) ≠ 0 := by
          have := ok_of_obs (hg.obs (r k))
          rw [h.fam] at this
          exact_mod_cast (show 0 < n (r k) from this).ne'
        rw [wR_trials h hg, h.X, mul_div_cancel_left₀ _ hn, mul_zero, zero_add]
      rw [e1, e]
      refine Finset.sum_congr rfl fun i _ => ?_
      have hn : (n i : ℝ) ≠ 0 := by
        have := ok_of_obs (hg.obs i)
        rw [h.fam] at this
        exact_mod_cast (show 0 < n i from this).ne'
      field_simp
      ring
    have er : rhs x' c = rhs x c := by
      funext a
      rw [rhs_eq hg' (ha' c), rhs_eq hg (ha c)]
      have e := sum_trials h (fun i => wR x c i / n i * x.X i a * x.lk.d1R (x.lk.fiR (eta x c i)))
        (fun i => wR x c i / n i * x.X i a * ((x.X *ᵥ c) i - x.lk.d1R (x.lk.fiR (eta x c i)) * x.lk.fiR (eta x c i)))
      refine Eq.trans (Finset.sum_congr rfl fun k _ => ?_) (e.trans (Finset.sum_congr rfl fun i _ => ?_))
      · have hn : (n (r k) : ℝ) ≠ 0 := by
          have := ok_of_obs (hg.obs (r k))
          rw [h.fam] at this
          exact_mod_cast (show 0 < n (r k) from this).ne'
        have hX : (x'.X *ᵥ c) k = (x.X *ᵥ c) (r k) := by simp only [Matrix.mulVec, dotProduct, h.X]
        rw [wR_trials h hg, h.X, hX, mul_div_cancel_left₀ _ hn, eta_trials h, h.lk', h.lk]
        ring
      · have hn : (n i : ℝ) ≠ 0 := by
          have := ok_of_obs (hg.obs i)
          rw [h.fam] at this
          exact_mod_cast (show 0 < n i from this).ne'
        field_simp
        ring
    show Pirls.next x' c = Pirls.next x c
    unfold Pirls.next
    rw [eg, er]

/-- C129.  Binomial rows with several trials and one row per trial lead along the same path of coefficients, with the same systems. -/
theorem trials (h : Trials x x' r n) (hg : Good x 1) (hg' : Good x' 1) (c : Fin p → ℝ) :
    Pirls.next x' c = Pirls.next x c ∧ ∀ k, (pass x')^[k] c = (pass x)^[k] c := by
  obtain ⟨K, hs⟩ := sim_trials h hg hg'
  exact ⟨hs.next c, fun k => path_sim hs k c⟩

end Verif.PInv
