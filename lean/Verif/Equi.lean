import Verif.EquiSpec

/-!
# Fits of additive Gaussian models do not depend on units, order and parameterisation (C123)
-/

namespace Verif.Equi

open Verif Verif.Gauss Matrix

variable {α : Type} {m p : ℕ}

/-! ### Helpers -/

theorem lin_affine (build : α → ℕ → ℝ) (a : ℝ) (b u : Fin p → ℝ) (c : α) : lin build (a • b + u) c = a * lin build b c + lin build u c := by
  unfold lin
  rw [Finset.mul_sum, ← Finset.sum_add_distrib]
  exact Finset.sum_congr rfl fun j _ => by simp only [Pi.add_apply, Pi.smul_apply, smul_eq_mul]; ring

theorem resid_whole (build : α → ℕ → ℝ) (R : List (α × ℝ)) (b : Fin p → ℝ) : resid (whole p build R) b = rss build R b := by
  simp only [resid, whole, rss, List.zipWith_map, List.zipWith_self]

theorem fit_memory (x : In m p) (src : Src) (build : α → ℕ → ℝ) (nc : ℕ) (fs : List (File α)) (fuel maxOuter : ℕ)
    (lam : Fin m → ℝ) (frozen : Fin m → Bool) (r : Out m p) (h : fit x src build nc fs fuel maxOuter lam frozen = some r) :
    outer (args x (whole p build (rowsOf fs))) (whole p build (rowsOf fs)) fuel maxOuter 0
      (start (args x (whole p build (rowsOf fs))) (whole p build (rowsOf fs)) lam frozen) = some r := by
  unfold fit at h
  cases hs : setup src build nc fs with
  | none => rw [hs] at h; cases h
  | some D =>
    rw [hs, setup_whole src build nc fs D hs] at h
    exact h

theorem memory_fit (x : In m p) (build : α → ℕ → ℝ) (nc : ℕ) (fs : List (File α)) (fuel maxOuter : ℕ)
    (lam : Fin m → ℝ) (frozen : Fin m → Bool) : fit x .memory build nc fs fuel maxOuter lam frozen =
    outer (args x (whole p build (rowsOf fs))) (whole p build (rowsOf fs)) fuel maxOuter 0
      (start (args x (whole p build (rowsOf fs))) (whole p build (rowsOf fs)) lam frozen) := by
  unfold fit
  rw [setup_memory]

theorem rel_some {β γ : Type} {R : β → γ → Prop} {o : Option β} {o' : Option γ} (h : Option.Rel R o o') {r : β} (hr : o = some r) :
    ∃ r', o' = some r' ∧ R r r' := by
  cases h with
  | none => cases hr
  | some hl => cases hr; exact ⟨_, rfl, hl⟩

theorem pos_of_used {lam : Fin m → ℝ} {frozen : Fin m → Bool} (hf : ∀ i, frozen i = true → 0 < lam i) (u : Fin m → ℝ)
    (h : UsedOk lam frozen u) : ∀ i, 0 < u i := used_pos lam frozen h hf

/-! ### Units of the response -/

/-- Rows with a transformed response. -/
noncomputable def mapRows (build : α → ℕ → ℝ) (a : ℝ) (u : Fin p → ℝ) (R : List (α × ℝ)) : List (α × ℝ) :=
  R.map fun r => (r.1, a * r.2 + lin build u r.1)

theorem mapRows_XX (build : α → ℕ → ℝ) (a : ℝ) (u : Fin p → ℝ) (R : List (α × ℝ)) :
    (whole p build (mapRows build a u R)).XX = (whole p build R).XX := by
  funext i j
  simp only [whole, mapRows, List.map_map]
  rfl

theorem mapRows_Xy (build : α → ℕ → ℝ) (a : ℝ) (u : Fin p → ℝ) (R : List (α × ℝ)) :
    (whole p build (mapRows build a u R)).Xy = a • (whole p build R).Xy + (whole p build R).XX *ᵥ u := by
  funext i
  simp only [whole, mapRows, List.map_map, Pi.add_apply, Pi.smul_apply, smul_eq_mul, mulVec, dotProduct]
  induction R with
  | nil => simp
  | cons r R ih =>
    simp only [List.map_cons, List.sum_cons, Function.comp_apply] at ih ⊢
    rw [ih]
    simp only [add_mul, Finset.sum_add_distrib, lin, Finset.mul_sum, mul_add]
    have : ∑ j : Fin p, build r.1 i * (build r.1 j * u j) = ∑ j : Fin p, build r.1 i * build r.1 j * u j :=
      Finset.sum_congr rfl fun j _ => by ring
    rw [this]
    ring

theorem mapRows_rss (build : α → ℕ → ℝ) (a : ℝ) (u : Fin p → ℝ) (R : List (α × ℝ)) (b : Fin p → ℝ) :
    rss build (mapRows build a u R) (a • b + u) = a ^ 2 * rss build R b := by
  unfold rss mapRows
  rw [List.map_map, ← List.sum_map_mul_left]
  congr 1
  refine List.map_congr_left fun r _ => ?_
  simp only [Function.comp_apply]
  rw [lin_affine]
  ring

theorem solveXX_smul (M : Matrix (Fin p) (Fin p) ℝ) (a : ℝ) (b : Fin p → ℝ) : (solveXX M (a • b)).1 = a • (solveXX M b).1 := by
  unfold solveXX
  split_ifs
  · dsimp only
    rw [mulVec_smul]
  · simp

theorem simResponse (x : In m p) (build : α → ℕ → ℝ) (R : List (α × ℝ)) {a : ℝ} (ha : a ≠ 0) {u : Fin p → ℝ}
    (hu : ∀ i, x.S i *ᵥ u = 0) (hu' : ∀ i, u ᵥ* x.S i = 0) (hk : x.known = none) :
    Sim (args x (whole p build R)) (args x (whole p build (mapRows build a u R))) (whole p build R) (whole p build (mapRows build a u R))
      (Equiv.refl _) (fun b => a • b + u) (a ^ 2) (fun lam => u = 0 ∨ ((whole p build R).XX + sEmb x.S lam).PosDef) where
  pos := by positivity
  extend := rfl
  exclude := rfl
  control := rfl
  method := rfl
  tol := rfl
  coef := by
    intro lam hl
    show updateCoef _ x.S lam = a • updateCoef _ x.S lam + u
    unfold updateCoef
    rw [mapRows_XX, mapRows_Xy]
    rcases hl with rfl | hl
    · rw [mulVec_zero, add_zero, add_zero, solveXX_smul]
    · have hs : sEmb x.S lam *ᵥ u = 0 := by
        unfold sEmb
        rw [sum_mulVec]
        exact Finset.sum_eq_zero fun i _ => by rw [smul_mulVec, hu, smul_zero]
      have e : (whole p build R).XX *ᵥ u = ((whole p build R).XX + sEmb x.S lam) *ᵥ u := by rw [add_mulVec, hs, add_zero]
      unfold solveXX
      rw [if_pos hl, if_pos hl]
      dsimp only
      rw [e, mulVec_add, mulVec_smul, mulVec_mulVec, nonsing_inv_mul _ (isUnit_iff_ne_zero.2 hl.det_pos.ne'), one_mulVec]
  mid := by
    intro b c
    unfold Step.mid
    funext j
    simp only [Pi.add_apply, Pi.smul_apply, smul_eq_mul]
    ring
  dev := by
    intro b
    rw [deviance_whole, deviance_whole, mapRows_rss]
    rfl
  quad := by
    intro i b
    show Gauss.quad (x.S i) (a • b + u) = a ^ 2 * Gauss.quad (x.S i) b
    unfold Gauss.quad
    rw [mulVec_add, hu, add_zero, add_dotProduct, dotProduct_mulVec u, hu', zero_dotProduct, add_zero, mulVec_smul, smul_dotProduct,
      dotProduct_smul, smul_eq_mul, smul_eq_mul]
    ring
  lgdet := fun _ _ _ _ => rfl
  ldet := fun _ _ _ _ => rfl
  scale := by
    intro lam b _
    show scale x _ lam _ = a ^ 2 * scale x _ lam b
    unfold scale
    rw [hk]
    dsimp only
    rw [resid_whole, resid_whole, mapRows_rss, mul_div_assoc]
    simp [whole, mapRows]
  nan := fun _ => rfl

theorem rows_mapped (build : α → ℕ → ℝ) (a : ℝ) (u : Fin p → ℝ) (fs : List (File α)) :
    rowsOf (fs.map fun f => f.map fun r => (r.1, r.2.map fun y => a * y + ∑ j : Fin p, build r.1 j * u j))
      = mapRows build a u (rowsOf fs) := by
  unfold rowsOf mapRows
  rw [← List.map_flatten, List.filterMap_map, List.map_filterMap]
  congr 1
  funext r
  obtain ⟨c, y⟩ := r
  cases y <;> rfl

theorem rows_cov (fs : List (File α)) : (fs.flatten.filterMap fun r => r.2.map fun _ => r.1) = (rowsOf fs).map (·.1) := by
  unfold rowsOf
  rw [List.map_filterMap]
  congr 1
  funext r
  cases r.2 <;> rfl

theorem response_core (x : In m p) (src : Src) (build : α → ℕ → ℝ) (nc nc' : ℕ) (fs : List (File α)) (fuel maxOuter : ℕ)
    (lam : Fin m → ℝ) (frozen : Fin m → Bool) {a : ℝ} (ha : a ≠ 0) {u : Fin p → ℝ} (hu : ∀ i, x.S i *ᵥ u = 0) (hu' : ∀ i, u ᵥ* x.S i = 0)
    (hk : x.known = none)
    (hadm : ∀ l, UsedOk lam frozen l → u = 0 ∨ ((whole p build (rowsOf fs)).XX + sEmb x.S l).PosDef)
    (h0 : ∀ i, frozen i = false → 1 / 10 ^ 7 ≤ lam i ∧ lam i ≤ 10 ^ 7) (r : Out m p)
    (h : fit x src build nc fs fuel maxOuter lam frozen = some r) :
    ∃ r', fit x .memory build nc' (fs.map fun f => f.map fun r => (r.1, r.2.map fun y => a * y + ∑ j : Fin p, build r.1 j * u j))
        fuel maxOuter lam frozen = some r' ∧
      r'.coef = a • r.coef + u ∧ r'.wCoef = a • r.wCoef + u ∧ r'.used = r.used ∧ r'.lam = r.lam ∧ r'.conv = r.conv ∧
      r'.penalty = a ^ 2 * r.penalty ∧
      (∃ e, r.eta = some e ∧ r'.eta = some (List.zipWith (fun c v => a * v + ∑ j : Fin p, build c j * u j)
        (fs.flatten.filterMap fun r => r.2.map fun _ => r.1) e)) ∧
      ∀ D D', setup .memory build nc fs = some D →
        setup .memory build nc' (fs.map fun f => f.map fun r => (r.1, r.2.map fun y => a * y + ∑ j : Fin p, build r.1 j * u j)) = some D' →
        scale x D' r'.used r'.wCoef = a ^ 2 * scale x D r.used r.wCoef := by
  have hm := fit_memory x src build nc fs fuel maxOuter lam frozen r h
  have S := simResponse x build (rowsOf fs) ha hu hu' hk
  obtain ⟨r', h1, h2⟩ := rel_some (S.whole hadm h0 fuel maxOuter) hm
  refine ⟨r', ?_, h2.coef, h2.wCoef, h2.used, h2.lam, h2.conv, h2.penalty, ?_, ?_⟩
  · rw [memory_fit, rows_mapped]
    exact h1
  · obtain ⟨b, hb, hb'⟩ := h2.eta
    refine ⟨_, hb, ?_⟩
    rw [hb', rows_cov, List.zipWith_map, List.zipWith_self]
    simp only [whole, mapRows, List.map_map]
    congr 1
    refine List.map_congr_left fun q _ => ?_
    exact lin_affine build a b u q.1
  · intro D D' hD hD'
    rw [setup_memory, Option.some.injEq] at hD hD'
    rw [rows_mapped] at hD'
    subst hD hD'
    rw [h2.used, h2.wCoef]
    have e : ∀ b, scale x (whole p build (mapRows build a u (rowsOf fs))) r.used (a • b + u) = a ^ 2 * scale x (whole p build (rowsOf fs)) r.used b := by
      intro b
      unfold scale
      rw [hk]
      dsimp only
      rw [resid_whole, resid_whole, mapRows_rss, mul_div_assoc]
      simp [whole, mapRows]
    exact e _

/-! ### Order of the rows -/

theorem simRows (x : In m p) (build : α → ℕ → ℝ) {R R' : List (α × ℝ)} (hp : R.Perm R') :
    Sim (args x (whole p build R)) (args x (whole p build R')) (whole p build R) (whole p build R') (Equiv.refl _) (fun b => b) 1
      (fun _ => True) where
  pos := one_pos
  extend := rfl
  exclude := rfl
  control := rfl
  method := rfl
  tol := rfl
  coef := by
    intro lam _
    show updateCoef _ x.S lam = updateCoef _ x.S lam
    have e1 : (whole p build R').XX = (whole p build R).XX := by
      funext i j
      exact ((hp.map _).sum_eq).symm
    have e2 : (whole p build R').Xy = (whole p build R).Xy := by
      funext i
      exact ((hp.map _).sum_eq).symm
    unfold updateCoef
    rw [e1, e2]
  mid := fun _ _ => rfl
  dev := by
    intro b
    rw [deviance_whole, deviance_whole]
    simp only [sc, one_mul, rss]
    rw [(hp.map _).sum_eq]
  quad := by
    intro i b
    rw [one_mul]
    rfl
  lgdet := fun _ _ _ _ => rfl
  ldet := fun _ _ _ _ => rfl
  scale := by
    intro lam b _
    show scale x _ lam b = 1 * scale x _ lam b
    rw [one_mul]
    unfold scale
    cases x.known
    · dsimp only
      rw [resid_whole, resid_whole, rss, rss, (hp.map _).sum_eq]
      simp [whole, hp.length_eq]
    · rfl
  nan := fun _ => rfl

/-! ### Parameterisation -/

theorem XX_basis {build build' : α → ℕ → ℝ} {Q : Matrix (Fin p) (Fin p) ℝ} (hb : ∀ c (j : Fin p), build' c j = ∑ k : Fin p, build c k * Q k j)
    (R : List (α × ℝ)) : (whole p build' R).XX = Qᵀ * (whole p build R).XX * Q := by
  ext i j
  rw [Matrix.mul_apply]
  simp only [Matrix.mul_apply, transpose_apply]
  show (R.map fun r => build' r.1 i * build' r.1 j).sum
    = ∑ l : Fin p, (∑ k : Fin p, Q k i * (R.map fun r => build r.1 k * build r.1 l).sum) * Q l j
  simp only [hb]
  induction R with
  | nil => simp
  | cons r R ih =>
    simp only [List.map_cons, List.sum_cons]
    rw [ih]
    simp only [mul_add, add_mul, Finset.sum_add_distrib]
    congr 1
    rw [Finset.sum_mul_sum, Finset.sum_comm]
    refine Finset.sum_congr rfl fun k _ => ?_
    rw [Finset.sum_mul]
    exact Finset.sum_congr rfl fun l _ => by ring

theorem Xy_basis {build build' : α → ℕ → ℝ} {Q : Matrix (Fin p) (Fin p) ℝ} (hb : ∀ c (j : Fin p), build' c j = ∑ k : Fin p, build c k * Q k j)
    (R : List (α × ℝ)) : (whole p build' R).Xy = Qᵀ *ᵥ (whole p build R).Xy := by
  ext i
  simp only [whole, hb, mulVec, dotProduct, transpose_apply]
  induction R with
  | nil => simp
  | cons r R ih =>
    simp only [List.map_cons, List.sum_cons]
    rw [ih]
    simp only [mul_add, Finset.sum_add_distrib]
    congr 1
    rw [Finset.sum_mul]
    exact Finset.sum_congr rfl fun l _ => by ring

theorem lin_basis {build build' : α → ℕ → ℝ} {Q : Matrix (Fin p) (Fin p) ℝ} (hb : ∀ c (j : Fin p), build' c j = ∑ k : Fin p, build c k * Q k j)
    (b : Fin p → ℝ) (c : α) : lin build' b c = lin build (Q *ᵥ b) c := by
  unfold lin
  simp only [hb, mulVec, dotProduct, Finset.sum_mul, Finset.mul_sum]
  rw [Finset.sum_comm]
  exact Finset.sum_congr rfl fun k _ => Finset.sum_congr rfl fun j _ => by ring

/-- The same options. -/
structure Same (x x' : In m p) : Prop where
  known : x'.known = x.known
  extend : x'.extend = x.extend
  exclude : x'.exclude = x.exclude
  control : x'.control = x.control
  method : x'.method = x.method
  tol : x'.tol = x.tol

theorem simBasis {x x' : In m p} {build build' : α → ℕ → ℝ} {R : List (α × ℝ)} {σ : Equiv.Perm (Fin m)} {Q Qi : Matrix (Fin p) (Fin p) ℝ}
    (hQ : Q * Qi = 1) (hb : ∀ c (j : Fin p), build' c j = ∑ k : Fin p, build c k * Q k j) (hS : ∀ i, x'.S i = Qᵀ * x.S (σ i) * Q)
    (g : Good x (whole p build R).XX) (g' : Good x' (whole p build' R).XX) (ho : Same x x') :
    Sim (args x (whole p build R)) (args x' (whole p build' R)) (whole p build R) (whole p build' R) σ (fun b => Qi *ᵥ b) 1
      (fun lam => ∀ i, 0 < lam i) := by
  have hQ' : Qi * Q = 1 := mul_eq_one_comm.1 hQ
  have ht : Qiᵀ * Qᵀ = 1 := by rw [← transpose_mul, hQ, transpose_one]
  have hM : ∀ lam : Fin m → ℝ, (whole p build' R).XX + sEmb x'.S (lam ∘ σ) = Qᵀ * ((whole p build R).XX + sEmb x.S lam) * Q := by
    intro lam
    rw [XX_basis hb, sEmb_basis x.S x'.S σ Q hS, Matrix.mul_add, Matrix.add_mul]
  have hu : ∀ lam : Fin m → ℝ, (∀ i, 0 < lam i) → IsUnit ((whole p build R).XX + sEmb x.S lam).det := by
    intro lam hl
    have := congrArg det (g.inv lam hl)
    rw [det_mul, det_one] at this
    exact IsUnit.of_mul_eq_one_right _ this
  have hld : ∀ lam : Fin m → ℝ, (∀ i, 0 < lam i) → ∀ i, bps x' (lam ∘ σ) i = bps x lam (σ i) := by
    intro lam hl i
    rw [g'.bps_eq (lam := lam ∘ σ) (fun i => hl (σ i)), g.bps_eq hl, hM, inv_basis hQ (hu lam hl), hS]
    rw [show Qi * ((whole p build R).XX + sEmb x.S lam)⁻¹ * Qiᵀ * (Qᵀ * x.S (σ i) * Q)
      = Qi * (((whole p build R).XX + sEmb x.S lam)⁻¹ * (Qiᵀ * Qᵀ) * x.S (σ i) * Q) by simp only [Matrix.mul_assoc], ht, Matrix.mul_one,
      trace_mul_comm, Matrix.mul_assoc, hQ, Matrix.mul_one]
  have hlin : ∀ (b : Fin p → ℝ) (c : α), lin build' (Qi *ᵥ b) c = lin build b c := by
    intro b c
    rw [lin_basis hb, mulVec_mulVec, hQ, one_mulVec]
  have hrss : ∀ b : Fin p → ℝ, rss build' R (Qi *ᵥ b) = rss build R b := by
    intro b
    unfold rss
    simp only [hlin]
  refine ⟨one_pos, ho.extend, ho.exclude, ho.control, ho.method, ho.tol, ?_, ?_, ?_, ?_, ?_, ?_, ?_, fun _ => rfl⟩
  · intro lam hl
    show updateCoef _ x'.S (lam ∘ σ) = Qi *ᵥ updateCoef _ x.S lam
    unfold updateCoef solveXX
    rw [hM, Xy_basis hb]
    by_cases hp : ((whole p build R).XX + sEmb x.S lam).PosDef
    · rw [if_pos hp, if_pos ((posDef_basis hQ).2 hp)]
      dsimp only
      rw [inv_basis hQ (hu lam hl), mulVec_mulVec, mulVec_mulVec, Matrix.mul_assoc, ht, Matrix.mul_one]
    · rw [if_neg hp, if_neg (mt (posDef_basis hQ).1 hp)]
      dsimp only
      rw [mulVec_zero]
  · intro b c
    unfold Step.mid
    rw [mulVec_smul, mulVec_add]
  · intro b
    rw [deviance_whole, deviance_whole, hrss]
    simp only [sc, one_mul]
  · intro i b
    show Gauss.quad (x'.S i) (Qi *ᵥ b) = 1 * Gauss.quad (x.S (σ i)) b
    unfold Gauss.quad
    rw [one_mul, hS, mulVec_mulVec, Matrix.mul_assoc, hQ, Matrix.mul_one, ← mulVec_mulVec, dotProduct_mulVec, vecMul_transpose,
      mulVec_mulVec, hQ, one_mulVec]
  · intro lam b i hl
    show lgdetD x' (lam ∘ σ) i = lgdetD x lam (σ i)
    obtain ⟨G, hG, h1⟩ := g.lgdet hl
    obtain ⟨G', hG', h1'⟩ := g'.lgdet (lam := lam ∘ σ) (fun i => hl (σ i))
    rw [h1', h1, hS]
    rw [sEmb_basis x.S x'.S σ Q hS] at hG'
    have hg : sEmb x.S lam * (Q * G' * Qᵀ) * sEmb x.S lam = sEmb x.S lam := by
      have := congrArg (fun Z => Qiᵀ * Z * Qi) hG'
      rw [show Qiᵀ * (Qᵀ * sEmb x.S lam * Q * G' * (Qᵀ * sEmb x.S lam * Q)) * Qi
        = (Qiᵀ * Qᵀ) * (sEmb x.S lam * (Q * G' * Qᵀ) * sEmb x.S lam) * (Q * Qi) by simp only [Matrix.mul_assoc],
        show Qiᵀ * (Qᵀ * sEmb x.S lam * Q) * Qi = (Qiᵀ * Qᵀ) * sEmb x.S lam * (Q * Qi) by simp only [Matrix.mul_assoc], ht, hQ] at this
      simpa using this
    rw [trace_ginv g.psd hl hG hg, show Qᵀ * x.S (σ i) * Q * G' = Qᵀ * (x.S (σ i) * Q * G') by simp only [Matrix.mul_assoc],
      trace_mul_comm]
    congr 1
    simp only [Matrix.mul_assoc]
  · intro lam b i hl
    exact hld lam hl i
  · intro lam b hl
    show scale x' _ (lam ∘ σ) _ = 1 * scale x _ lam b
    have he : edf x' (lam ∘ σ) = edf x lam := by
      unfold edf
      rw [← Equiv.sum_comp σ fun i => lam i * bps x lam i]
      congr 1
      exact Finset.sum_congr rfl fun i _ => by rw [hld lam hl]; rfl
    rw [one_mul]
    unfold scale
    rw [ho.known, he]
    cases x.known
    · dsimp only
      rw [resid_whole, resid_whole, hrss]
      rfl
    · rfl

/-! ### Properties -/

/-- **C123.** Multiplying the response by `a ≠ 0` multiplies coefficients and linear predictor by `a`, penalty and scale parameter by `a ^ 2`; smoothing
parameters (and with them degrees of freedom) and the convergence code stay the same. This holds whether or not the coefficients are
identified. -/
theorem response_scaled (x : In m p) (src : Src) (build : α → ℕ → ℝ) (nc nc' : ℕ) (fs : List (File α)) (fuel maxOuter : ℕ)
    (lam : Fin m → ℝ) (frozen : Fin m → Bool) (a : ℝ) (ha : a ≠ 0) (hk : x.known = none)
    (h0 : ∀ i, frozen i = false → 1 / 10 ^ 7 ≤ lam i ∧ lam i ≤ 10 ^ 7) (r : Out m p)
    (h : fit x src build nc fs fuel maxOuter lam frozen = some r) :
    ∃ r', fit x .memory build nc' (fs.map fun f => f.map fun r => (r.1, r.2.map fun y => a * y)) fuel maxOuter lam frozen = some r' ∧
      r'.coef = a • r.coef ∧ r'.wCoef = a • r.wCoef ∧ r'.used = r.used ∧ r'.lam = r.lam ∧ r'.conv = r.conv ∧
      r'.penalty = a ^ 2 * r.penalty ∧ (∃ e, r.eta = some e ∧ r'.eta = some (e.map fun v => a * v)) ∧
      ∀ D D', setup .memory build nc fs = some D →
        setup .memory build nc' (fs.map fun f => f.map fun r => (r.1, r.2.map fun y => a * y)) = some D' →
        scale x D' r'.used r'.wCoef = a ^ 2 * scale x D r.used r.wCoef := by
  have hm := fit_memory x src build nc fs fuel maxOuter lam frozen r h
  have S := simResponse x build (rowsOf fs) ha (u := 0) (fun i => mulVec_zero _) (fun i => zero_vecMul _) hk
  obtain ⟨q, -, hq⟩ := rel_some (S.whole (fun _ _ => Or.inl rfl) h0 fuel maxOuter) hm
  obtain ⟨b, hb, -⟩ := hq.eta
  obtain ⟨r', h1, h2, h3, h4, h5, h6, h7, ⟨e, he, he'⟩, h9⟩ := response_core x src build nc nc' fs fuel maxOuter lam frozen ha (u := 0)
    (fun i => mulVec_zero _) (fun i => zero_vecMul _) hk (fun _ _ => Or.inl rfl) h0 r h
  simp only [Pi.zero_apply, mul_zero, Finset.sum_const_zero, add_zero] at h1 h2 h3 he' h9
  refine ⟨r', h1, h2, h3, h4, h5, h6, h7, ⟨e, he, ?_⟩, h9⟩
  rw [he'] at *
  rw [hb] at he
  simp only [whole, Option.some.injEq] at he
  subst he
  rw [rows_cov, List.zipWith_map, List.zipWith_self, List.map_map]
  rfl

/-- **C123.** Replacing the response by `a * y + X u`, where `a ≠ 0` and `u` is not penalised, maps the coefficients to `a * coef + u` and the
linear predictor likewise, multiplies penalty and scale parameter by `a ^ 2`, and leaves smoothing parameters and convergence as they
are. -/
theorem response_affine (x : In m p) (src : Src) (build : α → ℕ → ℝ) (nc nc' : ℕ) (fs : List (File α)) (fuel maxOuter : ℕ)
    (lam : Fin m → ℝ) (frozen : Fin m → Bool) (a : ℝ) (ha : a ≠ 0) (u : Fin p → ℝ) (hu : ∀ i, x.S i *ᵥ u = 0) (hk : x.known = none)
    (hS : ∀ i, (x.S i).PosSemidef)
    (hI : ∀ b : Fin p → ℝ, (∀ f ∈ fs, ∀ r ∈ f, r.2 ≠ none → ∑ j : Fin p, build r.1 j * b j = 0) → (∀ i, b ⬝ᵥ (x.S i).mulVec b = 0) → b = 0)
    (h0 : ∀ i, frozen i = false → 1 / 10 ^ 7 ≤ lam i ∧ lam i ≤ 10 ^ 7) (hf : ∀ i, frozen i = true → 0 < lam i) (r : Out m p)
    (h : fit x src build nc fs fuel maxOuter lam frozen = some r) :
    ∃ r', fit x .memory build nc' (fs.map fun f => f.map fun r => (r.1, r.2.map fun y => a * y + ∑ j : Fin p, build r.1 j * u j))
        fuel maxOuter lam frozen = some r' ∧
      r'.coef = a • r.coef + u ∧ r'.wCoef = a • r.wCoef + u ∧ r'.used = r.used ∧ r'.lam = r.lam ∧ r'.conv = r.conv ∧
      r'.penalty = a ^ 2 * r.penalty ∧
      (∃ e, r.eta = some e ∧ r'.eta = some (List.zipWith (fun c v => a * v + ∑ j : Fin p, build c j * u j)
        (fs.flatten.filterMap fun r => r.2.map fun _ => r.1) e)) ∧
      ∀ D D', setup .memory build nc fs = some D →
        setup .memory build nc' (fs.map fun f => f.map fun r => (r.1, r.2.map fun y => a * y + ∑ j : Fin p, build r.1 j * u j)) = some D' →
        scale x D' r'.used r'.wCoef = a ^ 2 * scale x D r.used r.wCoef := by
  have hI' : Ident build (rowsOf fs) x.S := by
    intro b hb hb2
    refine hI b (fun f hfs r hr hn => ?_) hb2
    obtain ⟨y, hy⟩ := Option.ne_none_iff_exists'.1 hn
    refine hb (r.1, y) ?_
    exact List.mem_filterMap.2 ⟨r, List.mem_flatten.2 ⟨f, hfs, hr⟩, by rw [hy]; rfl⟩
  refine response_core x src build nc nc' fs fuel maxOuter lam frozen ha hu (fun i => ?_) hk
    (fun l hl => Or.inr (pd build (rowsOf fs) x.S hS hI' l (pos_of_used hf l hl))) h0 r h
  have := Wps.psd_symm (hS i)
  rw [← this, vecMul_transpose, hu]

/-- **C123.** Adding a constant to the response adds it to the intercept and changes nothing else, if the first column of the model matrix is
constant one and not penalised. -/
theorem response_shifted (x : In m (p + 1)) (src : Src) (build : α → ℕ → ℝ) (nc nc' : ℕ) (fs : List (File α)) (fuel maxOuter : ℕ)
    (lam : Fin m → ℝ) (frozen : Fin m → Bool) (c : ℝ) (hb : ∀ d, build d 0 = 1) (hu : ∀ i j, x.S i j 0 = 0) (hk : x.known = none)
    (hS : ∀ i, (x.S i).PosSemidef)
    (hI : ∀ b : Fin (p + 1) → ℝ, (∀ f ∈ fs, ∀ r ∈ f, r.2 ≠ none → ∑ j : Fin (p + 1), build r.1 j * b j = 0) →
      (∀ i, b ⬝ᵥ (x.S i).mulVec b = 0) → b = 0)
    (h0 : ∀ i, frozen i = false → 1 / 10 ^ 7 ≤ lam i ∧ lam i ≤ 10 ^ 7) (hf : ∀ i, frozen i = true → 0 < lam i) (r : Out m (p + 1))
    (h : fit x src build nc fs fuel maxOuter lam frozen = some r) :
    ∃ r', fit x .memory build nc' (fs.map fun f => f.map fun r => (r.1, r.2.map fun y => y + c)) fuel maxOuter lam frozen = some r' ∧
      r'.coef 0 = r.coef 0 + c ∧ (∀ j, j ≠ 0 → r'.coef j = r.coef j) ∧ r'.used = r.used ∧ r'.lam = r.lam ∧ r'.conv = r.conv ∧
      r'.penalty = r.penalty := by
  have e : ∀ d, ∑ j : Fin (p + 1), build d j * (Pi.single 0 c : Fin (p + 1) → ℝ) j = c := by
    intro d
    rw [Finset.sum_eq_single 0 (fun j _ hj => by rw [Pi.single_eq_of_ne hj, mul_zero]) (fun h => absurd (Finset.mem_univ _) h)]
    simp [hb]
  obtain ⟨r', h1, h2, h3, h4, h5, h6, h7, -, -⟩ := response_affine x src build nc nc' fs fuel maxOuter lam frozen 1 one_ne_zero
    (Pi.single 0 c) (fun i => by
      funext a
      rw [mulVec_single]
      simp [hu]) hk hS hI h0 hf r h
  simp only [e, one_mul] at h1
  refine ⟨r', h1, ?_, fun j hj => ?_, h4, h5, h6, by rw [h7]; ring⟩
  · rw [h2]; simp
  · rw [h2]; simp [Pi.single_eq_of_ne hj]

/-- **C123.** The order of the rows does not matter: coefficients, smoothing parameters, penalty and convergence are the same, and rows keep
their predictions. -/
theorem rows_permuted (x : In m p) (src : Src) (build : α → ℕ → ℝ) (nc nc' : ℕ) (fs fs' : List (File α)) (fuel maxOuter : ℕ)
    (lam : Fin m → ℝ) (frozen : Fin m → Bool) (hp : (fs.flatten.filter fun r => r.2.isSome).Perm (fs'.flatten.filter fun r => r.2.isSome))
    (h0 : ∀ i, frozen i = false → 1 / 10 ^ 7 ≤ lam i ∧ lam i ≤ 10 ^ 7) (r : Out m p)
    (h : fit x src build nc fs fuel maxOuter lam frozen = some r) :
    ∃ r', fit x .memory build nc' fs' fuel maxOuter lam frozen = some r' ∧
      r'.coef = r.coef ∧ r'.wCoef = r.wCoef ∧ r'.used = r.used ∧ r'.lam = r.lam ∧ r'.conv = r.conv ∧ r'.penalty = r.penalty ∧
      ∃ e e', r.eta = some e ∧ r'.eta = some e' ∧
        ((fs.flatten.filter fun r => r.2.isSome).zip e).Perm ((fs'.flatten.filter fun r => r.2.isSome).zip e') := by
  have hrow : ∀ gs : List (File α), rowsOf gs = (gs.flatten.filter fun r => r.2.isSome).map fun r => (r.1, r.2.getD 0) := by
    intro gs
    unfold rowsOf
    generalize gs.flatten = l
    induction l with
    | nil => rfl
    | cons a l ih =>
      obtain ⟨c, y⟩ := a
      cases y
      · simpa using ih
      · simpa using ih
  have hR : (rowsOf fs).Perm (rowsOf fs') := by rw [hrow, hrow]; exact hp.map _
  have hm := fit_memory x src build nc fs fuel maxOuter lam frozen r h
  obtain ⟨r', h1, h2⟩ := rel_some ((simRows x build hR).whole (lam := lam) (frozen := frozen) (fun _ _ => trivial) h0 fuel maxOuter) hm
  refine ⟨r', ?_, h2.coef, h2.wCoef, h2.used, h2.lam, h2.conv, by rw [h2.penalty, one_mul], ?_⟩
  · rw [memory_fit]
    exact h1
  · obtain ⟨b, hb, hb'⟩ := h2.eta
    refine ⟨_, _, hb, hb', ?_⟩
    have e : ∀ gs : List (File α), (gs.flatten.filter fun r => r.2.isSome).zip ((rowsOf gs).map fun r => lin build b r.1)
        = (gs.flatten.filter fun r => r.2.isSome).map fun r => (r, lin build b r.1) := by
      intro gs
      rw [hrow, List.map_map, List.zip_eq_zipWith]
      conv_lhs => rw [← List.map_id (gs.flatten.filter fun r => r.2.isSome)]
      rw [List.map_map, List.zipWith_map, List.zipWith_self]
      rfl
    rw [e fs, e fs']
    exact hp.map _

/-- **C123.** The parameterisation does not matter: if the columns of the model matrix are combined by an invertible matrix `Q` and the
penalties accordingly, listed in another order, the coefficients of the new fit give the old ones when multiplied by `Q`; linear predictor,
penalty, convergence are the same and smoothing parameters are the same for every penalty. -/
theorem basis_changed (x x' : In m p) (src : Src) (build build' : α → ℕ → ℝ) (nc nc' : ℕ) (fs : List (File α)) (fuel maxOuter : ℕ)
    (lam : Fin m → ℝ) (frozen : Fin m → Bool) (σ : Equiv.Perm (Fin m)) (Q : Matrix (Fin p) (Fin p) ℝ) (hQ : IsUnit Q.det)
    (hb : ∀ c (j : Fin p), build' c j = ∑ k : Fin p, build c k * Q k j) (hS : ∀ i, x'.S i = Qᵀ * x.S (σ i) * Q)
    (D D' : Dat p) (hD : setup .memory build nc fs = some D) (hD' : setup .memory build' nc' fs = some D')
    (g : Good x D.XX) (g' : Good x' D'.XX) (ho : Same x x')
    (h0 : ∀ i, frozen i = false → 1 / 10 ^ 7 ≤ lam i ∧ lam i ≤ 10 ^ 7) (hf : ∀ i, frozen i = true → 0 < lam i) (r : Out m p)
    (h : fit x src build nc fs fuel maxOuter lam frozen = some r) :
    ∃ r', fit x' .memory build' nc' fs fuel maxOuter (lam ∘ σ) (frozen ∘ σ) = some r' ∧
      Q *ᵥ r'.coef = r.coef ∧ Q *ᵥ r'.wCoef = r.wCoef ∧ r'.eta = r.eta ∧ r'.penalty = r.penalty ∧ (∀ i, r'.used i = r.used (σ i)) ∧
      (∀ i, r'.lam i = r.lam (σ i)) ∧ r'.conv = r.conv ∧ scale x' D' r'.used r'.wCoef = scale x D r.used r.wCoef := by
  rw [setup_memory, Option.some.injEq] at hD hD'
  subst hD hD'
  have hQi : Q * Q⁻¹ = 1 := mul_nonsing_inv _ hQ
  have hm := fit_memory x src build nc fs fuel maxOuter lam frozen r h
  have S := simBasis hQi hb hS g g' ho
  obtain ⟨r', h1, h2⟩ := rel_some (S.whole (pos_of_used hf) h0 fuel maxOuter) hm
  have hq : ∀ b, Q *ᵥ (Q⁻¹ *ᵥ b) = b := fun b => by rw [mulVec_mulVec, hQi, one_mulVec]
  have hus : ∀ i, 0 < r.used i := by
    have hk := outer_used (args x (whole p build (rowsOf fs))) (whole p build (rowsOf fs)) lam frozen fuel maxOuter 0 _ r
      (start_keep _ _ h0) hm
    exact pos_of_used hf _ hk
  refine ⟨r', ?_, by rw [h2.coef, hq], by rw [h2.wCoef, hq], ?_, by rw [h2.penalty, one_mul], fun i => by rw [h2.used]; rfl,
    fun i => by rw [h2.lam]; rfl, h2.conv, ?_⟩
  · rw [memory_fit]
    exact h1
  · obtain ⟨b, hb1, hb2⟩ := h2.eta
    rw [hb1, hb2]
    simp only [whole]
    congr 1
    refine List.map_congr_left fun q _ => ?_
    rw [lin_basis hb, hq]
  · rw [h2.used, h2.wCoef]
    have := S.scale r.used r.wCoef hus
    rw [one_mul] at this
    exact this

/-- **C123.** The order of the columns, and so of the terms of a formula, does not matter. -/
theorem columns_permuted (x x' : In m p) (src : Src) (build build' : α → ℕ → ℝ) (nc nc' : ℕ) (fs : List (File α)) (fuel maxOuter : ℕ)
    (lam : Fin m → ℝ) (frozen : Fin m → Bool) (σ : Equiv.Perm (Fin m)) (π : Equiv.Perm (Fin p))
    (hb : ∀ c (j : Fin p), build' c j = build c (π j)) (hS : ∀ i a b, x'.S i a b = x.S (σ i) (π a) (π b))
    (D D' : Dat p) (hD : setup .memory build nc fs = some D) (hD' : setup .memory build' nc' fs = some D')
    (g : Good x D.XX) (g' : Good x' D'.XX) (ho : Same x x')
    (h0 : ∀ i, frozen i = false → 1 / 10 ^ 7 ≤ lam i ∧ lam i ≤ 10 ^ 7) (hf : ∀ i, frozen i = true → 0 < lam i) (r : Out m p)
    (h : fit x src build nc fs fuel maxOuter lam frozen = some r) :
    ∃ r', fit x' .memory build' nc' fs fuel maxOuter (lam ∘ σ) (frozen ∘ σ) = some r' ∧
      (∀ j, r'.coef j = r.coef (π j)) ∧ r'.eta = r.eta ∧ r'.penalty = r.penalty ∧ (∀ i, r'.used i = r.used (σ i)) ∧
      (∀ i, r'.lam i = r.lam (σ i)) ∧ r'.conv = r.conv ∧ scale x' D' r'.used r'.wCoef = scale x D r.used r.wCoef := by
  obtain ⟨Q, hq1, hq0⟩ : ∃ Q : Matrix (Fin p) (Fin p) ℝ, (∀ j, Q (π j) j = 1) ∧ ∀ k j, k ≠ π j → Q k j = 0 :=
    ⟨fun k j => if k = π j then 1 else 0, fun j => if_pos rfl, fun k j hk => if_neg hk⟩
  have hQ1 : Qᵀ * Q = 1 := by
    ext a b
    rw [Matrix.mul_apply, Finset.sum_eq_single (π a) (fun k _ hk => by rw [transpose_apply, hq0 k a hk, zero_mul])
      (fun hn => absurd (Finset.mem_univ _) hn), transpose_apply, hq1, one_mul]
    by_cases hab : a = b
    · rw [hab, hq1, one_apply_eq]
    · rw [hq0 _ _ (fun hc => hab (π.injective hc)), one_apply_ne hab]
  obtain ⟨r', h1, h2, h3, h4, h5, h6, h7, h8, h9⟩ := basis_changed x x' src build build' nc nc' fs fuel maxOuter lam frozen σ Q
    (by
      have := congrArg det hQ1
      rw [det_mul, det_one] at this
      exact IsUnit.of_mul_eq_one_right _ this)
    (fun c j => by
      rw [hb, Finset.sum_eq_single (π j) (fun k _ hk => by rw [hq0 k j hk, mul_zero]) (fun hn => absurd (Finset.mem_univ _) hn), hq1, mul_one])
    (fun i => by
      ext a b
      rw [hS, Matrix.mul_apply, Finset.sum_eq_single (π b) (fun k _ hk => by rw [hq0 k b hk, mul_zero])
        (fun hn => absurd (Finset.mem_univ _) hn), Matrix.mul_apply,
        Finset.sum_eq_single (π a) (fun k _ hk => by rw [transpose_apply, hq0 k a hk, zero_mul]) (fun hn => absurd (Finset.mem_univ _) hn),
        transpose_apply, hq1, hq1, mul_one, one_mul])
    D D' hD hD' g g' ho h0 hf r h
  refine ⟨r', h1, fun j => ?_, h4, h5, h6, h7, h8, h9⟩
  rw [← h2]
  simp only [mulVec, dotProduct]
  rw [Finset.sum_eq_single j (fun k _ hk => by rw [hq0 _ k (fun hc => hk (π.injective hc).symm), zero_mul])
    (fun hn => absurd (Finset.mem_univ _) hn), hq1, one_mul]

/-- **C123.** Multiplying columns of the model matrix by non-zero numbers, with penalties that are changed accordingly (units of covariates
of unpenalised terms), divides their coefficients by these numbers. -/
theorem columns_scaled (x x' : In m p) (src : Src) (build build' : α → ℕ → ℝ) (nc nc' : ℕ) (fs : List (File α)) (fuel maxOuter : ℕ)
    (lam : Fin m → ℝ) (frozen : Fin m → Bool) (d : Fin p → ℝ) (hd : ∀ j, d j ≠ 0)
    (hb : ∀ c (j : Fin p), build' c j = d j * build c j) (hS : ∀ i a b, x'.S i a b = d a * x.S i a b * d b)
    (D D' : Dat p) (hD : setup .memory build nc fs = some D) (hD' : setup .memory build' nc' fs = some D')
    (g : Good x D.XX) (g' : Good x' D'.XX) (ho : Same x x')
    (h0 : ∀ i, frozen i = false → 1 / 10 ^ 7 ≤ lam i ∧ lam i ≤ 10 ^ 7) (hf : ∀ i, frozen i = true → 0 < lam i) (r : Out m p)
    (h : fit x src build nc fs fuel maxOuter lam frozen = some r) :
    ∃ r', fit x' .memory build' nc' fs fuel maxOuter lam frozen = some r' ∧
      (∀ j, r'.coef j = r.coef j / d j) ∧ r'.eta = r.eta ∧ r'.penalty = r.penalty ∧ r'.used = r.used ∧ r'.lam = r.lam ∧
      r'.conv = r.conv ∧ scale x' D' r'.used r'.wCoef = scale x D r.used r.wCoef := by
  obtain ⟨r', h1, h2, h3, h4, h5, h6, h7, h8, h9⟩ := basis_changed x x' src build build' nc nc' fs fuel maxOuter lam frozen (Equiv.refl _)
    (diagonal d) (by rw [det_diagonal]; exact isUnit_iff_ne_zero.2 (Finset.prod_ne_zero_iff.2 fun j _ => hd j))
    (fun c j => by
      rw [hb, Finset.sum_eq_single j (fun k _ hk => by rw [diagonal_apply_ne _ hk, mul_zero]) (fun hn => absurd (Finset.mem_univ _) hn),
        diagonal_apply_eq, mul_comm])
    (fun i => by
      ext a b
      rw [hS, diagonal_transpose, mul_diagonal, diagonal_mul]
      rfl)
    D D' hD hD' g g' ho h0 hf r h
  refine ⟨r', h1, fun j => ?_, h4, h5, funext h6, funext h7, h8, h9⟩
  rw [← h2, mulVec_diagonal, mul_div_cancel_left₀ _ (hd j)]

/-! ### Examples -/

/-- Intercept and slope; the slope is penalised. -/
noncomputable def demo : In 1 2 where
  S := fun _ => !![0, 0; 0, 1]
  root := fun _ => !![0, 0; 0, 1]
  useRank := fun _ => true
  rank := fun _ => 1
  pinv := fun _ => 0
  Linv := fun _ => 0
  known := none
  extend := false
  exclude := false
  control := 0
  method := .nesterov
  tol := 1

/-- Rows of the model matrix: one and the covariate. -/
def line (c : ℝ) (j : ℕ) : ℝ := if j = 0 then 1 else c

/-- Fits without step control end. -/
theorem control_one {A : Args m p} (hc : A.control = 0) (D : Dat p) (o fuel : ℕ) (coef : Fin p → ℝ) (ts : Fin m → Lam.Term) :
    (Gauss.control A D o coef (fuel + 1) ts).isSome := by
  rw [Gauss.control]
  have : Lam.pass (A.cfg o) coef (A.pass D fun i => (ts i).lam) ts
      = .inr ⟨fun i => Lam.propose (A.cfg o) (A.pass D fun i => (ts i).lam) i (ts i), (A.pass D fun i => (ts i).lam).nCoef,
        (A.pass D fun i => (ts i).lam).nCoef⟩ := by
    unfold Lam.pass
    rw [if_neg (by simp [Args.cfg, hc]), if_pos (by simp [Args.cfg, hc])]
  rw [this]
  rfl

theorem fit_one (x : In m p) (hc : x.control = 0) (build : α → ℕ → ℝ) (nc : ℕ) (fs : List (File α)) (lam : Fin m → ℝ) (frozen : Fin m → Bool) :
    (fit x .memory build nc fs 1 1 lam frozen).isSome := by
  rw [memory_fit]
  have hp : ∀ D s, (Gauss.propose (args x D) D 1 0 s).isSome := by
    intro D s
    unfold Gauss.propose
    split_ifs
    · rfl
    · have := control_one (A := args x D) hc D 0 0 s.coef (fun i => Lam.applyStep (s.terms i))
      obtain ⟨r, hr⟩ := Option.isSome_iff_exists.1 this
      rw [hr]
      rfl
  rw [Gauss.outer, if_pos rfl]
  obtain ⟨s, hs⟩ := Option.isSome_iff_exists.1 (hp (whole p build (rowsOf fs)) (Gauss.start (args x (whole p build (rowsOf fs))) (whole p build (rowsOf fs)) lam frozen))
  rw [hs]
  rfl

/-- The hypotheses of `response_shifted` hold for a line through two points. -/
example : (∀ d, line d 0 = 1) ∧ (∀ i j, demo.S i j 0 = 0) ∧ demo.known = none ∧ (∀ i, (demo.S i).PosSemidef) ∧
    (∀ b : Fin 2 → ℝ, (∀ f ∈ [[((0:ℝ), some (1:ℝ)), (1, some 3), (2, none)]], ∀ r ∈ f, r.2 ≠ none → ∑ j : Fin 2, line r.1 j * b j = 0) →
      (∀ i, b ⬝ᵥ (demo.S i).mulVec b = 0) → b = 0) ∧
    (fit demo .memory line 1 [[((0:ℝ), some (1:ℝ)), (1, some 3), (2, none)]] 1 1 (fun _ => 1) (fun _ => false)).isSome := by
  refine ⟨fun d => if_pos rfl, fun i j => ?_, rfl, fun i => ?_, fun b hb _ => ?_, fit_one _ rfl _ _ _ _ _⟩
  · fin_cases j <;> simp [demo]
  · have e : demo.S i = diagonal ![0, 1] := by
      ext a b
      fin_cases a <;> fin_cases b <;> simp [demo]
    rw [e]
    exact PosSemidef.diagonal fun j => by fin_cases j <;> simp
  · have h1 := hb _ (List.mem_singleton.2 rfl) (0, some 1) (by simp) (by simp)
    have h2 := hb _ (List.mem_singleton.2 rfl) (1, some 3) (by simp) (by simp)
    simp [line, Fin.sum_univ_two] at h1 h2
    funext j
    fin_cases j
    · exact h1
    · simp only [Pi.zero_apply]
      have : b 0 + b 1 = 0 := h2
      rw [h1] at this
      simpa using this

example : ((([[((0:ℝ), some (1:ℝ)), (1, some 3), (2, none)]] : List (File ℝ)).flatten.filter fun r => r.2.isSome).Perm
    ((([[((1:ℝ), some (3:ℝ))], [(0, some 1)]] : List (File ℝ))).flatten.filter fun r => r.2.isSome)) := by
  simpa using List.Perm.swap _ _ _

/-- One coefficient for one observation `1`, with scale `φ` given or not. -/
noncomputable def tiny (φ : Option ℝ) (d : ℝ) : In 1 1 where
  S := fun _ => diagonal fun _ => d ^ 2
  root := fun _ => diagonal fun _ => d
  useRank := fun _ => true
  rank := fun _ => 1
  pinv := fun _ => 0
  Linv := fun lam => diagonal fun _ => 1 / √(d ^ 2 + lam 0 * d ^ 2)
  known := φ
  extend := false
  exclude := false
  control := 0
  method := .nesterov
  tol := 1

theorem tiny_XX (d y : ℝ) (nc : ℕ) (D : Dat 1) (h : setup .memory (fun (_ : Unit) _ => d) nc [[((), some y)]] = some D) :
    D.XX = diagonal fun _ => d ^ 2 := by
  rw [setup_memory, Option.some.injEq] at h
  subst h
  ext i j
  fin_cases i; fin_cases j
  simp [whole, rowsOf, sq]

theorem tiny_good (φ : Option ℝ) {d : ℝ} (hd : d ≠ 0) : Good (tiny φ d) (diagonal fun _ => d ^ 2) where
  root := fun i => by
    show (diagonal fun _ => d ^ 2 : Matrix (Fin 1) (Fin 1) ℝ) = diagonal (fun _ => d) * (diagonal fun _ => d)ᵀ
    rw [diagonal_transpose, diagonal_mul_diagonal]
    congr 1
    funext _
    ring
  inv := fun lam hl => by
    have h0 : 0 < d ^ 2 + lam 0 * d ^ 2 := by have := hl 0; positivity
    ext i j
    fin_cases i; fin_cases j
    simp only [Matrix.mul_apply, Fin.sum_univ_one, tiny]
    simp
    rw [← mul_inv, Real.mul_self_sqrt h0.le, inv_mul_cancel₀ h0.ne']
  ginv := fun lam _ => by simp [tiny]
  rank := fun i _ => by
    refine ⟨?_, fun k hk => absurd (Subsingleton.elim k i) hk⟩
    show 1 = (diagonal fun _ => d ^ 2 : Matrix (Fin 1) (Fin 1) ℝ).rank
    rw [rank_of_isUnit _ ((isUnit_iff_isUnit_det _).2 (by simpa using hd))]
    simp

/-- The hypotheses of `columns_scaled` hold for one coefficient. -/
example : ∃ D D' : Dat 1, setup .memory (fun (_ : Unit) _ => (1:ℝ)) 1 [[((), some 1)]] = some D ∧
    setup .memory (fun (_ : Unit) _ => (2:ℝ)) 1 [[((), some 1)]] = some D' ∧ Good (tiny none 1) D.XX ∧ Good (tiny none 2) D'.XX ∧
    Same (tiny none 1) (tiny none 2) ∧ (∀ i a b, (tiny none 2).S i a b = 2 * (tiny none 1).S i a b * 2) ∧
    (fit (tiny none 1) .memory (fun (_ : Unit) _ => (1:ℝ)) 1 [[((), some 1)]] 1 1 (fun _ => 1) (fun _ => false)).isSome := by
  refine ⟨_, _, setup_memory _ _ _, setup_memory _ _ _, ?_, ?_, ⟨rfl, rfl, rfl, rfl, rfl, rfl⟩, ?_, fit_one _ rfl _ _ _ _ _⟩
  · rw [tiny_XX 1 1 1 _ (setup_memory _ _ _)]; exact tiny_good none one_ne_zero
  · rw [tiny_XX 2 1 1 _ (setup_memory _ _ _)]; exact tiny_good none two_ne_zero
  · intro i a b
    fin_cases a; fin_cases b
    simp [tiny]; norm_num

theorem propose_lam (c : Lam.Cfg) (P : Lam.Pass m (Fin p → ℝ)) (i : Fin m) (t : Lam.Term) : (Lam.propose c P i t).lam = t.lam := by
  unfold Lam.propose Lam.extend
  dsimp only
  split_ifs <;> rfl

theorem tiny_coef (y : ℝ) : updateCoef (whole 1 (fun (_ : Unit) _ => (1:ℝ)) [((), y)]) (tiny (some 1) 1).S (fun _ => 1) = fun _ => y / 2 := by
  have hM : (whole 1 (fun (_ : Unit) _ => (1:ℝ)) [((), y)]).XX + sEmb (tiny (some 1) 1).S (fun _ => 1) = diagonal fun _ => (2:ℝ) := by
    ext i j
    fin_cases i; fin_cases j
    rw [Matrix.add_apply]
    simp [whole, sEmb, tiny]
    norm_num
  unfold updateCoef solveXX
  rw [hM, if_pos (PosDef.diagonal fun _ => two_pos)]
  dsimp only
  have hi : (diagonal fun _ => (2:ℝ) : Matrix (Fin 1) (Fin 1) ℝ)⁻¹ = diagonal fun _ => (1 / 2 : ℝ) := by
    refine inv_eq_left_inv ?_
    rw [diagonal_mul_diagonal]
    norm_num
  rw [hi]
  funext i
  rw [mulVec_diagonal]
  simp [whole]
  ring

theorem tiny_lam (y : ℝ) (r : Out 1 1)
    (h : fit (tiny (some 1) 1) .memory (fun (_ : Unit) _ => (1:ℝ)) 1 [[((), some y)]] 1 1 (fun _ => 1) (fun _ => false) = some r) :
    r.lam 0 = 1 + Lam.fsStep 1 (1 / 2) (y ^ 2 / 4) 1 1 := by
  rw [memory_fit, show rowsOf [[((), some y)]] = [((), y)] from rfl, Gauss.outer, if_pos rfl] at h
  set D := whole 1 (fun (_ : Unit) _ => (1:ℝ)) [((), y)] with hD
  unfold Gauss.propose at h
  rw [if_neg one_ne_zero, Gauss.control] at h
  unfold Lam.pass at h
  rw [if_neg (by simp [Args.cfg, args, tiny]), if_pos (by simp [Args.cfg, args, tiny])] at h
  simp only [Gauss.outer, Option.some.injEq] at h
  subst h
  simp only [Gauss.result]
  rw [propose_lam]
  simp only [Lam.applyStep, Gauss.start, Lam.initStep, Bool.false_eq_true, if_false]
  congr 1
  have e1 : ((args (tiny (some 1) 1) D).pass D fun _ => 1).lgdet 0 = 1 := by
    simp [Args.pass, args, lgdetD, tiny]
  have e2 : ((args (tiny (some 1) 1) D).pass D fun _ => 1).ldet 0 = 1 / 2 := by
    simp only [Args.pass, args, bps, Fin.sum_univ_one, Matrix.mul_apply, tiny]
    simp
    norm_num
  have e3 : ((args (tiny (some 1) 1) D).pass D fun _ => 1).bsb 0 = y ^ 2 / 4 := by
    simp only [Args.pass, args]
    rw [hD, tiny_coef]
    simp [Gauss.quad, tiny, dotProduct]
    ring
  have e4 : ((args (tiny (some 1) 1) D).pass D fun _ => 1).scale = 1 := rfl
  rw [e1, e2, e3, e4]

/-- The scale parameter has to be estimated: with a given one, smoothing parameters depend on the units of the response. -/
theorem known_scale_depends : ∃ r r', fit (tiny (some 1) 1) .memory (fun (_ : Unit) _ => (1:ℝ)) 1 [[((), some 1)]] 1 1 (fun _ => 1) (fun _ => false) = some r ∧
    fit (tiny (some 1) 1) .memory (fun (_ : Unit) _ => (1:ℝ)) 1 [[((), some (2 * 1))]] 1 1 (fun _ => 1) (fun _ => false) = some r' ∧
    r.lam 0 = 2 ∧ r'.lam 0 = 1 / 2 := by
  obtain ⟨r, hr⟩ := Option.isSome_iff_exists.1 (fit_one (tiny (some 1) 1) rfl (fun (_ : Unit) _ => (1:ℝ)) 1 [[((), some 1)]] (fun _ => 1) (fun _ => false))
  obtain ⟨r', hr'⟩ := Option.isSome_iff_exists.1 (fit_one (tiny (some 1) 1) rfl (fun (_ : Unit) _ => (1:ℝ)) 1 [[((), some (2 * 1))]] (fun _ => 1) (fun _ => false))
  refine ⟨r, r', hr, hr', ?_, ?_⟩
  · rw [tiny_lam 1 r hr]
    norm_num [Lam.fsStep, Lam.lo, Lam.hi]
  · rw [tiny_lam (2 * 1) r' hr']
    norm_num [Lam.fsStep, Lam.lo, Lam.hi]

end Verif.Equi
