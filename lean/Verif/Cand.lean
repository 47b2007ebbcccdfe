import Verif.CandLemmas
import Mathlib.Probability.Distributions.Gaussian.Real

/-!
# Sampled smoothing parameters are scored by the restricted likelihood of the refitted model (property C105)
-/

namespace Verif.Cand

open Matrix ProbabilityTheory

variable {N p m : ℕ}

/-! ### Strictly additive models -/

theorem gllk_density (y mu : Fin N → ℝ) (s : ℝ) (hs : 0 < s) : gllk y mu s = ∑ i, Real.log (gaussianPDFReal (mu i) (Real.toNNReal s) (y i)) := by
  unfold gllk
  refine Finset.sum_congr rfl fun i _ => ?_
  have h0 : (0 : ℝ) < 2 * Real.pi * s := by positivity
  have h1 : Real.log (gaussianPDFReal (mu i) (Real.toNNReal s) (y i)) = -(Real.log (2 * Real.pi * s) / 2) + -(y i - mu i) ^ 2 / (2 * s) := by
    rw [gaussianPDFReal, Real.coe_toNNReal s hs.le, Real.log_mul (inv_ne_zero (Real.sqrt_pos.2 h0).ne') (Real.exp_pos _).ne', Real.log_exp, Real.log_inv,
      Real.log_sqrt h0.le]
  rw [h1]
  ring

/-- C105: a candidate that the parallel version returns belongs to the model refitted with the candidate's smoothing parameters: the coefficients are the only ones that
minimise the penalised residual sum of squares after the offset is subtracted, the matrix is the inverse of the penalised cross-product, the degrees of freedom are its trace
against the cross-product, scale, log-likelihood and score are those of predictor plus offset. -/
theorem fast_spec (R : RemlFn p m) (D : Data N p m) (lam : Fin m → ℝ) (res : Res p) (h : fast R D lam = some res) :
    (∀ b, obj D lam res.coef ≤ obj D lam b ∧ (obj D lam b = obj D lam res.coef → b = res.coef)) ∧
      res.V * (D.Xᵀ * D.X + ∑ k, lam k • D.S k) = 1 ∧ res.edf = (res.V * (D.Xᵀ * D.X)).trace ∧
      res.scale = D.known.getD ((∑ i, (D.y i - (D.offset i + ∑ j, D.X i j * res.coef j)) ^ 2) / (N - res.edf)) ∧
      (0 < res.scale → ∃ l r, l = ∑ i, Real.log (gaussianPDFReal (D.offset i + ∑ j, D.X i j * res.coef j) (Real.toNNReal res.scale) (D.y i)) ∧ res.llk = some l ∧
        res.reml = some r ∧ R l ((1 / res.scale) • (D.Xᵀ * D.X)) res.coef res.scale lam = some r) := by
  unfold fast at h
  dsimp only at h
  by_cases hpd : (pen D lam).PosDef
  swap
  · rw [solve_fail _ _ hpd, if_pos one_ne_zero] at h; cases h
  have hok := solve_ok _ (D.Xᵀ *ᵥ (D.y - D.offset)) hpd
  rw [if_neg (by rw [hok]; simp)] at h
  have hn := solve_norm _ (D.Xᵀ *ᵥ (D.y - D.offset)) hpd
  generalize (Gauss.solveXX (pen D lam) (D.Xᵀ *ᵥ (D.y - D.offset))).1 = c at h hn
  obtain ⟨r, hr, rfl⟩ := Option.map_eq_some_iff.1 h
  have hmu : ∀ i, (D.X *ᵥ c + D.offset) i = D.offset i + ∑ j, D.X i j * c j := fun i => add_comm _ _
  refine ⟨fun b => ?_, inv_mul _ hpd, edf_trace D lam hpd, ?_, fun hs => ⟨_, r, ?_, rfl, rfl, hr⟩⟩
  · have hb := complete D lam hpd c (b - c) hn
    rw [add_sub_cancel] at hb
    dsimp only
    by_cases hbc : b = c
    · rw [hbc]; exact ⟨le_rfl, fun _ => rfl⟩
    · have := hpd.dotProduct_mulVec_pos (x := b - c) (sub_ne_zero.2 hbc)
      rw [star_trivial] at this
      exact ⟨by linarith, fun he => by linarith⟩
  · dsimp only
    rw [scaleOf]
    congr 2
    refine Finset.sum_congr rfl fun i _ => ?_
    rw [hmu, sq]
  · dsimp only at hs ⊢
    rw [gllk_density _ _ _ hs]
    refine Finset.sum_congr rfl fun i _ => ?_
    rw [hmu]

/-- C105: the parallel version returns a candidate exactly if the factorisation succeeds and the score can be computed. -/
theorem fast_iff (R : RemlFn p m) (D : Data N p m) (lam : Fin m → ℝ) (hR : ∀ l nH c s, R l nH c s lam ≠ none) :
    (∃ res, fast R D lam = some res) ↔ (D.Xᵀ * D.X + ∑ k, lam k • D.S k).PosDef := by
  constructor
  · rintro ⟨res, h⟩
    by_contra hpd
    unfold fast at h
    dsimp only at h
    rw [solve_fail (pen D lam) _ hpd, if_pos one_ne_zero] at h
    cases h
  · intro hpd
    unfold fast
    dsimp only
    rw [if_neg (by rw [solve_ok (pen D lam) _ hpd]; simp)]
    obtain ⟨r, hr⟩ := Option.ne_none_iff_exists'.1 (hR _ _ _ _)
    exact ⟨_, by rw [hr]; rfl⟩

theorem serial_fast (R : RemlFn p m) (D : Data N p m) (lam : Fin m → ℝ) (hoff : D.offset = 0) (hpd : (pen D lam).PosDef)
    (hR : ∀ l nH c s, R l nH c s lam ≠ none) : fast R D lam = some (serial R none D lam) := by
  unfold fast serial
  dsimp only
  rw [if_neg (by rw [solve_ok _ _ hpd]; simp), hoff]
  generalize Gauss.solveXX (pen D lam) (D.Xᵀ *ᵥ (D.y - 0)) = sol
  obtain ⟨r, hr⟩ := Option.ne_none_iff_exists'.1 (hR (gllk D.y (D.X *ᵥ sol.1 + 0) (scaleOf D lam (D.X *ᵥ sol.1 + 0)))
    ((1 / scaleOf D lam (D.X *ᵥ sol.1 + 0)) • (D.Xᵀ * D.X)) sol.1 (scaleOf D lam (D.X *ᵥ sol.1 + 0)))
  rw [hr]
  rfl

/-- C105, part: without offset, when every candidate can be refitted and scored, candidates do not depend on the number of cores. Missing: offsets (`offset_wrong`),
candidates that fail (`failure_wrong`), `only_expected_edf` with another solver (`expected_serial_wrong`). -/
theorem cores_partial (R : RemlFn p m) (chol : Bool) (D : Data N p m) (lams : List (Fin m → ℝ)) (hoff : D.offset = 0)
    (hpd : ∀ lam ∈ lams, (D.Xᵀ * D.X + ∑ k, lam k • D.S k).PosDef) (hR : ∀ lam ∈ lams, ∀ l nH c s, R l nH c s lam ≠ none) (cores cores' : ℕ) :
    grid R cores chol none D lams = grid R cores' chol none D lams ∧ ∃ rs, grid R cores chol none D lams = some rs ∧ rs.length = lams.length ∧
      lams.map (fast R D) = rs.map some := by
  have h : ∀ c, grid R c chol none D lams = some (lams.map (serial R none D)) := by
    intro c
    unfold grid
    split_ifs
    · exact mapM_some _ _ _ fun lam hl => serial_fast R D lam hoff (hpd lam hl) (hR lam hl)
    · rfl
    · rfl
  refine ⟨by rw [h, h], _, h cores, List.length_map _, ?_⟩
  rw [List.map_map]
  exact List.map_congr_left fun lam hl => serial_fast R D lam hoff (hpd lam hl) (hR lam hl)

example (q : ℝ → ℝ) : ∃ rs, grid (fun l _ _ s _ => some (l - q s)) 8 true none (one1 2 0 none) [fun _ => 1, fun _ => 3] = some rs ∧ rs.length = 2 := by
  obtain ⟨-, rs, h1, h2, -⟩ := cores_partial (fun l _ _ s _ => some (l - q s)) true (one1 2 0 none) [fun _ => 1, fun _ => 3] rfl
    (by
      intro lam hl
      simp only [List.mem_cons, List.not_mem_nil, or_false] at hl
      rcases hl with rfl | rfl
      · exact one1_pd 2 0 none 1 (by norm_num)
      · exact one1_pd 2 0 none 3 (by norm_num)) (fun _ _ _ _ _ _ => by simp) 8 1
  exact ⟨rs, h1, h2⟩

/-- With a known scale the two versions differ by an amount that depends on the refitted coefficients. -/
theorem offset_score (q : Matrix (Fin p) (Fin p) ℝ → (Fin p → ℝ) → ℝ → (Fin m → ℝ) → ℝ) (D : Data N p m) (lam : Fin m → ℝ) (s : ℝ) (hk : D.known = some s)
    (hpd : (pen D lam).PosDef) : ∃ c a b, pen D lam *ᵥ c = D.Xᵀ *ᵥ (D.y - D.offset) ∧
      (fast (fun l nH c s lam => some (l - q nH c s lam)) D lam).bind (·.reml) = some a ∧
      (serial (fun l nH c s lam => some (l - q nH c s lam)) none D lam).reml = some b ∧
      b = a - (∑ i, (2 * D.offset i * (D.y i - D.offset i - (D.X *ᵥ c) i) + D.offset i ^ 2)) / (2 * s) := by
  have hn := solve_norm _ (D.Xᵀ *ᵥ (D.y - D.offset)) hpd
  have hs : ∀ eta, scaleOf D lam eta = s := fun eta => by rw [scaleOf, hk]; rfl
  unfold fast serial
  dsimp only
  rw [if_neg (by rw [solve_ok _ _ hpd]; simp)]
  generalize (Gauss.solveXX (pen D lam) (D.Xᵀ *ᵥ (D.y - D.offset))).1 = c at hn ⊢
  refine ⟨c, _, _, hn, rfl, rfl, ?_⟩
  rw [hs, hs]
  unfold gllk
  rw [Finset.sum_div, sub_right_comm, ← Finset.sum_sub_distrib]
  congr 1
  refine Finset.sum_congr rfl fun i _ => ?_
  simp only [Pi.add_apply, Pi.zero_apply, add_zero]
  ring

/-- C105, negation: with an offset the score depends on the number of cores. One observation with offset 100, known scale: however the score depends on Hessian,
coefficients and smoothing parameters, on one core the second candidate loses 25 units against the first that it does not lose on several cores. -/
theorem offset_wrong (q : Matrix (Fin 1) (Fin 1) ℝ → (Fin 1 → ℝ) → ℝ → (Fin 1 → ℝ) → ℝ) : ∃ (D : Data 1 1 1) (l₁ l₂ : Fin 1 → ℝ) (a₁ a₂ b₁ b₂ : ℝ),
    (grid (fun l nH c s lam => some (l - q nH c s lam)) 4 true none D [l₁, l₂]).map (List.map Res.reml) = some [some a₁, some a₂] ∧
      (grid (fun l nH c s lam => some (l - q nH c s lam)) 1 true none D [l₁, l₂]).map (List.map Res.reml) = some [some b₁, some b₂] ∧
      b₂ - b₁ = a₂ - a₁ - 25 := by
  obtain ⟨c₁, a₁, b₁, h1, h2, h3, h4⟩ := offset_score q (one1 101 100 (some 1)) (fun _ => 1) 1 rfl (one1_pd 101 100 (some 1) 1 (by norm_num))
  obtain ⟨c₂, a₂, b₂, g1, g2, g3, g4⟩ := offset_score q (one1 101 100 (some 1)) (fun _ => 3) 1 rfl (one1_pd 101 100 (some 1) 3 (by norm_num))
  refine ⟨one1 101 100 (some 1), fun _ => 1, fun _ => 3, a₁, a₂, b₁, b₂, ?_, ?_, ?_⟩
  · unfold grid
    rw [if_pos (by norm_num), if_pos rfl]
    obtain ⟨r₁, e1, e2⟩ := Option.bind_eq_some_iff.1 h2
    obtain ⟨r₂, e3, e4⟩ := Option.bind_eq_some_iff.1 g2
    rw [List.mapM_cons, e1, List.mapM_cons, e3, List.mapM_nil]
    show some [r₁.reml, r₂.reml] = _
    rw [e2, e4]
  · unfold grid
    rw [if_neg (by norm_num)]
    show some [_, _] = _
    rw [h3, g3]
  · have k1 := congrFun h1 0
    have k2 := congrFun g1 0
    rw [one1_pen, smul_mulVec, one_mulVec] at k1 k2
    simp only [one1, transpose_one, one_mulVec, Pi.smul_apply, smul_eq_mul, Pi.sub_apply] at k1 k2
    simp only [one1, Finset.univ_unique, Finset.sum_singleton, one_mulVec, Fin.default_eq_zero] at h4 g4
    have e1 : c₁ 0 = 1 / 2 := by linarith
    have e2 : c₂ 0 = 1 / 4 := by linarith
    rw [e1] at h4
    rw [e2] at g4
    rw [h4, g4]
    norm_num
    ring

/-- C105, negation: a candidate that cannot be refitted or scored ends the whole correction on several cores. On one core it is kept: with coefficients zero if the
factorisation failed, with a score of `-inf`, hence weight zero, if the score cannot be computed. -/
theorem failure_wrong (R : RemlFn p m) (cores : ℕ) (hc : 1 < cores) (orig : Option ℝ) (D : Data N p m) (lams : List (Fin m → ℝ)) (lam : Fin m → ℝ) (hl : lam ∈ lams) :
    (¬(D.Xᵀ * D.X + ∑ k, lam k • D.S k).PosDef → grid R cores true orig D lams = none ∧ ∃ rs, grid R 1 true orig D lams = some rs ∧
        rs.length = lams.length ∧ ∃ r ∈ rs, r.coef = 0) ∧
      ((∀ l nH c s, R l nH c s lam = none) → grid R cores true orig D lams = none ∧ ∃ rs, grid R 1 true orig D lams = some rs ∧
        rs.length = lams.length ∧ ∃ r ∈ rs, r.reml = none ∧ Rho.expO r.reml = 0) := by
  have h1 : ∀ x, fast R D lam = none → grid R cores true x D lams = none := by
    intro x h
    unfold grid
    rw [if_pos hc, if_pos rfl]
    exact mapM_none _ _ lam hl h
  have h2 : grid R 1 true orig D lams = some (lams.map (serial R none D)) := by
    unfold grid
    rw [if_neg (by norm_num)]
  constructor
  · intro hpd
    refine ⟨h1 _ ?_, _, h2, List.length_map _, serial R none D lam, List.mem_map_of_mem hl, ?_⟩
    · unfold fast
      dsimp only
      rw [solve_fail (pen D lam) _ hpd, if_pos one_ne_zero]
    · unfold serial
      dsimp only
      rw [solve_fail (pen D lam) _ hpd]
      split <;> rfl
  · intro hR
    refine ⟨h1 _ ?_, _, h2, List.length_map _, serial R none D lam, List.mem_map_of_mem hl, ?_⟩
    · unfold fast
      dsimp only
      rw [hR]
      split_ifs <;> rfl
    · have : (serial R none D lam).reml = none := by
        unfold serial
        dsimp only
        rw [hR]
      rw [this]
      exact ⟨rfl, rfl⟩

/-- The model of `offset_wrong` without data: the factorisation fails. -/
example (R : RemlFn 1 1) : grid R 2 true none (⟨0, 0, 0, fun _ => 0, none⟩ : Data 1 1 1) [fun _ => 1] = none :=
  ((failure_wrong R 2 (by norm_num) none ⟨0, 0, 0, fun _ => 0, none⟩ [fun _ => 1] _ (List.mem_singleton_self _)).1 (by
    intro h
    have := h.diag_pos (i := 0)
    simp at this)).1

/-! ### Failures of other candidates -/

/-- C105, part: a candidate of a GAMM gets the score `-inf` exactly if coefficients and scale could be computed and a later step failed. Missing: earlier failures raise
`UnboundLocalError`. -/
theorem gamm_failure_partial {C S α : Type} (coef : Option C) (scale : C → Option S) (rest : C → S → Option α) :
    (guardGamm coef scale rest = .ninf ↔ ∃ c s, coef = some c ∧ scale c = some s ∧ rest c s = none) ∧
      (∀ a, guardGamm coef scale rest = .ok a ↔ ∃ c s, coef = some c ∧ scale c = some s ∧ rest c s = some a) ∧
      (guardGamm coef scale rest = .unbound ↔ coef = none ∨ ∃ c, coef = some c ∧ scale c = none) := by
  unfold guardGamm
  cases coef with
  | none => simp
  | some c =>
    cases hs : scale c with
    | none => simp [hs]
    | some s => cases hr : rest c s <;> simp [hs, hr]

/-- C105: if coefficients and scale can be computed for all candidates of a GAMM, every candidate gets an entry, in order, and those whose score cannot be computed get `-inf`. -/
theorem gamm_scores {L C S α : Type} (coef : L → C) (scale : L → C → S) (rest : L → C → S → Option α) (ls : List L) :
    scoresGamm (fun l => guardGamm (some (coef l)) (fun c => some (scale l c)) (rest l)) ls = some (ls.map fun l => rest l (coef l) (scale l (coef l))) := by
  unfold scoresGamm
  refine mapM_some _ _ _ fun l _ => ?_
  unfold guardGamm
  dsimp only
  cases rest l (coef l) (scale l (coef l)) <;> rfl

/-- C105, negation: a candidate of a GAMM whose coefficients or scale cannot be computed does not get weight zero, it ends the correction on any number of cores. -/
theorem gamm_failure_wrong {L C S α : Type} (coef : L → Option C) (scale : L → C → Option S) (rest : L → C → S → Option α) (ls : List L) (l : L) (hl : l ∈ ls)
    (h : coef l = none ∨ ∃ c, coef l = some c ∧ scale l c = none) : scoresGamm (fun l => guardGamm (coef l) (scale l) (rest l)) ls = none := by
  unfold scoresGamm
  refine mapM_none _ _ l hl ?_
  rw [show (fun l => guardGamm (coef l) (scale l) (rest l)) l = .unbound from (gamm_failure_partial (coef l) (scale l) (rest l)).2.2.2 h]

/-- C105, negation: for models with a clustered penalty every candidate fails, because the approximate derivatives that these penalties need are not passed on. -/
theorem clustered_wrong {L C α : Type} (coef : L → Option C) (edf : L → C → ℝ) (rest : L → C → ℝ → Option α) (clustered : List Bool) (hc : true ∈ clustered)
    (ls : List L) (hne : ls ≠ []) : scoresGamm (fun l => guardGamm (coef l) (fun c => edfClust clustered (edf l c)) (rest l)) ls = none := by
  obtain ⟨l, hl⟩ := List.exists_mem_of_ne_nil ls hne
  refine gamm_failure_wrong _ _ _ ls l hl ?_
  have h : ∀ e, edfClust clustered e = none := fun e => by
    unfold edfClust
    rw [if_pos (List.any_eq_true.2 ⟨true, hc, rfl⟩)]
  cases hcoef : coef l with
  | none => exact Or.inl rfl
  | some c => exact Or.inr ⟨c, rfl, h _⟩

/-- C105, negation: unless `origNH` is given, candidates of other models never get the score `-inf`: every failure raises `UnboundLocalError`. -/
theorem gsmm_never_ninf {F : Type} (fit : Option F) (reml edf : F → Option ℝ) : guardGsmm fit reml edf none ≠ .ninf ∧
    (guardGsmm fit reml edf none = .unbound ↔ ¬∃ f r e, fit = some f ∧ reml f = some r ∧ edf f = some e) := by
  unfold guardGsmm
  cases fit with
  | none => simp
  | some f =>
    cases hr : reml f with
    | none => simp [hr]
    | some r => cases he : edf f <;> simp [hr, he]

/-- C105: on one core candidates of other models that fail are left out, the others are kept in order. -/
theorem gsmm_serial {L F : Type} (fit : L → Option F) (reml edf : L → F → Option ℝ) (ls : List L) :
    ∃ rs, scoresGsmm 1 (fun l => guardGsmm (fit l) (reml l) (edf l) none) ls = some rs ∧ (rs.map (·.1)).Sublist ls ∧
      ∀ l a, (l, a) ∈ rs ↔ l ∈ ls ∧ ∃ f r e, fit l = some f ∧ reml l f = some r ∧ edf l f = some e ∧ a = some (f, r, e) := by
  unfold scoresGsmm
  rw [if_neg (by norm_num)]
  refine ⟨_, rfl, ?_, ?_⟩
  · induction ls with
    | nil => exact List.Sublist.slnil
    | cons x xs ih =>
      rw [List.filterMap_cons]
      dsimp only at ih ⊢
      cases hx : guardGsmm (fit x) (reml x) (edf x) none with
      | ok a => exact List.Sublist.cons_cons _ ih
      | ninf => exact absurd hx (gsmm_never_ninf _ _ _).1
      | unbound => exact List.Sublist.cons _ ih
  · intro l a
    rw [List.mem_filterMap]
    constructor
    · rintro ⟨x, hx, h⟩
      dsimp only at h
      cases hg : guardGsmm (fit x) (reml x) (edf x) none with
      | ok b =>
        rw [hg] at h
        obtain ⟨rfl, rfl⟩ := Prod.mk.inj (Option.some.inj h)
        refine ⟨hx, ?_⟩
        have : ¬guardGsmm (fit x) (reml x) (edf x) none = .unbound := by rw [hg]; simp
        rw [(gsmm_never_ninf _ _ _).2, not_not] at this
        obtain ⟨f, r, e, h1, h2, h3⟩ := this
        refine ⟨f, r, e, h1, h2, h3, ?_⟩
        have h4 : guardGsmm (fit x) (reml x) (edf x) none = .ok (f, r, e) := by
          unfold guardGsmm; rw [h1]; dsimp only; rw [h2]; dsimp only; rw [h3]
        rw [hg] at h4
        cases h4; rfl
      | ninf => exact absurd hg (gsmm_never_ninf _ _ _).1
      | unbound => rw [hg] at h; cases h
    · rintro ⟨hl, f, r, e, h1, h2, h3, rfl⟩
      refine ⟨l, hl, ?_⟩
      have h4 : guardGsmm (fit l) (reml l) (edf l) none = .ok (f, r, e) := by
        unfold guardGsmm; rw [h1]; dsimp only; rw [h2]; dsimp only; rw [h3]
      dsimp only
      rw [h4]

/-- C105: on one core, candidates of other models for which only the replacement of the degrees of freedom fails are kept with score `-inf`, at any number of cores if no candidate fails otherwise. -/
theorem gsmm_orig {L F : Type} (fit : L → F) (reml edf : L → F → ℝ) (orig : L → F → Option ℝ) (ls : List L) (cores : ℕ) :
    scoresGsmm cores (fun l => guardGsmm (some (fit l)) (fun f => some (reml l f)) (fun f => some (edf l f)) (some (orig l))) ls =
      some (ls.map fun l => (l, (orig l (fit l)).map fun e => (fit l, reml l (fit l), e))) := by
  have h : ∀ l, guardGsmm (some (fit l)) (fun f => some (reml l f)) (fun f => some (edf l f)) (some (orig l)) =
      (orig l (fit l)).elim .ninf fun e => .ok (fit l, reml l (fit l), e) := by
    intro l
    unfold guardGsmm
    dsimp only
    cases orig l (fit l) <;> rfl
  unfold scoresGsmm
  split_ifs
  · refine mapM_some _ _ _ fun l _ => ?_
    dsimp only
    rw [h l]
    cases orig l (fit l) <;> rfl
  · congr 1
    induction ls with
    | nil => rfl
    | cons x xs ih =>
      rw [List.filterMap_cons, List.map_cons]
      dsimp only at ih ⊢
      rw [h x]
      cases orig x (fit x) <;> exact congrArg _ ih

/-- Two candidates, the degrees of freedom of the second cannot be replaced. -/
example (cores : ℕ) : scoresGsmm cores (fun l : ℕ => guardGsmm (some l) (fun _ => some 1) (fun _ => some 2) (some fun f => if f = 0 then some 3 else none)) [0, 1] =
    some [(0, some (0, 1, 3)), (1, none)] := by
  rw [gsmm_orig (fun l => l) (fun _ _ => 1) (fun _ _ => 2) (fun _ f => if f = 0 then some 3 else none)]
  simp

/-- Two candidates of a GAMM, the score of the second cannot be computed. -/
example : scoresGamm (fun l : ℕ => guardGamm (some l) (fun _ => some 1) (fun c (_ : ℕ) => if c = 0 then some 5 else none)) [0, 1] = some [some 5, none] := by
  rw [gamm_scores (fun l => l) (fun _ _ => 1) (fun _ c _ => if c = 0 then some 5 else none)]
  simp

/-- C105, negation: on several cores the same failure ends the correction. -/
theorem gsmm_cores_wrong {L F : Type} (fit : L → Option F) (reml edf : L → F → Option ℝ) (orig : L → Option (F → Option ℝ)) (ls : List L) (l : L) (hl : l ∈ ls)
    (h : fit l = none) (cores : ℕ) (hc : 1 < cores) : scoresGsmm cores (fun l => guardGsmm (fit l) (reml l) (edf l) (orig l)) ls = none := by
  unfold scoresGsmm
  rw [if_pos hc]
  refine mapM_none _ _ l hl ?_
  dsimp only
  rw [h]
  rfl

/-- Two candidates, the second cannot be fitted: one core keeps the first, two cores raise. -/
example : scoresGsmm 2 (fun l : ℕ => guardGsmm (if l = 0 then some () else none) (fun _ => some 1) (fun _ => some 2) none) [0, 1] = none ∧
    ∃ rs, scoresGsmm 1 (fun l : ℕ => guardGsmm (if l = 0 then some () else none) (fun _ => some 1) (fun _ => some 2) none) [0, 1] = some rs ∧
      (0, some ((), 1, 2)) ∈ rs := by
  refine ⟨gsmm_cores_wrong _ _ _ _ _ 1 (by simp) (by simp) 2 (by norm_num), ?_⟩
  obtain ⟨rs, h1, -, h2⟩ := gsmm_serial (fun l : ℕ => if l = 0 then some () else none) (fun _ _ => some 1) (fun _ _ => some 2) [0, 1]
  exact ⟨rs, h1, (h2 0 _).2 ⟨by simp, (), 1, 2, by simp⟩⟩

/-! ### The estimate among the samples -/

/-- C105, part: the candidates are the samples, and the estimate in front unless some sample differs from it by less than a tenth of the smallest standard deviation in
every smoothing parameter. Missing: standard deviations are those of logarithms, differences are not (`include_wrong`). -/
theorem include_partial {k : ℕ} (V lam : Fin (k + 1) → ℝ) (sample : List (Fin (k + 1) → ℝ)) :
    ((withEstimate V lam sample = lam :: sample ∧ ∀ s ∈ sample, ∃ i j, √(V j) / 10 ≤ |s i - lam i|) ∨
      (withEstimate V lam sample = sample ∧ ∃ s ∈ sample, ∀ i j, |s i - lam i| < √(V j) / 10)) := by
  unfold withEstimate
  dsimp only
  obtain ⟨j₀, -, hj₀⟩ := Finset.exists_mem_eq_inf' (Finset.univ_nonempty (α := Fin (k + 1))) fun i => √(V i)
  split_ifs with h
  · right
    refine ⟨rfl, ?_⟩
    obtain ⟨s, hs, hlt⟩ := h
    refine ⟨s, hs, fun i j => ?_⟩
    have h1 := Finset.le_sup' (fun i => |s i - lam i|) (Finset.mem_univ i)
    have h2 := Finset.inf'_le (fun i => √(V i)) (Finset.mem_univ j)
    linarith
  · left
    refine ⟨rfl, fun s hs => ?_⟩
    have h1 : ¬ _ := fun hlt => h ⟨s, hs, hlt⟩
    obtain ⟨i₀, -, hi₀⟩ := Finset.exists_mem_eq_sup' (Finset.univ_nonempty (α := Fin (k + 1))) fun i => |s i - lam i|
    rw [hi₀, hj₀, not_lt] at h1
    exact ⟨i₀, j₀, by linarith⟩

/-- C105, negation: an estimate of `exp (-20)` is left out although every sample is ten standard deviations away from it. -/
theorem include_wrong : ∃ (V lam : Fin 1 → ℝ) (sample : List (Fin 1 → ℝ)), lam ∉ withEstimate V lam sample ∧
    ∀ s ∈ sample, 10 * √(V 0) ≤ |Real.log (s 0) - Real.log (lam 0)| := by
  refine ⟨fun _ => 1, fun _ => Real.exp (-20), [fun _ => Real.exp (-10)], ?_, ?_⟩
  · have h : withEstimate (fun _ : Fin 1 => (1 : ℝ)) (fun _ => Real.exp (-20)) [fun _ => Real.exp (-10)] = [fun _ => Real.exp (-10)] := by
      rcases include_partial (fun _ : Fin 1 => (1 : ℝ)) (fun _ => Real.exp (-20)) [fun _ => Real.exp (-10)] with ⟨-, h⟩ | ⟨h, -⟩
      · exfalso
        obtain ⟨i, j, h⟩ := h _ (List.mem_singleton_self _)
        have h1 : Real.exp (-20) < Real.exp (-10) := Real.exp_lt_exp.2 (by norm_num)
        have h2 : 0 < Real.exp (-20) := Real.exp_pos _
        rw [Real.sqrt_one, abs_of_pos (by linarith)] at h
        have h3 : Real.exp (-10) * 11 ≤ 1 := by
          have := Real.add_one_le_exp (10 : ℝ)
          have h4 : Real.exp (-10) * Real.exp 10 = 1 := by rw [← Real.exp_add]; norm_num
          have h5 := Real.exp_pos (-10)
          nlinarith
        linarith
      · exact h
    rw [h]
    intro hm
    have h1 := congrFun (List.mem_singleton.1 hm) 0
    have := Real.exp_injective h1
    norm_num at this
  · intro s hs
    rw [List.mem_singleton.1 hs]
    simp only [Real.log_exp, Real.sqrt_one]
    norm_num

/-- C105, negation: an estimate of `exp 20` is put in front of a sample that is a thousandth of a standard deviation away from it. -/
theorem include_twice_wrong : ∃ (V lam s : Fin 1 → ℝ), withEstimate V lam [s] = [lam, s] ∧ |Real.log (s 0) - Real.log (lam 0)| ≤ √(V 0) / 1000 := by
  refine ⟨fun _ => 1, fun _ => Real.exp 20, fun _ => Real.exp (20 + 1 / 1000), ?_, ?_⟩
  · rcases include_partial (fun _ : Fin 1 => (1 : ℝ)) (fun _ => Real.exp 20) [fun _ => Real.exp (20 + 1 / 1000)] with ⟨h, -⟩ | ⟨-, s, hs, h⟩
    · exact h
    · exfalso
      rw [List.mem_singleton.1 hs] at h
      have h1 := h 0 0
      rw [Real.sqrt_one, Real.exp_add] at h1
      have h2 := Real.add_one_le_exp (1 / 1000 : ℝ)
      have h3 : (1000 : ℝ) ≤ Real.exp 20 := by
        have h4 : Real.exp 20 = Real.exp 10 * Real.exp 10 := by rw [← Real.exp_add]; norm_num
        have h5 : Real.exp 10 = Real.exp 5 * Real.exp 5 := by rw [← Real.exp_add]; norm_num
        have h6 := Real.add_one_le_exp (5 : ℝ)
        have h7 : (36 : ℝ) ≤ Real.exp 10 := by rw [h5]; nlinarith
        rw [h4]; nlinarith
      have h8 := le_abs_self (Real.exp 20 * Real.exp (1 / 1000) - Real.exp 20)
      nlinarith
  · simp only [Real.log_exp, Real.sqrt_one]
    norm_num

/-- C105, negation: with `Vp_fidiff=True` the point added to the samples is the last one at which the score was evaluated for the finite differences. Unless that is the
estimate or the estimate was drawn, the estimate is not among the candidates. -/
theorem fidiff_wrong {k : ℕ} (V lam : Fin (k + 1) → ℝ) (sample evals : List (Fin (k + 1) → ℝ)) (r : Fin (k + 1) → ℝ)
    (hr : (fun i => Real.exp (r i)) ≠ lam) (hs : lam ∉ sample) : lam ∉ withEstimate V (leftOver lam (evals ++ [r])) sample := by
  have h : leftOver lam (evals ++ [r]) = fun i => Real.exp (r i) := by
    unfold leftOver
    rw [List.getLast?_concat]
  rw [h]
  unfold withEstimate
  dsimp only
  split_ifs
  · exact hs
  · rw [List.mem_cons, not_or]
    exact ⟨fun h' => hr h'.symm, hs⟩

example : (fun _ : Fin 1 => (1 : ℝ)) ∉ withEstimate (fun _ => 1) (leftOver (fun _ : Fin 1 => (1 : ℝ)) ([fun _ => 0] ++ [fun _ => 1 / 2])) [fun _ => 5] :=
  fidiff_wrong _ _ _ _ _ (fun h => by have := congrFun h 0; rw [Real.exp_eq_one_iff] at this; norm_num at this)
    (fun h => by have := congrFun (List.mem_singleton.1 h) 0; norm_num at this)

/-! ### Expected degrees of freedom -/

/-- C105: with the traces of the candidates' covariance matrices against the Hessian, the expected degrees of freedom of grid type JJJ3 are the trace of the corrected
covariance matrix against the Hessian, whenever the model's degrees of freedom and the first-order term are the smaller ones. -/
theorem expected_trace {k n : Type} [Fintype k] [Fintype n] {M : ℕ} (w : Fin M → ℝ) (V : Fin M → Matrix n n ℝ) (coef : Fin M → n → ℝ)
    (nH : Matrix n n ℝ) (Vcr : Matrix k n ℝ) (e : ℝ) (he : e ≤ ∑ r, w r * (V r * nH).trace)
    (ht : (Vcrᵀ * Vcr * nH).trace ≤ ((Rho.covJ3 w V coef - ∑ r, w r • V r) * nH).trace) :
    Rho.expectedEdf true w (fun r => (V r * nH).trace) coef nH Vcr e = (Rho.covJ3 w V coef * nH).trace := by
  have h1 : ∀ u : n → ℝ, (vecMulVec u u * nH).trace = u ⬝ᵥ nH *ᵥ u := by
    intro u
    rw [vecMulVec_mul, trace_vecMulVec, dotProduct_mulVec, dotProduct_comm]
  have h2 : ((∑ r, w r • V r) * nH).trace = ∑ r, w r * (V r * nH).trace := by
    rw [Finset.sum_mul, trace_sum]
    refine Finset.sum_congr rfl fun r _ => ?_
    rw [smul_mul, trace_smul, smul_eq_mul]
  have h3 : ((Rho.covJ3 w V coef - ∑ r, w r • V r) * nH).trace =
      (∑ r, w r * (coef r ⬝ᵥ nH *ᵥ coef r)) - Rho.wmean w coef ⬝ᵥ nH *ᵥ Rho.wmean w coef := by
    rw [Rho.covJ3, add_sub_assoc, add_sub_cancel_left, Matrix.sub_mul, trace_sub, h1, Finset.sum_mul, trace_sum]
    congr 1
    refine Finset.sum_congr rfl fun r _ => ?_
    rw [smul_mul, trace_smul, smul_eq_mul, h1]
  have h4 : (Vcrᵀ * Vcr * nH).trace = (Vcr * nH * Vcrᵀ).trace := by
    rw [Matrix.mul_assoc, trace_mul_comm]
  have h5 : (Rho.covJ3 w V coef * nH).trace = ((∑ r, w r • V r) * nH).trace + ((Rho.covJ3 w V coef - ∑ r, w r • V r) * nH).trace := by
    rw [← trace_add, ← Matrix.add_mul, add_sub_cancel]
  rw [h3, h4] at ht
  unfold Rho.expectedEdf
  dsimp only
  rw [if_pos rfl, if_neg (not_lt.2 ht), max_eq_right he, h5, h2, h3]

/-- C105: given the scale of the fit, a candidate's degrees of freedom are the trace of its covariance matrix against the Hessian of the fit. -/
theorem expected_orig (R : RemlFn p m) (s : ℝ) (D : Data N p m) (lam : Fin m → ℝ) (hpd : (D.Xᵀ * D.X + ∑ k, lam k • D.S k).PosDef) (r : ℝ)
    (h : (serial R (some s) D lam).reml = some r) :
    (serial R (some s) D lam).edf = (((serial R (some s) D lam).scale • (serial R (some s) D lam).V) * ((1 / s) • (D.Xᵀ * D.X))).trace := by
  have he := edf_trace D lam hpd
  revert h
  unfold serial
  dsimp only
  generalize (Gauss.solveXX (pen D lam) (D.Xᵀ *ᵥ (D.y - D.offset))).1 = c
  cases R (gllk D.y (D.X *ᵥ c + 0) (scaleOf D lam (D.X *ᵥ c + 0))) ((1 / scaleOf D lam (D.X *ᵥ c + 0)) • (D.Xᵀ * D.X)) c (scaleOf D lam (D.X *ᵥ c + 0)) lam with
  | none => intro h; cases h
  | some r' =>
    intro _
    dsimp only
    rw [he, Matrix.smul_mul, Matrix.mul_smul, trace_smul, trace_smul, smul_eq_mul, smul_eq_mul]
    ring

/-- C105, negation: on one core, and for `method="Chol"` on several, the scale of the fit is not passed on. The degrees of freedom of a candidate with another scale than that of the
fit are not the trace of its covariance matrix against the Hessian of the fit. -/
theorem expected_serial_wrong (R : RemlFn p m) (cores : ℕ) (s : ℝ) (hs : s ≠ 0) (D : Data N p m) (hoff : D.offset = 0) (lam : Fin m → ℝ)
    (hpd : (D.Xᵀ * D.X + ∑ k, lam k • D.S k).PosDef) (hR : ∀ l nH c s, R l nH c s lam ≠ none) : ∃ r, grid R cores true (some s) D [lam] = some [r] ∧
      (r.scale ≠ s → r.edf ≠ 0 → r.edf ≠ ((r.scale • r.V) * ((1 / s) • (D.Xᵀ * D.X))).trace) := by
  have hf := serial_fast R D lam hoff hpd hR
  refine ⟨serial R none D lam, ?_, ?_⟩
  · unfold grid
    split_ifs
    · exact mapM_some _ (serial R none D) _ fun l hl => by rw [List.mem_singleton.1 hl]; exact hf
    · rename_i h; exact absurd rfl h
    · rfl
  · have h1 := (fast_spec R D lam _ hf).2.2.1
    intro hne he0 he
    rw [Matrix.smul_mul, Matrix.mul_smul, trace_smul, trace_smul, smul_eq_mul, smul_eq_mul, ← h1] at he
    apply hne
    have h2 : (serial R none D lam).edf * ((serial R none D lam).scale / s) = (serial R none D lam).edf * 1 := by
      rw [mul_one]
      refine Eq.trans ?_ he.symm
      ring
    have h3 := mul_left_cancel₀ he0 h2
    rwa [div_eq_one_iff_eq hs] at h3

/-- Two observations, estimated scale: the candidate has scale `13/6`, the fit is supposed to have scale 1. -/
example (q : ℝ → ℝ) : ∃ r, grid (fun l _ _ s _ => some (l - q s)) 1 true (some 1) two1 [fun _ => 1] = some [r] ∧
    r.edf ≠ ((r.scale • r.V) * ((1 / (1 : ℝ)) • (two1.Xᵀ * two1.X))).trace := by
  have hA : two1.Xᵀ * two1.X + ∑ k : Fin 1, (fun _ => 1 : Fin 1 → ℝ) k • two1.S k =
      (3 : ℝ) • (1 : Matrix (Fin 1) (Fin 1) ℝ) := by
    ext i j
    fin_cases i; fin_cases j
    simp [two1, Matrix.mul_apply]; norm_num
  have hpd : (two1.Xᵀ * two1.X +
      ∑ k : Fin 1, (fun _ => 1 : Fin 1 → ℝ) k • two1.S k).PosDef := by
    rw [hA]; exact PosDef.one.smul (by norm_num)
  obtain ⟨r, h1, h2⟩ := expected_serial_wrong (fun l _ _ s _ => some (l - q s)) 1 1 one_ne_zero two1 rfl
    (fun _ => 1) hpd (fun _ _ _ _ => by simp)
  refine ⟨r, h1, ?_⟩
  obtain ⟨-, g⟩ := cores_partial (fun l _ _ s _ => some (l - q s)) true two1 [fun _ => 1] rfl
    (fun lam hl => by rw [List.mem_singleton.1 hl]; exact hpd) (fun _ _ _ _ _ _ => by simp) 1 1
  have hf : fast (fun l _ _ s _ => some (l - q s)) two1 (fun _ => 1) = some r := by
    obtain ⟨rs, e1, -, e3⟩ := g
    have : grid (fun l _ _ s _ => some (l - q s)) 1 true none two1 [fun _ => 1] = some [r] := h1
    rw [this] at e1
    cases e1
    exact (List.cons.inj e3).1
  obtain ⟨f1, f2, f3, f4, -⟩ := fast_spec _ _ _ _ hf
  rw [hA] at f2
  have hV : r.V 0 0 = 1 / 3 := by
    have := congrFun (congrFun f2 0) 0
    simp at this
    linarith
  have he : r.edf = 2 / 3 := by
    rw [f3, trace_fin_one]
    simp [two1, Matrix.mul_apply, hV]
    norm_num
  have hc : r.coef 0 = 4 / 3 := by
    have h3 := f1 (fun _ => 4 / 3)
    have h4 : obj two1 (fun _ => 1) (fun _ => 4 / 3) ≤
        obj two1 (fun _ => 1) r.coef := by
      simp [obj, two1, Fin.sum_univ_two]
      nlinarith [sq_nonneg (r.coef 0 - 4 / 3)]
    exact (congrFun (h3.2 (le_antisymm h4 h3.1)) 0).symm
  refine h2 ?_ (by rw [he]; norm_num)
  rw [f4, he]
  simp [two1, Fin.sum_univ_two, hc]
  norm_num

/-! ### Generalised models -/

variable {V E M W F : Type} [AddCommGroup V] [Module ℝ V]

/-- C105: for generalised models a candidate's iterations end with predictor, mean, deviances and weights of the returned coefficients. The penalised deviance is at most that of the
first pass. The factor belongs to the weights of the pass before; when the iterations converged, the penalised deviance of that pass differs by less than the tolerance. They
can end without convergence only if each of 499 passes lowered the penalised deviance by the tolerance. -/
theorem candidate_spec (P : Step.Prob V E M) (work : E → M → W) (solve : W → V × F) (eta0 : E) (b : ℝ)
    (hb : (Step.evalAt P (solve (work eta0 (P.muF eta0))).1).pen = .fin b) :
    ∃ r a c' d, candidate P work solve eta0 = some r ∧ r.st = Step.evalAt P r.st.n ∧ r.w = work (P.etaF r.st.n) (P.muF (P.etaF r.st.n)) ∧
      r.st.pen = .fin a ∧ a ≤ d ∧ d ≤ b ∧ (Step.evalAt P c').pen = .fin d ∧ r.fac = (solve (work (P.etaF c') (P.muF (P.etaF c')))).2 ∧
      (r.conv = true ↔ |a - d| < 1 / 10 ^ 9 * a) ∧ (r.conv = false → a * (1 + 1 / 10 ^ 9) ^ 499 ≤ b) := by
  have h := newton_inv P work solve 498 _ b hb
  unfold candidate
  dsimp only at h ⊢
  rw [hb]
  exact h

/-- Squared distance from three with penalty `x ^ 2`, steps that go to the minimum: a candidate is found. -/
example : ∃ r, candidate (⟨id, id, fun x => .fin ((x - 3) ^ 2), fun x => x ^ 2, true⟩ : Step.Prob ℝ ℝ ℝ) (fun x _ => x) (fun _ => (3 / 2, ())) 0 = some r ∧ r.conv = true := by
  obtain ⟨r, a, c', d, h1, h2, -, h4, h5, h6, h7, -, h9, -⟩ := candidate_spec (⟨id, id, fun x => .fin ((x - 3) ^ 2), fun x => x ^ 2, true⟩ : Step.Prob ℝ ℝ ℝ)
    (fun x _ => x) (fun _ => (3 / 2, ())) 0 (9 / 2) (by
      simp only [Step.evalAt, Step.penDev, id, if_true, Fl.fin_add, Fl.fin_inj]; norm_num)
  refine ⟨r, h1, h9.2 ?_⟩
  have hd : ∀ x e : ℝ, (Step.evalAt (⟨id, id, fun x => .fin ((x - 3) ^ 2), fun x => x ^ 2, true⟩ : Step.Prob ℝ ℝ ℝ) x).pen = .fin e → e = (x - 3) ^ 2 + x ^ 2 := by
    intro x e h
    simp only [Step.evalAt, Step.penDev, id, if_true, Fl.fin_add, Fl.fin_inj] at h
    exact h.symm
  rw [h2] at h4
  have ha := hd _ _ h4
  have hlow : 9 / 2 ≤ a := by rw [ha]; nlinarith [sq_nonneg (r.st.n - 3 / 2)]
  have e1 : a = 9 / 2 := le_antisymm (h5.trans h6) hlow
  have e2 : d = 9 / 2 := le_antisymm h6 (hlow.trans h5)
  rw [e1, e2]
  norm_num

end Verif.Cand
