import Verif.LmlLemmas

/-!
# What one iteration does, and limits of iterations (property C125)
-/

namespace Verif.Lml
open Verif Matrix Filter Topology Step Coef

variable {p : ℕ} {x : In p}

theorem leval_pen (x : In p) (c : Fin p → ℝ) : (levalAt (Coef.prob (ext x)) c).pen = pllk x c := by
  rw [pllk_eq]; rfl

theorem own_iter (C : Cfg) (x : In p) (c : Fin p → ℝ) (k : ℕ) : Own (ext x) (iter C x c k) := by
  cases k with
  | zero => exact ⟨rfl, rfl⟩
  | succ k => exact round_own C (ext x) k _

theorem pen_iter (C : Cfg) (x : In p) (c : Fin p → ℝ) (k : ℕ) : (iter C x c k).pen = pllk x (iter C x c k).coef := by
  rw [(own_iter C x c k).2, pllk_eq]; rfl

theorem fin_iter (C : Cfg) {c : Fin p → ℝ} (h : (pllk x c).IsFin) (k : ℕ) : (pllk x (iter C x c k).coef).IsFin := by
  induction k with
  | zero => exact h
  | succ k ih =>
    rw [← pen_iter] at ih ⊢
    exact round_fin C (ext x) k _ (own_iter C x c k) ih

/-- Acceptable coefficients: penalised log-likelihood finite and not lower than `u`. -/
def Ok (x : In p) (u : ℝ) (c : Fin p → ℝ) : Prop := ∃ v, pllk x c = Fl.fin v ∧ u ≤ v

theorem ok_iff (x : In p) (u : ℝ) (c : Fin p → ℝ) :
    (Ge (levalAt (Coef.prob (ext x)) c).pen (Fl.fin u) ∧ (levalAt (Coef.prob (ext x)) c).pen.IsFin) ↔ Ok x u c := by
  rw [leval_pen, Fl.isFin_iff]
  constructor
  · rintro ⟨h1, v, hv⟩
    rw [hv] at h1
    exact ⟨v, hv, h1⟩
  · rintro ⟨v, hv, h⟩
    rw [hv]
    exact ⟨h, v, rfl⟩

/-- One iteration without restart. -/
theorem round_cases (C : Cfg) (hC : Calm C (ext x)) (inner : ℕ) (s : S (Fin p → ℝ) (Matrix (Fin p) (Fin p) ℝ)) (ho : Own (ext x) s)
    {u : ℝ} (hu : pllk x s.coef = Fl.fin u) :
    (∃ j, j ≤ 31 ∧ (round C (ext x) inner s).coef = half s.coef (proposal C (ext x) s) j ∧
      Ok x u (half s.coef (proposal C (ext x) s) j) ∧ ∀ i, i < j → ¬Ok x u (half s.coef (proposal C (ext x) s) i)) ∨
    ((round C (ext x) inner s).coef = s.coef ∧ ∀ i, i ≤ 31 → ¬Ok x u (half s.coef (proposal C (ext x) s) i)) := by
  have hr : (round C (ext x) inner s).coef =
      (lssStep (Coef.prob (ext x)) s.coef (proposal C (ext x) s) s.llk s.a).1.n := by
    unfold Coef.round
    simp only
    rw [if_neg (calm_not C (ext x) hC _ _ _ _)]
  have hprev : s.llk - Fl.fin (1 / 2 * (Coef.prob (ext x)).quad s.coef) = Fl.fin u := by
    rw [ho.1, ← hu, pllk_eq]; rfl
  rw [hr]
  unfold lssStep
  simp only
  rw [hprev]
  have h := lssLoop_first (Coef.prob (ext x)) s.coef (proposal C (ext x) s) (Fl.fin u) 32 0 rfl
  rw [half_zero] at h
  simp only [ok_iff] at h
  rcases h with ⟨j, -, j2, j3, j4, j5⟩ | ⟨h1, h2⟩
  · exact Or.inl ⟨j, j2, by rw [j3]; rfl, j4, fun i hi => j5 i zero_le hi⟩
  · exact Or.inr ⟨by rw [h1.resolve_left (by norm_num)]; rfl, fun i hi => h2 i zero_le hi⟩

theorem size_iter (C : Cfg) (x : In p) (c : Fin p → ℝ) (k : ℕ) :
    1 / (2 * 10 ^ 9) ≤ (iter C x c k).a ∧ (iter C x c k).a < 2 := by
  induction k with
  | zero => constructor <;> norm_num [iter, start]
  | succ k ih => exact round_size C (ext x) k _ ih.1 ih.2

/-- Both proposals satisfy a linear system with the penalised gradient on the right. -/
noncomputable def sys (C : Cfg) (x : In p) (s : S (Fin p → ℝ) (Matrix (Fin p) (Fin p) ℝ)) : Matrix (Fin p) (Fin p) ℝ :=
  if C.grad then (1 / s.a) • 1 else sysM x s.coef

theorem sys_solves (C : Cfg) {s : S (Fin p → ℝ) (Matrix (Fin p) (Fin p) ℝ)} (ha : s.a ≠ 0) (h : C.grad = false → Reg x s.coef) :
    sys C x s *ᵥ (proposal C (ext x) s - s.coef) = x.grad s.coef - x.S *ᵥ s.coef := by
  unfold sys proposal
  by_cases hg : C.grad = true
  · rw [if_pos hg, if_pos hg]
    have : (ext x).gd s.coef s.a - s.coef = s.a • (x.grad s.coef - x.S *ᵥ s.coef) := by
      show Newton.gradStep _ _ _ _ - _ = _
      unfold Newton.gradStep
      rw [add_sub_cancel_left]
      rfl
    rw [this, smul_mulVec, one_mulVec, smul_smul, one_div_mul_cancel ha, one_smul]
  · rw [if_neg hg, if_neg hg]
    exact (step_solves (h (by simpa using hg))).2.2

/-- Smoothness at the limit. -/
structure Smooth (x : In p) (l : Fin p → ℝ) : Prop where
  chol : Newton.CholSpec x.chol
  hsym : ∀ c, (x.hess c).IsSymm
  ssym : x.S.IsSymm
  grad : HasFlGrad x.llk (x.grad l) l
  gcont : ContinuousAt x.grad l
  hcont : ContinuousAt x.hess l
  diag : ∀ i, -x.hess l i i + x.S i i ≠ 0

theorem limit_G (C : Cfg) {c l : Fin p → ℝ} (hs : Smooth x l) (ht : Tendsto (fun k => (iter C x c k).coef) atTop (𝓝 l))
    (hst : ∃ᶠ k in atTop, ∃ j, j ≤ 31 ∧ (iter C x c (k + 1)).coef =
      half (iter C x c k).coef (proposal C (ext x) (iter C x c k)) j) : x.grad l - x.S *ᵥ l = 0 := by
  set b := fun k => (iter C x c k).coef with hb
  obtain ⟨B, hB⟩ := sysM_bounded hs.chol hs.hsym hs.ssym hs.diag hs.hcont
  set D := max B (2 * 10 ^ 9) with hD
  have hD0 : 0 ≤ D := le_trans (by norm_num) (le_max_right _ _)
  have hev : ∀ᶠ k in atTop, Reg x (b k) ∧ ∀ a d, |sys C x (iter C x c k) a d| ≤ D := by
    filter_upwards [ht.eventually hB] with k hk
    refine ⟨hk.1, fun a d => ?_⟩
    unfold sys
    split_ifs with hg
    · have ha := (size_iter C x c k).1
      have ha0 : 0 < (iter C x c k).a := lt_of_lt_of_le (by norm_num) ha
      rw [Matrix.smul_apply, smul_eq_mul, abs_mul, abs_of_pos (by positivity)]
      have h1 : |(1 : Matrix (Fin p) (Fin p) ℝ) a d| ≤ 1 := by
        rw [Matrix.one_apply]; split_ifs <;> simp
      have h2 : 1 / (iter C x c k).a ≤ 2 * 10 ^ 9 := by
        rw [div_le_iff₀ ha0]
        have := mul_le_mul_of_nonneg_left ha (by norm_num : (0 : ℝ) ≤ 2 * 10 ^ 9)
        linarith
      calc _ ≤ 2 * 10 ^ 9 * 1 := mul_le_mul h2 h1 (abs_nonneg _) (by norm_num)
        _ ≤ D := by rw [mul_one]; exact le_max_right _ _
    · exact (hk.2 a d).trans (le_max_left _ _)
  have hdiff : Tendsto (fun k => b (k + 1) - b k) atTop (𝓝 0) := by
    have := ((tendsto_add_atTop_iff_nat 1).2 ht).sub ht
    simpa using this
  have hsm : Tendsto (fun k => ∑ d, D * (2 ^ 31 * |b (k + 1) d - b k d|)) atTop (𝓝 0) := by
    have : Tendsto (fun k => ∑ d, D * (2 ^ 31 * |b (k + 1) d - b k d|)) atTop (𝓝 (∑ d : Fin p, D * (2 ^ 31 * |(0 : ℝ)|))) := by
      refine tendsto_finsetSum _ fun d _ => ?_
      exact ((tendsto_pi_nhds.1 hdiff d).abs.const_mul _).const_mul _
    simpa using this
  funext a
  have hga : Tendsto (fun k => (x.grad (b k) - x.S *ᵥ b k) a) atTop (𝓝 ((x.grad l - x.S *ᵥ l) a)) := by
    have h1 := tendsto_pi_nhds.1 (hs.gcont.tendsto.comp ht) a
    have h2 : Tendsto (fun k => (x.S *ᵥ b k) a) atTop (𝓝 ((x.S *ᵥ l) a)) := by
      simp only [mulVec, dotProduct]
      exact tendsto_finsetSum _ fun i _ => (tendsto_pi_nhds.1 ht i).const_mul _
    exact h1.sub h2
  have hbound : ∃ᶠ k in atTop, |(x.grad (b k) - x.S *ᵥ b k) a| ≤ ∑ d, D * (2 ^ 31 * |b (k + 1) d - b k d|) := by
    refine (hst.and_eventually hev).mono fun k hk => ?_
    obtain ⟨⟨j, hj, he⟩, hreg, hle⟩ := hk
    have ha0 : (iter C x c k).a ≠ 0 := (lt_of_lt_of_le (by norm_num) (size_iter C x c k).1).ne'
    have e1 := congrFun (sys_solves C ha0 (fun _ => hreg)) a
    have e2 : proposal C (ext x) (iter C x c k) - (iter C x c k).coef = (2 : ℝ) ^ j • (b (k + 1) - b k) := by
      show _ = (2 : ℝ) ^ j • ((iter C x c (k + 1)).coef - (iter C x c k).coef)
      rw [he]
      unfold half
      rw [add_sub_cancel_left, smul_smul, mul_one_div_cancel (by positivity), one_smul]
    rw [← show _ = (x.grad (b k) - x.S *ᵥ b k) a from e1, e2]
    simp only [mulVec, dotProduct]
    refine (Finset.abs_sum_le_sum_abs _ _).trans (Finset.sum_le_sum fun d _ => ?_)
    rw [abs_mul, Pi.smul_apply, smul_eq_mul, abs_mul, abs_of_pos (by positivity : (0 : ℝ) < 2 ^ j), Pi.sub_apply]
    refine mul_le_mul (hle a d) ?_ (by positivity) hD0
    exact mul_le_mul_of_nonneg_right (pow_le_pow_right₀ (by norm_num) hj) (abs_nonneg _)
  by_contra hne
  have hpos : 0 < |(x.grad l - x.S *ᵥ l) a| := abs_pos.2 hne
  have h1 := hga.abs.eventually (lt_mem_nhds (half_lt_self hpos))
  have h2 := hsm.eventually (gt_mem_nhds (half_pos hpos))
  obtain ⟨k, hk1, hk2, hk3⟩ := (hbound.and_eventually (h1.and h2)).exists
  exact lt_irrefl _ ((hk2.trans_le hk1).trans hk3)

/-! ### Concave log-likelihoods -/

/-- The log-likelihood is finite everywhere and a concave function of the coefficients. -/
def Concave (x : In p) : Prop :=
  ∃ F : (Fin p → ℝ) → ℝ, (∀ c, x.llk c = Fl.fin (F c)) ∧ ∀ c d : Fin p → ℝ, ∀ t : ℝ, 0 ≤ t → t ≤ 1 →
    (1 - t) * F c + t * F d ≤ F (c + t • (d - c))

theorem tangent {F : (Fin p → ℝ) → ℝ} (hF : ∀ c d : Fin p → ℝ, ∀ t : ℝ, 0 ≤ t → t ≤ 1 →
    (1 - t) * F c + t * F d ≤ F (c + t • (d - c))) {g c : Fin p → ℝ} (h : HasFDerivAt F (lf g) c) (d : Fin p → ℝ) :
    F d ≤ F c + g ⬝ᵥ (d - c) := by
  have hl : HasDerivAt (fun t : ℝ => c + t • (d - c)) (d - c) 0 := by
    simpa using ((hasDerivAt_id (0 : ℝ)).smul_const (d - c)).const_add c
  have h' : HasFDerivAt F (lf g) (c + (0 : ℝ) • (d - c)) := by rw [zero_smul, add_zero]; exact h
  have hd := h'.comp_hasDerivAt (0 : ℝ) hl
  rw [lf_apply] at hd
  have hsl := hasDerivAt_iff_tendsto_slope.1 hd
  have hsl' := hsl.mono_left (nhdsWithin_mono (0 : ℝ) (fun t (ht : t ∈ Set.Ioi (0 : ℝ)) => (ne_of_gt ht : t ≠ 0)))
  have hle : F d - F c ≤ g ⬝ᵥ (d - c) := by
    refine ge_of_tendsto hsl' ?_
    have h1 : ∀ᶠ t : ℝ in 𝓝[>] 0, t < 1 := (eventually_lt_nhds (by norm_num)).filter_mono nhdsWithin_le_nhds
    filter_upwards [h1, self_mem_nhdsWithin] with t ht1 (ht0 : 0 < t)
    rw [slope_def_field]
    simp only [Function.comp, zero_smul, add_zero, sub_zero]
    rw [le_div_iff₀ ht0]
    have := hF c d t ht0.le ht1.le
    linarith
  linarith

theorem max_gap_of (hc : Concave x) (hS : x.S.IsSymm) {c : Fin p → ℝ} (hg : HasFlGrad (pllk x) 0 c) (hl : HasFlGrad x.llk (x.grad c) c)
    (d : Fin p → ℝ) : ∃ u v, pllk x c = Fl.fin u ∧ pllk x d = Fl.fin v ∧ v ≤ u - 1 / 2 * ((d - c) ⬝ᵥ x.S *ᵥ (d - c)) := by
  obtain ⟨F, hF, hcv⟩ := hc
  have h0 : x.grad c - x.S *ᵥ c = 0 := grad_unique (pllk_grad hS hl) hg
  obtain ⟨G, g1, g2⟩ := hl
  have e : F =ᶠ[𝓝 c] G := by
    filter_upwards [g1] with c' a
    rw [hF c'] at a
    exact Fl.fin_inj.1 a
  have h1 := tangent hcv (g2.congr_of_eventuallyEq e) d
  refine ⟨_, _, by rw [pllk_eq, hF, Fl.fin_sub], by rw [pllk_eq, hF, Fl.fin_sub], ?_⟩
  have h2 : x.grad c = x.S *ᵥ c := sub_eq_zero.1 h0
  rw [h2] at h1
  have h3 : (d - c) ⬝ᵥ x.S *ᵥ (d - c) = d ⬝ᵥ x.S *ᵥ d - 2 * ((x.S *ᵥ c) ⬝ᵥ d) + c ⬝ᵥ x.S *ᵥ c := by
    rw [mulVec_sub, dotProduct_sub, sub_dotProduct, sub_dotProduct]
    have a1 : d ⬝ᵥ x.S *ᵥ c = (x.S *ᵥ c) ⬝ᵥ d := dotProduct_comm _ _
    have a2 : c ⬝ᵥ x.S *ᵥ d = (x.S *ᵥ c) ⬝ᵥ d := by
      rw [dotProduct_mulVec, ← mulVec_transpose, hS.eq]
    rw [a1, a2]; ring
  have h4 : (x.S *ᵥ c) ⬝ᵥ (d - c) = (x.S *ᵥ c) ⬝ᵥ d - c ⬝ᵥ x.S *ᵥ c := by
    rw [dotProduct_sub, dotProduct_comm (x.S *ᵥ c) c]
  rw [h4] at h1
  rw [h3]
  linarith

end Verif.Lml
