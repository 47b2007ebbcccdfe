import Verif.LmlSpec

/-!
# Fits of GAMMLSS and general smooth models settle at stationary points of the penalised log-likelihood (property C125)
-/

namespace Verif.Lml
open Verif Matrix Filter Topology Step Coef

variable {p : ℕ} {x : In p}

/-- **C125.** The Newton proposal equals the current coefficients exactly where the gradient of the penalised log-likelihood
vanishes. -/
theorem fixed_iff_stationary {c : Fin p → ℝ} (h : Reg x c) (hl : HasFlGrad x.llk (x.grad c) c) :
    step x c = c ↔ HasFlGrad (pllk x) 0 c := by
  obtain ⟨-, h1, h2⟩ := step_solves h
  have hg := pllk_grad h.ssym hl
  constructor
  · intro he
    rw [he, sub_self, mulVec_zero] at h2
    rw [← h2] at hg
    exact hg
  · intro h0
    have hz := grad_unique hg h0
    rw [hz] at h2
    obtain ⟨u, hu⟩ := h1
    have h3 : (↑u⁻¹ : Matrix (Fin p) (Fin p) ℝ) *ᵥ (sysM x c *ᵥ (step x c - c)) = step x c - c := by
      rw [← hu, mulVec_mulVec, Units.inv_mul, one_mulVec]
    rw [h2, mulVec_zero] at h3
    exact sub_eq_zero.1 h3.symm

/-- **C125.** So does the gradient step. -/
theorem gradient_fixed_iff_stationary {c : Fin p → ℝ} (hS : x.S.IsSymm) (hl : HasFlGrad x.llk (x.grad c) c) {a : ℝ} (ha : a ≠ 0) :
    (ext x).gd c a = c ↔ HasFlGrad (pllk x) 0 c := by
  have hg := pllk_grad hS hl
  have e : (ext x).gd c a = c + a • (x.grad c - x.S *ᵥ c) := rfl
  rw [e, add_eq_left]
  constructor
  · intro h
    rw [(smul_eq_zero.1 h).resolve_left ha] at hg
    exact hg
  · intro h
    rw [grad_unique hg h, smul_zero]

/-- **C125.** Where the proposal (Newton or gradient step) differs from the current coefficients, all sufficiently short steps
towards it raise the penalised log-likelihood. -/
theorem proposal_ascends (C : Cfg) {s : S (Fin p → ℝ) (Matrix (Fin p) (Fin p) ℝ)} (ha : 0 < s.a) (h : Reg x s.coef)
    (hl : HasFlGrad x.llk (x.grad s.coef) s.coef) (hne : proposal C (ext x) s ≠ s.coef) :
    ∃ K : ℕ, ∀ k, K ≤ k → ∃ u v, pllk x s.coef = Fl.fin u ∧
      pllk x (s.coef + (1 / 2 ^ k : ℝ) • (proposal C (ext x) s - s.coef)) = Fl.fin v ∧ u < v := by
  set c := s.coef with hc
  set d := proposal C (ext x) s - c with hd
  have hg0 : x.grad c - x.S *ᵥ c ≠ 0 := by
    intro h0
    apply hne
    unfold proposal
    split_ifs
    · show c + s.a • (x.grad c - x.S *ᵥ c) = c
      rw [h0, smul_zero, add_zero]
    · have := pllk_grad h.ssym hl
      rw [h0] at this
      exact (fixed_iff_stationary h hl).2 this
  have hpos : 0 < (x.grad c - x.S *ᵥ c) ⬝ᵥ d := by
    rw [hd]
    unfold proposal
    split_ifs
    · have e : (ext x).gd s.coef s.a - c = s.a • (x.grad c - x.S *ᵥ c) := by
        show c + s.a • (x.grad c - x.S *ᵥ c) - c = _
        rw [add_sub_cancel_left]
      rw [e, dotProduct_smul, smul_eq_mul]
      refine mul_pos ha ?_
      obtain ⟨i, hi⟩ := Function.ne_iff.1 hg0
      have hi' : (x.grad c - x.S *ᵥ c) i ≠ 0 := hi
      calc (0 : ℝ) < (x.grad c - x.S *ᵥ c) i * (x.grad c - x.S *ᵥ c) i := mul_self_pos.2 hi'
        _ ≤ ∑ j, (x.grad c - x.S *ᵥ c) j * (x.grad c - x.S *ᵥ c) j := Finset.single_le_sum
            (f := fun j => (x.grad c - x.S *ᵥ c) j * (x.grad c - x.S *ᵥ c) j) (fun j _ => mul_self_nonneg _) (Finset.mem_univ i)
    · obtain ⟨o, ⟨fuel, ho⟩, h1, -⟩ := step_newtons h
      have e : (ext x).newton s.coef = o.coef := h1
      rw [e]
      exact Newton.newton_acute x.chol h.chol fuel c _ _ _ h.diag o ho hg0
  obtain ⟨F, f1, f2⟩ := pllk_grad h.ssym hl
  have hln : HasDerivAt (fun t : ℝ => c + t • d) d 0 := by
    simpa using ((hasDerivAt_id (0 : ℝ)).smul_const d).const_add c
  have f2' : HasFDerivAt F (lf (x.grad c - x.S *ᵥ c)) (c + (0 : ℝ) • d) := by rw [zero_smul, add_zero]; exact f2
  have hdv := f2'.comp_hasDerivAt (0 : ℝ) hln
  rw [lf_apply] at hdv
  have hsl := (hasDerivAt_iff_tendsto_slope.1 hdv).eventually (lt_mem_nhds hpos)
  have hA : ∀ᶠ t in 𝓝 (0 : ℝ), pllk x (c + t • d) = Fl.fin (F (c + t • d)) := by
    have hcn : ContinuousAt (fun t : ℝ => c + t • d) 0 := hln.continuousAt
    have e : (fun t : ℝ => c + t • d) 0 = c := by simp
    have f1' : ∀ᶠ c' in 𝓝 ((fun t : ℝ => c + t • d) 0), pllk x c' = Fl.fin (F c') := by rw [e]; exact f1
    exact hcn.eventually f1'
  have hseq : Tendsto (fun k : ℕ => (1 / 2 ^ k : ℝ)) atTop (𝓝[≠] 0) := by
    refine tendsto_nhdsWithin_of_tendsto_nhds_of_eventually_within _ ?_ (Eventually.of_forall fun k => ?_)
    · have := tendsto_pow_atTop_nhds_zero_of_lt_one (r := (1 / 2 : ℝ)) (by norm_num) (by norm_num)
      simpa [one_div, inv_pow] using this
    · have : (0 : ℝ) < 1 / 2 ^ k := by positivity
      exact this.ne'
  have h1 := hseq.eventually hsl
  have h2 := (hseq.mono_right nhdsWithin_le_nhds).eventually hA
  obtain ⟨K, hK⟩ := eventually_atTop.1 (h1.and h2)
  refine ⟨K, fun k hk => ⟨_, _, f1.self_of_nhds, (hK k hk).2, ?_⟩⟩
  have h3 := (hK k hk).1
  have hp : (0 : ℝ) < 1 / 2 ^ k := by positivity
  rw [slope_def_field] at h3
  have h4 := (div_pos_iff_of_pos_right (by linarith : (0 : ℝ) < 1 / 2 ^ k - 0)).1 h3
  simp only [Function.comp, zero_smul, add_zero] at h4
  linarith

/-- **C125.** Without restart an iteration takes the longest of the 32 steps (proposal, half of it, a quarter, ...) that gives a finite
penalised log-likelihood not below the current one, and stays where it is if there is none. -/
theorem iteration_longest (C : Cfg) (hC : Calm C (ext x)) (c : Fin p → ℝ) (k : ℕ) {u : ℝ}
    (hu : pllk x (iter C x c k).coef = Fl.fin u) :
    (∃ j : ℕ, j ≤ 31 ∧ ∃ v : ℝ, (iter C x c (k + 1)).coef = (iter C x c k).coef +
        (1 / 2 ^ j : ℝ) • (proposal C (ext x) (iter C x c k) - (iter C x c k).coef) ∧
      pllk x (iter C x c (k + 1)).coef = Fl.fin v ∧ u ≤ v ∧
      ∀ i < j, ∀ v', pllk x ((iter C x c k).coef +
        (1 / 2 ^ i : ℝ) • (proposal C (ext x) (iter C x c k) - (iter C x c k).coef)) = Fl.fin v' → v' < u) ∨
    ((iter C x c (k + 1)).coef = (iter C x c k).coef ∧ ∀ i ≤ 31, ∀ v', pllk x ((iter C x c k).coef +
        (1 / 2 ^ i : ℝ) • (proposal C (ext x) (iter C x c k) - (iter C x c k).coef)) = Fl.fin v' → v' < u) := by
  rcases round_cases C hC k (iter C x c k) (own_iter C x c k) hu with ⟨j, h1, h2, ⟨v, h3, h4⟩, h5⟩ | ⟨h1, h2⟩
  · refine Or.inl ⟨j, h1, v, h2, ?_, h4, fun i hi v' hv' => ?_⟩
    · have : (iter C x c (k + 1)).coef = half (iter C x c k).coef (proposal C (ext x) (iter C x c k)) j := h2
      rw [this, h3]
    · exact not_le.1 fun hle => h5 i hi ⟨v', hv', hle⟩
  · exact Or.inr ⟨h1, fun i hi v' hv' => not_le.1 fun hle => h2 i hi ⟨v', hv', hle⟩⟩

/-- **C125.** If the coefficients converge, their limit is a stationary point of the penalised log-likelihood, unless from some iteration
on they no longer change because all 32 steps are worse. -/
theorem limit_is_stationary (C : Cfg) (hC : Calm C (ext x)) {c l : Fin p → ℝ} (hf : (pllk x c).IsFin) (hs : Smooth x l)
    (ht : Tendsto (fun k => (iter C x c k).coef) atTop (𝓝 l)) :
    HasFlGrad (pllk x) 0 l ∨ ∃ K, ∀ k, K ≤ k → (iter C x c k).coef = l ∧ ∀ i : ℕ, i ≤ 31 → ∀ u v, pllk x l = Fl.fin u →
      pllk x (l + (1 / 2 ^ i : ℝ) • (proposal C (ext x) (iter C x c k) - l)) = Fl.fin v → v < u := by
  by_cases hst : ∃ᶠ k in atTop, ∃ j, j ≤ 31 ∧ (iter C x c (k + 1)).coef =
      half (iter C x c k).coef (proposal C (ext x) (iter C x c k)) j
  · left
    have h0 := limit_G C hs ht hst
    have := pllk_grad hs.ssym hs.grad
    rw [h0] at this
    exact this
  · right
    rw [not_frequently] at hst
    obtain ⟨K, hK⟩ := eventually_atTop.1 hst
    have hstuck : ∀ k, K ≤ k → (iter C x c (k + 1)).coef = (iter C x c k).coef ∧ ∀ u, pllk x (iter C x c k).coef = Fl.fin u →
        ∀ i, i ≤ 31 → ¬Ok x u (half (iter C x c k).coef (proposal C (ext x) (iter C x c k)) i) := by
      intro k hk
      obtain ⟨u, hu⟩ := Fl.isFin_iff.1 (fin_iter C hf k)
      rcases round_cases C hC k (iter C x c k) (own_iter C x c k) hu with ⟨j, h1, h2, -⟩ | ⟨h1, h2⟩
      · exact absurd ⟨j, h1, h2⟩ (hK k hk)
      · refine ⟨h1, fun u' hu' => ?_⟩
        rw [hu] at hu'
        rw [← Fl.fin_inj.1 hu']
        exact h2
    have hconst : ∀ n, (iter C x c (K + n)).coef = (iter C x c K).coef := by
      intro n
      induction n with
      | zero => rfl
      | succ n ih => rw [← add_assoc, (hstuck (K + n) (by omega)).1, ih]
    have hl : (iter C x c K).coef = l := by
      have h3 : Tendsto (fun n => (iter C x c (n + K)).coef) atTop (𝓝 l) := (tendsto_add_atTop_iff_nat K).2 ht
      have h4 : (fun n => (iter C x c (n + K)).coef) = fun _ => (iter C x c K).coef := funext fun n => by rw [add_comm, hconst]
      rw [h4] at h3
      exact tendsto_nhds_unique tendsto_const_nhds h3
    refine ⟨K, fun k hk => ?_⟩
    have hkl : (iter C x c k).coef = l := by
      obtain ⟨n, rfl⟩ := Nat.exists_eq_add_of_le hk
      rw [hconst, hl]
    refine ⟨hkl, fun i hi u v hu hv => ?_⟩
    have := (hstuck k hk).2 u (by rw [hkl, hu]) i hi
    rw [hkl] at this
    exact not_le.1 fun hle => this ⟨v, hv, hle⟩

/-- **C125.** For concave log-likelihoods a stationary point maximises the penalised log-likelihood; other coefficients are worse by at
least half the penalty of their difference, so that the maximum is unique if the penalty is positive definite. -/
theorem stationary_is_max (hc : Concave x) {c : Fin p → ℝ} (hS : x.S.IsSymm) (hl : HasFlGrad x.llk (x.grad c) c)
    (h0 : HasFlGrad (pllk x) 0 c) (d : Fin p → ℝ) :
    ∃ u v, pllk x c = Fl.fin u ∧ pllk x d = Fl.fin v ∧
      v ≤ u - 1 / 2 * ∑ i, ∑ j, (d i - c i) * x.S i j * (d j - c j) := by
  obtain ⟨u, v, h1, h2, h3⟩ := max_gap_of hc hS h0 hl d
  refine ⟨u, v, h1, h2, h3.trans (le_of_eq ?_)⟩
  rw [← quad_eq]
  rfl

/-- **C125.** For concave log-likelihoods coefficients reproduced by the Newton proposal maximise the penalised log-likelihood. -/
theorem fixed_is_max (hc : Concave x) {c : Fin p → ℝ} (h : Reg x c) (hl : HasFlGrad x.llk (x.grad c) c) (hf : step x c = c)
    (d : Fin p → ℝ) : ∃ u v, pllk x c = Fl.fin u ∧ pllk x d = Fl.fin v ∧
      v ≤ u - 1 / 2 * ∑ i, ∑ j, (d i - c i) * x.S i j * (d j - c j) :=
  stationary_is_max hc h.ssym hl ((fixed_iff_stationary h hl).1 hf) d

/-- **C125.** For concave log-likelihoods the limit of the iterations maximises the penalised log-likelihood, if iterations leave the
coefficients alone only when the proposal does. -/
theorem limit_is_max (C : Cfg) (hcv : Concave x) {c l : Fin p → ℝ} (hC : Calm C (ext x)) (hf : (pllk x c).IsFin) (hs : Smooth x l)
    (ht : Tendsto (fun k => (iter C x c k).coef) atTop (𝓝 l))
    (hgo : ∀ k, (iter C x c (k + 1)).coef = (iter C x c k).coef → proposal C (ext x) (iter C x c k) = (iter C x c k).coef)
    (d : Fin p → ℝ) : ∃ u v, pllk x l = Fl.fin u ∧ pllk x d = Fl.fin v ∧
      v ≤ u - 1 / 2 * ∑ i, ∑ j, (d i - l i) * x.S i j * (d j - l j) := by
  refine stationary_is_max hcv hs.ssym hs.grad ?_ d
  have hst : ∃ᶠ k in atTop, ∃ j, j ≤ 31 ∧ (iter C x c (k + 1)).coef =
      half (iter C x c k).coef (proposal C (ext x) (iter C x c k)) j := by
    refine Frequently.of_forall fun k => ?_
    obtain ⟨u, hu⟩ := Fl.isFin_iff.1 (fin_iter C hf k)
    rcases round_cases C hC k (iter C x c k) (own_iter C x c k) hu with ⟨j, h1, h2, -⟩ | ⟨h1, -⟩
    · exact ⟨j, h1, h2⟩
    · refine ⟨0, by norm_num, ?_⟩
      rw [half_zero, hgo k h1]
      exact h1
  have h0 := limit_G C hs ht hst
  have := pllk_grad hs.ssym hs.grad
  rw [h0] at this
  exact this

/-! ### What the solver returns -/

/-- **C125.** The solver returns the coefficients of one of the iterations; it stops after `left` of them, when the last one changed the
penalised log-likelihood by less than the tolerance, or early for the sake of smoothing parameters. -/
theorem returned_is_iterate (C : Cfg) (x : In p) (c : Fin p → ℝ) (left : ℕ) :
    ∃ k, k ≤ left ∧ (phase C (ext x) left 0 (start x c)).1 = iter C x c k ∧
      ((k = left ∧ (phase C (ext x) left 0 (start x c)).2 = .exhausted) ∨
       (∃ k', k = k' + 1 ∧ (phase C (ext x) left 0 (start x c)).2 = .converged ∧ ∃ u v, pllk x (iter C x c k).coef = Fl.fin u ∧
          pllk x (iter C x c k').coef = Fl.fin v ∧ |u - v| < C.tol * |u|) ∨
       (0 < C.outer ∧ C.minInner ≤ k ∧ (phase C (ext x) left 0 (start x c)).2 = .early)) := by
  have key : ∀ left i, ∃ k, k ≤ left ∧ (phase C (ext x) left i (iter C x c i)).1 = iter C x c (i + k) ∧
      ((k = left ∧ (phase C (ext x) left i (iter C x c i)).2 = .exhausted) ∨
       (∃ k', i + k = k' + 1 ∧ (phase C (ext x) left i (iter C x c i)).2 = .converged ∧ ∃ u v,
          pllk x (iter C x c (i + k)).coef = Fl.fin u ∧ pllk x (iter C x c k').coef = Fl.fin v ∧ |u - v| < C.tol * |u|) ∨
       (0 < C.outer ∧ C.minInner ≤ i + k ∧ (phase C (ext x) left i (iter C x c i)).2 = .early)) := by
    intro left
    induction left with
    | zero => intro i; exact ⟨0, le_rfl, rfl, Or.inl ⟨rfl, rfl⟩⟩
    | succ left ih =>
      intro i
      unfold phase
      have er : Coef.round C (ext x) i (iter C x c i) = iter C x c (i + 1) := rfl
      simp only [er]
      split_ifs with h1 h2
      · refine ⟨1, by omega, rfl, Or.inr (Or.inl ⟨i, rfl, rfl, ?_⟩)⟩
        have h1 : Near C.tol (iter C x c (i + 1)).pen (prevPen (ext x) (iter C x c i)) := h1
        rw [own_prev (ext x) _ (own_iter C x c i), pen_iter, pen_iter] at h1
        cases hu : pllk x (iter C x c (i + 1)).coef <;> cases hv : pllk x (iter C x c i).coef <;> rw [hu, hv] at h1 <;>
          first
          | exact ⟨_, _, rfl, rfl, h1⟩
          | exact absurd h1 id
      · refine ⟨1, by omega, rfl, Or.inr (Or.inr ⟨h2.2.1, h2.2.2, rfl⟩)⟩
      · obtain ⟨k, k1, k2, k3⟩ := ih (i + 1)
        have e : i + 1 + k = i + (k + 1) := by omega
        rw [e] at k2 k3
        refine ⟨k + 1, by omega, k2, ?_⟩
        rcases k3 with ⟨a, b⟩ | k3
        · exact Or.inl ⟨by omega, b⟩
        · exact Or.inr k3
  obtain ⟨k, h1, h2, h3⟩ := key left 0
  rw [zero_add] at h2 h3
  exact ⟨k, h1, h2, h3⟩

/-- **C125.** Iterations started at a stationary point (Newton steps) stay there; the first one counts as converged unless the penalised
log-likelihood is zero. -/
theorem stationary_stays (C : Cfg) (hg : C.grad = false) (hC : Calm C (ext x)) (ht : 0 < C.tol) {c : Fin p → ℝ} (h : Reg x c)
    (hl : HasFlGrad x.llk (x.grad c) c) (h0 : HasFlGrad (pllk x) 0 c) :
    (∀ k, (iter C x c k).coef = c) ∧ ∀ left, pllk x c ≠ Fl.fin 0 →
      (phase C (ext x) (left + 1) 0 (start x c)).1.coef = c ∧ (phase C (ext x) (left + 1) 0 (start x c)).2 = .converged := by
  have hst := (fixed_iff_stationary h hl).2 h0
  obtain ⟨F, f1, -⟩ := h0
  have hu := f1.self_of_nhds
  have hit : ∀ k, (iter C x c k).coef = c := by
    intro k
    induction k with
    | zero => rfl
    | succ k ih =>
      have hpr : proposal C (ext x) (iter C x c k) = c := by
        unfold proposal
        rw [hg, ih]
        exact hst
      rcases round_cases C hC k (iter C x c k) (own_iter C x c k) (u := F c) (by rw [ih]; exact hu) with ⟨j, -, h2, -⟩ | ⟨h1, -⟩
      · have : (iter C x c (k + 1)).coef = half (iter C x c k).coef (proposal C (ext x) (iter C x c k)) j := h2
        rw [this, hpr, ih]
        simp [half]
      · exact h1.trans ih
  refine ⟨hit, fun left hz => ?_⟩
  have hn : Near C.tol (Coef.round C (ext x) 0 (start x c)).pen (prevPen (ext x) (start x c)) := by
    have e1 : (Coef.round C (ext x) 0 (start x c)).pen = pllk x c := by
      have := pen_iter C x c 1
      rw [hit 1] at this
      exact this
    have e2 : prevPen (ext x) (start x c) = pllk x c := by
      have := own_prev (ext x) _ (own_iter C x c 0)
      rw [pen_iter, hit 0] at this
      exact this
    rw [e1, e2, hu]
    show |F c - F c| < C.tol * |F c|
    rw [sub_self, abs_zero]
    have : F c ≠ 0 := fun h => hz (by rw [hu, h])
    positivity
  unfold phase
  simp only
  rw [if_pos hn]
  exact ⟨hit 1, rfl⟩

end Verif.Lml
