import Verif.PirlsSpec
import Mathlib.Analysis.Complex.ExponentialBounds

/-!
# Coefficients of generalised additive models maximise the penalised likelihood (property C124)
-/

namespace Verif.Pirls

open Matrix Fl Fam Filter Topology

variable {N p : ℕ} {x : In N p}

/-- **C124.** The step from the current to the proposed coefficients solves a linear system with the weighted cross-product of the
model matrix plus the penalty on the left and the scale times the gradient of the penalised log-likelihood on the right, with
positive weights. -/
theorem proposal_solves {s : ℝ} (hg : Good x s) (hi : Ident x) {b : Fin p → ℝ} (hb : Adm x b) :
    ∃ (g : Fin p → ℝ) (w : Fin N → ℝ), HasFlGrad (pllk x s) g b ∧ (∀ i, (zw x b i).2 = fin (w i) ∧ 0 < w i) ∧
      ∀ a, (∑ i, w i * x.X i a * ∑ c, x.X i c * (next x b c - b c)) + ∑ c, x.S a c * (next x b c - b c) = s * g a := by
  refine ⟨_, wR x b, grad_pllk hg hb, fun i => ⟨by rw [zw_eq hg hb], wR_pos hg hb i⟩, fun a => ?_⟩
  have h := congrFun (gram_step hg hb (gram_posdef hg hi hb)) a
  rw [mul_div_cancel₀ _ hg.pos.ne', ← h]
  simp only [Matrix.mulVec, dotProduct, gram_eq hg hb, add_mul, Finset.sum_add_distrib, Finset.sum_mul, Finset.mul_sum,
    Pi.sub_apply]
  congr 1
  rw [Finset.sum_comm]
  refine Finset.sum_congr rfl fun i _ => Finset.sum_congr rfl fun c _ => by ring

/-- **C124.** The proposal equals the current coefficients exactly where the gradient of the penalised log-likelihood vanishes. -/
theorem fixed_iff_stationary {s : ℝ} (hg : Good x s) (hi : Ident x) {b : Fin p → ℝ} (hb : Adm x b) :
    next x b = b ↔ HasFlGrad (pllk x s) 0 b := by
  have hM := gram_posdef hg hi hb
  have h := gram_step hg hb hM
  constructor
  · intro he
    rw [he, sub_self, Matrix.mulVec_zero] at h
    have := grad_pllk hg hb
    rw [← h] at this
    simpa [funext_iff, Pi.zero_def] using this
  · intro h0
    have hz := grad_unique h0 (grad_pllk hg hb)
    have hG : G x b = 0 := by
      funext a
      have := congrFun hz a
      exact (div_eq_zero_iff.1 this.symm).resolve_right hg.pos.ne'
    rw [hG] at h
    by_contra hne
    have := pd_quad hM (sub_ne_zero.2 hne)
    rw [h, dotProduct_zero] at this
    exact lt_irrefl _ this

/-- **C124.** If the proposal differs from the current coefficients, all sufficiently short steps towards it strictly increase the penalised
log-likelihood. -/
theorem proposal_ascends {s : ℝ} (hg : Good x s) (hi : Ident x) {b : Fin p → ℝ} (hb : Adm x b) (hne : next x b ≠ b) :
    ∃ K : ℕ, ∀ k, K ≤ k → ∃ u v, pllk x s b = fin u ∧
      pllk x s (b + (1 / 2 ^ k : ℝ) • (next x b - b)) = fin v ∧ u < v := by
  have hM := gram_posdef hg hi hb
  set v := next x b - b with hv
  have hpos : 0 < (G x b ⬝ᵥ v) / s := by
    refine div_pos ?_ hg.pos
    rw [← gram_step hg hb hM, dotProduct_comm]
    exact pd_quad hM (sub_ne_zero.2 hne)
  have hl : HasDerivAt (fun t : ℝ => b + t • v) v 0 := by
    simpa using ((hasDerivAt_id (0 : ℝ)).smul_const v).const_add b
  have hF : HasFDerivAt (PR x s) (∑ a, (G x b a / s) • ContinuousLinearMap.proj (R := ℝ) (φ := fun _ : Fin p => ℝ) a)
      (b + (0 : ℝ) • v) := by
    rw [zero_smul, add_zero]; exact PR_fderiv hg hb
  have hd := hF.comp_hasDerivAt (0 : ℝ) hl
  have hval : (∑ a, (G x b a / s) • ContinuousLinearMap.proj (R := ℝ) (φ := fun _ : Fin p => ℝ) a) v = (G x b ⬝ᵥ v) / s := by
    simp only [_root_.sum_apply, _root_.smul_apply, ContinuousLinearMap.proj_apply, smul_eq_mul, dotProduct, Finset.sum_div]
    exact Finset.sum_congr rfl fun a _ => by ring
  rw [hval] at hd
  have hsl := (hasDerivAt_iff_tendsto_slope.1 hd).eventually (lt_mem_nhds hpos)
  have hA : ∀ᶠ t in 𝓝 (0 : ℝ), Adm x (b + t • v) := by
    have hc : ContinuousAt (fun t : ℝ => b + t • v) 0 := hl.continuousAt
    refine hc.eventually ?_
    have e : (fun t : ℝ => b + t • v) 0 = b := by simp
    rw [e]
    exact adm_nhds hb
  have hseq : Tendsto (fun k : ℕ => (1 / 2 ^ k : ℝ)) atTop (𝓝[≠] 0) := by
    refine tendsto_nhdsWithin_of_tendsto_nhds_of_eventually_within _ ?_ (Eventually.of_forall fun k => ?_)
    · have := tendsto_pow_atTop_nhds_zero_of_lt_one (r := (1 / 2 : ℝ)) (by norm_num) (by norm_num)
      simpa [one_div, inv_pow] using this
    · have : (0 : ℝ) < 1 / 2 ^ k := by positivity
      exact this.ne'
  have h1 := hseq.eventually hsl
  have h2 := (hseq.mono_right nhdsWithin_le_nhds).eventually hA
  obtain ⟨K, hK⟩ := eventually_atTop.1 (h1.and h2)
  refine ⟨K, fun k hk => ⟨_, _, pllk_eq hg hb, pllk_eq hg (hK k hk).2, ?_⟩⟩
  have h3 := (hK k hk).1
  have hp : (0 : ℝ) < 1 / 2 ^ k := by positivity
  rw [slope_def_field] at h3
  have h4 := (div_pos_iff_of_pos_right (by linarith : (0 : ℝ) < 1 / 2 ^ k - 0)).1 h3
  simp only [Function.comp, zero_smul, add_zero] at h4
  linarith

/-- **C124.** For the families and links with concave log-likelihood, coefficients reproduced by the iteration maximise the penalised
log-likelihood among all coefficients with admissible means. -/
theorem fixed_is_max {s : ℝ} (hg : Good x s) (hi : Ident x) (hc : ∀ i, concave (x.fam i) x.lk) {b : Fin p → ℝ} (hb : Adm x b)
    (hf : next x b = b) {b' : Fin p → ℝ} (hb' : Adm x b') :
    ∃ u v, pllk x s b = fin u ∧ pllk x s b' = fin v ∧ v ≤ u := by
  have h := gram_step hg hb (gram_posdef hg hi hb)
  rw [hf, sub_self, Matrix.mulVec_zero] at h
  exact ⟨_, _, pllk_eq hg hb, pllk_eq hg hb', PR_le hg hc hb hb' h.symm⟩

/-- **C124.** With a strictly concave log-likelihood they are the only maximum. -/
theorem fixed_is_unique_max {s : ℝ} (hg : Good x s) (hi : Ident x) (hc : ∀ i, strict (x.fam i) x.lk) {b : Fin p → ℝ} (hb : Adm x b)
    (hf : next x b = b) {b' : Fin p → ℝ} (hb' : Adm x b') (hne : b' ≠ b) :
    ∃ u v, pllk x s b = fin u ∧ pllk x s b' = fin v ∧ v < u := by
  have hM := gram_posdef hg hi hb
  have h := gram_step hg hb hM
  rw [hf, sub_self, Matrix.mulVec_zero] at h
  exact ⟨_, _, pllk_eq hg hb, pllk_eq hg hb', PR_lt hg hc hb hb' hM h.symm hne⟩

/-- **C124.** A pass takes the longest of the 32 steps (proposal, half of it, a quarter, ...) that does not lower the penalised
log-likelihood, and stays where it is if there is none. -/
theorem pass_longest {s : ℝ} (hg : Good x s) {b : Fin p → ℝ} (hb : Adm x b)
    (hall : ∀ j : ℕ, j ≤ 31 → Adm x (b + (1 / 2 ^ j : ℝ) • (next x b - b))) :
    ∃ (u : ℝ) (v : ℕ → ℝ), pllk x s b = fin u ∧
      (∀ j, j ≤ 31 → pllk x s (b + (1 / 2 ^ j : ℝ) • (next x b - b)) = fin (v j)) ∧
      ((∃ j, j ≤ 31 ∧ pass x b = b + (1 / 2 ^ j : ℝ) • (next x b - b) ∧ u ≤ v j ∧ ∀ i, i < j → v i < u) ∨
        (pass x b = b ∧ ∀ j, j ≤ 31 → v j < u)) := by
  refine ⟨PR x s b, fun j => PR x s (half b (next x b) j), pllk_eq hg hb, fun j hj => pllk_eq hg (hall j hj), ?_⟩
  rcases pass_cases x b with ⟨j, h1, h2, h3, h4⟩ | ⟨h1, h2⟩
  · refine Or.inl ⟨j, h1, h2, ?_, fun i hi => ?_⟩
    · rw [h2] at h3
      exact (notWorse_iff hg hb (hall j h1)).1 h3
    · exact not_le.1 fun hle => h4 i hi ((notWorse_iff hg hb (hall i (by omega))).2 hle)
  · refine Or.inr ⟨h1, fun j hj => ?_⟩
    exact not_le.1 fun hle => h2 j hj ((notWorse_iff hg hb (hall j hj)).2 hle)

/-- **C124.** If the coefficients of successive passes converge, their limit is a stationary point of the penalised log-likelihood,
unless at some pass all 32 steps were worse than the coefficients at hand. -/
theorem limit_is_stationary {s : ℝ} (hg : Good x s) (hi : Ident x) {b : ℕ → Fin p → ℝ} (hr : ∀ k, b (k + 1) = pass x (b k))
    (hb : ∀ k, Adm x (b k)) {l : Fin p → ℝ} (hl : Adm x l) (ht : Tendsto b atTop (𝓝 l)) :
    HasFlGrad (pllk x s) 0 l ∨
      ∃ k, l = b k ∧ ∀ j : ℕ, j ≤ 31 → Adm x (b k + (1 / 2 ^ j : ℝ) • (next x (b k) - b k)) →
        ∃ u v, pllk x s (b k) = fin u ∧ pllk x s (b k + (1 / 2 ^ j : ℝ) • (next x (b k) - b k)) = fin v ∧ v < u := by
  by_cases hst : ∀ k, ∃ j, j ≤ 31 ∧ b (k + 1) = half (b k) (next x (b k)) j
  · left
    have h0 := limit_G hg hi hb hl ht hst
    have := grad_pllk hg hl
    rw [h0] at this
    simpa [Pi.zero_def] using this
  · right
    push Not at hst
    obtain ⟨k, hk⟩ := hst
    have hc := pass_cases x (b k)
    rcases hc with ⟨j, h1, h2, -⟩ | ⟨h1, h2⟩
    · exact absurd (by rw [hr, h2]) (hk j h1)
    · refine ⟨k, ?_, fun j hj hA => ?_⟩
      · have hconst : ∀ n, b (k + n) = b k := by
          intro n
          induction n with
          | zero => rfl
          | succ n ih => rw [← add_assoc, hr, ih, h1]
        have h3 : Tendsto (fun n => b (n + k)) atTop (𝓝 l) := (tendsto_add_atTop_iff_nat k).2 ht
        have h4 : (fun n => b (n + k)) = fun _ => b k := funext fun n => by rw [add_comm, hconst]
        rw [h4] at h3
        exact tendsto_nhds_unique h3 tendsto_const_nhds
      · refine ⟨_, _, pllk_eq hg (hb k), pllk_eq hg hA, ?_⟩
        exact not_le.1 fun hle => h2 j hj ((notWorse_iff hg (hb k) hA).2 hle)

/-- **C124.** For concave log-likelihoods the limit maximises the penalised log-likelihood. -/
theorem limit_is_max {s : ℝ} (hg : Good x s) (hi : Ident x) (hc : ∀ i, concave (x.fam i) x.lk) {b : ℕ → Fin p → ℝ}
    (hr : ∀ k, b (k + 1) = pass x (b k)) (hb : ∀ k, Adm x (b k)) {l : Fin p → ℝ} (hl : Adm x l) (ht : Tendsto b atTop (𝓝 l))
    (hgo : ∀ k, pass x (b k) = b k → next x (b k) = b k) {b' : Fin p → ℝ} (hb' : Adm x b') :
    ∃ u v, pllk x s l = fin u ∧ pllk x s b' = fin v ∧ v ≤ u := by
  refine fixed_is_max hg hi hc hl ((fixed_iff_stationary hg hi hl).2 ?_) hb'
  have hst : ∀ k, ∃ j, j ≤ 31 ∧ b (k + 1) = half (b k) (next x (b k)) j := by
    intro k
    rcases pass_cases x (b k) with ⟨j, h1, h2, -⟩ | ⟨h1, -⟩
    · exact ⟨j, h1, by rw [hr, h2]⟩
    · refine ⟨0, by norm_num, ?_⟩
      rw [hr, h1, half_zero, hgo k h1]
  have h0 := limit_G hg hi hb hl ht hst
  have := grad_pllk hg hl
  rw [h0] at this
  simpa [Pi.zero_def] using this

/-! ### The loop of the solver -/

/-- Families and links for which every predictor gives an admissible mean. -/
def total : FamKind → LinkKind → Prop
  | .gaussian, _ => True
  | _, .logit => True
  | .gamma, .log => True
  | .invGauss, .log => True
  | .poisson, .log => True
  | .gamma, .logb c => c ≤ 0
  | .invGauss, .logb c => c ≤ 0
  | .poisson, .logb c => c ≤ 0
  | _, _ => False

theorem adm_total (h : ∀ i, total (x.fam i) x.lk) (b : Fin p → ℝ) : Adm x b := by
  refine adm_of fun i => ?_
  have hi := h i
  have hd := fi_mem x.lk (eta x b i)
  have he := Real.exp_pos (eta x b i)
  generalize x.fam i = f at hi ⊢
  generalize x.lk = lk at hi hd ⊢
  cases f <;> cases lk <;> first
    | exact absurd hi id
    | exact Set.mem_univ _
    | exact hd
    | exact hd.1
    | (have hc : (_ : ℝ) ≤ 0 := hi
       show (0 : ℝ) < Real.exp _ - _
       linarith)

theorem accept_pass (x : In N p) (b : Fin p → ℝ) :
    ∃ r, accept x b (Step.evalAt (prob x) b).pen (next x b) = some r ∧ r.n = pass x b ∧ r = Step.evalAt (prob x) r.n := by
  obtain ⟨r, h1, h2, -⟩ := Step.coef_step_correct (prob x) b (next x b) (Step.evalAt (prob x) b).pen
  refine ⟨r, h1, ?_, h2⟩
  unfold pass
  rw [show accept x b (Step.evalAt (prob x) b).pen (next x b) = some r from h1]

theorem loop_iter (x : In N p) (m : ℕ) : ∀ left i (b : Fin p → ℝ), left + i = m - 1 →
    ∃ k, k ≤ left ∧ loop x m left i b (next x b) (Step.evalAt (prob x) b).pen = some ((pass x)^[k] b) ∧
      (k = left ∨ ∃ k', k = k' + 1 ∧ 0 < i + k' ∧
        small (Step.evalAt (prob x) ((pass x)^[k' + 1] b)).pen (Step.evalAt (prob x) ((pass x)^[k'] b)).pen) := by
  intro left
  induction left with
  | zero => intro i b _; exact ⟨0, le_rfl, rfl, Or.inl rfl⟩
  | succ left ih =>
    intro i b h
    obtain ⟨r, h1, h2, h3⟩ := accept_pass x b
    rw [loop, h1]
    dsimp only
    by_cases hc : 0 < i ∧ (small r.pen (Step.evalAt (prob x) b).pen ∨ i = m - 2)
    · rw [if_pos hc]
      refine ⟨1, by omega, by rw [h2]; rfl, ?_⟩
      rcases hc.2 with hs | hs
      · refine Or.inr ⟨0, rfl, by omega, ?_⟩
        rw [h3, h2] at hs
        exact hs
      · exact Or.inl (by omega)
    · rw [if_neg hc]
      obtain ⟨k, k1, k2, k3⟩ := ih (i + 1) r.n (by omega)
      have hp : r.pen = (Step.evalAt (prob x) r.n).pen := congrArg (fun s => s.pen) h3
      refine ⟨k + 1, by omega, ?_, ?_⟩
      · rw [hp, k2, h2, Function.iterate_succ_apply]
      · rcases k3 with k3 | ⟨k', e, e1, e2⟩
        · exact Or.inl (by omega)
        · refine Or.inr ⟨k' + 1, by omega, by omega, ?_⟩
          rw [h2] at e2
          rw [Function.iterate_succ_apply, Function.iterate_succ_apply]
          exact e2

/-- **C124.** The loop run for given smoothing parameters ends after at most `max_inner - 1` passes with the coefficients of the last
pass; it ends earlier only after at least two passes, when a pass changed the penalised deviance by less than 1e-9 of its value. -/
theorem inner_is_iterate (x : In N p) (m : ℕ) (b : Fin p → ℝ) :
    ∃ k, k ≤ m - 1 ∧ inner x m b = some ((pass x)^[k] b) ∧
      (k = m - 1 ∨ ∃ k' d d', k = k' + 1 ∧ 0 < k' ∧ (Step.evalAt (prob x) ((pass x)^[k] b)).pen = fin d ∧
        (Step.evalAt (prob x) ((pass x)^[k'] b)).pen = fin d' ∧ |d - d'| < 1 / 10 ^ 9 * d) := by
  obtain ⟨k, h1, h2, h3⟩ := loop_iter x m (m - 1) 0 b (by omega)
  refine ⟨k, h1, h2, ?_⟩
  rcases h3 with h3 | ⟨k', e, e1, e2⟩
  · exact Or.inl h3
  · right
    rw [← e] at e2
    cases hd : (Step.evalAt (prob x) ((pass x)^[k] b)).pen with
    | fin d =>
      cases hd' : (Step.evalAt (prob x) ((pass x)^[k'] b)).pen with
      | fin d' =>
        rw [hd, hd'] at e2
        exact ⟨k', d, d', e, by omega, rfl, hd', e2⟩
      | pinf => rw [hd, hd'] at e2; exact absurd e2 id
      | ninf => rw [hd, hd'] at e2; exact absurd e2 id
      | nan => rw [hd, hd'] at e2; exact absurd e2 id
    | pinf => rw [hd] at e2; exact absurd e2 id
    | ninf => rw [hd] at e2; exact absurd e2 id
    | nan => rw [hd] at e2; exact absurd e2 id

/-- **C124.** Its coefficients have at least the penalised log-likelihood of the incoming ones. -/
theorem inner_ascends {s : ℝ} (hg : Good x s) (ht : ∀ i, total (x.fam i) x.lk) (m : ℕ) (b : Fin p → ℝ) :
    ∃ b' u v, inner x m b = some b' ∧ pllk x s b = fin u ∧ pllk x s b' = fin v ∧ u ≤ v := by
  obtain ⟨k, -, h2, -⟩ := inner_is_iterate x m b
  refine ⟨_, _, _, h2, pllk_eq hg (adm_total ht b), pllk_eq hg (adm_total ht _), ?_⟩
  clear h2
  induction k with
  | zero => exact le_rfl
  | succ k ih =>
    rw [Function.iterate_succ_apply']
    refine ih.trans ?_
    set c := (pass x)^[k] b
    rcases pass_cases x c with ⟨j, -, -, h3, -⟩ | ⟨h1, -⟩
    · exact (notWorse_iff hg (adm_total ht _) (adm_total ht _)).1 h3
    · rw [h1]

/-! ### Gaussian models with identity link -/

/-- **C124.** For Gaussian models with identity link working response and weights are response minus offset and one, so that the proposal
is the same from all coefficients. -/
theorem gaussian_identity (hf : ∀ i, x.fam i = .gaussian) (hl : x.lk = .identity) (b : Fin p → ℝ) (i : Fin N) :
    zw x b i = (fin (x.y i - x.off i), fin 1) := by
  simp only [zw, fisherZW, hf, hl, LinkKind.fi, LinkKind.dy1, FamKind.V, fin_sub, fin_mul, fin_add, pow_fin]
  rw [fin_div (by norm_num)]
  norm_num

/-! ### Examples -/

/-- Poisson model with log link: two rows, one coefficient, ridge penalty, an offset. -/
noncomputable def demo : In 2 1 := ⟨fun _ => .poisson, .log, ![0, 3], Matrix.of ![![1], ![2]], ![0, 1 / 2], Matrix.of ![![1]]⟩

theorem demo_good : Good demo 1 := by
  refine ⟨fun i => ?_, one_pos, fun _ => Or.inr rfl, ?_⟩
  · fin_cases i
    · exact ⟨0, by simp [demo]⟩
    · exact ⟨3, by simp [demo]⟩
  · have : demo.S = 1 := by ext i j; fin_cases i; fin_cases j; simp [demo]
    rw [this]; exact Matrix.PosSemidef.one

theorem demo_ident : Ident demo := by
  intro v h _
  have := h 0
  funext a
  fin_cases a
  simpa [demo] using this

theorem demo_total : ∀ i, total (demo.fam i) demo.lk := fun _ => trivial

example : ∃ (g : Fin 1 → ℝ) (w : Fin 2 → ℝ), HasFlGrad (pllk demo 1) g ![1] ∧ (∀ i, (zw demo ![1] i).2 = fin (w i) ∧ 0 < w i) ∧
    ∀ a, (∑ i, w i * demo.X i a * ∑ c, demo.X i c * (next demo ![1] c - ![1] c)) + ∑ c, demo.S a c * (next demo ![1] c - ![1] c) = 1 * g a :=
  proposal_solves demo_good demo_ident (adm_total demo_total ![1])
example (b : Fin 1 → ℝ) : next demo b = b ↔ HasFlGrad (pllk demo 1) 0 b :=
  fixed_iff_stationary demo_good demo_ident (adm_total demo_total b)
example (b b' : Fin 1 → ℝ) (h : next demo b = b) (hne : b' ≠ b) :
    ∃ u v, pllk demo 1 b = fin u ∧ pllk demo 1 b' = fin v ∧ v < u :=
  fixed_is_unique_max demo_good demo_ident (fun _ => trivial) (adm_total demo_total b) h (adm_total demo_total b') hne
example : ∃ b' u v, inner demo 50 ![1] = some b' ∧ pllk demo 1 ![1] = fin u ∧ pllk demo 1 b' = fin v ∧ u ≤ v :=
  inner_ascends demo_good demo_total 50 ![1]

/-- Gaussian model with one row: passes from 5 arrive at 1 and stay there. -/
noncomputable def line : In 1 1 := ⟨fun _ => .gaussian, .identity, ![2], Matrix.of ![![1]], 0, Matrix.of ![![1]]⟩

theorem line_good : Good line 1 := by
  refine ⟨fun i => Set.mem_univ _, one_pos, fun _ => Or.inl rfl, ?_⟩
  have : line.S = 1 := by ext i j; fin_cases i; fin_cases j; simp [line]
  rw [this]; exact Matrix.PosSemidef.one

theorem line_ident : Ident line := by
  intro v h _
  have := h 0
  funext a
  fin_cases a
  simpa [line] using this

theorem line_adm (b : Fin 1 → ℝ) : Adm line b := adm_total (x := line) (fun _ => trivial) b

theorem line_next (b : Fin 1 → ℝ) : next line b = ![1] := by
  funext a
  fin_cases a
  show next line b 0 = 1
  have h := congrFun (gram_step line_good (line_adm b) (gram_posdef line_good line_ident (line_adm b))) 0
  simp only [Matrix.mulVec, dotProduct, Fin.sum_univ_one, gram_eq line_good (line_adm b), G, wR, uR, uF, eta, Pi.sub_apply] at h
  generalize next line b 0 = q at h ⊢
  norm_num [line, LinkKind.fiR, LinkKind.d1R, FamKind.VR] at h
  linarith

theorem line_pass (c : ℝ) : pass line ![c] = ![1] := by
  have hnw : Step.NotWorse (Step.evalAt (prob line) (half ![c] (next line ![c]) 0)).pen (Step.evalAt (prob line) ![c]).pen := by
    rw [half_zero, line_next, notWorse_iff line_good (line_adm _) (line_adm _)]
    simp only [PR, phi, eta, Fin.sum_univ_one, Matrix.mulVec, dotProduct, line, LinkKind.fiR, FamKind.lR, Matrix.of_apply,
      Matrix.cons_val_zero, Pi.zero_apply]
    nlinarith [sq_nonneg (c - 1)]
  rcases pass_cases line ![c] with ⟨j, h1, h2, h3, h4⟩ | ⟨h1, h2⟩
  · rcases Nat.eq_zero_or_pos j with rfl | hj
    · rw [h2, half_zero, line_next]
    · exact absurd hnw (h4 0 hj)
  · exact absurd hnw (h2 0 (by norm_num))

example (b' : Fin 1 → ℝ) : ∃ u v, pllk line 1 ![1] = fin u ∧ pllk line 1 b' = fin v ∧ v ≤ u := by
  refine limit_is_max (b := fun k => if k = 0 then ![5] else ![1]) line_good line_ident (fun _ => trivial) (fun k => ?_)
    (fun k => line_adm _) (line_adm _) ?_ (fun k h => ?_) (line_adm b')
  · rcases Nat.eq_zero_or_pos k with rfl | hk
    · simp [line_pass]
    · simp [hk.ne', line_pass]
  · refine tendsto_const_nhds.congr' ?_
    filter_upwards [eventually_gt_atTop 0] with k hk
    rw [if_neg hk.ne']
  · split_ifs at h ⊢ with h0
    · rw [line_pass] at h; rw [line_next, h]
    · rw [line_next]

/-! ### Limits of the claim -/

/-- Gaussian model with log link, two rows with opposite covariates and the same response. -/
noncomputable def flat : In 2 1 := ⟨fun _ => .gaussian, .log, ![10, 10], Matrix.of ![![1], ![-1]], 0, Matrix.of ![![1]]⟩

theorem flat_good : Good flat 1 := by
  refine ⟨fun i => Set.mem_univ _, one_pos, fun _ => Or.inl rfl, ?_⟩
  have : flat.S = 1 := by ext i j; fin_cases i; fin_cases j; simp [flat]
  rw [this]; exact Matrix.PosSemidef.one

theorem flat_ident : Ident flat := by
  intro v h _
  have := h 0
  funext a
  fin_cases a
  simpa [flat] using this

/-- **C124.** Without concavity the claim fails: in a Gaussian model with log link the iteration reproduces coefficients whose penalised
log-likelihood is lower than that of others. -/
theorem gaussian_log_not_max : Good flat 1 ∧ Ident flat ∧ next flat ![0] = ![0] ∧
    ∃ u v, pllk flat 1 ![0] = fin u ∧ pllk flat 1 ![1] = fin v ∧ u < v := by
  have ht : ∀ i, total (flat.fam i) flat.lk := fun _ => trivial
  have e0 : ∀ i, eta flat ![0] i = 0 := by intro i; fin_cases i <;> simp [eta, flat, Matrix.mulVec, dotProduct]
  have e1 : eta flat ![1] 0 = 1 ∧ eta flat ![1] 1 = -1 := by constructor <;> simp [eta, flat, Matrix.mulVec, dotProduct]
  refine ⟨flat_good, flat_ident, ?_, _, _, pllk_eq flat_good (adm_total ht _), pllk_eq flat_good (adm_total ht _), ?_⟩
  · rw [fixed_iff_stationary flat_good flat_ident (adm_total ht _)]
    have := grad_pllk flat_good (adm_total ht ![0])
    have hz : (fun a => G flat ![0] a / 1) = 0 := by
      funext a
      fin_cases a
      simp only [G, uR, uF, e0, Fin.sum_univ_two]
      simp [flat, LinkKind.fiR, LinkKind.d1R, FamKind.VR, Matrix.mulVec, dotProduct]
    rwa [hz] at this
  · unfold PR phi
    simp only [Fin.sum_univ_two, e0, e1.1, e1.2]
    simp only [flat, LinkKind.fiR, FamKind.lR, Real.exp_zero, Matrix.cons_val_zero, Matrix.cons_val_one, Matrix.mulVec,
      dotProduct, Fin.sum_univ_one, Matrix.of_apply]
    have h1 := Real.exp_one_gt_d9
    have h2 := Real.exp_one_lt_d9
    have h3 := Real.exp_pos (-1)
    have h4 : Real.exp (-1) < 1 := by
      rw [Real.exp_lt_one_iff]; norm_num
    have h5 : (10 - Real.exp 1) ^ 2 < 54 := by nlinarith
    have h6 : (10 - Real.exp (-1)) ^ 2 < 100 := by nlinarith
    norm_num [Matrix.cons_val_zero]
    linarith

/-- Poisson model with identity link: the means are `b` and `1 - b`. -/
noncomputable def neg : In 2 1 := ⟨fun _ => .poisson, .identity, ![4, 0], Matrix.of ![![1], ![-1]], ![0, 1], 0⟩

/-- **C124.** Step control does not keep the means in the domain of the family: in a Poisson model with identity link a pass from
admissible coefficients accepts coefficients with a negative mean. -/
theorem negative_mean_wrong : Good neg 1 ∧ Ident neg ∧ Adm neg ![1 / 2] ∧
    neg.lk.fi (fin (eta neg (pass neg ![1 / 2]) 1)) = fin (-3 / 2) ∧ ¬ Adm neg (pass neg ![1 / 2]) := by
  classical
  have hg : Good neg 1 := by
    refine ⟨fun i => ?_, one_pos, fun _ => Or.inr rfl, Matrix.PosSemidef.zero⟩
    fin_cases i
    · exact ⟨4, by simp [neg]⟩
    · exact ⟨0, by simp [neg]⟩
  have hi : Ident neg := by
    intro v h _
    have := h 0
    funext a
    fin_cases a
    simpa [neg] using this
  have e1 : ∀ i, eta neg ![1 / 2] i = 1 / 2 := by
    intro i; fin_cases i <;> norm_num [eta, neg, Matrix.mulVec, dotProduct]
  have hA : Adm neg ![1 / 2] := by
    refine adm_of fun i => ?_
    rw [e1]
    show (0 : ℝ) < 1 / 2
    norm_num
  have hn : next neg ![1 / 2] = ![5 / 2] := by
    funext a
    fin_cases a
    show next neg ![1 / 2] 0 = 5 / 2
    have h := congrFun (gram_step hg hA (gram_posdef hg hi hA)) 0
    simp only [Matrix.mulVec, dotProduct, Fin.sum_univ_one, gram_eq hg hA, G, wR, uR, uF, Fin.sum_univ_two, e1, Pi.sub_apply] at h
    generalize next neg ![1 / 2] 0 = q at h ⊢
    norm_num [neg, LinkKind.fiR, LinkKind.d1R, FamKind.VR] at h
    linarith
  have e2 : eta neg ![5 / 2] 0 = 5 / 2 ∧ eta neg ![5 / 2] 1 = -3 / 2 := by
    constructor <;> norm_num [eta, neg, Matrix.mulVec, dotProduct]
  have hp : pass neg ![1 / 2] = ![5 / 2] := by
    have hnw : Step.NotWorse (Step.evalAt (prob neg) (half ![1 / 2] (next neg ![1 / 2]) 0)).pen
        (Step.evalAt (prob neg) ![1 / 2]).pen := by
      rw [half_zero, hn]
      have d0 : ∀ m : ℝ, 0 < m → FamKind.poisson.D (fin 4) (fin m) = fin (2 * (4 * (Real.log 4 - Real.log m)) - 2 * (4 - m)) := by
        intro m hm
        simp only [FamKind.D, log_fin (show (0 : ℝ) < 4 by norm_num), log_fin hm, fin_sub, fin_mul, clean_fin]
      have d1 : ∀ m : ℝ, FamKind.poisson.D (fin 0) (fin m) = fin (2 * m) := by
        intro m
        have hz : Fl.clean (fin 0 * (Fl.log (fin 0) - Fl.log (fin m))) = fin 0 := by
          rw [Fl.log_zero]
          by_cases hm : 0 < m
          · rw [log_fin hm, ninf_sub_fin]; simp [HMul.hMul, Mul.mul, Fl.mul, infSign]
          · by_cases hm0 : m = 0
            · rw [hm0, Fl.log_zero]; rfl
            · have : Fl.log (fin m) = .nan := by simp [Fl.log, hm, hm0]
              rw [this]; rfl
        simp only [FamKind.D, hz, fin_sub, fin_mul]
        congr 1
        ring
      have hev : ∀ c m0 m1 : ℝ, 0 < m0 → eta neg ![c] 0 = m0 → eta neg ![c] 1 = m1 →
          (Step.evalAt (prob neg) ![c]).pen = fin (2 * (4 * (Real.log 4 - Real.log m0)) - 2 * (4 - m0) + 2 * m1) := by
        intro c m0 m1 hm0 h0 h1
        have hp : (Step.evalAt (prob neg) ![c]).pen =
          (Fl.sum fun i : Fin 2 => if neg.lk.fi (fin (eta neg ![c] i)) = .nan then fin 0 else
            (neg.fam i).D (fin (neg.y i)) (neg.lk.fi (fin (eta neg ![c] i)))) + fin (![c] ⬝ᵥ (neg.S *ᵥ ![c])) := rfl
        have hq : ![c] ⬝ᵥ (neg.S *ᵥ ![c]) = 0 := by simp [neg]
        have hs : (fun i : Fin 2 => if neg.lk.fi (fin (eta neg ![c] i)) = .nan then fin 0 else
            (neg.fam i).D (fin (neg.y i)) (neg.lk.fi (fin (eta neg ![c] i)))) =
            fun i : Fin 2 => fin (![2 * (4 * (Real.log 4 - Real.log m0)) - 2 * (4 - m0), 2 * m1] i) := by
          funext i
          fin_cases i
          · show (if fin (eta neg ![c] 0) = Fl.nan then fin 0 else FamKind.poisson.D (fin 4) (fin (eta neg ![c] 0))) = _
            rw [if_neg (by simp), h0, d0 m0 hm0]
            rfl
          · show (if fin (eta neg ![c] 1) = Fl.nan then fin 0 else FamKind.poisson.D (fin 0) (fin (eta neg ![c] 1))) = _
            rw [if_neg (by simp), h1, d1]
            rfl
        rw [hp, hq, hs, sum_fin, fin_add, Fin.sum_univ_two]
        simp
      rw [hev (5 / 2) _ _ (by norm_num) e2.1 e2.2, hev (1 / 2) _ _ (by norm_num) (e1 0) (e1 1)]
      refine ⟨_, rfl, Or.inr (Or.inr ⟨_, rfl, ?_⟩)⟩
      have : Real.log (1 / 2) ≤ Real.log (5 / 2) := Real.log_le_log (by norm_num) (by norm_num)
      linarith
    rcases pass_cases neg ![1 / 2] with ⟨j, h1, h2, h3, h4⟩ | ⟨h1, h2⟩
    · rcases Nat.eq_zero_or_pos j with rfl | hj
      · rw [h2, half_zero, hn]
      · exact absurd hnw (h4 0 hj)
    · exact absurd hnw (h2 0 (by norm_num))
  have h5 : neg.lk.fi (fin (eta neg (pass neg ![1 / 2]) 1)) = fin (-3 / 2) := by
    rw [hp, e2.2, fi_eq]; rfl
  refine ⟨hg, hi, hA, h5, fun h => ?_⟩
  have := h.mem 1
  rw [hp, e2.2] at this
  have h6 : (0 : ℝ) < -3 / 2 := this
  norm_num at h6

end Verif.Pirls
