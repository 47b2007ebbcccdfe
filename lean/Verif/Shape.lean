import Verif.ShapeFam

/-!
# Shape parameters are estimated by an ascent that settles at stationary points (property C127)
-/

namespace Verif.Shape
open Verif Matrix Step Filter Topology

variable {m : ℕ} {x : In m} {theta nt : Fin m → ℝ}

/-! ### The proposal -/

theorem quad_neg_hess (h : Reg x theta) (v : Fin m → ℝ) : v ⬝ᵥ (-x.hess theta) *ᵥ v =
    ∑ i, (x.eigh (-x.hess theta)).1 i * ((x.eigh (-x.hess theta)).2ᵀ *ᵥ v) i ^ 2 := by
  obtain ⟨-, h2⟩ := h.eigh _ (neg_symm h.symm)
  set U := (x.eigh (-x.hess theta)).2
  set e := (x.eigh (-x.hess theta)).1
  rw [h2, ← mulVec_mulVec, ← mulVec_mulVec, dotProduct_mulVec, ← mulVec_transpose]
  simp only [dotProduct, mulVec_diagonal]
  exact Finset.sum_congr rfl fun i _ => by ring

theorem norm_sq (h : Reg x theta) (v : Fin m → ℝ) : v ⬝ᵥ v = ∑ i, ((x.eigh (-x.hess theta)).2ᵀ *ᵥ v) i ^ 2 := by
  obtain ⟨h1, -⟩ := h.eigh _ (neg_symm h.symm)
  set U := (x.eigh (-x.hess theta)).2
  have h3 : U * Uᵀ = 1 := mul_eq_one_comm.1 h1
  have : v ⬝ᵥ v = (Uᵀ *ᵥ v) ⬝ᵥ (Uᵀ *ᵥ v) := by
    rw [dotProduct_mulVec, vecMul_transpose, mulVec_mulVec, h3, one_mulVec]
  rw [this]
  exact Finset.sum_congr rfl fun i _ => (sq _).symm

/-- **C127.** The proposal solves a system with the gradient on the right whose matrix is symmetric, not below the negative Hessian,
positive definite, and has condition number at most 1e5. -/
theorem proposal_spec (h : Reg x theta) (hn : proposal x theta = some nt) :
    ∃ A : Matrix (Fin m) (Fin m) ℝ, A.IsSymm ∧ A *ᵥ (nt - theta) = x.grad theta ∧
      (∀ v, v ⬝ᵥ (-x.hess theta) *ᵥ v ≤ v ⬝ᵥ A *ᵥ v) ∧ (∀ v, v ≠ 0 → 0 < v ⬝ᵥ A *ᵥ v) ∧
      ∀ v w, v ⬝ᵥ v = 1 → w ⬝ᵥ w = 1 → v ⬝ᵥ A *ᵥ v ≤ 1e5 * (w ⬝ᵥ A *ᵥ w) := by
  have h0 : x.hess theta ≠ 0 := fun h0 => by rw [proposal_none h h0] at hn; simp at hn
  refine ⟨sys x theta, ?_, sys_step h hn, fun v => ?_, fun v hv => sys_pos h h0 hv, fun v w hv hw => ?_⟩
  · show (sys x theta)ᵀ = sys x theta
    unfold sys
    rw [transpose_mul, transpose_mul, transpose_transpose, diagonal_transpose, Matrix.mul_assoc]
  · rw [quad_neg_hess h, sys_quad]
    exact Finset.sum_le_sum fun i _ => mul_le_mul_of_nonneg_right (le_max_left _ _) (sq_nonneg _)
  · rw [norm_sq h] at hv hw
    rw [sys_quad, sys_quad]
    set e := (x.eigh (-x.hess theta)).1
    have k1 : ∑ i, raise e i * ((x.eigh (-x.hess theta)).2ᵀ *ᵥ v) i ^ 2 ≤ maxev e * ∑ i, ((x.eigh (-x.hess theta)).2ᵀ *ᵥ v) i ^ 2 := by
      rw [Finset.mul_sum]
      exact Finset.sum_le_sum fun i _ => mul_le_mul_of_nonneg_right (raise_le e i) (sq_nonneg _)
    have k2 : (1e-5 * maxev e) * ∑ i, ((x.eigh (-x.hess theta)).2ᵀ *ᵥ w) i ^ 2 ≤ ∑ i, raise e i * ((x.eigh (-x.hess theta)).2ᵀ *ᵥ w) i ^ 2 := by
      rw [Finset.mul_sum]
      exact Finset.sum_le_sum fun i _ => mul_le_mul_of_nonneg_right (le_max_right _ _) (sq_nonneg _)
    rw [hv] at k1
    rw [hw] at k2
    linarith

/-- **C127.** If the negative Hessian is positive definite with eigenvalues between `1e-5 * u` and `u`, the proposal is a Newton step. -/
theorem proposal_newton (h : Reg x theta) (hn : proposal x theta = some nt) {u : ℝ}
    (hlo : ∀ v, 1e-5 * u * (v ⬝ᵥ v) ≤ v ⬝ᵥ (-x.hess theta) *ᵥ v) (hhi : ∀ v, v ⬝ᵥ (-x.hess theta) *ᵥ v ≤ u * (v ⬝ᵥ v)) :
    x.hess theta *ᵥ (nt - theta) = -x.grad theta := by
  obtain ⟨h1, h2⟩ := h.eigh _ (neg_symm h.symm)
  have he : ∀ i, 1e-5 * u ≤ (x.eigh (-x.hess theta)).1 i ∧ (x.eigh (-x.hess theta)).1 i ≤ u := by
    intro i
    have hw : (x.eigh (-x.hess theta)).2ᵀ *ᵥ ((x.eigh (-x.hess theta)).2 *ᵥ Pi.single i 1) = Pi.single i 1 := by
      rw [mulVec_mulVec, h1, one_mulVec]
    have a1 := hlo ((x.eigh (-x.hess theta)).2 *ᵥ Pi.single i 1)
    have a2 := hhi ((x.eigh (-x.hess theta)).2 *ᵥ Pi.single i 1)
    rw [quad_neg_hess h, norm_sq h, hw] at a1 a2
    have s1 : ∑ j, (Pi.single i (1 : ℝ) : Fin m → ℝ) j ^ 2 = 1 := by
      rw [Finset.sum_eq_single i (fun j _ hj => by simp [hj]) (by simp)]; simp
    have s2 : ∑ j, (x.eigh (-x.hess theta)).1 j * (Pi.single i (1 : ℝ) : Fin m → ℝ) j ^ 2 = (x.eigh (-x.hess theta)).1 i := by
      rw [Finset.sum_eq_single i (fun j _ hj => by simp [hj]) (by simp)]; simp
    rw [s1, s2] at a1 a2
    constructor <;> linarith
  have hr : raise (x.eigh (-x.hess theta)).1 = (x.eigh (-x.hess theta)).1 := by
    funext i
    refine max_eq_left ?_
    have hu : 0 ≤ u := by have := (he i).1.trans (he i).2; linarith
    have : maxev (x.eigh (-x.hess theta)).1 ≤ u := (pi_norm_le_iff_of_nonneg hu).2 fun j => by
      rw [Real.norm_eq_abs, abs_le]
      have := he j
      constructor <;> linarith
    linarith [(he i).1]
  have hs : sys x theta = -x.hess theta := by
    unfold sys
    rw [hr]; exact h2.symm
  have := sys_step h hn
  rw [hs, neg_mulVec] at this
  rw [← this, neg_neg]

/-- **C127.** The proposal equals the current parameters exactly where the gradient vanishes. -/
theorem proposal_fixed_iff (h : Reg x theta) (hn : proposal x theta = some nt) : nt = theta ↔ x.grad theta = 0 := by
  have h0 : x.hess theta ≠ 0 := fun h0 => by rw [proposal_none h h0] at hn; simp at hn
  constructor
  · intro he
    have := sys_step h hn
    rw [he, sub_self, mulVec_zero] at this
    exact this.symm
  · intro hg
    rw [proposal_some h h0, hg, mulVec_zero, add_zero] at hn
    exact (Option.some.inj hn).symm

/-- **C127.** Where the gradient does not vanish, all sufficiently short steps towards the proposal raise the log-likelihood. -/
theorem proposal_ascends (h : Reg x theta) (hn : proposal x theta = some nt) (hl : HasFlGrad x.llk (x.grad theta) theta)
    (hg : x.grad theta ≠ 0) :
    ∃ K : ℕ, ∀ k, K ≤ k → ∃ u v, x.llk theta = Fl.fin u ∧ x.llk (theta + (1 / 2 ^ k : ℝ) • (nt - theta)) = Fl.fin v ∧ u < v := by
  have h0 : x.hess theta ≠ 0 := fun h0 => by rw [proposal_none h h0] at hn; simp at hn
  set d := nt - theta with hd
  have hdne : d ≠ 0 := fun hz => hg ((proposal_fixed_iff h hn).1 (sub_eq_zero.1 hz))
  have hpos : 0 < x.grad theta ⬝ᵥ d := by
    have := sys_pos h h0 hdne
    rwa [sys_step h hn, dotProduct_comm] at this
  obtain ⟨F, f1, f2⟩ := hl
  have hln : HasDerivAt (fun t : ℝ => theta + t • d) d 0 := by
    simpa using ((hasDerivAt_id (0 : ℝ)).smul_const d).const_add theta
  have f2' : HasFDerivAt F (Lml.lf (x.grad theta)) (theta + (0 : ℝ) • d) := by rw [zero_smul, add_zero]; exact f2
  have hdv := f2'.comp_hasDerivAt (0 : ℝ) hln
  rw [Lml.lf_apply] at hdv
  have hsl := (hasDerivAt_iff_tendsto_slope.1 hdv).eventually (lt_mem_nhds hpos)
  have hA : ∀ᶠ t in 𝓝 (0 : ℝ), x.llk (theta + t • d) = Fl.fin (F (theta + t • d)) := by
    have hcn : ContinuousAt (fun t : ℝ => theta + t • d) 0 := hln.continuousAt
    have e : (fun t : ℝ => theta + t • d) 0 = theta := by simp
    have f1' : ∀ᶠ c' in 𝓝 ((fun t : ℝ => theta + t • d) 0), x.llk c' = Fl.fin (F c') := by rw [e]; exact f1
    exact hcn.eventually f1'
  have hseq : Tendsto (fun k : ℕ => (1 / 2 ^ k : ℝ)) atTop (𝓝[≠] 0) := by
    refine tendsto_nhdsWithin_of_tendsto_nhds_of_eventually_within _ ?_ (Eventually.of_forall fun k => ?_)
    · have := tendsto_pow_atTop_nhds_zero_of_lt_one (r := (1 / 2 : ℝ)) (by norm_num) (by norm_num)
      simpa [one_div, inv_pow] using this
    · have : (0 : ℝ) < 1 / 2 ^ k := by positivity
      exact this.ne'
  have h1 := hseq.eventually hsl
  have h2 := (hseq.mono_right nhdsWithin_le_nhds).eventually hA
  obtain ⟨K, hK⟩ := eventually_atTop.1 (h1.and h2)
  refine ⟨K, fun k hk => ⟨_, _, f1.self_of_nhds, (hK k hk).2, ?_⟩⟩
  have h3 := (hK k hk).1
  have hp : (0 : ℝ) < 1 / 2 ^ k := by positivity
  rw [slope_def_field] at h3
  have h4 := (div_pos_iff_of_pos_right (by linarith : (0 : ℝ) < 1 / 2 ^ k - 0)).1 h3
  simp only [Function.comp, zero_smul, add_zero] at h4
  linarith

/-! ### Iterations -/

theorem better_fin {u v : ℝ} {c : Fin m → ℝ} (hv : x.llk c = Fl.fin v) : Better x (Fl.fin u) c ↔ u < v := by
  unfold Better
  rw [hv]
  exact ⟨fun h => h.1, fun h => ⟨h, Fl.isFin_iff.2 ⟨v, rfl⟩⟩⟩

theorem better_iff {u : ℝ} {c : Fin m → ℝ} : Better x (Fl.fin u) c ↔ ∃ v, x.llk c = Fl.fin v ∧ u < v := by
  constructor
  · intro h
    obtain ⟨v, hv⟩ := Fl.isFin_iff.1 h.2
    exact ⟨v, hv, (better_fin hv).1 h⟩
  · rintro ⟨v, hv, h⟩
    exact (better_fin hv).2 h

theorem improve_cases (x : In m) (theta : Fin m → ℝ) (u : Fl) :
    (∃ nt j, j ≤ 31 ∧ proposal x theta = some nt ∧ improve x theta u = some (Lml.half theta nt j) ∧ Better x u (Lml.half theta nt j) ∧
      ∀ i, i < j → ¬Better x u (Lml.half theta nt i)) ∨
    (improve x theta u = none ∧ (proposal x theta = none ∨ ∃ nt, proposal x theta = some nt ∧ ∀ i, i ≤ 31 → ¬Better x u (Lml.half theta nt i))) := by
  unfold improve
  rcases hp : proposal x theta with _ | nt
  · exact Or.inr ⟨rfl, Or.inl rfl⟩
  · dsimp only
    rcases inner_first x theta nt u 32 0 (by norm_num) rfl with ⟨j, -, j2, j3, j4, j5⟩ | ⟨h1, h2⟩
    · rw [Lml.half_zero] at j3
      exact Or.inl ⟨nt, j, j2, rfl, j3, j4, fun i hi => j5 i (Nat.zero_le i) hi⟩
    · rw [Lml.half_zero] at h1
      exact Or.inr ⟨h1, Or.inr ⟨nt, rfl, fun i hi => h2 i (Nat.zero_le i) hi⟩⟩

/-- **C127.** An iteration takes the longest of the 32 steps (proposal, half of it, a quarter, ...) that gives a finite and strictly
larger log-likelihood; it gives up only if there is none or the Hessian is zero. -/
theorem improve_longest (h : Reg x theta) {u : ℝ} :
    (∃ nt, ∃ j : ℕ, ∃ v : ℝ, j ≤ 31 ∧ proposal x theta = some nt ∧
      improve x theta (.fin u) = some (theta + (1 / 2 ^ j : ℝ) • (nt - theta)) ∧
      x.llk (theta + (1 / 2 ^ j : ℝ) • (nt - theta)) = .fin v ∧ u < v ∧
      ∀ i < j, ∀ w, x.llk (theta + (1 / 2 ^ i : ℝ) • (nt - theta)) = .fin w → w ≤ u) ∨
    (improve x theta (.fin u) = none ∧ (x.hess theta = 0 ∨ ∃ nt, proposal x theta = some nt ∧ ∀ i : ℕ, i ≤ 31 → ∀ w,
      x.llk (theta + (1 / 2 ^ i : ℝ) • (nt - theta)) = .fin w → w ≤ u)) := by
  rcases improve_cases x theta (.fin u) with ⟨nt, j, h1, h2, h3, h4, h5⟩ | ⟨h1, h2⟩
  · obtain ⟨v, hv, huv⟩ := better_iff.1 h4
    exact Or.inl ⟨nt, j, v, h1, h2, h3, hv, huv, fun i hi w hw => not_lt.1 fun hlt => h5 i hi ((better_fin hw).2 hlt)⟩
  · refine Or.inr ⟨h1, ?_⟩
    rcases h2 with h2 | ⟨nt, h2, h3⟩
    · by_cases h0 : x.hess theta = 0
      · exact Or.inl h0
      · rw [proposal_some h h0] at h2; simp at h2
    · exact Or.inr ⟨nt, h2, fun i hi w hw => not_lt.1 fun hlt => h3 i hi ((better_fin hw).2 hlt)⟩

/-- Parameters after `k` iterations without a test for convergence. -/
noncomputable def path (x : In m) (theta : Fin m → ℝ) : ℕ → Fin m → ℝ
  | 0 => theta
  | k + 1 => (improve x (path x theta k) (x.llk (path x theta k))).getD (path x theta k)

theorem path_step (x : In m) (theta : Fin m → ℝ) (k : ℕ) {nt : Fin m → ℝ}
    (h : improve x theta (x.llk theta) = some nt) : path x nt k = path x theta (k + 1) := by
  induction k with
  | zero => simp [path, h]
  | succ k ih => rw [path, ih]; rfl

theorem improve_better (h : improve x theta (x.llk theta) = some nt) : Better x (x.llk theta) nt := by
  rcases improve_cases x theta (x.llk theta) with ⟨n, j, h1, h2, h3, h4, h5⟩ | ⟨h1, h2⟩
  · rw [h3] at h
    rw [← Option.some.inj h]; exact h4
  · rw [h1] at h; simp at h

theorem loop_spec (x : In m) : ∀ (left : ℕ) (theta : Fin m → ℝ), ∃ k ≤ left,
    (loop x left theta (x.llk theta)).1 = path x theta k ∧
    (∀ i < k, ¬test (x.grad (path x theta i)) (x.llk (path x theta i)) ∧ Better x (x.llk (path x theta i)) (path x theta (i + 1))) ∧
    match (loop x left theta (x.llk theta)).2 with
    | .converged => k < left ∧ test (x.grad (path x theta k)) (x.llk (path x theta k))
    | .gaveUp => k < left ∧ ¬test (x.grad (path x theta k)) (x.llk (path x theta k)) ∧
        improve x (path x theta k) (x.llk (path x theta k)) = none
    | .warned => k = left := by
  intro left
  induction left with
  | zero => exact fun theta => ⟨0, le_rfl, rfl, fun i hi => by omega, rfl⟩
  | succ left ih =>
    intro theta
    rw [loop]
    by_cases ht : test (x.grad theta) (x.llk theta)
    · rw [if_pos ht]
      exact ⟨0, Nat.zero_le _, rfl, fun i hi => by omega, Nat.succ_pos _, ht⟩
    · rw [if_neg ht]
      rcases hi : improve x theta (x.llk theta) with _ | nt
      · exact ⟨0, Nat.zero_le _, rfl, fun i hi => by omega, Nat.succ_pos _, ht, hi⟩
      · dsimp only
        obtain ⟨k, k1, k2, k3, k4⟩ := ih nt
        have e := fun k => path_step x theta k hi
        refine ⟨k + 1, by omega, by rw [k2, e], fun i hik => ?_, ?_⟩
        · cases i with
          | zero => exact ⟨ht, by simpa [path, hi] using improve_better hi⟩
          | succ i =>
            have := k3 i (by omega)
            rwa [e, e] at this
        · rw [e] at k4
          split at k4
          · exact ⟨by omega, k4.2⟩
          · exact ⟨by omega, k4.2⟩
          · show k + 1 = left + 1
            omega

/-- **C127.** What `updateTheta` returns: the parameters after some number of iterations, each of which raised the log-likelihood and
started from parameters at which the test for convergence was not met.  It ends because the test is met, because no step was found, or
after 200 iterations. -/
theorem update_spec (x : In m) (theta : Fin m → ℝ) : ∃ k ≤ 200, (updateTheta x theta).1 = path x theta k ∧
    (∀ i < k, ¬test (x.grad (path x theta i)) (x.llk (path x theta i)) ∧ Better x (x.llk (path x theta i)) (path x theta (i + 1))) ∧
    match (updateTheta x theta).2 with
    | .converged => k < 200 ∧ test (x.grad (path x theta k)) (x.llk (path x theta k))
    | .gaveUp => k < 200 ∧ ¬test (x.grad (path x theta k)) (x.llk (path x theta k)) ∧
        improve x (path x theta k) (x.llk (path x theta k)) = none
    | .warned => k = 200 :=
  loop_spec x 200 theta

/-- **C127.** The log-likelihood of the parameters returned is finite and not below that of the parameters passed in; it is above unless
these are returned unchanged. -/
theorem update_raises {u : ℝ} (hu : x.llk theta = .fin u) :
    (updateTheta x theta).1 = theta ∨ ∃ v, x.llk (updateTheta x theta).1 = .fin v ∧ u < v := by
  obtain ⟨k, -, h1, h2, -⟩ := update_spec x theta
  rw [h1]
  have : ∀ i ≤ k, i = 0 ∨ ∃ v, x.llk (path x theta i) = .fin v ∧ u < v := by
    intro i
    induction i with
    | zero => exact fun _ => Or.inl rfl
    | succ i ih =>
      intro hi
      right
      have hb := (h2 i (by omega)).2
      rcases ih (by omega) with h0 | ⟨v, hv, huv⟩
      · subst h0
        rw [show path x theta 0 = theta from rfl, hu] at hb
        exact better_iff.1 hb
      · rw [hv] at hb
        obtain ⟨w, hw, hvw⟩ := better_iff.1 hb
        exact ⟨w, hw, huv.trans hvw⟩
  rcases this k le_rfl with h0 | h0
  · exact Or.inl (by rw [h0]; rfl)
  · exact Or.inr h0

/-- **C127.** When convergence is reported, no partial derivative at the parameters returned is as large as 1e-7 times the absolute
log-likelihood. -/
theorem converged_spec (h : (updateTheta x theta).2 = .converged) {u : ℝ} (hu : x.llk (updateTheta x theta).1 = .fin u) (i : Fin m) :
    |x.grad (updateTheta x theta).1 i| < 1e-7 * |u| := by
  obtain ⟨k, -, h1, -, h3⟩ := update_spec x theta
  rw [h] at h3
  rw [← h1, hu] at h3
  exact (norm_le_pi_norm _ i).trans_lt h3.2

/-- **C127.** If the parameters converge as iterations go on, the gradient at their limit is zero, unless from some iteration on no step
raises the log-likelihood. -/
theorem limit_is_stationary {l : Fin m → ℝ} (he : EighSpec x.eigh) (hs : ∀ t, (x.hess t).IsSymm) (hg : ContinuousAt x.grad l)
    (hb : ∃ B : ℝ, 0 ≤ B ∧ ∀ᶠ t in 𝓝 l, ∀ i j, |x.hess t i j| ≤ B) (ht : Tendsto (path x theta) atTop (𝓝 l)) :
    x.grad l = 0 ∨ ∃ K, ∀ k, K ≤ k → path x theta k = l ∧ improve x l (x.llk l) = none := by
  by_cases hst : ∃ K, improve x (path x theta K) (x.llk (path x theta K)) = none
  · right
    obtain ⟨K, hK⟩ := hst
    have hc : ∀ n, path x theta (K + n) = path x theta K := by
      intro n
      induction n with
      | zero => rfl
      | succ n ih =>
        show (improve x (path x theta (K + n)) (x.llk (path x theta (K + n)))).getD (path x theta (K + n)) = _
        rw [ih, hK]; rfl
    have hl : path x theta K = l := by
      have h3 : Tendsto (fun n => path x theta (n + K)) atTop (𝓝 l) := (tendsto_add_atTop_iff_nat K).2 ht
      have h4 : (fun n => path x theta (n + K)) = fun _ => path x theta K := funext fun n => by rw [add_comm, hc]
      rw [h4] at h3
      exact tendsto_nhds_unique tendsto_const_nhds h3
    refine ⟨K, fun k hk => ?_⟩
    obtain ⟨n, rfl⟩ := Nat.exists_eq_add_of_le hk
    exact ⟨by rw [hc, hl], by rw [← hl, hK]⟩
  · left
    have hst' : ∀ k, improve x (path x theta k) (x.llk (path x theta k)) ≠ none := fun k hk => hst ⟨k, hk⟩
    obtain ⟨B, hB0, hB⟩ := hb
    -- each gradient is a bounded matrix times the step
    have key : ∀ k, (∀ i j, |x.hess (path x theta k) i j| ≤ B) → ∀ i, |x.grad (path x theta k) i| ≤
        m * (m * (m * m * B)) * (2 ^ 31 * ‖path x theta (k + 1) - path x theta k‖) := by
      intro k hk i
      rcases improve_cases x (path x theta k) (x.llk (path x theta k)) with ⟨nt, j, j1, j2, j3, -⟩ | ⟨h1, -⟩
      · have hR : Reg x (path x theta k) := ⟨he, hs _⟩
        have e1 : path x theta (k + 1) = Lml.half (path x theta k) nt j := by rw [path, j3]; rfl
        have e2 : path x theta (k + 1) - path x theta k = (1 / 2 ^ j : ℝ) • (nt - path x theta k) := by
          rw [e1, Lml.half, add_sub_cancel_left]
        have e3 : ‖nt - path x theta k‖ ≤ 2 ^ 31 * ‖path x theta (k + 1) - path x theta k‖ := by
          rw [e2, norm_smul, Real.norm_eq_abs, abs_of_nonneg (by positivity), ← mul_assoc]
          have : (1 : ℝ) ≤ 2 ^ 31 * (1 / 2 ^ j) := by
            rw [mul_one_div, le_div_iff₀ (by positivity), one_mul]
            exact pow_le_pow_right₀ (by norm_num) j1
          exact le_mul_of_one_le_left (norm_nonneg _) this
        rw [← sys_step hR j2]
        calc |(sys x (path x theta k) *ᵥ (nt - path x theta k)) i| = |∑ q, sys x (path x theta k) i q * (nt - path x theta k) q| := rfl
          _ ≤ ∑ q, |sys x (path x theta k) i q * (nt - path x theta k) q| := Finset.abs_sum_le_sum_abs _ _
          _ ≤ ∑ _q : Fin m, (m * (m * m * B)) * (2 ^ 31 * ‖path x theta (k + 1) - path x theta k‖) := by
            refine Finset.sum_le_sum fun q _ => ?_
            rw [abs_mul]
            exact mul_le_mul (sys_entry hR hB0 hk i q) ((norm_le_pi_norm _ q).trans e3) (abs_nonneg _) (by positivity)
          _ = _ := by simp [mul_assoc]
      · exact absurd h1 (hst' k)
    have hd : Tendsto (fun k => ‖path x theta (k + 1) - path x theta k‖) atTop (𝓝 0) := by
      have h1 : Tendsto (fun k => path x theta (k + 1)) atTop (𝓝 l) := (tendsto_add_atTop_iff_nat 1).2 ht
      have := (h1.sub ht).norm
      rwa [sub_self, norm_zero] at this
    funext i
    have h1 : Tendsto (fun k => |x.grad (path x theta k) i|) atTop (𝓝 |x.grad l i|) :=
      ((continuousAt_apply i (x.grad l)).tendsto.comp (hg.tendsto.comp ht)).abs
    have h2 : Tendsto (fun k => m * (m * (m * m * B)) * (2 ^ 31 * ‖path x theta (k + 1) - path x theta k‖)) atTop (𝓝 0) := by
      have := (hd.const_mul (2 ^ 31 : ℝ)).const_mul (m * (m * (m * m * B)) : ℝ)
      simpa using this
    have h3 := le_of_tendsto_of_tendsto h1 h2 ((ht.eventually hB).mono fun k hk => key k hk i)
    exact abs_nonpos_iff.1 h3

/-! ### The scaled t family -/

section ScaledT

variable {n : ℕ} {a : ℝ} {y mu : Fin n → ℝ} {eigh : Matrix (Fin 2) (Fin 2) ℝ → (Fin 2 → ℝ) × Matrix (Fin 2) (Fin 2) ℝ}

/-- **C127.** For scaled t models: if the shape parameters converge as iterations go on, their limit is a stationary point of the
log-likelihood, unless from some iteration on no step raises it. -/
theorem scaledT_limit (ha : 0 ≤ a) (he : EighSpec eigh) {th l : Fin 2 → ℝ} (ht : Tendsto (path (scaledT a y mu eigh) th) atTop (𝓝 l)) :
    HasFlGrad (scaledT a y mu eigh).llk 0 l ∨
      ∃ K, ∀ k, K ≤ k → path (scaledT a y mu eigh) th k = l ∧ improve (scaledT a y mu eigh) l ((scaledT a y mu eigh).llk l) = none := by
  have hb : ∃ B : ℝ, 0 ≤ B ∧ ∀ᶠ t in 𝓝 l, ∀ i j, |(scaledT a y mu eigh).hess t i j| ≤ B := by
    set C := ∑ i, ∑ j, |(scaledT a y mu eigh).hess l i j| with hC
    refine ⟨C + 1, by positivity, ?_⟩
    refine eventually_all.2 fun i => eventually_all.2 fun j => ?_
    have h1 := (scaledT_hess_cont (y := y) (mu := mu) (eigh := eigh) ha l i j).abs
    have h2 : |(scaledT a y mu eigh).hess l i j| < C + 1 := by
      have : |(scaledT a y mu eigh).hess l i j| ≤ C :=
        (Finset.single_le_sum (f := fun j => |(scaledT a y mu eigh).hess l i j|) (fun _ _ => abs_nonneg _) (Finset.mem_univ j)).trans
          (Finset.single_le_sum (f := fun i => ∑ j, |(scaledT a y mu eigh).hess l i j|)
            (fun _ _ => Finset.sum_nonneg fun _ _ => abs_nonneg _) (Finset.mem_univ i))
      linarith
    exact (h1.eventually (gt_mem_nhds h2)).mono fun t ht => ht.le
  rcases limit_is_stationary (x := scaledT a y mu eigh) he (fun t => scaledT_symm t) (scaledT_grad_cont ha l) hb ht with h | h
  · left
    have := scaledT_grad (y := y) (mu := mu) (eigh := eigh) ha l
    rwa [h] at this
  · exact Or.inr h

/-- **C127.** Where the derivative of the log-likelihood of a scaled t model in the logarithm of the scale parameter vanishes, in particular
at stationary points, the squared scale parameter is the mean of the squared residuals, each weighted by
`(nu + 1) / (nu + (residual / scale)²)`. -/
theorem scaledT_stationary (ha : 0 ≤ a) (hn : 0 < n) {th : Fin 2 → ℝ} (h : HasDerivAt (fun t => ScT.llk a y mu t (th 1)) 0 (th 0)) :
    Real.exp (th 0) ^ 2 = (∑ i, (Real.exp (th 1) + a + 1) / (Real.exp (th 1) + a + ((y i - mu i) / Real.exp (th 0)) ^ 2) *
      (y i - mu i) ^ 2) / n := by
  have h0 : ScT.grad0 a y mu (th 0) (th 1) = 0 := (ScT.gradTheta0_correct ha y mu (th 0) (th 1)).unique h
  unfold ScT.grad0 at h0
  have hp := ScT.phi_pos (th 0)
  have e : ∀ i, ScT.fymu a (y i) (mu i) (th 0) (th 1) * ScT.phi (th 0) ^ 2 =
      (Real.exp (th 1) + a + 1) / (Real.exp (th 1) + a + ((y i - mu i) / Real.exp (th 0)) ^ 2) * (y i - mu i) ^ 2 := by
    intro i
    have hv := ScT.nu_pos ha (th 1)
    rw [ScT.fymu_eq]
    unfold ScT.f1ymu
    rw [ScT.nusig2a_eq ha]
    show (ScT.nu a (th 1) + 1) * _ * ScT.phi (th 0) ^ 2 = (ScT.nu a (th 1) + 1) / (ScT.nu a (th 1) + ((y i - mu i) / ScT.phi (th 0)) ^ 2) * _
    have h1 : ScT.nu a (th 1) * ScT.phi (th 0) ^ 2 + (y i - mu i) ^ 2 ≠ 0 := by positivity
    have h2 : ScT.nu a (th 1) + ((y i - mu i) / ScT.phi (th 0)) ^ 2 ≠ 0 := by positivity
    field_simp
  have hn' : (n : ℝ) ≠ 0 := by positivity
  rw [eq_div_iff hn', ← Finset.sum_congr rfl fun i _ => e i, ← Finset.sum_mul]
  have hsum : ∑ i, ScT.fymu a (y i) (mu i) (th 0) (th 1) = n := by
    rw [← Finset.mul_sum] at h0
    linarith
  rw [hsum]
  show ScT.phi (th 0) ^ 2 * n = n * ScT.phi (th 0) ^ 2
  ring

theorem gt_shift (b u c : ℝ) : Gt (.fin (u - c)) (.fin (b - c)) ↔ Gt (.fin u) (.fin b) := by
  show u - c > b - c ↔ u > b
  constructor <;> intro h <;> linarith

/-- **C127.** A change of units of the response changes the scale parameter with the units and leaves the other shape parameter as it is,
in every iteration. -/
theorem scaledT_units (ha : 0 ≤ a) {s : ℝ} (hs : 0 < s) (th : Fin 2 → ℝ) (k : ℕ) :
    path (scaledT a (fun i => s * y i) (fun i => s * mu i) eigh) (shift s th) k = shift s (path (scaledT a y mu eigh) th k) := by
  induction k with
  | zero => rfl
  | succ k ih =>
    rw [path, path, ih]
    set c := path (scaledT a y mu eigh) th k
    set X := scaledT a (fun i => s * y i) (fun i => s * mu i) eigh with hX
    obtain ⟨-, e2, e3⟩ := scaledT_shift (y := y) (mu := mu) (eigh := eigh) ha hs c
    have hp : proposal X (shift s c) = (proposal (scaledT a y mu eigh) c).map (shift s) := by
      have hE : X.eigh = (scaledT a y mu eigh).eigh := rfl
      unfold proposal
      rw [e2, e3, hE]
      dsimp only
      split_ifs
      · rfl
      · rw [Option.map_some]
        congr 1
        funext i
        fin_cases i <;> simp [shift]
        ring
    have hb : ∀ d, Better X (X.llk (shift s c)) (shift s d) ↔ Better (scaledT a y mu eigh) ((scaledT a y mu eigh).llk c) d := by
      intro d
      unfold Better
      rw [(scaledT_shift ha hs c).1, (scaledT_shift ha hs d).1]
      constructor
      · exact fun h => ⟨(gt_shift _ _ _).1 h.1, Fl.isFin_iff.2 ⟨_, rfl⟩⟩
      · exact fun h => ⟨(gt_shift _ _ _).2 h.1, Fl.isFin_iff.2 ⟨_, rfl⟩⟩
    rcases improve_cases (scaledT a y mu eigh) c ((scaledT a y mu eigh).llk c) with ⟨nt, j, j1, j2, j3, j4, j5⟩ | ⟨h1, h2⟩
    · rcases improve_cases X (shift s c) (X.llk (shift s c)) with ⟨nt', j', k1, k2, k3, k4, k5⟩ | ⟨h1', h2'⟩
      · rw [hp, j2, Option.map_some] at k2
        have e := Option.some.inj k2
        rw [← e, half_shift] at k3 k4
        have hj : j' = j := by
          rcases lt_trichotomy j' j with h | h | h
          · exact absurd ((hb _).1 k4) (j5 j' h)
          · exact h
          · have := k5 j h
            rw [← e, half_shift, hb] at this
            exact absurd j4 this
        rw [k3, j3, hj]; rfl
      · exfalso
        rcases h2' with h | ⟨nt', k2, k3⟩
        · rw [hp, j2] at h; simp at h
        · rw [hp, j2, Option.map_some] at k2
          have := k3 j j1
          rw [← Option.some.inj k2, half_shift, hb] at this
          exact this j4
    · rcases improve_cases X (shift s c) (X.llk (shift s c)) with ⟨nt', j', k1, k2, k3, k4, k5⟩ | ⟨h1', h2'⟩
      · exfalso
        rcases h2 with h | ⟨nt, k6, k7⟩
        · rw [hp, h] at k2; simp at k2
        · rw [hp, k6, Option.map_some] at k2
          rw [← Option.some.inj k2, half_shift, hb] at k4
          exact k7 j' k1 k4
      · rw [h1, h1']; rfl

/-- **C127, negation.** The test for convergence depends on the units: whatever the data and the parameters, there are units of the
response in which the (correspondingly rescaled) parameters are declared converged at once. -/
theorem units_wrong (ha : 0 ≤ a) (hn : 0 < n) (y mu : Fin n → ℝ) (th : Fin 2 → ℝ) :
    ∃ s : ℝ, 0 < s ∧ updateTheta (scaledT a (fun i => s * y i) (fun i => s * mu i) eigh) (shift s th) = (shift s th, .converged) := by
  set g := ‖(scaledT a y mu eigh).grad th‖ with hg
  set u := ScT.llk a y mu (th 0) (th 1) with hu
  refine ⟨Real.exp ((u + 1e7 * (g + 1)) / n), Real.exp_pos _, ?_⟩
  set s := Real.exp ((u + 1e7 * (g + 1)) / n)
  have hs : 0 < s := Real.exp_pos _
  obtain ⟨e1, e2, -⟩ := scaledT_shift (y := y) (mu := mu) (eigh := eigh) ha hs th
  have ht : test ((scaledT a (fun i => s * y i) (fun i => s * mu i) eigh).grad (shift s th))
      ((scaledT a (fun i => s * y i) (fun i => s * mu i) eigh).llk (shift s th)) := by
    rw [e1, e2]
    show g < 1e-7 * |u - n * Real.log s|
    have hn' : (n : ℝ) ≠ 0 := by positivity
    have : u - n * Real.log s = -(1e7 * (g + 1)) := by
      rw [Real.log_exp]; field_simp; ring
    have hg0 : 0 ≤ g := norm_nonneg _
    rw [this, abs_neg, abs_of_nonneg (by positivity)]
    norm_num
    linarith
  unfold updateTheta
  rw [loop, if_pos ht]

end ScaledT

/-! ### What goes wrong -/

/-- A log-likelihood that is linear in the first of two shape parameters. -/
noncomputable def linIn (eigh : Matrix (Fin 2) (Fin 2) ℝ → (Fin 2 → ℝ) × Matrix (Fin 2) (Fin 2) ℝ) : In 2 where
  llk := fun th => .fin (th 0)
  grad := fun _ => ![1, 0]
  hess := fun _ => 0
  eigh := eigh

/-- **C127, negation.** Parameters can be returned unchanged and without a warning although they are not stationary: if the Hessian is
zero the step is not a number. -/
theorem silent_wrong (th : Fin 2 → ℝ) (h1 : |th 0| < 1e7) :
    updateTheta (linIn eighC) th = (th, .gaveUp) ∧ HasFlGrad (linIn eighC).llk ![1, 0] th := by
  constructor
  · unfold updateTheta
    have ht : ¬test ((linIn eighC).grad th) ((linIn eighC).llk th) := by
      show ¬(‖(![1, 0] : Fin 2 → ℝ)‖ < 1e-7 * |th 0|)
      have h2 : (1 : ℝ) ≤ ‖(![1, 0] : Fin 2 → ℝ)‖ := by
        have := norm_le_pi_norm (![1, 0] : Fin 2 → ℝ) 0
        simpa using this
      rw [not_lt]
      linarith
    have hR : Reg (linIn eighC) th := ⟨eighC_spec, by show (0 : Matrix (Fin 2) (Fin 2) ℝ).IsSymm; exact Matrix.isSymm_zero⟩
    have hi : improve (linIn eighC) th ((linIn eighC).llk th) = none := by
      unfold improve
      rw [proposal_none hR rfl]
    rw [loop, if_neg ht, hi]
  · refine ⟨fun t => t 0, Eventually.of_forall fun _ => rfl, ?_⟩
    have : (∑ j, (![1, 0] : Fin 2 → ℝ) j • ContinuousLinearMap.proj (R := ℝ) (φ := fun _ : Fin 2 => ℝ) j) =
        ContinuousLinearMap.proj (R := ℝ) (φ := fun _ : Fin 2 => ℝ) 0 := by
      rw [Fin.sum_univ_two]; simp
    rw [this]
    exact (ContinuousLinearMap.proj (R := ℝ) (φ := fun _ : Fin 2 => ℝ) 0).hasFDerivAt

end Verif.Shape
