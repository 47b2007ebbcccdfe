import Verif.PirlsLemmas

/-! Gradient, expansion and limits for `Pirls.lean`. -/

namespace Verif.Pirls

open Matrix Fl Fam Filter Topology

variable {N p : ℕ} {x : In N p}

theorem eta_add (b v : Fin p → ℝ) (i : Fin N) : eta x (b + v) i = eta x b i + (x.X *ᵥ v) i := by
  unfold eta
  rw [Matrix.mulVec_add, Pi.add_apply]
  ring

theorem psd_symm {S : Matrix (Fin p) (Fin p) ℝ} (h : S.PosSemidef) (a c : Fin p) : S a c = S c a := by
  have := h.isHermitian.apply a c
  simpa using this.symm

theorem dot_symm {S : Matrix (Fin p) (Fin p) ℝ} (h : S.PosSemidef) (u v : Fin p → ℝ) :
    u ⬝ᵥ (S *ᵥ v) = v ⬝ᵥ (S *ᵥ u) := by
  simp only [dotProduct, Matrix.mulVec, Finset.mul_sum]
  rw [Finset.sum_comm]
  refine Finset.sum_congr rfl fun a _ => Finset.sum_congr rfl fun c _ => ?_
  rw [psd_symm h]; ring

theorem adm_nhds {b : Fin p → ℝ} (hb : Adm x b) : ∀ᶠ c in 𝓝 b, Adm x c := by
  have : ∀ᶠ c in 𝓝 b, ∀ i, x.lk.fiR (eta x c i) ∈ (x.fam i).dom := by
    rw [eventually_all]
    intro i
    have hc : ContinuousAt (fun c => eta x c i) b :=
      ((linpred_fderiv (fun i j => x.X i j) b i).continuousAt).add_const (x.off i)
    exact hc.eventually (eta_dom_nhds (hb.mem i))
  exact this.mono fun c hc => adm_of hc

theorem quad_fderiv {S : Matrix (Fin p) (Fin p) ℝ} (h : S.PosSemidef) (b : Fin p → ℝ) :
    HasFDerivAt (fun c : Fin p → ℝ => c ⬝ᵥ (S *ᵥ c))
      (∑ a, (2 * (S *ᵥ b) a) • ContinuousLinearMap.proj (R := ℝ) (φ := fun _ : Fin p => ℝ) a) b := by
  have hp : ∀ a, HasFDerivAt (fun c : Fin p → ℝ => c a) (ContinuousLinearMap.proj (R := ℝ) (φ := fun _ : Fin p => ℝ) a) b :=
    fun a => (ContinuousLinearMap.proj (R := ℝ) (φ := fun _ : Fin p => ℝ) a).hasFDerivAt
  have h1 : HasFDerivAt (fun c : Fin p → ℝ => ∑ a, ∑ k, c a * (S a k * c k))
      (∑ a, ∑ k, (b a • (S a k • ContinuousLinearMap.proj (R := ℝ) (φ := fun _ : Fin p => ℝ) k) +
        (S a k * b k) • ContinuousLinearMap.proj (R := ℝ) (φ := fun _ : Fin p => ℝ) a)) b := by
    refine HasFDerivAt.fun_sum fun a _ => HasFDerivAt.fun_sum fun k _ => ?_
    exact (hp a).mul ((hp k).const_mul (S a k))
  have e : (fun c : Fin p → ℝ => c ⬝ᵥ (S *ᵥ c)) = fun c : Fin p → ℝ => ∑ a, ∑ k, c a * (S a k * c k) := by
    funext c
    simp only [dotProduct, Matrix.mulVec, Finset.mul_sum]
  rw [e]
  refine h1.congr_fderiv ?_
  ext v
  simp only [_root_.sum_apply, _root_.add_apply, _root_.smul_apply, ContinuousLinearMap.proj_apply, smul_eq_mul,
    Finset.sum_add_distrib]
  have e1 : ∑ a, ∑ k, b a * (S a k * v k) = ∑ a, (S *ᵥ b) a * v a := by
    rw [Finset.sum_comm]
    refine Finset.sum_congr rfl fun k _ => ?_
    simp only [Matrix.mulVec, dotProduct, Finset.sum_mul]
    refine Finset.sum_congr rfl fun a _ => ?_
    rw [psd_symm h a k]; ring
  have e2 : ∑ a, ∑ k, S a k * b k * v a = ∑ a, (S *ᵥ b) a * v a := by
    refine Finset.sum_congr rfl fun k _ => ?_
    simp only [Matrix.mulVec, dotProduct, Finset.sum_mul]
  rw [e1, e2, ← Finset.sum_add_distrib]
  exact Finset.sum_congr rfl fun a _ => by ring

theorem PR_fderiv {s : ℝ} (hg : Good x s) {b : Fin p → ℝ} (hb : Adm x b) :
    HasFDerivAt (PR x s) (∑ a, (G x b a / s) • ContinuousLinearMap.proj (R := ℝ) (φ := fun _ : Fin p => ℝ) a) b := by
  have h1 : HasFDerivAt (fun c => ∑ i, phi (x.fam i) x.lk (x.y i) s (eta x c i))
      (∑ i, (uR x b i / s) • (∑ j, x.X i j • ContinuousLinearMap.proj (R := ℝ) (φ := fun _ : Fin p => ℝ) j)) b := by
    refine HasFDerivAt.fun_sum fun i _ => ?_
    exact (phi_deriv (hg.obs i) hg.pos (hb.mem i) (hg.two i)).comp_hasFDerivAt b
      ((linpred_fderiv (fun i j => x.X i j) b i).add_const (x.off i))
  have h2 := (quad_fderiv hg.psd b).mul_const (1 / (2 * s))
  have h3 := h1.sub h2
  have e : (fun c => (∑ i, phi (x.fam i) x.lk (x.y i) s (eta x c i)) - c ⬝ᵥ (x.S *ᵥ c) * (1 / (2 * s))) = PR x s := by
    funext c
    unfold PR
    ring
  have h4 := h3.congr_of_eventuallyEq (f₁ := PR x s) (Filter.EventuallyEq.of_eq e.symm)
  refine h4.congr_fderiv ?_
  ext v
  simp only [_root_.sum_apply, _root_.sub_apply, _root_.smul_apply, ContinuousLinearMap.proj_apply, smul_eq_mul, G]
  have hs := hg.pos.ne'
  rw [Finset.mul_sum]
  have e1 : ∑ i, uR x b i / s * ∑ j, x.X i j * v j = ∑ a, (∑ i, uR x b i * x.X i a) / s * v a := by
    simp only [Finset.mul_sum, Finset.sum_div, Finset.sum_mul]
    rw [Finset.sum_comm]
    exact Finset.sum_congr rfl fun j _ => Finset.sum_congr rfl fun i _ => by ring
  rw [e1, ← Finset.sum_sub_distrib]
  refine Finset.sum_congr rfl fun a _ => ?_
  field_simp

theorem grad_pllk {s : ℝ} (hg : Good x s) {b : Fin p → ℝ} (hb : Adm x b) :
    HasFlGrad (pllk x s) (fun a => G x b a / s) b :=
  ⟨PR x s, (adm_nhds hb).mono fun _ hc => pllk_eq hg hc, PR_fderiv hg hb⟩

/-- Gradients are unique. -/
theorem grad_unique {f : (Fin p → ℝ) → Fl} {g g' b : Fin p → ℝ} (h : HasFlGrad f g b) (h' : HasFlGrad f g' b) : g = g' := by
  obtain ⟨F, hF, hd⟩ := h
  obtain ⟨F', hF', hd'⟩ := h'
  have e : F =ᶠ[𝓝 b] F' := by
    filter_upwards [hF, hF'] with c h1 h2
    rw [h1, fin_inj] at h2
    exact h2
  have := (hd.congr_of_eventuallyEq e.symm).unique hd'
  funext a
  have ha := congrArg (fun L => L (Pi.single a 1)) this
  simpa [_root_.sum_apply, _root_.smul_apply, Pi.single_apply, Finset.sum_ite_eq] using ha

theorem dot_G (x : In N p) (b v : Fin p → ℝ) : G x b ⬝ᵥ v = (∑ i, uR x b i * (x.X *ᵥ v) i) - v ⬝ᵥ (x.S *ᵥ b) := by
  unfold G
  simp only [dotProduct, sub_mul, Finset.sum_sub_distrib, Finset.sum_mul, Finset.mul_sum, Matrix.mulVec]
  rw [Finset.sum_comm]
  congr 1
  · exact Finset.sum_congr rfl fun j _ => Finset.sum_congr rfl fun i _ => by ring
  · exact Finset.sum_congr rfl fun j _ => Finset.sum_congr rfl fun i _ => by ring

/-- Expansion of the penalised log-likelihood: the remainder is a sum of squares weighted by Newton weights. -/
theorem PR_expand {s : ℝ} (hg : Good x s) {b v : Fin p → ℝ} (hb : Adm x b) (hv : Adm x (b + v)) :
    ∃ (c r : Fin N → ℝ), (∀ i, 0 < c i ∧ x.lk.fiR (r i) ∈ (x.fam i).dom) ∧
      PR x s (b + v) = PR x s b + (G x b ⬝ᵥ v) / s - (v ⬝ᵥ (x.S *ᵥ v)) / (2 * s) -
        ∑ i, aR (x.fam i) x.lk (x.y i) (x.lk.fiR (r i)) /
          (x.lk.d1R (x.lk.fiR (r i)) ^ 2 * (x.fam i).VR (x.lk.fiR (r i))) / s * c i * (x.X *ᵥ v) i ^ 2 := by
  have h : ∀ i, ∃ c r : ℝ, 0 < c ∧ x.lk.fiR r ∈ (x.fam i).dom ∧
      phi (x.fam i) x.lk (x.y i) s (eta x (b + v) i) = phi (x.fam i) x.lk (x.y i) s (eta x b i) +
        uF (x.fam i) x.lk (x.y i) (eta x b i) / s * (x.X *ᵥ v) i -
        aR (x.fam i) x.lk (x.y i) (x.lk.fiR r) / (x.lk.d1R (x.lk.fiR r) ^ 2 * (x.fam i).VR (x.lk.fiR r)) / s * c *
          (x.X *ᵥ v) i ^ 2 := by
    intro i
    have h1 := hv.mem i
    rw [eta_add] at h1 ⊢
    exact taylor (hg.obs i) hg.pos (hg.two i) (hb.mem i) h1
  choose c r hc hr he using h
  refine ⟨c, r, fun i => ⟨hc i, hr i⟩, ?_⟩
  unfold PR
  simp only [he, Finset.sum_add_distrib, Finset.sum_sub_distrib]
  have hq : (b + v) ⬝ᵥ (x.S *ᵥ (b + v)) = b ⬝ᵥ (x.S *ᵥ b) + 2 * (v ⬝ᵥ (x.S *ᵥ b)) + v ⬝ᵥ (x.S *ᵥ v) := by
    rw [Matrix.mulVec_add, add_dotProduct, dotProduct_add, dotProduct_add, dot_symm hg.psd b v]
    ring
  rw [hq, dot_G]
  have hs := hg.pos.ne'
  have e : ∑ i, uF (x.fam i) x.lk (x.y i) (eta x b i) / s * (x.X *ᵥ v) i = (∑ i, uR x b i * (x.X *ᵥ v) i) / s := by
    rw [Finset.sum_div]
    exact Finset.sum_congr rfl fun i _ => by unfold uR; ring
  rw [e]
  field_simp
  ring

theorem gram_quad {s : ℝ} (hg : Good x s) {b : Fin p → ℝ} (hb : Adm x b) (v : Fin p → ℝ) :
    v ⬝ᵥ (gram x b *ᵥ v) = (∑ i, wR x b i * (x.X *ᵥ v) i ^ 2) + v ⬝ᵥ (x.S *ᵥ v) := by
  have e : ∀ a, (gram x b *ᵥ v) a = (∑ i, wR x b i * x.X i a * (x.X *ᵥ v) i) + (x.S *ᵥ v) a := by
    intro a
    simp only [Matrix.mulVec, dotProduct, gram_eq hg hb, add_mul, Finset.sum_add_distrib, Finset.sum_mul, Finset.mul_sum]
    rw [Finset.sum_comm]
    congr 1
    refine Finset.sum_congr rfl fun i _ => Finset.sum_congr rfl fun c _ => by ring
  have e2 : v ⬝ᵥ (gram x b *ᵥ v) = ∑ a, v a * ((∑ i, wR x b i * x.X i a * (x.X *ᵥ v) i) + (x.S *ᵥ v) a) := by
    simp only [dotProduct, e]
  rw [e2]
  simp only [mul_add, Finset.sum_add_distrib, Finset.mul_sum]
  congr 1
  rw [Finset.sum_comm]
  refine Finset.sum_congr rfl fun i _ => ?_
  have e3 : (x.X *ᵥ v) i ^ 2 = (∑ a, x.X i a * v a) * (x.X *ᵥ v) i := by rw [sq]; rfl
  rw [e3, Finset.sum_mul, Finset.mul_sum]
  exact Finset.sum_congr rfl fun a _ => by ring

theorem psd_quad {S : Matrix (Fin p) (Fin p) ℝ} (h : S.PosSemidef) (v : Fin p → ℝ) : 0 ≤ v ⬝ᵥ (S *ᵥ v) := by
  simpa using h.dotProduct_mulVec_nonneg v

theorem pd_quad {S : Matrix (Fin p) (Fin p) ℝ} (h : S.PosDef) {v : Fin p → ℝ} (hv : v ≠ 0) : 0 < v ⬝ᵥ (S *ᵥ v) := by
  simpa using h.dotProduct_mulVec_pos hv

theorem PR_le {s : ℝ} (hg : Good x s) (hc : ∀ i, concave (x.fam i) x.lk) {b b' : Fin p → ℝ} (hb : Adm x b) (hb' : Adm x b')
    (h0 : G x b = 0) : PR x s b' ≤ PR x s b := by
  obtain ⟨v, rfl⟩ : ∃ v, b' = b + v := ⟨b' - b, by abel⟩
  obtain ⟨c, r, h1, h2⟩ := PR_expand hg hb hb'
  rw [h2, h0]
  have hs := hg.pos
  have e1 : 0 ≤ (v ⬝ᵥ (x.S *ᵥ v)) / (2 * s) := div_nonneg (psd_quad hg.psd v) (by positivity)
  have e2 : 0 ≤ ∑ i, aR (x.fam i) x.lk (x.y i) (x.lk.fiR (r i)) /
          (x.lk.d1R (x.lk.fiR (r i)) ^ 2 * (x.fam i).VR (x.lk.fiR (r i))) / s * c i * (x.X *ᵥ v) i ^ 2 := by
    refine Finset.sum_nonneg fun i _ => ?_
    have k1 := a_nonneg (hc i) (hg.obs i) (h1 i).2 (fi_mem x.lk _)
    have k2 := d1_pos (fi_mem x.lk (r i))
    have k3 := V_pos (ok_of_obs (hg.obs i)) (h1 i).2
    have k4 := (h1 i).1
    positivity
  rw [zero_dotProduct, zero_div]
  linarith

theorem PR_lt {s : ℝ} (hg : Good x s) (hc : ∀ i, strict (x.fam i) x.lk) {b b' : Fin p → ℝ} (hb : Adm x b) (hb' : Adm x b')
    (hM : (gram x b).PosDef) (h0 : G x b = 0) (hne : b' ≠ b) : PR x s b' < PR x s b := by
  obtain ⟨v, rfl⟩ : ∃ v, b' = b + v := ⟨b' - b, by abel⟩
  have hv : v ≠ 0 := fun h => hne (by rw [h, add_zero])
  obtain ⟨c, r, h1, h2⟩ := PR_expand hg hb hb'
  rw [h2, h0]
  have hs := hg.pos
  have e1 : 0 ≤ (v ⬝ᵥ (x.S *ᵥ v)) / (2 * s) := div_nonneg (psd_quad hg.psd v) (by positivity)
  have hw : ∀ i, 0 < aR (x.fam i) x.lk (x.y i) (x.lk.fiR (r i)) /
          (x.lk.d1R (x.lk.fiR (r i)) ^ 2 * (x.fam i).VR (x.lk.fiR (r i))) / s * c i := by
    intro i
    have k1 := a_pos (hc i) (hg.obs i) (h1 i).2
    have k2 := d1_pos (fi_mem x.lk (r i))
    have k3 := V_pos (ok_of_obs (hg.obs i)) (h1 i).2
    have k4 := (h1 i).1
    positivity
  have e2 : ∀ i, 0 ≤ aR (x.fam i) x.lk (x.y i) (x.lk.fiR (r i)) /
          (x.lk.d1R (x.lk.fiR (r i)) ^ 2 * (x.fam i).VR (x.lk.fiR (r i))) / s * c i * (x.X *ᵥ v) i ^ 2 :=
    fun i => mul_nonneg (hw i).le (sq_nonneg _)
  have e3 := Finset.sum_nonneg fun i (_ : i ∈ Finset.univ) => e2 i
  rw [zero_dotProduct, zero_div]
  by_contra hcon
  have z1 : (v ⬝ᵥ (x.S *ᵥ v)) / (2 * s) = 0 := by linarith
  have z2 : ∑ i, aR (x.fam i) x.lk (x.y i) (x.lk.fiR (r i)) /
          (x.lk.d1R (x.lk.fiR (r i)) ^ 2 * (x.fam i).VR (x.lk.fiR (r i))) / s * c i * (x.X *ᵥ v) i ^ 2 = 0 := by linarith
  rw [Finset.sum_eq_zero_iff_of_nonneg fun i _ => e2 i] at z2
  have z3 : ∀ i, (x.X *ᵥ v) i ^ 2 = 0 := fun i => (mul_eq_zero.1 (z2 i (Finset.mem_univ i))).resolve_left (hw i).ne'
  have z4 : v ⬝ᵥ (x.S *ᵥ v) = 0 := (div_eq_zero_iff.1 z1).resolve_right (by positivity)
  have := pd_quad hM hv
  rw [gram_quad hg hb, z4] at this
  simp only [z3, mul_zero, Finset.sum_const_zero, add_zero, lt_irrefl] at this

/-! ### Step control -/

/-- Coefficients after `k` halvings of the step from `b` to `next b`. -/
noncomputable def half (b n : Fin p → ℝ) (k : ℕ) : Fin p → ℝ := b + (1 / 2 ^ k : ℝ) • (n - b)

theorem half_zero (b n : Fin p → ℝ) : half b n 0 = n := by
  unfold half; simp

theorem mid_half (b n : Fin p → ℝ) (k : ℕ) : Step.mid b (half b n k) = half b n (k + 1) := by
  unfold Step.mid half
  funext a
  simp only [Pi.smul_apply, Pi.add_apply, Pi.sub_apply, smul_eq_mul]
  rw [pow_succ]
  field_simp
  ring

open Classical in
theorem coefLoop_first {E M : Type} (P : Step.Prob (Fin p → ℝ) E M) (b n : Fin p → ℝ) (c : Fl) :
    ∀ (fuel k : ℕ), fuel + k = 34 → k ≤ 31 →
      ∃ r, Step.coefLoop P b c fuel k (Step.evalAt P (half b n k)) = some r ∧
        ((∃ j, k ≤ j ∧ j ≤ 31 ∧ r = Step.evalAt P (half b n j) ∧ Step.NotWorse r.pen c ∧
            ∀ i, k ≤ i → i < j → ¬ Step.NotWorse (Step.evalAt P (half b n i)).pen c) ∨
          (r.n = b ∧ ∀ i, k ≤ i → i ≤ 31 → ¬ Step.NotWorse (Step.evalAt P (half b n i)).pen c)) := by
  have hnw : ∀ s : Fl, (Step.Gt s c ∨ ¬ s.IsFin) → ¬ Step.NotWorse s c := by
    rintro s h ⟨a, rfl, h2⟩
    rcases h with h | h
    · rcases h2 with rfl | rfl | ⟨d, rfl, h3⟩
      · exact h
      · exact h
      · exact absurd h3 (not_le.2 h)
    · exact h trivial
  intro fuel
  induction fuel with
  | zero => intro k h1 h2; omega
  | succ fuel ih =>
    intro k h1 h2
    rw [Step.coefLoop]
    by_cases hc : Step.Gt (Step.evalAt P (half b n k)).pen c ∨ ¬(Step.evalAt P (half b n k)).pen.IsFin
    · rw [if_pos hc]
      dsimp only
      rw [if_neg (by omega : ¬ k > 31)]
      by_cases hk : k > 30
      · rw [if_pos hk, Step.mid_self]
        obtain rfl : k = 31 := by omega
        obtain rfl : fuel = 2 := by omega
        refine ⟨Step.evalAt P b, ?_, Or.inr ⟨rfl, fun i h3 h4 => ?_⟩⟩
        · rw [Step.coefLoop]
          by_cases hc2 : Step.Gt (Step.evalAt P b).pen c ∨ ¬(Step.evalAt P b).pen.IsFin
          · rw [if_pos hc2]
            rfl
          · rw [if_neg hc2]
        · obtain rfl : i = 31 := by omega
          exact hnw _ hc
      · rw [if_neg hk]
        have e : Step.mid b (Step.evalAt P (half b n k)).n = half b n (k + 1) := mid_half b n k
        rw [e]
        obtain ⟨r, h3, h4⟩ := ih (k + 1) (by omega) (by omega)
        refine ⟨r, h3, ?_⟩
        rcases h4 with ⟨j, j1, j2, j3, j4, j5⟩ | ⟨h4, h5⟩
        · refine Or.inl ⟨j, by omega, j2, j3, j4, fun i i1 i2 => ?_⟩
          rcases Nat.eq_or_lt_of_le i1 with rfl | i1
          · exact hnw _ hc
          · exact j5 i (by omega) i2
        · refine Or.inr ⟨h4, fun i i1 i2 => ?_⟩
          rcases Nat.eq_or_lt_of_le i1 with rfl | i1
          · exact hnw _ hc
          · exact h5 i (by omega) i2
    · rw [if_neg hc]
      exact ⟨_, rfl, Or.inl ⟨k, le_rfl, h2, rfl, Step.notWorse_of _ _ hc, fun i i1 i2 => by omega⟩⟩

/-! ### Penalised deviance and penalised log-likelihood -/

theorem pen_eq {s : ℝ} (hg : Good x s) : ∃ K : ℝ, ∀ b, Adm x b → (Step.evalAt (prob x) b).pen = fin (K - 2 * s * PR x s b) := by
  classical
  refine ⟨∑ i, 2 * s * ((x.fam i).lR (x.y i) (x.y i) s + (x.fam i).cR (x.y i) s), fun b hb => ?_⟩
  have hd : (prob x).devF ((prob x).muF ((prob x).etaF b)) =
      fin (∑ i, 2 * s * ((x.fam i).lR (x.y i) (x.y i) s - (x.fam i).lR (x.y i) (x.lk.fiR (eta x b i)) s)) := by
    rw [← sum_fin]
    show Fl.sum (fun i => if x.lk.fi (fin (eta x b i)) = .nan then fin 0 else
      (x.fam i).D (fin (x.y i)) (x.lk.fi (fin (eta x b i)))) = _
    congr 1
    funext i
    rw [fi_eq, if_neg (by simp), D_eq (hg.obs i) hg.pos (hb.mem i) (hg.two i)]
  have hp : (Step.evalAt (prob x) b).pen = (prob x).devF ((prob x).muF ((prob x).etaF b)) + fin (b ⬝ᵥ (x.S *ᵥ b)) := rfl
  rw [hp, hd, fin_add, fin_inj]
  unfold PR phi
  have hs := hg.pos.ne'
  rw [mul_sub, ← sub_add, Finset.mul_sum, ← Finset.sum_sub_distrib]
  congr 1
  · exact Finset.sum_congr rfl fun i _ => by ring
  · field_simp

theorem notWorse_iff {s : ℝ} (hg : Good x s) {b b' : Fin p → ℝ} (hb : Adm x b) (hb' : Adm x b') :
    Step.NotWorse (Step.evalAt (prob x) b').pen (Step.evalAt (prob x) b).pen ↔ PR x s b ≤ PR x s b' := by
  obtain ⟨K, hK⟩ := pen_eq hg
  rw [hK b hb, hK b' hb']
  have hs := hg.pos
  constructor
  · rintro ⟨a, h1, h2 | h2 | ⟨c, h2, h3⟩⟩
    · cases h2
    · cases h2
    · rw [fin_inj] at h1 h2
      rw [← h1, ← h2] at h3
      have : 2 * s * PR x s b ≤ 2 * s * PR x s b' := by linarith
      exact le_of_mul_le_mul_left this (by positivity)
  · intro h
    refine ⟨_, rfl, Or.inr (Or.inr ⟨_, rfl, ?_⟩)⟩
    have : 2 * s * PR x s b ≤ 2 * s * PR x s b' := mul_le_mul_of_nonneg_left h (by positivity)
    linarith

/-- What a pass does. -/
theorem pass_cases (x : In N p) (b : Fin p → ℝ) :
    (∃ j, j ≤ 31 ∧ pass x b = half b (next x b) j ∧
      Step.NotWorse (Step.evalAt (prob x) (pass x b)).pen (Step.evalAt (prob x) b).pen ∧
      ∀ i, i < j → ¬ Step.NotWorse (Step.evalAt (prob x) (half b (next x b) i)).pen (Step.evalAt (prob x) b).pen) ∨
    (pass x b = b ∧ ∀ i, i ≤ 31 →
      ¬ Step.NotWorse (Step.evalAt (prob x) (half b (next x b) i)).pen (Step.evalAt (prob x) b).pen) := by
  obtain ⟨r, h1, h2⟩ := coefLoop_first (prob x) b (next x b) (Step.evalAt (prob x) b).pen 34 0 rfl (by norm_num)
  have hp : pass x b = r.n := by
    unfold pass accept
    rw [half_zero] at h1
    rw [h1]
  rcases h2 with ⟨j, _, j2, j3, j4, j5⟩ | ⟨h2, h3⟩
  · have e : pass x b = half b (next x b) j := by rw [hp, j3]; rfl
    refine Or.inl ⟨j, j2, e, ?_, fun i hi => j5 i zero_le hi⟩
    rw [e, ← j3]
    exact j4
  · exact Or.inr ⟨by rw [hp, h2], fun i hi => h3 i zero_le hi⟩

/-! ### Identifiability -/

/-- No direction is invisible to both data and penalty. -/
def Ident (x : In N p) : Prop := ∀ v : Fin p → ℝ, (∀ i, ∑ j, x.X i j * v j = 0) → ∑ a, ∑ c, v a * x.S a c * v c = 0 → v = 0

theorem gram_posdef {s : ℝ} (hg : Good x s) (hi : Ident x) {b : Fin p → ℝ} (hb : Adm x b) : (gram x b).PosDef := by
  refine Matrix.PosDef.of_dotProduct_mulVec_pos ?_ ?_
  · ext a c
    simp only [Matrix.conjTranspose_apply, star_trivial]
    rw [gram_eq hg hb, gram_eq hg hb, psd_symm hg.psd a c]
    congr 1
    exact Finset.sum_congr rfl fun i _ => by ring
  · intro v hv
    have e : star v ⬝ᵥ (gram x b *ᵥ v) = (∑ i, wR x b i * (x.X *ᵥ v) i ^ 2) + v ⬝ᵥ (x.S *ᵥ v) := gram_quad hg hb v
    rw [e]
    have h1 : ∀ i, 0 ≤ wR x b i * (x.X *ᵥ v) i ^ 2 := fun i => mul_nonneg (wR_pos hg hb i).le (sq_nonneg _)
    have h2 := psd_quad hg.psd v
    have h3 := Finset.sum_nonneg fun i (_ : i ∈ Finset.univ) => h1 i
    rcases (add_nonneg h3 h2).lt_or_eq with h | h
    · exact h
    · exfalso
      apply hv
      have z1 : ∑ i, wR x b i * (x.X *ᵥ v) i ^ 2 = 0 := by linarith
      rw [Finset.sum_eq_zero_iff_of_nonneg fun i _ => h1 i] at z1
      refine hi v (fun i => ?_) (by rw [quad_eq]; linarith)
      have := (mul_eq_zero.1 (z1 i (Finset.mem_univ i))).resolve_left (wR_pos hg hb i).ne'
      exact pow_eq_zero_iff (two_ne_zero) |>.1 this

/-! ### Continuity -/

theorem fi_cont (lk : LinkKind) (e : ℝ) : ContinuousAt lk.fiR e := (fiR_deriv lk e).continuousAt

theorem eta_cont (b : Fin p → ℝ) (i : Fin N) : ContinuousAt (fun c => eta x c i) b :=
  ((linpred_fderiv (fun i j => x.X i j) b i).continuousAt).add_const (x.off i)

theorem uR_cont {s : ℝ} (hg : Good x s) {b : Fin p → ℝ} (hb : Adm x b) (i : Fin N) : ContinuousAt (fun c => uR x c i) b :=
  ContinuousAt.comp (g := uF (x.fam i) x.lk (x.y i)) (uF_deriv (ok_of_obs (hg.obs i)) (hb.mem i)).continuousAt (eta_cont b i)

theorem wR_cont {s : ℝ} (hg : Good x s) {b : Fin p → ℝ} (hb : Adm x b) (i : Fin N) : ContinuousAt (fun c => wR x c i) b := by
  have h1 := d1_pos (fi_mem x.lk (eta x b i))
  have h3 := V_pos (ok_of_obs (hg.obs i)) (hb.mem i)
  have hm : ContinuousAt (fun c => x.lk.fiR (eta x c i)) b :=
    ContinuousAt.comp (g := x.lk.fiR) (fi_cont x.lk (eta x b i)) (eta_cont b i)
  have hd : ContinuousAt (fun c => x.lk.d1R (x.lk.fiR (eta x c i))) b :=
    ContinuousAt.comp (g := x.lk.d1R) (d1R_deriv (fi_mem x.lk (eta x b i))).continuousAt hm
  have hv : ContinuousAt (fun c => (x.fam i).VR (x.lk.fiR (eta x c i))) b :=
    ContinuousAt.comp (g := (x.fam i).VR) (VR_deriv (x.fam i) _).continuousAt hm
  exact continuousAt_const.div ((hd.pow 2).mul hv) (by positivity)

theorem G_cont {s : ℝ} (hg : Good x s) {b : Fin p → ℝ} (hb : Adm x b) (a : Fin p) : ContinuousAt (fun c => G x c a) b := by
  unfold G
  refine ContinuousAt.sub ?_ ?_
  · exact tendsto_finsetSum _ fun i _ => (uR_cont hg hb i).mul continuousAt_const
  · have : Continuous fun c : Fin p → ℝ => (x.S *ᵥ c) a := by
      simp only [Matrix.mulVec, dotProduct]
      fun_prop
    exact this.continuousAt

/-- Limits of accepted coefficients are stationary, unless the step control gave up. -/
theorem limit_G {s : ℝ} (hg : Good x s) (hi : Ident x) {b : ℕ → Fin p → ℝ} {l : Fin p → ℝ} (hb : ∀ k, Adm x (b k)) (hl : Adm x l)
    (ht : Tendsto b atTop (𝓝 l))
    (hs : ∀ k, ∃ j, j ≤ 31 ∧ b (k + 1) = half (b k) (next x (b k)) j) : G x l = 0 := by
  choose j hj he using hs
  have hstep : ∀ k, G x (b k) = gram x (b k) *ᵥ ((2 : ℝ) ^ j k • (b (k + 1) - b k)) := by
    intro k
    rw [← gram_step hg (hb k) (gram_posdef hg hi (hb k))]
    congr 1
    rw [he k]
    unfold half
    rw [add_sub_cancel_left, smul_smul]
    rw [mul_one_div_cancel (by positivity), one_smul]
  have hdiff : Tendsto (fun k => b (k + 1) - b k) atTop (𝓝 0) := by
    have := ((tendsto_add_atTop_iff_nat 1).2 ht).sub ht
    simpa using this
  have hd0 : Tendsto (fun k => (2 : ℝ) ^ j k • (b (k + 1) - b k)) atTop (𝓝 0) := by
    rw [tendsto_pi_nhds] at hdiff ⊢
    intro a
    have h1 := (hdiff a).abs.const_mul ((2 : ℝ) ^ 31)
    simp only [Pi.zero_apply, abs_zero, mul_zero] at h1
    refine squeeze_zero_norm (fun k => ?_) h1
    rw [Pi.smul_apply, smul_eq_mul, norm_mul, Real.norm_eq_abs, Real.norm_eq_abs, abs_of_pos (by positivity : (0 : ℝ) < 2 ^ j k)]
    exact mul_le_mul_of_nonneg_right (pow_le_pow_right₀ (by norm_num) (hj k)) (abs_nonneg _)
  funext a
  have t1 : Tendsto (fun k => G x (b k) a) atTop (𝓝 (G x l a)) := (G_cont hg hl a).tendsto.comp ht
  have t2 : Tendsto (fun k => G x (b k) a) atTop (𝓝 0) := by
    have e : (fun k => G x (b k) a) = fun k => ∑ c, ((∑ i, wR x (b k) i * x.X i a * x.X i c) + x.S a c) *
        ((2 : ℝ) ^ j k • (b (k + 1) - b k)) c := by
      funext k
      rw [hstep k]
      simp only [Matrix.mulVec, dotProduct, gram_eq hg (hb k)]
    rw [e]
    have : Tendsto (fun k => ∑ c, ((∑ i, wR x (b k) i * x.X i a * x.X i c) + x.S a c) *
        ((2 : ℝ) ^ j k • (b (k + 1) - b k)) c) atTop
        (𝓝 (∑ c, ((∑ i, wR x l i * x.X i a * x.X i c) + x.S a c) * (0 : Fin p → ℝ) c)) := by
      refine tendsto_finsetSum _ fun c _ => Tendsto.mul ?_ (tendsto_pi_nhds.1 hd0 c)
      refine Tendsto.add_const _ (tendsto_finsetSum _ fun i _ => ?_)
      exact (((wR_cont hg hl i).tendsto.comp ht).mul_const _).mul_const _
    simpa using this
  exact tendsto_nhds_unique t1 t2

end Verif.Pirls
