import Verif.MulExist
import Verif.Conv

/-!
# C152: what Newton iterations of hazard and multinomial models converge to

Model: `LmlModel` (`iter`, `step`; gamm_solvers.py `update_coef_gen_smooth`, `update_coef_gammlss`).
-/

namespace Verif.NCv
open Verif Matrix Filter Topology Lml Coef

variable {p : ℕ} {x : In p} {F : (Fin p → ℝ) → ℝ}

/-- A model whose penalised log-likelihood `F` has a negative definite Hessian everywhere. -/
structure Nice (x : In p) (F : (Fin p → ℝ) → ℝ) : Prop where
  val : ∀ c, pllk x c = Fl.fin (F c)
  reg : ∀ c, Reg x c
  pd : ∀ c v, v ≠ 0 → 0 < v ⬝ᵥ (-x.hess c + x.S) *ᵥ v
  gcont : ∀ c, ContinuousAt x.grad c
  hcont : ∀ c, ContinuousAt x.hess c
  fcont : Continuous F

/-! ### Proposals -/

theorem step_eq (h : Nice x F) (c : Fin p → ℝ) : (-x.hess c + x.S) *ᵥ (step x c - c) = x.grad c - x.S *ᵥ c := by
  obtain ⟨-, -, h1⟩ := step_solves (h.reg c)
  have he : eps x c = 0 := by
    obtain ⟨o, ⟨fuel, ho⟩, -, h2⟩ := step_newtons (h.reg c)
    obtain ⟨-, -, -, a4, -⟩ := Newton.newton_correct x.chol (h.reg c).chol fuel c _ _ _ (h.reg c).diag o ho
    rw [h2]
    exact a4 ((h.reg c).hsym.neg.add (h.reg c).ssym) (h.pd c)
  unfold sysM at h1
  rwa [he, zero_smul, add_zero] at h1

theorem det_ne (h : Nice x F) (c : Fin p → ℝ) : (-x.hess c + x.S).det ≠ 0 := by
  intro h0
  obtain ⟨v, hv, hz⟩ := exists_mulVec_eq_zero_iff.2 h0
  have := h.pd c v hv
  rw [hz, dotProduct_zero] at this
  exact lt_irrefl _ this

/-- Proposals depend continuously on the coefficients. -/
theorem step_cont (h : Nice x F) (c : Fin p → ℝ) : ContinuousAt (step x) c := by
  have e : step x = fun c => c + ((-x.hess c + x.S).det)⁻¹ • ((-x.hess c + x.S).adjugate *ᵥ (x.grad c - x.S *ᵥ c)) := by
    funext c
    rw [← step_eq h, mulVec_mulVec, adjugate_mul, smul_mulVec, one_mulVec, smul_smul, inv_mul_cancel₀ (det_ne h c), one_smul, add_sub_cancel]
  rw [e]
  have hm : ContinuousAt (fun c => -x.hess c + x.S) c := (h.hcont c).neg.add continuousAt_const
  have hdc : ContinuousAt (fun c => (-x.hess c + x.S).det) c := (Continuous.matrix_det continuous_id).continuousAt.comp hm
  have hac : ContinuousAt (fun c => (-x.hess c + x.S).adjugate) c := (Continuous.matrix_adjugate continuous_id).continuousAt.comp hm
  have hgc : ContinuousAt (fun c => x.grad c - x.S *ᵥ c) c := (h.gcont c).sub (Continuous.continuousAt (by
    refine continuous_pi fun i => ?_
    simp only [mulVec, dotProduct]
    fun_prop))
  refine continuousAt_id.add (ContinuousAt.smul (f := fun c => ((-x.hess c + x.S).det)⁻¹) (hdc.inv₀ (det_ne h c)) ?_)
  refine continuousAt_pi.2 fun a => ?_
  show ContinuousAt (fun c => ∑ i, (-x.hess c + x.S).adjugate a i * (x.grad c - x.S *ᵥ c) i) c
  exact tendsto_finsetSum _ fun i _ => ((continuousAt_pi.1 (continuousAt_pi.1 hac a) i)).mul (continuousAt_pi.1 hgc i)

/-! ### Iterations -/

/-- Newton iterations whose step control finds a step unless there is nothing left to do. -/
def Goes (C : Cfg) (x : In p) (c : Fin p → ℝ) : Prop :=
  C.grad = false ∧ Calm C (ext x) ∧ ∀ k, (iter C x c (k + 1)).coef = (iter C x c k).coef → step x (iter C x c k).coef = (iter C x c k).coef

variable {C : Cfg} {c : Fin p → ℝ}

theorem prop_eq (hg : C.grad = false) (s : Coef.S (Fin p → ℝ) (Matrix (Fin p) (Fin p) ℝ)) : proposal C (ext x) s = step x s.coef := by
  unfold proposal
  rw [hg]
  rfl

theorem Goes.half (h : Nice x F) (hG : Goes C x c) (k : ℕ) :
    ∃ j : Fin 32, (iter C x c (k + 1)).coef = half (iter C x c k).coef (step x (iter C x c k).coef) j := by
  rcases iteration_longest C hG.2.1 c k (h.val _) with ⟨j, h1, v, h2, -⟩ | ⟨h1, -⟩
  · rw [prop_eq hG.1] at h2
    exact ⟨⟨j, by omega⟩, h2⟩
  · exact ⟨0, by rw [hG.2.2 k h1, h1]; simp [Lml.half]⟩

theorem mono (h : Nice x F) (hC : Calm C (ext x)) (c : Fin p → ℝ) : Monotone fun k => F (iter C x c k).coef := by
  refine monotone_nat_of_le_succ fun k => ?_
  rcases iteration_longest C hC c k (h.val _) with ⟨j, -, v, -, h1, h2, -⟩ | ⟨h1, -⟩
  · rw [h.val] at h1
    rw [Fl.fin_inj.1 h1]
    exact h2
  · rw [h1]

/-- Near a cluster point some step length is used again and again. -/
theorem cluster (h : Nice x F) (hG : Goes C x c) {l : Fin p → ℝ} {φ : ℕ → ℕ} (hφ : StrictMono φ)
    (ht : Tendsto (fun k => (iter C x c (φ k)).coef) atTop (𝓝 l)) :
    ∃ (j : Fin 32) (ψ : ℕ → ℕ), StrictMono ψ ∧ Tendsto (fun k => (iter C x c (ψ k)).coef) atTop (𝓝 l) ∧
      Tendsto (fun k => (iter C x c (ψ k + 1)).coef) atTop (𝓝 (half l (step x l) j)) := by
  choose J hJ using hG.half h
  have hfr : ∃ j : Fin 32, ∃ᶠ k in atTop, J (φ k) = j := by
    by_contra hcon
    push Not at hcon
    have h1 : ∀ᶠ k in atTop, ∀ j : Fin 32, J (φ k) ≠ j := by
      rw [eventually_all]
      intro j
      exact hcon j
    obtain ⟨k, hk⟩ := h1.exists
    exact hk _ rfl
  obtain ⟨j, hj⟩ := hfr
  obtain ⟨χ, hχ, hχj⟩ := extraction_of_frequently_atTop hj
  have ht' : Tendsto (fun k => (iter C x c (φ (χ k))).coef) atTop (𝓝 l) := ht.comp hχ.tendsto_atTop
  refine ⟨j, φ ∘ χ, hφ.comp hχ, ht', ?_⟩
  have e : (fun k => (iter C x c ((φ ∘ χ) k + 1)).coef) =
      fun k => half (iter C x c (φ (χ k))).coef (step x (iter C x c (φ (χ k))).coef) j := by
    funext k
    rw [hJ, Function.comp_apply, hχj k]
  rw [e]
  have hn : Tendsto (fun k => step x (iter C x c (φ (χ k))).coef) atTop (𝓝 (step x l)) := (step_cont h l).tendsto.comp ht'
  exact ht'.add ((hn.sub ht').const_smul _)

/-- The iterations approach coefficients, not a resting point, from which one of the steps tried leaves the penalised log-likelihood exactly as it is. -/
def Ties (C : Cfg) (x : In p) (c : Fin p → ℝ) : Prop :=
  ∃ (l : Fin p → ℝ) (φ : ℕ → ℕ) (j : ℕ) (u : ℝ), StrictMono φ ∧ Tendsto (fun k => (iter C x c (φ k)).coef) atTop (𝓝 l) ∧ j ≤ 31 ∧ step x l ≠ l ∧
    pllk x l = Fl.fin u ∧ pllk x (l + (1 / 2 ^ j : ℝ) • (step x l - l)) = Fl.fin u

theorem ties (h : Nice x F) (hG : Goes C x c) {l : Fin p → ℝ} {φ : ℕ → ℕ} (hφ : StrictMono φ)
    (ht : Tendsto (fun k => (iter C x c (φ k)).coef) atTop (𝓝 l)) (hne : step x l ≠ l) : Ties C x c := by
  obtain ⟨j, ψ, hψ, h1, h2⟩ := cluster h hG hφ ht
  refine ⟨l, φ, j, F l, hφ, ht, by omega, hne, h.val l, ?_⟩
  rw [h.val, Fl.fin_inj]
  have t1 : Tendsto (fun k => F (iter C x c (ψ k)).coef) atTop (𝓝 (F l)) := (h.fcont.tendsto l).comp h1
  have t2 : Tendsto (fun k => F (iter C x c (ψ k + 1)).coef) atTop (𝓝 (F (half l (step x l) j))) := (h.fcont.tendsto _).comp h2
  rcases tendsto_atTop_of_monotone (mono h hG.2.1 c) with hL | ⟨L, hL⟩
  · exact absurd t1 (not_tendsto_nhds_of_tendsto_atTop (hL.comp hψ.tendsto_atTop) _)
  · have t3 := tendsto_nhds_unique t1 (hL.comp hψ.tendsto_atTop)
    have t4 := tendsto_nhds_unique t2 (((tendsto_add_atTop_iff_nat 1).2 hL).comp hψ.tendsto_atTop)
    rw [t3]
    exact t4

/-- If the coefficients change less and less, every cluster point is a resting point. -/
theorem cluster_fixed (h : Nice x F) (hG : Goes C x c) (hd : Tendsto (fun k => (iter C x c (k + 1)).coef - (iter C x c k).coef) atTop (𝓝 0))
    {l : Fin p → ℝ} {φ : ℕ → ℕ} (hφ : StrictMono φ) (ht : Tendsto (fun k => (iter C x c (φ k)).coef) atTop (𝓝 l)) : step x l = l := by
  obtain ⟨j, ψ, hψ, h1, h2⟩ := cluster h hG hφ ht
  have h3 : Tendsto (fun k => (iter C x c (ψ k + 1)).coef) atTop (𝓝 (0 + l)) := by
    have := (hd.comp hψ.tendsto_atTop).add h1
    refine this.congr fun k => ?_
    simp
  rw [zero_add] at h3
  exact Conv.half_eq (j := j) (tendsto_nhds_unique h2 h3)

/-- A function below one that grows in every direction: its level sets are bounded. -/
theorem grows {f T : (Fin p → ℝ) → ℝ} (hT : Continuous T) (hle : ∀ c, f c ≤ -T c)
    (hsc : ∀ (c : Fin p → ℝ) (t : ℝ), 1 ≤ t → t * T c ≤ T (t • c)) (hpos : ∀ c, c ≠ 0 → 0 < T c) : ∃ m > 0, ∀ c, 1 ≤ ‖c‖ → f c ≤ -(m * ‖c‖) := by
  have hm : ∃ m : ℝ, 0 < m ∧ ∀ u ∈ Metric.sphere (0 : Fin p → ℝ) 1, m ≤ T u := by
    rcases (Metric.sphere (0 : Fin p → ℝ) 1).eq_empty_or_nonempty with h | h
    · exact ⟨1, one_pos, fun u hu => by rw [h] at hu; exact hu.elim⟩
    · obtain ⟨u, hu, hmin⟩ := (isCompact_sphere (0 : Fin p → ℝ) 1).exists_isMinOn h hT.continuousOn
      refine ⟨T u, hpos u fun h0 => ?_, fun v hv => hmin hv⟩
      rw [h0] at hu
      simp at hu
  obtain ⟨m, hm0, hm⟩ := hm
  refine ⟨m, hm0, fun c hc => ?_⟩
  have hb0 : 0 < ‖c‖ := by linarith
  have hu : ‖c‖⁻¹ • c ∈ Metric.sphere (0 : Fin p → ℝ) 1 := by
    rw [mem_sphere_zero_iff_norm, norm_smul, norm_inv, norm_norm, inv_mul_cancel₀ hb0.ne']
  have h1 := hsc (‖c‖⁻¹ • c) _ hc
  rw [smul_smul, mul_inv_cancel₀ hb0.ne', one_smul] at h1
  have h2 := mul_le_mul_of_nonneg_left (hm _ hu) hb0.le
  have := hle c
  linarith

theorem bounded_of (h : Nice x F) (hC : Calm C (ext x)) {m : ℝ} (hm : 0 < m) (hgr : ∀ c, 1 ≤ ‖c‖ → F c ≤ -(m * ‖c‖)) (c : Fin p → ℝ) :
    ∃ R, ∀ k, ‖(iter C x c k).coef‖ ≤ R := by
  refine ⟨max 1 (-F c / m), fun k => ?_⟩
  by_contra hcon
  rw [not_le, max_lt_iff, div_lt_iff₀ hm] at hcon
  have h1 := hgr _ hcon.1.le
  have h2 := mono h hC c (Nat.zero_le k)
  have h3 : F c ≤ F (iter C x c k).coef := h2
  linarith [hcon.2]

theorem conv_of (h : Nice x F) (hG : Goes C x c) (hu : ∃! e, step x e = e) {R : ℝ} (hR : ∀ k, ‖(iter C x c k).coef‖ ≤ R) :
    (∃ e, step x e = e ∧ Tendsto (fun k => (iter C x c k).coef) atTop (𝓝 e)) ∨ Ties C x c := by
  obtain ⟨e, he, hu⟩ := hu
  by_cases hall : ∀ l (φ : ℕ → ℕ), StrictMono φ → Tendsto (fun k => (iter C x c (φ k)).coef) atTop (𝓝 l) → step x l = l
  · exact Or.inl ⟨e, he, Conv.tendsto_only hR fun l φ hφ hl => hu l (hall l φ hφ hl)⟩
  · push Not at hall
    obtain ⟨l, φ, hφ, hl, hne⟩ := hall
    exact Or.inr (ties h hG hφ hl hne)

theorem conv_partial_of (h : Nice x F) (hG : Goes C x c) (hu : ∃! e, step x e = e) {R : ℝ} (hR : ∀ k, ‖(iter C x c k).coef‖ ≤ R)
    (hd : Tendsto (fun k => (iter C x c (k + 1)).coef - (iter C x c k).coef) atTop (𝓝 0)) :
    ∃ e, step x e = e ∧ Tendsto (fun k => (iter C x c k).coef) atTop (𝓝 e) := by
  obtain ⟨e, he, hu⟩ := hu
  exact ⟨e, he, Conv.tendsto_only hR fun l φ hφ hl => hu l (cluster_fixed h hG hd hφ hl)⟩

theorem div_of (h : Nice x F) (hG : Goes C x c) (hno : ∀ e, step x e ≠ e) :
    Tendsto (fun k => ‖(iter C x c k).coef‖) atTop atTop ∨ Ties C x c := by
  by_cases hcon : Tendsto (fun k => ‖(iter C x c k).coef‖) atTop atTop
  · exact Or.inl hcon
  · rw [tendsto_atTop] at hcon
    push Not at hcon
    obtain ⟨R, hR⟩ := hcon
    obtain ⟨χ, hχ, hχR⟩ := extraction_of_frequently_atTop hR
    obtain ⟨l, -, φ, hφ, hl⟩ := (isCompact_closedBall (0 : Fin p → ℝ) R).tendsto_subseq (x := fun k => (iter C x c (χ k)).coef) fun k => by
      rw [mem_closedBall_zero_iff]
      exact (hχR k).le
    exact Or.inr (ties h hG (hχ.comp hφ) hl (hno l))

theorem no_limit_of (h : Nice x F) (hG : Goes C x c) (hno : ∀ e, step x e ≠ e) (l : Fin p → ℝ) :
    ¬Tendsto (fun k => (iter C x c k).coef) atTop (𝓝 l) := by
  intro ht
  have hd : Tendsto (fun k => (iter C x c (k + 1)).coef - (iter C x c k).coef) atTop (𝓝 0) := by
    have := ((tendsto_add_atTop_iff_nat 1).2 ht).sub ht
    simpa using this
  exact hno l (cluster_fixed h hG hd strictMono_id ht)

/-! ### Proportional hazards -/

section Haz
variable {n nt : ℕ} {ut : ℕ → ℝ} {r delta : Fin n → ℕ} {X : Fin n → Fin p → ℝ} {S : Matrix (Fin p) (Fin p) ℝ}
  {chol : Matrix (Fin p) (Fin p) ℝ → Option (Matrix (Fin p) (Fin p) ℝ × Equiv.Perm (Fin p))} {noise : ℕ → Fin p → ℝ}

theorem haz_nice (h : Haz.Data nt ut r) (hch : Newton.CholSpec chol) (hS : S.PosSemidef) (hi : HEx.Ident ut r delta X S) :
    Nice (hazIn nt r delta X S chol noise) fun c => Haz.llk nt r delta X c - 1 / 2 * (c ⬝ᵥ S *ᵥ c) where
  val := fun c => by
    rw [← quad_eq]
    exact Fl.fin_sub _ _
  reg := HEx.reg h hch hS hi
  pd := fun c v hv => by
    have := HEx.curve_neg h hS hi c hv
    rw [add_mulVec, dotProduct_add, neg_mulVec, dotProduct_neg]
    have e : v ⬝ᵥ (hazIn nt r delta X S chol noise).hess c *ᵥ v = ∑ k, ∑ l, v k * Haz.hessian nt r delta X c k l * v l := (quad_eq _ _).symm
    rw [e]
    show 0 < _ + v ⬝ᵥ S *ᵥ v
    linarith
  gcont := fun c => (haz_smooth (noise := noise) h hch (HEx.psd_symm hS) (HEx.reg (noise := noise) h hch hS hi c).diag).gcont
  hcont := fun c => (haz_smooth (noise := noise) h hch (HEx.psd_symm hS) (HEx.reg (noise := noise) h hch hS hi c).diag).hcont
  fcont := by
    refine (haz_diff h).continuous.sub ?_
    simp only [dotProduct, mulVec]
    fun_prop

/-- C152.  No monotone direction: the coefficients stay bounded, whatever they start from. -/
theorem hazard_bounded (h : Haz.Data nt ut r) (hch : Newton.CholSpec chol) (hS : S.PosSemidef) (hi : HEx.Ident ut r delta X S)
    (hn : ¬∃ v, HEx.Monotone ut r delta X S v) (hC : Calm C (ext (hazIn nt r delta X S chol noise))) (c : Fin p → ℝ) :
    ∃ R, ∀ k, ‖(iter C (hazIn nt r delta X S chol noise) c k).coef‖ ≤ R := by
  obtain ⟨m, hm, hgr⟩ := grows HEx.cost_cont (HEx.llk_le (delta := delta) (X := X) (S := S) h) (HEx.cost_smul hS) fun c hc => HEx.cost_pos hS hn hc
  exact bounded_of (haz_nice h hch hS hi) hC hm hgr c

/-- C152.  No monotone direction: Newton iterations converge to the estimate, unless they approach coefficients from which one of the steps tried
leaves the penalised log-likelihood exactly as it is. -/
theorem hazard_converges (h : Haz.Data nt ut r) (hch : Newton.CholSpec chol) (hS : S.PosSemidef) (hi : HEx.Ident ut r delta X S)
    (hn : ¬∃ v, HEx.Monotone ut r delta X S v) (hG : Goes C (hazIn nt r delta X S chol noise) c) :
    (∃ e, (∀ d, d ≠ e → Haz.llk nt r delta X d - 1 / 2 * ∑ i, ∑ j, d i * S i j * d j < Haz.llk nt r delta X e - 1 / 2 * ∑ i, ∑ j, e i * S i j * e j) ∧
      Tendsto (fun k => (iter C (hazIn nt r delta X S chol noise) c k).coef) atTop (𝓝 e)) ∨ Ties C (hazIn nt r delta X S chol noise) c := by
  obtain ⟨R, hR⟩ := hazard_bounded h hch hS hi hn hG.2.1 c
  rcases conv_of (haz_nice h hch hS hi) hG (HEx.estimate_exists h hch hS hi hn) hR with ⟨e, h1, h2⟩ | h1
  · exact Or.inl ⟨e, fun d hd => HEx.estimate_is_max h hch hS hi h1 hd, h2⟩
  · exact Or.inr h1

/-- C152.  No monotone direction, coefficients that change less and less: they converge to the estimate. -/
theorem hazard_converges_partial (h : Haz.Data nt ut r) (hch : Newton.CholSpec chol) (hS : S.PosSemidef) (hi : HEx.Ident ut r delta X S)
    (hn : ¬∃ v, HEx.Monotone ut r delta X S v) (hG : Goes C (hazIn nt r delta X S chol noise) c)
    (hd : Tendsto (fun k => (iter C (hazIn nt r delta X S chol noise) c (k + 1)).coef - (iter C (hazIn nt r delta X S chol noise) c k).coef) atTop (𝓝 0)) :
    ∃ e, (∀ d, d ≠ e → Haz.llk nt r delta X d - 1 / 2 * ∑ i, ∑ j, d i * S i j * d j < Haz.llk nt r delta X e - 1 / 2 * ∑ i, ∑ j, e i * S i j * e j) ∧
      Tendsto (fun k => (iter C (hazIn nt r delta X S chol noise) c k).coef) atTop (𝓝 e) := by
  obtain ⟨R, hR⟩ := hazard_bounded h hch hS hi hn hG.2.1 c
  obtain ⟨e, h1, h2⟩ := conv_partial_of (haz_nice h hch hS hi) hG (HEx.estimate_exists h hch hS hi hn) hR hd
  exact ⟨e, fun d hd => HEx.estimate_is_max h hch hS hi h1 hd, h2⟩

/-- C152.  A monotone direction: the coefficients grow without bound, with the same exception. -/
theorem hazard_diverges (h : Haz.Data nt ut r) (hch : Newton.CholSpec chol) (hS : S.PosSemidef) (hi : HEx.Ident ut r delta X S)
    {v : Fin p → ℝ} (hm : HEx.Monotone ut r delta X S v) (hG : Goes C (hazIn nt r delta X S chol noise) c) :
    Tendsto (fun k => ‖(iter C (hazIn nt r delta X S chol noise) c k).coef‖) atTop atTop ∨ Ties C (hazIn nt r delta X S chol noise) c :=
  div_of (haz_nice h hch hS hi) hG (HEx.monotone_no_estimate h hch hS hi hm)

/-- C152.  A monotone direction: the coefficients do not converge. -/
theorem hazard_no_limit (h : Haz.Data nt ut r) (hch : Newton.CholSpec chol) (hS : S.PosSemidef) (hi : HEx.Ident ut r delta X S)
    {v : Fin p → ℝ} (hm : HEx.Monotone ut r delta X S v) (hG : Goes C (hazIn nt r delta X S chol noise) c) (l : Fin p → ℝ) :
    ¬Tendsto (fun k => (iter C (hazIn nt r delta X S chol noise) c k).coef) atTop (𝓝 l) :=
  no_limit_of (haz_nice h hch hS hi) hG (HEx.monotone_no_estimate h hch hS hi hm) l

end Haz

/-! ### Multinomial models -/

section Mul
open Cls Finset
variable {K n : ℕ} {w : ℕ → ℕ} {X : ℕ → Fin n → ℕ → ℝ} {y : Fin n → Fin (K + 1)} {stored : ℕ → ℕ → ℕ → List ℕ}
  {S : Matrix (Fin (∑ l ∈ Finset.range K, w l)) (Fin (∑ l ∈ Finset.range K, w l)) ℝ}
  {chol : Matrix (Fin (∑ l ∈ Finset.range K, w l)) (Fin (∑ l ∈ Finset.range K, w l)) ℝ →
      Option (Matrix (Fin (∑ l ∈ Finset.range K, w l)) (Fin (∑ l ∈ Finset.range K, w l)) ℝ ×
        Equiv.Perm (Fin (∑ l ∈ Finset.range K, w l)))}
  {noise : ℕ → Fin (∑ l ∈ Finset.range K, w l) → ℝ} {c : Fin (∑ l ∈ Finset.range K, w l) → ℝ}

/-- Probability of class `k + 1`. -/
noncomputable def pr (e : Fin K → ℝ) (k : Fin K) : ℝ := Real.exp (e k) / tot e

theorem P2_lt (y : ℝ) (e : Fin K → ℝ) {k l : Fin K} (h : k < l) : Invar.P2 (EtaBeta.mnFam K) y e k l = pr e k * pr e l := by
  have h1 : (EtaBeta.mnFam K).dEta = true := rfl
  have h0 : (k : ℕ) < l := h
  have hlt := EtaBeta.posn_lt h0 l.isLt
  unfold Invar.P2
  rw [if_neg h0.ne, if_pos hlt]
  simp only [EtaBeta.etaDerivs, h1, if_true, EtaBeta.mn_mus]
  rw [List.getD_eq_getElem?_getD, List.getElem?_map, List.getElem?_range hlt]
  have hp := EtaBeta.dpairs_posn (K := K) (i := k) (j := l) h0 l.isLt
  simp only [Option.map_some, Option.getD_some, EtaBeta.mnFam, Lss.mnD2m, hp, dif_pos (show (k : ℕ) < K ∧ (l : ℕ) < K from ⟨k.isLt, l.isLt⟩), Fin.eta]
  have e2 : Lss.norm (Lss.muOf e) = tot e := by rw [tot_eq, add_comm]; rfl
  rw [e2]
  show Real.exp (e k) * Real.exp (e l) / tot e ^ 2 = _
  unfold pr
  ring

theorem P2s_eq (y : ℝ) (e : Fin K → ℝ) (k l : Fin K) :
    Invar.P2s (EtaBeta.mnFam K) y e k l = pr e k * pr e l - if k = l then pr e k else 0 := by
  rcases lt_trichotomy k l with h | h | h
  · rw [if_neg h.ne, sub_zero, ← P2_lt y e h]
    unfold Invar.P2s
    rw [if_pos (show (k : ℕ) ≤ l from h.le)]
  · subst h
    rw [P2_eq, if_pos rfl]
    unfold pr
    ring
  · rw [if_neg h.ne', sub_zero, mul_comm, ← P2_lt y e h]
    unfold Invar.P2s
    rw [if_neg (show ¬(k : ℕ) ≤ l from not_le.2 h)]

theorem pr_pos (e : Fin K → ℝ) (k : Fin K) : 0 < pr e k := div_pos (Real.exp_pos _) (tot_pos _)

theorem pr_sum (e : Fin K → ℝ) : ∑ k, pr e k < 1 := by
  unfold pr
  rw [← sum_div, div_lt_one (tot_pos e), tot_eq]
  linarith

/-- One observation: the second derivative is negative along predictors that change. -/
theorem obs_neg (y : ℝ) (e z : Fin K → ℝ) : ∑ k : Fin K, ∑ l : Fin K, Invar.P2s (EtaBeta.mnFam K) y e k l * z k * z l ≤ 0 ∧
    (z ≠ 0 → ∑ k : Fin K, ∑ l : Fin K, Invar.P2s (EtaBeta.mnFam K) y e k l * z k * z l < 0) := by
  have e1 : ∑ k : Fin K, ∑ l : Fin K, Invar.P2s (EtaBeta.mnFam K) y e k l * z k * z l = (∑ k, pr e k * z k) ^ 2 - ∑ k, pr e k * z k ^ 2 := by
    rw [sq, sum_mul_sum, ← sum_sub_distrib]
    refine sum_congr rfl fun k _ => ?_
    have : ∀ l : Fin K, Invar.P2s (EtaBeta.mnFam K) y e k l * z k * z l = pr e k * z k * (pr e l * z l) - if k = l then pr e k * z k * z l else 0 := fun l => by
      rw [P2s_eq]
      split <;> ring
    simp only [this]
    rw [sum_sub_distrib, sum_ite_eq, if_pos (mem_univ _)]
    ring
  have e2 : (∑ k, pr e k * z k) ^ 2 ≤ (∑ k, pr e k) * ∑ k, pr e k * z k ^ 2 :=
    sum_sq_le_sum_mul_sum_of_sq_le_mul univ (fun k _ => (pr_pos e k).le) (fun k _ => mul_nonneg (pr_pos e k).le (sq_nonneg _)) fun k _ => le_of_eq (by ring)
  have e3 : 0 ≤ ∑ k, pr e k * z k ^ 2 := sum_nonneg fun k _ => mul_nonneg (pr_pos e k).le (sq_nonneg _)
  have e4 := pr_sum e
  rw [e1]
  refine ⟨by nlinarith, fun hz => ?_⟩
  obtain ⟨k, hk⟩ := Function.ne_iff.1 hz
  have e5 : 0 < ∑ k, pr e k * z k ^ 2 := sum_pos' (fun k _ => mul_nonneg (pr_pos e k).le (sq_nonneg _))
    ⟨k, mem_univ k, mul_pos (pr_pos e k) (sq_pos_of_ne_zero hk)⟩
  nlinarith

theorem hess_quad (hst : Holds (EtaBeta.mnFam K) w X (num y) stored) (c v : Fin (∑ l ∈ Finset.range K, w l) → ℝ) :
    v ⬝ᵥ (lssIn (EtaBeta.mnFam K) w X (num y) stored S chol noise).hess c *ᵥ v = ∑ o, ∑ k : Fin K, ∑ l : Fin K,
      Invar.P2s (EtaBeta.mnFam K) (num y o) (EtaBeta.etaOf w X (blk w c) o) k l * EtaBeta.etaOf (K := K) w X (blk w v) o k * EtaBeta.etaOf (K := K) w X (blk w v) o l := by
  rw [← quad_eq]
  set E := Equiv.ofBijective _ (at_bij (K := K) (w := w))
  rw [← E.sum_comp]
  have h1 : ∀ q, ∑ j, v (E q) * (lssIn (EtaBeta.mnFam K) w X (num y) stored S chol noise).hess c (E q) j * v j =
      ∑ q' : Σ k : Fin K, Fin (w k), ∑ o, Invar.P2s (EtaBeta.mnFam K) (num y o) (EtaBeta.etaOf w X (blk w c) o) q.1 q'.1 * (X q.1 o q.2 * blk w v q) * (X q'.1 o q'.2 * blk w v q') := fun q => by
    rw [← E.sum_comp]
    refine sum_congr rfl fun q' _ => ?_
    have H := Invar.hess_at hst (blk w c) q q'
    rw [show (lssIn (EtaBeta.mnFam K) w X (num y) stored S chol noise).hess c (E q) (E q') = _ from H, mul_sum, sum_mul]
    refine sum_congr rfl fun o _ => ?_
    show v (E q) * _ * v (E q') = _ * (_ * v (E q)) * (_ * v (E q'))
    ring
  simp only [h1]
  have h2 : ∀ q : Σ k : Fin K, Fin (w k), ∑ q' : Σ k : Fin K, Fin (w k), ∑ o, Invar.P2s (EtaBeta.mnFam K) (num y o) (EtaBeta.etaOf w X (blk w c) o) q.1 q'.1 * (X q.1 o q.2 * blk w v q) * (X q'.1 o q'.2 * blk w v q') =
      ∑ o, ∑ l : Fin K, Invar.P2s (EtaBeta.mnFam K) (num y o) (EtaBeta.etaOf w X (blk w c) o) q.1 l * (X q.1 o q.2 * blk w v q) * EtaBeta.etaOf (K := K) w X (blk w v) o l := fun q => by
    rw [sum_comm]
    refine sum_congr rfl fun o _ => ?_
    rw [Fintype.sum_sigma]
    refine sum_congr rfl fun l _ => ?_
    unfold EtaBeta.etaOf
    rw [mul_sum]
  simp only [h2]
  rw [sum_comm]
  refine sum_congr rfl fun o _ => ?_
  rw [Fintype.sum_sigma]
  refine sum_congr rfl fun k _ => ?_
  rw [sum_comm]
  refine sum_congr rfl fun l _ => ?_
  rw [← sum_mul]
  refine congrArg (fun t => t * EtaBeta.etaOf (K := K) w X (blk w v) o l) ?_
  unfold EtaBeta.etaOf
  rw [mul_sum]

theorem mul_nice (hst : Holds (EtaBeta.mnFam K) w X (num y) stored) (hch : Newton.CholSpec chol) (hS : S.PosSemidef) (hi : MEx.Ident w X S) :
    Nice (lssIn (EtaBeta.mnFam K) w X (num y) stored S chol noise) (MEx.F w X y S) where
  val := MEx.pllk_F
  reg := MEx.reg hst hch hS hi
  pd := fun c v hv => by
    rw [add_mulVec, dotProduct_add, neg_mulVec, dotProduct_neg, hess_quad hst]
    have h0 : 0 ≤ v ⬝ᵥ S *ᵥ v := hS.dotProduct_mulVec_nonneg v
    have h1 := sum_nonpos fun o (_ : o ∈ univ) => (obs_neg (num y o) (EtaBeta.etaOf w X (blk w c) o) (EtaBeta.etaOf (K := K) w X (blk w v) o)).1
    show 0 < _ + v ⬝ᵥ S *ᵥ v
    by_cases hz : v ⬝ᵥ S *ᵥ v = 0
    · have hz' := (hS.dotProduct_mulVec_zero_iff v).1 hz
      have : ∃ o, EtaBeta.etaOf (K := K) w X (blk w v) o ≠ 0 := by
        by_contra hcon
        push Not at hcon
        exact hv (hi v hz' fun o k => congrFun (hcon o) k)
      obtain ⟨o, ho⟩ := this
      have := sum_lt_sum (fun o (_ : o ∈ univ) => (obs_neg (num y o) (EtaBeta.etaOf w X (blk w c) o) (EtaBeta.etaOf (K := K) w X (blk w v) o)).1)
        ⟨o, mem_univ o, (obs_neg (num y o) (EtaBeta.etaOf w X (blk w c) o) (EtaBeta.etaOf (K := K) w X (blk w v) o)).2 ho⟩
      rw [sum_const_zero] at this
      linarith
    · have := h0.lt_of_ne (Ne.symm hz)
      linarith
  gcont := fun c => (mn_smooth (noise := noise) hst hch (HEx.psd_symm hS) (MEx.reg (noise := noise) hst hch hS hi c).diag).gcont
  hcont := fun c => (mn_smooth (noise := noise) hst hch (HEx.psd_symm hS) (MEx.reg (noise := noise) hst hch hS hi c).diag).hcont
  fcont := MEx.F_cont

/-- C152.  Classes not separated: the coefficients stay bounded, whatever they start from. -/
theorem multinomial_bounded (hst : Holds (EtaBeta.mnFam K) w X (num y) stored) (hch : Newton.CholSpec chol) (hS : S.PosSemidef) (hi : MEx.Ident w X S)
    (hn : ¬∃ v, MEx.Separated w X y S v) (hC : Calm C (ext (lssIn (EtaBeta.mnFam K) w X (num y) stored S chol noise)))
    (c : Fin (∑ l ∈ Finset.range K, w l) → ℝ) : ∃ R, ∀ k, ‖(iter C (lssIn (EtaBeta.mnFam K) w X (num y) stored S chol noise) c k).coef‖ ≤ R := by
  obtain ⟨m, hm, hgr⟩ := grows MEx.cost_cont (MEx.F_le (w := w) (X := X) (y := y) (S := S)) (MEx.cost_smul hS) fun c hc => MEx.cost_pos hS hn hc
  exact bounded_of (mul_nice hst hch hS hi) hC hm hgr c

/-- C152.  Classes not separated: Newton iterations converge to the estimate, unless they approach coefficients from which one of the steps tried
leaves the penalised log-likelihood exactly as it is. -/
theorem multinomial_converges (hst : Holds (EtaBeta.mnFam K) w X (num y) stored) (hch : Newton.CholSpec chol) (hS : S.PosSemidef) (hi : MEx.Ident w X S)
    (hn : ¬∃ v, MEx.Separated w X y S v) (hG : Goes C (lssIn (EtaBeta.mnFam K) w X (num y) stored S chol noise) c) :
    (∃ e, (∀ d, d ≠ e → EtaBeta.llk (EtaBeta.mnFam K) w X (num y) (blk w d) - 1 / 2 * ∑ i, ∑ j, d i * S i j * d j <
        EtaBeta.llk (EtaBeta.mnFam K) w X (num y) (blk w e) - 1 / 2 * ∑ i, ∑ j, e i * S i j * e j) ∧
      Tendsto (fun k => (iter C (lssIn (EtaBeta.mnFam K) w X (num y) stored S chol noise) c k).coef) atTop (𝓝 e)) ∨
    Ties C (lssIn (EtaBeta.mnFam K) w X (num y) stored S chol noise) c := by
  obtain ⟨R, hR⟩ := multinomial_bounded hst hch hS hi hn hG.2.1 c
  rcases conv_of (mul_nice hst hch hS hi) hG (MEx.estimate_exists hst hch hS hi hn) hR with ⟨e, h1, h2⟩ | h1
  · exact Or.inl ⟨e, fun d hd => MEx.estimate_is_max hst hch hS hi h1 hd, h2⟩
  · exact Or.inr h1

/-- C152.  Classes not separated, coefficients that change less and less: they converge to the estimate. -/
theorem multinomial_converges_partial (hst : Holds (EtaBeta.mnFam K) w X (num y) stored) (hch : Newton.CholSpec chol) (hS : S.PosSemidef)
    (hi : MEx.Ident w X S) (hn : ¬∃ v, MEx.Separated w X y S v) (hG : Goes C (lssIn (EtaBeta.mnFam K) w X (num y) stored S chol noise) c)
    (hd : Tendsto (fun k => (iter C (lssIn (EtaBeta.mnFam K) w X (num y) stored S chol noise) c (k + 1)).coef -
      (iter C (lssIn (EtaBeta.mnFam K) w X (num y) stored S chol noise) c k).coef) atTop (𝓝 0)) :
    ∃ e, (∀ d, d ≠ e → EtaBeta.llk (EtaBeta.mnFam K) w X (num y) (blk w d) - 1 / 2 * ∑ i, ∑ j, d i * S i j * d j <
        EtaBeta.llk (EtaBeta.mnFam K) w X (num y) (blk w e) - 1 / 2 * ∑ i, ∑ j, e i * S i j * e j) ∧
      Tendsto (fun k => (iter C (lssIn (EtaBeta.mnFam K) w X (num y) stored S chol noise) c k).coef) atTop (𝓝 e) := by
  obtain ⟨R, hR⟩ := multinomial_bounded hst hch hS hi hn hG.2.1 c
  obtain ⟨e, h1, h2⟩ := conv_partial_of (mul_nice hst hch hS hi) hG (MEx.estimate_exists hst hch hS hi hn) hR hd
  exact ⟨e, fun d hd => MEx.estimate_is_max hst hch hS hi h1 hd, h2⟩

/-- C152.  Separated classes: the coefficients grow without bound, with the same exception. -/
theorem multinomial_diverges (hst : Holds (EtaBeta.mnFam K) w X (num y) stored) (hch : Newton.CholSpec chol) (hS : S.PosSemidef)
    (hi : MEx.Ident w X S) {v : Fin (∑ l ∈ Finset.range K, w l) → ℝ} (hv : MEx.Separated w X y S v)
    (hG : Goes C (lssIn (EtaBeta.mnFam K) w X (num y) stored S chol noise) c) :
    Tendsto (fun k => ‖(iter C (lssIn (EtaBeta.mnFam K) w X (num y) stored S chol noise) c k).coef‖) atTop atTop ∨
      Ties C (lssIn (EtaBeta.mnFam K) w X (num y) stored S chol noise) c :=
  div_of (mul_nice hst hch hS hi) hG (MEx.separated_no_estimate hst hch hS hi hv)

/-- C152.  Separated classes: the coefficients do not converge. -/
theorem multinomial_no_limit (hst : Holds (EtaBeta.mnFam K) w X (num y) stored) (hch : Newton.CholSpec chol) (hS : S.PosSemidef)
    (hi : MEx.Ident w X S) {v : Fin (∑ l ∈ Finset.range K, w l) → ℝ} (hv : MEx.Separated w X y S v)
    (hG : Goes C (lssIn (EtaBeta.mnFam K) w X (num y) stored S chol noise) c) (l : Fin (∑ l ∈ Finset.range K, w l) → ℝ) :
    ¬Tendsto (fun k => (iter C (lssIn (EtaBeta.mnFam K) w X (num y) stored S chol noise) c k).coef) atTop (𝓝 l) :=
  no_limit_of (mul_nice hst hch hS hi) hG (MEx.separated_no_estimate hst hch hS hi hv) l

end Mul

/-- Iterations whose full proposals never lower the penalised log-likelihood. -/
theorem goes_of (h : Nice x F) (hg : C.grad = false) (hC : Calm C (ext x)) (hup : ∀ d, F c ≤ F d → F d ≤ F (step x d)) : Goes C x c := by
  refine ⟨hg, hC, fun k hk => ?_⟩
  have h1 : F c ≤ F (iter C x c k).coef := mono h hC c (Nat.zero_le k)
  rcases iteration_longest C hC c k (h.val _) with ⟨j, -, v, h2, -⟩ | ⟨-, h2⟩
  · rw [hk, prop_eq hg] at h2
    exact Conv.half_eq (j := j) h2.symm
  · have := h2 0 (by norm_num) _ (h.val _)
    rw [prop_eq hg, pow_zero, div_one, one_smul, add_sub_cancel] at this
    exact absurd (hup _ h1) (not_le.2 this)

end Verif.NCv
