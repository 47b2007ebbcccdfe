import Verif.NewtConv
import Verif.NewtQuad

/-!
# C152: Newton iterations close to the estimate

Model: `LmlModel` (`iter`, `step`; gamm_solvers.py `update_coef_gen_smooth`, `update_coef_gammlss`).
-/

namespace Verif.NCv
open Verif Matrix Filter Topology Lml Coef

variable {p : ℕ} {x : In p} {F : (Fin p → ℝ) → ℝ}

/-- Gradient and Hessian are the derivatives. -/
structure Exact (x : In p) : Prop where
  grad : ∀ c, HasFlGrad x.llk (x.grad c) c
  hess : ∀ c v s i, HasDerivAt (fun s : ℝ => x.grad (c + s • v) i) ((x.hess (c + s • v) *ᵥ v) i) s

/-- Penalised gradient. -/
def pg (x : In p) (c : Fin p → ℝ) : Fin p → ℝ := x.grad c - x.S *ᵥ c

/-- Negative penalised Hessian. -/
def nh (x : In p) (c : Fin p → ℝ) : Matrix (Fin p) (Fin p) ℝ := -x.hess c + x.S

theorem F_line (h : Nice x F) (hE : Exact x) (c v : Fin p → ℝ) (s : ℝ) : HasDerivAt (fun s : ℝ => F (c + s • v)) (pg x (c + s • v) ⬝ᵥ v) s := by
  obtain ⟨G, g1, g2⟩ := pllk_grad (h.reg (c + s • v)).ssym (hE.grad (c + s • v))
  have e : F =ᶠ[𝓝 (c + s • v)] G := by
    filter_upwards [g1] with d hd
    rw [h.val] at hd
    exact Fl.fin_inj.1 hd
  have hl : HasDerivAt (fun s : ℝ => c + s • v) v s := by
    have := ((hasDerivAt_id s).smul_const v).const_add c
    simpa using this
  have := (g2.congr_of_eventuallyEq e).comp_hasDerivAt s hl
  have e2 := lf_apply (x.grad (c + s • v) - x.S *ᵥ (c + s • v)) v
  unfold lf at e2
  rw [e2] at this
  exact this

theorem pg_line (hE : Exact x) (c v : Fin p → ℝ) (s : ℝ) : HasDerivAt (fun s : ℝ => pg x (c + s • v)) (-(nh x (c + s • v) *ᵥ v)) s := by
  rw [hasDerivAt_pi]
  intro i
  have h1 := hE.hess c v s i
  have h2 : HasDerivAt (fun s : ℝ => (x.S *ᵥ (c + s • v)) i) ((x.S *ᵥ v) i) s := by
    have e : (fun s : ℝ => (x.S *ᵥ (c + s • v)) i) = fun s => (x.S *ᵥ c) i + s * (x.S *ᵥ v) i := by
      funext s
      rw [mulVec_add, mulVec_smul]
      rfl
    rw [e]
    have := ((hasDerivAt_id s).mul_const ((x.S *ᵥ v) i)).const_add ((x.S *ᵥ c) i)
    simpa using this
  refine (h1.sub h2).congr_deriv ?_
  unfold nh
  rw [add_mulVec, neg_mulVec]
  simp only [Pi.neg_apply, Pi.add_apply]
  ring

theorem loc (h : Nice x F) (hE : Exact x) : NQ.Loc F (pg x) (nh x) (step x) where
  lineF := F_line h hE
  lineG := pg_line hE
  cont := fun c => (h.hcont c).neg.add continuousAt_const
  pd := fun c v hv => h.pd c v hv
  newton := step_eq h

/-- Close to the estimate a Newton step reduces the distance by any factor and increases the penalised log-likelihood by at least a multiple of its
square. -/
theorem step_close (h : Nice x F) (hE : Exact x) {e : Fin p → ℝ} (hf : step x e = e) : ∃ m > 0, ∀ κ > 0,
    ∃ δ > 0, ∀ c, ‖c - e‖ < δ → ‖step x c - e‖ ≤ κ * ‖c - e‖ ∧ m * ‖c - e‖ ^ 2 ≤ F (step x c) - F c := NQ.step_close (loc h hE) hf

/-- Iterations that come close enough to the estimate once use full Newton steps from then on and converge to it, faster than any geometric series; what the penalised log-likelihood gains,
on which the stopping rule is based, bounds the distance from the estimate. -/
theorem local_of (h : Nice x F) (hE : Exact x) {e : Fin p → ℝ} (hf : step x e = e) : ∃ δ > 0, ∃ m > 0, ∀ (C : Cfg) (c : Fin p → ℝ) (k₀ : ℕ), C.grad = false → Calm C (ext x) →
    ‖(iter C x c k₀).coef - e‖ < δ → Tendsto (fun k => (iter C x c k).coef) atTop (𝓝 e) ∧
      (∀ k ≥ k₀, (iter C x c (k + 1)).coef = step x (iter C x c k).coef ∧ ∃ u v, (iter C x c k).pen = .fin u ∧ (iter C x c (k + 1)).pen = .fin v ∧
        m * ‖(iter C x c k).coef - e‖ ^ 2 ≤ v - u) ∧
      ∀ κ > 0, ∀ᶠ k in atTop, ‖(iter C x c (k + 1)).coef - e‖ ≤ κ * ‖(iter C x c k).coef - e‖ := by
  obtain ⟨δ, hδ, m, hm, hs⟩ := NQ.seq_close (loc h hE) hf
  refine ⟨δ, hδ, m, hm, fun C c k₀ hg hC h0 => ?_⟩
  suffices hk : ∀ k, F (iter C x c k).coef ≤ F (step x (iter C x c k).coef) → (iter C x c (k + 1)).coef = step x (iter C x c k).coef by
    obtain ⟨h1, h2, h3⟩ := hs (fun k => (iter C x c k).coef) k₀ hk h0
    exact ⟨h1, fun k hk => ⟨(h2 k hk).1, _, _, (pen_iter C x c k).trans (h.val _), (pen_iter C x c (k + 1)).trans (h.val _), (h2 k hk).2⟩, h3⟩
  intro k hk
  rcases iteration_longest C hC c k (h.val _) with ⟨j, -, v, h1, -, -, h4⟩ | ⟨-, h2⟩
  · rcases Nat.eq_zero_or_pos j with rfl | hj
    · rw [h1, prop_eq hg, pow_zero, div_one, one_smul, add_sub_cancel]
    · have := h4 0 hj _ (h.val _)
      rw [prop_eq hg, pow_zero, div_one, one_smul, add_sub_cancel] at this
      exact absurd hk (not_le.2 this)
  · have := h2 0 (by norm_num) _ (h.val _)
    rw [prop_eq hg, pow_zero, div_one, one_smul, add_sub_cancel] at this
    exact absurd hk (not_le.2 this)

/-! ### Proportional hazards -/

section Haz
variable {n nt : ℕ} {ut : ℕ → ℝ} {r delta : Fin n → ℕ} {X : Fin n → Fin p → ℝ} {S : Matrix (Fin p) (Fin p) ℝ}
  {chol : Matrix (Fin p) (Fin p) ℝ → Option (Matrix (Fin p) (Fin p) ℝ × Equiv.Perm (Fin p))} {noise : ℕ → Fin p → ℝ}

theorem haz_exact (h : Haz.Data nt ut r) : Exact (hazIn nt r delta X S chol noise) where
  grad := haz_grad h
  hess := fun c v s i => by
    refine (Haz.gradient_hasDerivAt nt ut r h delta X c v s i).congr_deriv ?_
    show _ = ∑ k, Haz.hessian nt r delta X (c + s • v) i k * v k
    refine Finset.sum_congr rfl fun k _ => ?_
    rw [mul_comm, (Haz.hessian_symm_negSemidef nt ut r h delta X (c + s • v)).1 i k]
    rfl

/-- C152.  No monotone direction: around the estimate there is a ball such that iterations that come into it once, from whatever start, use full
Newton steps from then on and converge to the estimate, faster than any geometric series; what the penalised log-likelihood gains,
on which the stopping rule is based, bounds the distance from the estimate. -/
theorem hazard_local (h : Haz.Data nt ut r) (hch : Newton.CholSpec chol) (hS : S.PosSemidef) (hi : HEx.Ident ut r delta X S)
    (hn : ¬∃ v, HEx.Monotone ut r delta X S v) :
    ∃ e, (∀ d, d ≠ e → Haz.llk nt r delta X d - 1 / 2 * ∑ i, ∑ j, d i * S i j * d j < Haz.llk nt r delta X e - 1 / 2 * ∑ i, ∑ j, e i * S i j * e j) ∧
      ∃ δ > 0, ∃ m > 0, ∀ (C : Cfg) (c : Fin p → ℝ) (k₀ : ℕ), C.grad = false → Calm C (ext (hazIn nt r delta X S chol noise)) →
        ‖(iter C (hazIn nt r delta X S chol noise) c k₀).coef - e‖ < δ →
        Tendsto (fun k => (iter C (hazIn nt r delta X S chol noise) c k).coef) atTop (𝓝 e) ∧
        (∀ k ≥ k₀, (iter C (hazIn nt r delta X S chol noise) c (k + 1)).coef =
          step (hazIn nt r delta X S chol noise) (iter C (hazIn nt r delta X S chol noise) c k).coef ∧
          ∃ u v, (iter C (hazIn nt r delta X S chol noise) c k).pen = .fin u ∧ (iter C (hazIn nt r delta X S chol noise) c (k + 1)).pen = .fin v ∧
            m * ‖(iter C (hazIn nt r delta X S chol noise) c k).coef - e‖ ^ 2 ≤ v - u) ∧
        ∀ κ > 0, ∀ᶠ k in atTop, ‖(iter C (hazIn nt r delta X S chol noise) c (k + 1)).coef - e‖ ≤
          κ * ‖(iter C (hazIn nt r delta X S chol noise) c k).coef - e‖ := by
  obtain ⟨e, he, -⟩ := HEx.estimate_exists (noise := noise) h hch hS hi hn
  exact ⟨e, fun d hd => HEx.estimate_is_max h hch hS hi he hd, local_of (haz_nice h hch hS hi) (haz_exact h) he⟩

end Haz

/-! ### Multinomial models -/

section Mul
open Cls
variable {K n : ℕ} {w : ℕ → ℕ} {X : ℕ → Fin n → ℕ → ℝ} {y : Fin n → Fin (K + 1)} {stored : ℕ → ℕ → ℕ → List ℕ}
  {S : Matrix (Fin (∑ l ∈ Finset.range K, w l)) (Fin (∑ l ∈ Finset.range K, w l)) ℝ}
  {chol : Matrix (Fin (∑ l ∈ Finset.range K, w l)) (Fin (∑ l ∈ Finset.range K, w l)) ℝ →
      Option (Matrix (Fin (∑ l ∈ Finset.range K, w l)) (Fin (∑ l ∈ Finset.range K, w l)) ℝ ×
        Equiv.Perm (Fin (∑ l ∈ Finset.range K, w l)))}
  {noise : ℕ → Fin (∑ l ∈ Finset.range K, w l) → ℝ}

theorem mul_exact (hst : Holds (EtaBeta.mnFam K) w X (num y) stored) : Exact (lssIn (EtaBeta.mnFam K) w X (num y) stored S chol noise) where
  grad := MEx.grad_is
  hess := fun c v s i => by
    obtain ⟨q, rfl⟩ := at_bij.2 i
    have H := (EtaBeta.hessian_correct (EtaBeta.mnFam K) w X (num y) stored (blk w (c + s • v)) (fun o => EtaBeta.mn_exact _ _) (hst _)).2.2 q
    have hl : HasDerivAt (fun s : ℝ => blk w (c + s • v)) (blk w v) s := by
      rw [hasDerivAt_pi]
      intro q
      have := ((hasDerivAt_id s).mul_const (blk w v q)).const_add (blk w c q)
      rw [one_mul] at this
      exact this
    have := H.comp_hasDerivAt s hl
    rw [EtaBeta.lin_apply] at this
    refine this.congr_deriv ?_
    show _ = ∑ j, _ * v j
    rw [← (Equiv.ofBijective _ (at_bij (K := K) (w := w))).sum_comp]
    refine Finset.sum_congr rfl fun q' _ => ?_
    rfl

/-- C152.  Classes not separated: around the estimate there is a ball such that iterations that come into it once, from whatever start, use full
Newton steps from then on and converge to the estimate, faster than any geometric series; what the penalised log-likelihood gains,
on which the stopping rule is based, bounds the distance from the estimate. -/
theorem multinomial_local (hst : Holds (EtaBeta.mnFam K) w X (num y) stored) (hch : Newton.CholSpec chol) (hS : S.PosSemidef) (hi : MEx.Ident w X S)
    (hn : ¬∃ v, MEx.Separated w X y S v) :
    ∃ e, (∀ d, d ≠ e → EtaBeta.llk (EtaBeta.mnFam K) w X (num y) (blk w d) - 1 / 2 * ∑ i, ∑ j, d i * S i j * d j <
        EtaBeta.llk (EtaBeta.mnFam K) w X (num y) (blk w e) - 1 / 2 * ∑ i, ∑ j, e i * S i j * e j) ∧
      ∃ δ > 0, ∃ m > 0, ∀ (C : Cfg) (c : Fin (∑ l ∈ Finset.range K, w l) → ℝ) (k₀ : ℕ), C.grad = false →
        Calm C (ext (lssIn (EtaBeta.mnFam K) w X (num y) stored S chol noise)) →
        ‖(iter C (lssIn (EtaBeta.mnFam K) w X (num y) stored S chol noise) c k₀).coef - e‖ < δ →
        Tendsto (fun k => (iter C (lssIn (EtaBeta.mnFam K) w X (num y) stored S chol noise) c k).coef) atTop (𝓝 e) ∧
        (∀ k ≥ k₀, (iter C (lssIn (EtaBeta.mnFam K) w X (num y) stored S chol noise) c (k + 1)).coef =
          step (lssIn (EtaBeta.mnFam K) w X (num y) stored S chol noise) (iter C (lssIn (EtaBeta.mnFam K) w X (num y) stored S chol noise) c k).coef ∧
          ∃ u v, (iter C (lssIn (EtaBeta.mnFam K) w X (num y) stored S chol noise) c k).pen = .fin u ∧ (iter C (lssIn (EtaBeta.mnFam K) w X (num y) stored S chol noise) c (k + 1)).pen = .fin v ∧
            m * ‖(iter C (lssIn (EtaBeta.mnFam K) w X (num y) stored S chol noise) c k).coef - e‖ ^ 2 ≤ v - u) ∧
        ∀ κ > 0, ∀ᶠ k in atTop, ‖(iter C (lssIn (EtaBeta.mnFam K) w X (num y) stored S chol noise) c (k + 1)).coef - e‖ ≤
          κ * ‖(iter C (lssIn (EtaBeta.mnFam K) w X (num y) stored S chol noise) c k).coef - e‖ := by
  obtain ⟨e, he, -⟩ := MEx.estimate_exists (noise := noise) hst hch hS hi hn
  exact ⟨e, fun d hd => MEx.estimate_is_max hst hch hS hi he hd, local_of (mul_nice hst hch hS hi) (mul_exact hst) he⟩

end Mul

end Verif.NCv
