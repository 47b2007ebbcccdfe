import Verif.Lml
import Verif.EtaBeta
import Verif.Hazard
import Mathlib.Analysis.Calculus.ContDiff.Operations
import Mathlib.Analysis.SpecialFunctions.ExpDeriv
import Mathlib.Analysis.SpecialFunctions.Log.Deriv

/-!
# Concave models: proportional hazards and multinomial responses (property C125)
-/

namespace Verif.Lml
open Verif Matrix Filter Topology Step Coef

theorem concave_of_tangent {p : ℕ} {F : (Fin p → ℝ) → ℝ} (h : ∀ c, ∃ g : Fin p → ℝ, ∀ d, F d ≤ F c + g ⬝ᵥ (d - c))
    (c d : Fin p → ℝ) (t : ℝ) (h0 : 0 ≤ t) (h1 : t ≤ 1) : (1 - t) * F c + t * F d ≤ F (c + t • (d - c)) := by
  obtain ⟨g, hg⟩ := h (c + t • (d - c))
  have a := hg c
  have b := hg d
  have ea : c - (c + t • (d - c)) = (-t) • (d - c) := by rw [sub_add_cancel_left, neg_smul]
  have eb : d - (c + t • (d - c)) = (1 - t) • (d - c) := by rw [sub_smul, one_smul]; abel
  rw [ea, dotProduct_smul, smul_eq_mul] at a
  rw [eb, dotProduct_smul, smul_eq_mul] at b
  have ha := mul_le_mul_of_nonneg_left a (sub_nonneg.2 h1)
  have hb := mul_le_mul_of_nonneg_left b h0
  linarith

/-! ### Proportional hazards -/

section Hazard
variable {n p : ℕ} {nt : ℕ} {ut : ℕ → ℝ} {r : Fin n → ℕ} {delta : Fin n → ℕ} {X : Fin n → Fin p → ℝ}
  {S : Matrix (Fin p) (Fin p) ℝ} {chol : Matrix (Fin p) (Fin p) ℝ → Option (Matrix (Fin p) (Fin p) ℝ × Equiv.Perm (Fin p))}
  {noise : ℕ → Fin p → ℝ}

theorem gam_diff (i : Fin n) : Differentiable ℝ fun c => Haz.gam X c i := by
  unfold Haz.gam Haz.eta
  fun_prop

theorem gammaP_diff (j : ℕ) : Differentiable ℝ fun c => Haz.gammaP r (Haz.gam X c) j := by
  simp only [Haz.gammaP_eq]
  exact Differentiable.fun_sum fun i _ => gam_diff i

theorem haz_diff (h : Haz.Data nt ut r) : Differentiable ℝ (Haz.llk nt r delta X) := by
  intro c
  unfold Haz.llk
  simp only [Haz.llk2_eq]
  refine DifferentiableAt.add ?_ (DifferentiableAt.neg (DifferentiableAt.fun_sum fun j hj => ?_))
  · unfold Haz.eta; fun_prop
  · exact ((gammaP_diff (j + 1)).differentiableAt.log
      (Haz.gammaP_pos h _ (Haz.gam_pos X c) j (Finset.mem_range.1 hj)).ne').const_mul _

theorem haz_grad (h : Haz.Data nt ut r) (c : Fin p → ℝ) :
    HasFlGrad (hazIn nt r delta X S chol noise).llk ((hazIn nt r delta X S chol noise).grad c) c := by
  refine ⟨Haz.llk nt r delta X, Eventually.of_forall fun _ => rfl, ?_⟩
  refine (haz_diff h c).hasFDerivAt.congr_fderiv ?_
  ext v
  show _ = lf _ v
  rw [lf_apply]
  have hl : HasDerivAt (fun s : ℝ => (fun k => c k + s * v k : Fin p → ℝ)) v 0 := by
    rw [hasDerivAt_pi]
    intro k
    simpa using ((hasDerivAt_id (0 : ℝ)).mul_const (v k)).const_add (c k)
  have h1 := Haz.llk_hasDerivAt nt ut r h delta X c v 0
  have e0 : (fun k => c k + (0 : ℝ) * v k) = c := by funext k; ring
  have h2 : HasDerivAt (Haz.llk nt r delta X ∘ fun s : ℝ => (fun k => c k + s * v k : Fin p → ℝ))
      ((fderiv ℝ (Haz.llk nt r delta X) c) v) 0 := by
    refine HasFDerivAt.comp_hasDerivAt (0 : ℝ) ?_ hl
    rw [e0]
    exact (haz_diff h c).hasFDerivAt
  have h3 := h2.unique h1
  rw [h3, e0]
  exact Finset.sum_congr rfl fun k _ => mul_comm _ _

theorem haz_concave (h : Haz.Data nt ut r) : Concave (hazIn nt r delta X S chol noise) := by
  refine ⟨Haz.llk nt r delta X, fun _ => rfl, fun c d t h0 h1 => ?_⟩
  have := (Haz.llk_concave nt ut r h delta X).2 (Set.mem_univ c) (Set.mem_univ d) (sub_nonneg.2 h1) h0 (by ring)
  have e : (1 - t) • c + t • d = c + t • (d - c) := by rw [sub_smul, one_smul, smul_sub]; abel
  rw [e] at this
  exact this

theorem bp_cont (j : ℕ) (k : Fin p) : Continuous fun c => Haz.bp r (Haz.gam X c) X j k := by
  simp only [Haz.bp_eq]
  exact continuous_finsetSum _ fun i _ => (gam_diff i).continuous.mul continuous_const

theorem Ap_cont (j : ℕ) (k l : Fin p) : Continuous fun c => Haz.Ap r (Haz.gam X c) X j k l := by
  simp only [Haz.Ap_eq]
  exact continuous_finsetSum _ fun i _ => ((gam_diff i).continuous.mul continuous_const).mul continuous_const

theorem haz_smooth (h : Haz.Data nt ut r) (hc : Newton.CholSpec chol) (hS : S.IsSymm) {l : Fin p → ℝ}
    (hd : ∀ i, -Haz.hessian nt r delta X l i i + S i i ≠ 0) : Smooth (hazIn nt r delta X S chol noise) l where
  chol := hc
  hsym := fun c => by
    ext i j
    exact (Haz.hessian_symm_negSemidef nt ut r h delta X c).1 _ _
  ssym := hS
  grad := haz_grad h l
  gcont := by
    refine Continuous.continuousAt (continuous_pi fun k => ?_)
    show Continuous fun c => Haz.gradient nt r delta X c k
    unfold Haz.gradient
    simp only [Haz.grad2_eq]
    refine continuous_const.add (continuous_finsetSum _ fun j hj => continuous_const.mul ?_).neg
    exact (bp_cont _ k).div (gammaP_diff _).continuous
      fun c => (Haz.gammaP_pos h _ (Haz.gam_pos X c) j (Finset.mem_range.1 hj)).ne'
  hcont := by
    refine Continuous.continuousAt (continuous_pi fun k => continuous_pi fun l => ?_)
    show Continuous fun c => Haz.hessian nt r delta X c k l
    unfold Haz.hessian
    simp only [Haz.hess_eq]
    refine continuous_finsetSum _ fun j hj => Continuous.sub ?_ ?_
    · exact ((continuous_const.mul (bp_cont _ k)).mul (bp_cont _ l)).div ((gammaP_diff _).continuous.pow 2)
        fun c => pow_ne_zero 2 (Haz.gammaP_pos h _ (Haz.gam_pos X c) j (Finset.mem_range.1 hj)).ne'
    · exact (continuous_const.mul (Ap_cont _ k l)).div (gammaP_diff _).continuous
        fun c => (Haz.gammaP_pos h _ (Haz.gam_pos X c) j (Finset.mem_range.1 hj)).ne'
  diag := hd

/-- **C125.** Proportional hazard models: if the coefficients converge, their limit maximises the penalised partial log-likelihood, unless an
iteration left them alone although the proposal differed. -/
theorem hazard_limit_is_max (h : Haz.Data nt ut r) (hc : Newton.CholSpec chol) (hS : S.IsSymm) (C : Cfg)
    (hC : C.grad = true → 0 < C.outer) {c l : Fin p → ℝ} (hd : ∀ i, -Haz.hessian nt r delta X l i i + S i i ≠ 0)
    (ht : Tendsto (fun k => (iter C (hazIn nt r delta X S chol noise) c k).coef) atTop (𝓝 l))
    (hgo : ∀ k, (iter C (hazIn nt r delta X S chol noise) c (k + 1)).coef = (iter C (hazIn nt r delta X S chol noise) c k).coef →
      proposal C (ext (hazIn nt r delta X S chol noise)) (iter C (hazIn nt r delta X S chol noise) c k) =
        (iter C (hazIn nt r delta X S chol noise) c k).coef) (d : Fin p → ℝ) :
    Haz.llk nt r delta X d - 1 / 2 * ∑ i, ∑ j, d i * S i j * d j ≤
      Haz.llk nt r delta X l - 1 / 2 * ∑ i, ∑ j, l i * S i j * l j - 1 / 2 * ∑ i, ∑ j, (d i - l i) * S i j * (d j - l j) := by
  have hcalm : Calm C (ext (hazIn nt r delta X S chol noise)) := by
    refine ⟨fun hh => ?_, fun _ => ?_⟩
    · have := hC hh.1; omega
    · split_ifs
      · exact fun c a => trivial
      · exact fun c => trivial
  obtain ⟨u, v, h1, h2, h3⟩ := limit_is_max C (haz_concave h) hcalm trivial (haz_smooth h hc hS hd) ht hgo d
  have e1 : Fl.fin (Haz.llk nt r delta X l - 1 / 2 * ∑ i, ∑ j, l i * S i j * l j) = Fl.fin u := by
    rw [← h1]; exact (Fl.fin_sub _ _).symm
  have e2 : Fl.fin (Haz.llk nt r delta X d - 1 / 2 * ∑ i, ∑ j, d i * S i j * d j) = Fl.fin v := by
    rw [← h2]; exact (Fl.fin_sub _ _).symm
  rw [Fl.fin_inj] at e1 e2
  rw [e1, e2]
  exact h3

/-- **C125.** Proportional hazard models: coefficients reproduced by the Newton step maximise the penalised partial log-likelihood. -/
theorem hazard_fixed_is_max (h : Haz.Data nt ut r) (hc : Newton.CholSpec chol) (hS : S.IsSymm) {c : Fin p → ℝ}
    (hd : ∀ i, -Haz.hessian nt r delta X c i i + S i i ≠ 0) (hf : step (hazIn nt r delta X S chol noise) c = c) (d : Fin p → ℝ) :
    Haz.llk nt r delta X d - 1 / 2 * ∑ i, ∑ j, d i * S i j * d j ≤
      Haz.llk nt r delta X c - 1 / 2 * ∑ i, ∑ j, c i * S i j * c j - 1 / 2 * ∑ i, ∑ j, (d i - c i) * S i j * (d j - c j) := by
  have hs := haz_smooth (noise := noise) h hc hS hd
  obtain ⟨u, v, h1, h2, h3⟩ := fixed_is_max (haz_concave h) ⟨hc, hs.hsym c, hS, hd⟩ hs.grad hf d
  have e1 : Fl.fin (Haz.llk nt r delta X c - 1 / 2 * ∑ i, ∑ j, c i * S i j * c j) = Fl.fin u := by
    rw [← h1]; exact (Fl.fin_sub _ _).symm
  have e2 : Fl.fin (Haz.llk nt r delta X d - 1 / 2 * ∑ i, ∑ j, d i * S i j * d j) = Fl.fin v := by
    rw [← h2]; exact (Fl.fin_sub _ _).symm
  rw [Fl.fin_inj] at e1 e2
  rw [e1, e2]
  exact h3

end Hazard

/-! ### GAMMLSS -/

section Lss
variable {K n : ℕ} {fam : EtaBeta.LFam K} {w : ℕ → ℕ} {X : ℕ → Fin n → ℕ → ℝ} {y : Fin n → ℝ} {stored : ℕ → ℕ → ℕ → List ℕ}
  {S : Matrix (Fin (∑ l ∈ Finset.range K, w l)) (Fin (∑ l ∈ Finset.range K, w l)) ℝ}
  {chol : Matrix (Fin (∑ l ∈ Finset.range K, w l)) (Fin (∑ l ∈ Finset.range K, w l)) ℝ →
      Option (Matrix (Fin (∑ l ∈ Finset.range K, w l)) (Fin (∑ l ∈ Finset.range K, w l)) ℝ ×
        Equiv.Perm (Fin (∑ l ∈ Finset.range K, w l)))}
  {noise : ℕ → Fin (∑ l ∈ Finset.range K, w l) → ℝ}

/-- Position of a coefficient. -/
def at' (w : ℕ → ℕ) (q : Σ k : Fin K, Fin (w k)) : Fin (∑ l ∈ Finset.range K, w l) := ⟨_, split_lt w q⟩

theorem at_val (q : Σ k : Fin K, Fin (w k)) : (at' w q : ℕ) = EtaBeta.pos w q := rfl

theorem at_bij : Function.Bijective (at' (K := K) w) := by
  rw [Fintype.bijective_iff_injective_and_card]
  refine ⟨fun q q' h => EtaBeta.pos_injective w ?_, ?_⟩
  · rw [← at_val, ← at_val, h]
  · rw [Fintype.card_sigma, Fintype.card_fin]
    simp only [Fintype.card_fin]
    exact Fin.sum_univ_eq_sum_range w K

theorem blk_fderiv (c : Fin (∑ l ∈ Finset.range K, w l) → ℝ) : HasFDerivAt (blk w)
    (ContinuousLinearMap.pi fun q : Σ k : Fin K, Fin (w k) =>
      ContinuousLinearMap.proj (R := ℝ) (φ := fun _ : Fin (∑ l ∈ Finset.range K, w l) => ℝ) (at' w q)) c := by
  rw [hasFDerivAt_pi]
  intro q
  exact (ContinuousLinearMap.proj (R := ℝ) (φ := fun _ : Fin (∑ l ∈ Finset.range K, w l) => ℝ) (at' w q)).hasFDerivAt

theorem lin_blk (g : Fin (∑ l ∈ Finset.range K, w l) → ℝ) :
    (EtaBeta.lin fun q : Σ k : Fin K, Fin (w k) => g (at' w q)).comp (ContinuousLinearMap.pi fun q : Σ k : Fin K, Fin (w k) =>
      ContinuousLinearMap.proj (R := ℝ) (φ := fun _ : Fin (∑ l ∈ Finset.range K, w l) => ℝ) (at' w q)) = lf g := by
  ext v
  rw [ContinuousLinearMap.comp_apply, EtaBeta.lin_apply, lf_apply]
  exact Fintype.sum_equiv (Equiv.ofBijective _ at_bij) _ _ fun q => rfl

theorem lss_grad {c : Fin (∑ l ∈ Finset.range K, w l) → ℝ} (h : ∀ o, EtaBeta.EtaGrad fam (y o) (EtaBeta.etaOf w X (blk w c) o)) :
    HasFlGrad (lssIn fam w X y stored S chol noise).llk ((lssIn fam w X y stored S chol noise).grad c) c := by
  refine ⟨fun c => EtaBeta.llk fam w X y (blk w c), Eventually.of_forall fun _ => rfl, ?_⟩
  have h1 := (EtaBeta.gradient_correct fam w X y (blk w c) h).2
  have h2 := HasFDerivAt.comp c h1 (blk_fderiv c)
  refine h2.congr_fderiv ?_
  exact lin_blk fun i => (EtaBeta.gradient fam w X y (blk w c)).getD i 0

end Lss

/-! ### Multinomial responses -/

section Mn
variable {K n : ℕ} {w : ℕ → ℕ} {X : ℕ → Fin n → ℕ → ℝ} {y : Fin n → ℝ} {stored : ℕ → ℕ → ℕ → List ℕ}
  {S : Matrix (Fin (∑ l ∈ Finset.range K, w l)) (Fin (∑ l ∈ Finset.range K, w l)) ℝ}
  {chol : Matrix (Fin (∑ l ∈ Finset.range K, w l)) (Fin (∑ l ∈ Finset.range K, w l)) ℝ →
      Option (Matrix (Fin (∑ l ∈ Finset.range K, w l)) (Fin (∑ l ∈ Finset.range K, w l)) ℝ ×
        Equiv.Perm (Fin (∑ l ∈ Finset.range K, w l)))}
  {noise : ℕ → Fin (∑ l ∈ Finset.range K, w l) → ℝ}

theorem mn_lp (y : ℝ) (e : Fin K → ℝ) : EtaBeta.lpEta (EtaBeta.mnFam K) y e = -Real.log (1 + ∑ k, Real.exp (e k)) +
    ∑ k : Fin K, if ⌊y⌋₊ = k.val + 1 then e k else 0 := by
  simp only [EtaBeta.lpEta, EtaBeta.mn_mus]
  simp only [EtaBeta.mnFam, Lss.mnLp, Lss.muOf, Lss.norm, Real.log_exp, add_comm]

/-- The logarithm of a sum of exponentials lies above its tangents. -/
theorem lse_tangent (e e' : Fin K → ℝ) : Real.log (1 + ∑ k, Real.exp (e k)) +
    ∑ k, Real.exp (e k) / (1 + ∑ k, Real.exp (e k)) * (e' k - e k) ≤ Real.log (1 + ∑ k, Real.exp (e' k)) := by
  have hN : ∀ f : Fin K → ℝ, 0 < 1 + ∑ k, Real.exp (f k) := fun f => by
    have : 0 ≤ ∑ k, Real.exp (f k) := Finset.sum_nonneg fun k _ => (Real.exp_pos _).le
    linarith
  set N := 1 + ∑ k, Real.exp (e k) with hNe
  set a := ∑ k, Real.exp (e k) / N * (e' k - e k) with ha
  have h0 := hN e
  rw [← hNe] at h0
  rw [Real.le_log_iff_exp_le (hN e'), Real.exp_add, Real.exp_log h0]
  have h1 : ∀ x : ℝ, Real.exp a * (1 + (x - a)) ≤ Real.exp x := fun x => by
    have := Real.add_one_le_exp (x - a)
    have e1 : Real.exp x = Real.exp a * Real.exp (x - a) := by rw [← Real.exp_add]; congr 1; ring
    rw [e1]
    exact mul_le_mul_of_nonneg_left (by linarith) (Real.exp_pos _).le
  have h2 : ∀ k, Real.exp (e k) * (Real.exp a * (1 + (e' k - e k - a))) ≤ Real.exp (e' k) := fun k => by
    have e1 : Real.exp (e' k) = Real.exp (e k) * Real.exp (e' k - e k) := by rw [← Real.exp_add]; congr 1; ring
    rw [e1]
    exact mul_le_mul_of_nonneg_left (h1 _) (Real.exp_pos _).le
  have h3 := h1 0
  rw [Real.exp_zero] at h3
  have h4 := Finset.sum_le_sum fun k (_ : k ∈ Finset.univ) => h2 k
  have h5 : ∑ k, Real.exp (e k) * (Real.exp a * (1 + (e' k - e k - a))) =
      Real.exp a * ((1 - a) * (N - 1) + N * a) := by
    have e1 : ∑ k, Real.exp (e k) * (e' k - e k) = N * a := by
      rw [ha, Finset.mul_sum]
      refine Finset.sum_congr rfl fun k _ => ?_
      field_simp
    have e2 : N - 1 = ∑ k, Real.exp (e k) := by rw [hNe]; ring
    rw [← e1, e2, Finset.mul_sum, ← Finset.sum_add_distrib, Finset.mul_sum]
    exact Finset.sum_congr rfl fun k _ => by ring
  rw [h5] at h4
  nlinarith

theorem mn_tangent (y : ℝ) (e e' : Fin K → ℝ) : EtaBeta.lpEta (EtaBeta.mnFam K) y e' ≤ EtaBeta.lpEta (EtaBeta.mnFam K) y e +
    ∑ k, (-(Real.exp (e k) / (1 + ∑ k, Real.exp (e k))) + if ⌊y⌋₊ = k.val + 1 then 1 else 0) * (e' k - e k) := by
  rw [mn_lp, mn_lp]
  have h := lse_tangent e e'
  have e1 : ∑ k, (-(Real.exp (e k) / (1 + ∑ k, Real.exp (e k))) + if ⌊y⌋₊ = k.val + 1 then 1 else 0) * (e' k - e k) =
      -∑ k, Real.exp (e k) / (1 + ∑ k, Real.exp (e k)) * (e' k - e k) + ((∑ k : Fin K, if ⌊y⌋₊ = k.val + 1 then e' k else 0) -
        ∑ k : Fin K, if ⌊y⌋₊ = k.val + 1 then e k else 0) := by
    rw [← Finset.sum_sub_distrib, ← Finset.sum_neg_distrib, ← Finset.sum_add_distrib]
    refine Finset.sum_congr rfl fun k _ => ?_
    split_ifs <;> ring
  rw [e1]
  linarith

theorem mn_concave : Concave (lssIn (EtaBeta.mnFam K) w X y stored S chol noise) := by
  refine ⟨fun c => EtaBeta.llk (EtaBeta.mnFam K) w X y (blk w c), fun _ => rfl,
    concave_of_tangent fun c => ⟨(lssIn (EtaBeta.mnFam K) w X y stored S chol noise).grad c, fun d => ?_⟩⟩
  let E : (Fin (∑ l ∈ Finset.range K, w l) → ℝ) → Fin n → Fin K → ℝ := fun c o => EtaBeta.etaOf w X (blk w c) o
  let g : Fin n → Fin K → ℝ := fun o k => -(Real.exp (E c o k) / (1 + ∑ k, Real.exp (E c o k))) + if ⌊y o⌋₊ = k.val + 1 then 1 else 0
  have h1 : ∀ d, EtaBeta.llk (EtaBeta.mnFam K) w X y (blk w d) = ∑ o, EtaBeta.lpEta (EtaBeta.mnFam K) (y o) (E d o) := fun _ => rfl
  have h2 : (lssIn (EtaBeta.mnFam K) w X y stored S chol noise).grad c ⬝ᵥ (d - c) = ∑ o, ∑ k, g o k * (E d o k - E c o k) := by
    have hg := EtaBeta.gradient_get (EtaBeta.mnFam K) w X y (blk w c) g (fun o k => by
      have : (EtaBeta.mnFam K).dEta = true := rfl
      simp only [EtaBeta.etaDerivs, this, if_true, List.getElem?_map]
      rw [List.getElem?_eq_getElem (by simp)]
      simp only [List.getElem_finRange, Option.map_some, Option.some.injEq, Fin.cast_mk, Fin.eta, EtaBeta.mn_mus]
      simp [EtaBeta.mnFam, Lss.mnD1, Lss.muOf, Lss.norm, g, E, add_comm])
    have e1 : (lssIn (EtaBeta.mnFam K) w X y stored S chol noise).grad c ⬝ᵥ (d - c) =
        ∑ q : Σ k : Fin K, Fin (w k), (∑ o, g o q.1 * X q.1 o q.2) * (blk w d q - blk w c q) := by
      refine (Fintype.sum_equiv (Equiv.ofBijective _ (at_bij (w := w) (K := K))) _ _ fun q => ?_).symm
      show _ = (EtaBeta.gradient _ w X y (blk w c)).getD (EtaBeta.pos w q) 0 * _
      rw [List.getD_eq_getElem?_getD, hg q]
      rfl
    rw [e1]
    simp only [E, EtaBeta.etaOf, Fintype.sum_sigma, ← Finset.sum_sub_distrib, Finset.mul_sum, Finset.sum_mul]
    symm
    rw [Finset.sum_comm]
    refine Finset.sum_congr rfl fun k _ => ?_
    rw [Finset.sum_comm]
    refine Finset.sum_congr rfl fun a _ => Finset.sum_congr rfl fun o _ => by ring
  rw [h2, h1, h1, ← Finset.sum_add_distrib]
  exact Finset.sum_le_sum fun o _ => mn_tangent (y o) (E c o) (E d o)

/-- The stored patterns hold every nonzero value (scipy), for all coefficients. -/
def Holds {K n : ℕ} (fam : EtaBeta.LFam K) (w : ℕ → ℕ) (X : ℕ → Fin n → ℕ → ℝ) (y : Fin n → ℝ) (stored : ℕ → ℕ → ℕ → List ℕ) : Prop :=
  ∀ c : (Σ k : Fin K, Fin (w k)) → ℝ, EtaBeta.AllStored w X
    (EtaBeta.obsList K fun o => (EtaBeta.etaDerivs fam (y o) (EtaBeta.musOf fam (EtaBeta.etaOf w X c o))).2.1)
    (EtaBeta.obsList (K * (K - 1) / 2) fun o => (EtaBeta.etaDerivs fam (y o) (EtaBeta.musOf fam (EtaBeta.etaOf w X c o))).2.2) stored K

theorem mn_grad_eq (c : (Σ k : Fin K, Fin (w k)) → ℝ) (q : Σ k : Fin K, Fin (w k)) :
    (EtaBeta.gradient (EtaBeta.mnFam K) w X y c).getD (EtaBeta.pos w q) 0 =
      ∑ o, (-(Real.exp (EtaBeta.etaOf w X c o q.1) / (1 + ∑ k, Real.exp (EtaBeta.etaOf w X c o k))) +
        if ⌊y o⌋₊ = q.1.val + 1 then 1 else 0) * X q.1 o q.2 := by
  have hg := EtaBeta.gradient_get (EtaBeta.mnFam K) w X y c (fun o k =>
    -(Real.exp (EtaBeta.etaOf w X c o k) / (1 + ∑ k, Real.exp (EtaBeta.etaOf w X c o k))) +
        if ⌊y o⌋₊ = k.val + 1 then 1 else 0) (fun o k => by
      have : (EtaBeta.mnFam K).dEta = true := rfl
      simp only [EtaBeta.etaDerivs, this, if_true, List.getElem?_map]
      rw [List.getElem?_eq_getElem (by simp)]
      simp only [List.getElem_finRange, Option.map_some, Option.some.injEq, Fin.cast_mk, Fin.eta, EtaBeta.mn_mus]
      simp [EtaBeta.mnFam, Lss.mnD1, Lss.muOf, Lss.norm, add_comm])
  rw [List.getD_eq_getElem?_getD, hg q]
  rfl

theorem mn_grad_smooth (q : Σ k : Fin K, Fin (w k)) :
    ContDiff ℝ 1 fun c => (EtaBeta.gradient (EtaBeta.mnFam K) w X y c).getD (EtaBeta.pos w q) 0 := by
  have e : (fun c => (EtaBeta.gradient (EtaBeta.mnFam K) w X y c).getD (EtaBeta.pos w q) 0) = fun c => _ := funext fun c => mn_grad_eq c q
  rw [e]
  have he : ∀ o (k : Fin K), ContDiff ℝ 1 fun c : (Σ k : Fin K, Fin (w k)) → ℝ => Real.exp (EtaBeta.etaOf w X c o k) := by
    intro o k
    unfold EtaBeta.etaOf
    fun_prop
  refine ContDiff.sum fun o _ => ContDiff.mul (ContDiff.add (ContDiff.neg ?_) contDiff_const) contDiff_const
  refine (he o q.1).div (contDiff_const.add (ContDiff.sum fun k _ => he o k)) fun c => ?_
  have : 0 ≤ ∑ k, Real.exp (EtaBeta.etaOf w X c o k) := Finset.sum_nonneg fun k _ => (Real.exp_pos _).le
  linarith

theorem mn_smooth (hst : Holds (EtaBeta.mnFam K) w X y stored) (hc : Newton.CholSpec chol) (hS : S.IsSymm)
    {l : Fin (∑ l ∈ Finset.range K, w l) → ℝ}
    (hd : ∀ i, -(lssIn (EtaBeta.mnFam K) w X y stored S chol noise).hess l i i + S i i ≠ 0) :
    Smooth (lssIn (EtaBeta.mnFam K) w X y stored S chol noise) l := by
  have H := fun c => EtaBeta.hessian_correct (EtaBeta.mnFam K) w X y stored c (fun o => EtaBeta.mn_exact _ _) (hst c)
  have hbc : Continuous (blk (K := K) w) := continuous_pi fun q => continuous_apply _
  refine ⟨hc, fun c => ?_, hS, lss_grad fun o => (EtaBeta.mn_exact _ _).grad, ?_, ?_, hd⟩
  · ext i j
    obtain ⟨q, rfl⟩ := at_bij.2 i
    obtain ⟨q', rfl⟩ := at_bij.2 j
    exact (H (blk w c)).2.1 q' q
  · refine Continuous.continuousAt (continuous_pi fun i => ?_)
    obtain ⟨q, rfl⟩ := at_bij.2 i
    exact (mn_grad_smooth q).continuous.comp hbc
  · refine Continuous.continuousAt (continuous_pi fun i => continuous_pi fun j => ?_)
    obtain ⟨q, rfl⟩ := at_bij.2 i
    obtain ⟨q', rfl⟩ := at_bij.2 j
    have e : (fun c => (lssIn (EtaBeta.mnFam K) w X y stored S chol noise).hess c (at' w q) (at' w q')) =
        (fun c => fderiv ℝ (fun c => (EtaBeta.gradient (EtaBeta.mnFam K) w X y c).getD (EtaBeta.pos w q) 0) c (Pi.single q' 1)) ∘ blk w := by
      funext c
      show _ = fderiv ℝ _ (blk w c) _
      rw [((H (blk w c)).2.2 q).fderiv, EtaBeta.lin_apply]
      simp [Pi.single_apply]
      rfl
    rw [e]
    exact (((mn_grad_smooth q).continuous_fderiv one_ne_zero).clm_apply continuous_const).comp hbc

/-- **C125.** Multinomial models: if the coefficients converge, their limit maximises the penalised log-likelihood, unless an iteration
left them alone although the proposal differed. -/
theorem multinomial_limit_is_max (hst : Holds (EtaBeta.mnFam K) w X y stored) (hc : Newton.CholSpec chol) (hS : S.IsSymm) (C : Cfg)
    (hC : C.grad = true → 0 < C.outer) {c l : Fin (∑ l ∈ Finset.range K, w l) → ℝ}
    (hd : ∀ i, -(lssIn (EtaBeta.mnFam K) w X y stored S chol noise).hess l i i + S i i ≠ 0)
    (ht : Tendsto (fun k => (iter C (lssIn (EtaBeta.mnFam K) w X y stored S chol noise) c k).coef) atTop (𝓝 l))
    (hgo : ∀ k, (iter C (lssIn (EtaBeta.mnFam K) w X y stored S chol noise) c (k + 1)).coef =
        (iter C (lssIn (EtaBeta.mnFam K) w X y stored S chol noise) c k).coef →
      proposal C (ext (lssIn (EtaBeta.mnFam K) w X y stored S chol noise)) (iter C (lssIn (EtaBeta.mnFam K) w X y stored S chol noise) c k) =
        (iter C (lssIn (EtaBeta.mnFam K) w X y stored S chol noise) c k).coef) (d : Fin (∑ l ∈ Finset.range K, w l) → ℝ) :
    EtaBeta.llk (EtaBeta.mnFam K) w X y (blk w d) - 1 / 2 * ∑ i, ∑ j, d i * S i j * d j ≤
      EtaBeta.llk (EtaBeta.mnFam K) w X y (blk w l) - 1 / 2 * ∑ i, ∑ j, l i * S i j * l j -
        1 / 2 * ∑ i, ∑ j, (d i - l i) * S i j * (d j - l j) := by
  have hcalm : Calm C (ext (lssIn (EtaBeta.mnFam K) w X y stored S chol noise)) := by
    refine ⟨fun hh => ?_, fun _ => ?_⟩
    · have := hC hh.1; omega
    · split_ifs
      · exact fun c a => trivial
      · exact fun c => trivial
  obtain ⟨u, v, h1, h2, h3⟩ := limit_is_max C mn_concave hcalm trivial (mn_smooth hst hc hS hd) ht hgo d
  have e1 : Fl.fin (EtaBeta.llk (EtaBeta.mnFam K) w X y (blk w l) - 1 / 2 * ∑ i, ∑ j, l i * S i j * l j) = Fl.fin u := by
    rw [← h1]; exact (Fl.fin_sub _ _).symm
  have e2 : Fl.fin (EtaBeta.llk (EtaBeta.mnFam K) w X y (blk w d) - 1 / 2 * ∑ i, ∑ j, d i * S i j * d j) = Fl.fin v := by
    rw [← h2]; exact (Fl.fin_sub _ _).symm
  rw [Fl.fin_inj] at e1 e2
  rw [e1, e2]
  exact h3

/-- **C125.** Multinomial models: coefficients reproduced by the Newton step maximise the penalised log-likelihood. -/
theorem multinomial_fixed_is_max (hst : Holds (EtaBeta.mnFam K) w X y stored) (hc : Newton.CholSpec chol) (hS : S.IsSymm)
    {c : Fin (∑ l ∈ Finset.range K, w l) → ℝ}
    (hd : ∀ i, -(lssIn (EtaBeta.mnFam K) w X y stored S chol noise).hess c i i + S i i ≠ 0)
    (hf : step (lssIn (EtaBeta.mnFam K) w X y stored S chol noise) c = c) (d : Fin (∑ l ∈ Finset.range K, w l) → ℝ) :
    EtaBeta.llk (EtaBeta.mnFam K) w X y (blk w d) - 1 / 2 * ∑ i, ∑ j, d i * S i j * d j ≤
      EtaBeta.llk (EtaBeta.mnFam K) w X y (blk w c) - 1 / 2 * ∑ i, ∑ j, c i * S i j * c j -
        1 / 2 * ∑ i, ∑ j, (d i - c i) * S i j * (d j - c j) := by
  have hs := mn_smooth (noise := noise) hst hc hS hd
  obtain ⟨u, v, h1, h2, h3⟩ := fixed_is_max mn_concave ⟨hc, hs.hsym c, hS, hd⟩ hs.grad hf d
  have e1 : Fl.fin (EtaBeta.llk (EtaBeta.mnFam K) w X y (blk w c) - 1 / 2 * ∑ i, ∑ j, c i * S i j * c j) = Fl.fin u := by
    rw [← h1]; exact (Fl.fin_sub _ _).symm
  have e2 : Fl.fin (EtaBeta.llk (EtaBeta.mnFam K) w X y (blk w d) - 1 / 2 * ∑ i, ∑ j, d i * S i j * d j) = Fl.fin v := by
    rw [← h2]; exact (Fl.fin_sub _ _).symm
  rw [Fl.fin_inj] at e1 e2
  rw [e1, e2]
  exact h3

end Mn

end Verif.Lml
