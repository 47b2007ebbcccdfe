import Verif.NewtLocal
import Verif.ConvLocal

/-!
# C148, C152: iterations whose penalised log-likelihood comes close to its maximum
-/

namespace Verif.NQ
open Matrix Filter Topology

variable {p : ℕ} {F : (Fin p → ℝ) → ℝ} {g : (Fin p → ℝ) → Fin p → ℝ} {A : (Fin p → ℝ) → Matrix (Fin p) (Fin p) ℝ} {T : (Fin p → ℝ) → Fin p → ℝ}

/-- Away from the maximum the function falls. -/
theorem falls (h : Loc F g A T) {e : Fin p → ℝ} (hf : T e = e) {u : Fin p → ℝ} (hu : u ≠ 0) :
    StrictAntiOn (fun s : ℝ => F (e + s • u)) (Set.Ici 0) := by
  have he : g e = 0 := by
    have := h.newton e
    rw [hf, sub_self, mulVec_zero] at this
    exact this.symm
  have hd : ∀ s : ℝ, HasDerivAt (fun s : ℝ => g (e + s • u) ⬝ᵥ u) (-(u ⬝ᵥ A (e + s • u) *ᵥ u)) s := fun s => by
    have h1 := hasDerivAt_pi.1 (h.lineG e u s)
    have h2 : HasDerivAt (fun s : ℝ => ∑ i, g (e + s • u) i * u i) (∑ i, (-(A (e + s • u) *ᵥ u)) i * u i) s :=
      HasDerivAt.fun_sum fun i _ => (h1 i).mul_const (u i)
    refine h2.congr_deriv ?_
    rw [dotProduct_comm, ← neg_dotProduct]
    rfl
  have hg : StrictAnti fun s : ℝ => g (e + s • u) ⬝ᵥ u := by
    refine strictAnti_of_deriv_neg fun s => ?_
    rw [(hd s).deriv]
    exact neg_neg_of_pos (h.pd _ _ hu)
  refine strictAntiOn_of_deriv_neg (convex_Ici 0) (fun s _ => (h.lineF e u s).continuousAt.continuousWithinAt) fun s hs => ?_
  rw [interior_Ici] at hs
  rw [(h.lineF e u s).deriv]
  have := hg hs
  simpa [he] using this

/-- Values close to the maximum are taken close to it only. -/
theorem level (h : Loc F g A T) (hF : Continuous F) {e : Fin p → ℝ} (hf : T e = e) {δ : ℝ} (hδ : 0 < δ) :
    ∃ η > 0, ∀ c, F e - η < F c → ‖c - e‖ < δ := by
  have key : ∀ c, δ ≤ ‖c - e‖ → ∃ d ∈ Metric.sphere e δ, F c ≤ F d := fun c hc => by
    have hn : 0 < ‖c - e‖ := hδ.trans_le hc
    have hu : c - e ≠ 0 := norm_pos_iff.1 hn
    refine ⟨e + (δ / ‖c - e‖) • (c - e), ?_, ?_⟩
    · rw [mem_sphere_iff_norm, add_sub_cancel_left, norm_smul, Real.norm_eq_abs, abs_of_pos (by positivity), div_mul_cancel₀ _ hn.ne']
    · have := (falls h hf hu).antitoneOn (show (0 : ℝ) ≤ δ / ‖c - e‖ by positivity) (show (0 : ℝ) ≤ 1 from zero_le_one) ((div_le_one hn).2 hc)
      simpa using this
  rcases (Metric.sphere e δ).eq_empty_or_nonempty with h0 | h0
  · refine ⟨1, one_pos, fun c _ => ?_⟩
    by_contra hc
    obtain ⟨d, hd, -⟩ := key c (not_lt.1 hc)
    rw [h0] at hd
    exact hd
  · obtain ⟨b, hb, hmax⟩ := (isCompact_sphere e δ).exists_isMaxOn h0 hF.continuousOn
    have hlt : F b < F e := by
      have hu : b - e ≠ 0 := fun hz => by
        rw [mem_sphere_iff_norm, hz, norm_zero] at hb
        exact hδ.ne hb
      have := falls h hf hu (show (0 : ℝ) ≤ 0 from le_rfl) (show (0 : ℝ) ≤ 1 from zero_le_one) zero_lt_one
      simpa using this
    refine ⟨F e - F b, sub_pos.2 hlt, fun c hc => ?_⟩
    by_contra hcd
    obtain ⟨d, hd, hle⟩ := key c (not_lt.1 hcd)
    have := hmax hd
    have h2 : F d ≤ F b := this
    linarith

end Verif.NQ

namespace Verif.NCv
open Verif Matrix Filter Topology Lml Coef

variable {p : ℕ} {x : In p} {F : (Fin p → ℝ) → ℝ}

theorem level_of (h : Nice x F) (hE : Exact x) {e : Fin p → ℝ} (hf : step x e = e) : ∃ η > 0, ∀ (C : Cfg) (c : Fin p → ℝ) (k₀ : ℕ),
    C.grad = false → Calm C (ext x) → ∀ u v, pllk x e = .fin u → (iter C x c k₀).pen = .fin v → u - η < v →
      Tendsto (fun k => (iter C x c k).coef) atTop (𝓝 e) := by
  obtain ⟨δ, hδ, m, -, hs⟩ := local_of h hE hf
  obtain ⟨η, hη, hl⟩ := NQ.level (loc h hE) h.fcont hf hδ
  refine ⟨η, hη, fun C c k₀ hg hC u v hu hv huv => (hs C c k₀ hg hC (hl _ ?_)).1⟩
  rw [h.val, Fl.fin_inj] at hu
  rw [pen_iter, h.val, Fl.fin_inj] at hv
  rw [hu, hv]
  exact huv

section Haz
variable {n nt : ℕ} {ut : ℕ → ℝ} {r delta : Fin n → ℕ} {X : Fin n → Fin p → ℝ} {S : Matrix (Fin p) (Fin p) ℝ}
  {chol : Matrix (Fin p) (Fin p) ℝ → Option (Matrix (Fin p) (Fin p) ℝ × Equiv.Perm (Fin p))} {noise : ℕ → Fin p → ℝ}

/-- C152.  No monotone direction: iterations whose penalised log-likelihood comes close enough to its maximum once, from whatever start, converge
to the estimate. -/
theorem hazard_level (h : Haz.Data nt ut r) (hch : Newton.CholSpec chol) (hS : S.PosSemidef) (hi : HEx.Ident ut r delta X S)
    (hn : ¬∃ v, HEx.Monotone ut r delta X S v) :
    ∃ e, (∀ d, d ≠ e → Haz.llk nt r delta X d - 1 / 2 * ∑ i, ∑ j, d i * S i j * d j < Haz.llk nt r delta X e - 1 / 2 * ∑ i, ∑ j, e i * S i j * e j) ∧
      ∃ η > 0, ∀ (C : Cfg) (c : Fin p → ℝ) (k₀ : ℕ), C.grad = false → Calm C (ext (hazIn nt r delta X S chol noise)) →
        ∀ u v, pllk (hazIn nt r delta X S chol noise) e = .fin u → (iter C (hazIn nt r delta X S chol noise) c k₀).pen = .fin v → u - η < v →
          Tendsto (fun k => (iter C (hazIn nt r delta X S chol noise) c k).coef) atTop (𝓝 e) := by
  obtain ⟨e, he, -⟩ := HEx.estimate_exists (noise := noise) h hch hS hi hn
  exact ⟨e, fun d hd => HEx.estimate_is_max h hch hS hi he hd, level_of (haz_nice h hch hS hi) (haz_exact h) he⟩

end Haz

section Mul
open Cls
variable {K n : ℕ} {w : ℕ → ℕ} {X : ℕ → Fin n → ℕ → ℝ} {y : Fin n → Fin (K + 1)} {stored : ℕ → ℕ → ℕ → List ℕ}
  {S : Matrix (Fin (∑ l ∈ Finset.range K, w l)) (Fin (∑ l ∈ Finset.range K, w l)) ℝ}
  {chol : Matrix (Fin (∑ l ∈ Finset.range K, w l)) (Fin (∑ l ∈ Finset.range K, w l)) ℝ →
      Option (Matrix (Fin (∑ l ∈ Finset.range K, w l)) (Fin (∑ l ∈ Finset.range K, w l)) ℝ ×
        Equiv.Perm (Fin (∑ l ∈ Finset.range K, w l)))}
  {noise : ℕ → Fin (∑ l ∈ Finset.range K, w l) → ℝ}

/-- C152.  Classes not separated: iterations whose penalised log-likelihood comes close enough to its maximum once, from whatever start, converge
to the estimate. -/
theorem multinomial_level (hst : Holds (EtaBeta.mnFam K) w X (num y) stored) (hch : Newton.CholSpec chol) (hS : S.PosSemidef) (hi : MEx.Ident w X S)
    (hn : ¬∃ v, MEx.Separated w X y S v) :
    ∃ e, (∀ d, d ≠ e → EtaBeta.llk (EtaBeta.mnFam K) w X (num y) (blk w d) - 1 / 2 * ∑ i, ∑ j, d i * S i j * d j <
        EtaBeta.llk (EtaBeta.mnFam K) w X (num y) (blk w e) - 1 / 2 * ∑ i, ∑ j, e i * S i j * e j) ∧
      ∃ η > 0, ∀ (C : Cfg) (c : Fin (∑ l ∈ Finset.range K, w l) → ℝ) (k₀ : ℕ), C.grad = false →
        Calm C (ext (lssIn (EtaBeta.mnFam K) w X (num y) stored S chol noise)) →
        ∀ u v, pllk (lssIn (EtaBeta.mnFam K) w X (num y) stored S chol noise) e = .fin u →
          (iter C (lssIn (EtaBeta.mnFam K) w X (num y) stored S chol noise) c k₀).pen = .fin v → u - η < v →
          Tendsto (fun k => (iter C (lssIn (EtaBeta.mnFam K) w X (num y) stored S chol noise) c k).coef) atTop (𝓝 e) := by
  obtain ⟨e, he, -⟩ := MEx.estimate_exists (noise := noise) hst hch hS hi hn
  exact ⟨e, fun d hd => MEx.estimate_is_max hst hch hS hi he hd, level_of (mul_nice hst hch hS hi) (mul_exact hst) he⟩

end Mul

end Verif.NCv

namespace Verif.Conv
open Verif Matrix Fl Fam Filter Topology Sep

variable {N p : ℕ} {x : Pirls.In N p} {s : ℝ}

/-- C148.  Families with their canonical link, data that are not separated: passes whose penalised log-likelihood comes close enough to its maximum
once, from whatever start, converge to the estimate. -/
theorem level_converges (hg : Pirls.Good x s) (hi : Pirls.Ident x) (hk : ∀ i, isCanonical (x.fam i) x.lk = true) (hn : ¬Separated x) :
    ∃ e, (∀ b, b ≠ e → ∃ u v, Pirls.pllk x s e = fin u ∧ Pirls.pllk x s b = fin v ∧ v < u) ∧
      ∃ η > 0, ∀ (b : Fin p → ℝ) (k₀ : ℕ) (u v : ℝ), Pirls.pllk x s e = fin u → Pirls.pllk x s ((Pirls.pass x)^[k₀] b) = fin v → u - η < v →
        Tendsto (fun k => (Pirls.pass x)^[k] b) atTop (𝓝 e) := by
  have hc : ∀ i, covered (x.fam i) x.lk := fun i => canon_cov (hk i)
  obtain ⟨e, he, δ, hδ, m, -, hs⟩ := local_converges hg hi hk hn
  have hf : Pirls.next x e = e := by
    obtain ⟨e', he', -⟩ := estimate_exists hg hi hc hn
    by_cases hee : e' = e
    · rw [← hee]
      exact he'
    · obtain ⟨u, v, h1, h2, h3⟩ := he e' hee
      obtain ⟨u', v', h4, h5, h6⟩ := Pirls.fixed_is_unique_max hg hi (fun i => cov_strict (hc i)) (adm hc e') he' (adm hc e) (Ne.symm hee)
      rw [h2, fin_inj] at h4
      rw [h1, fin_inj] at h5
      linarith
  have hs0 := hg.pos
  obtain ⟨η, hη, hl⟩ := NQ.level (loc hg hi hc hk) ((PR_cont hg hc).const_mul s) hf hδ
  refine ⟨e, he, η / s, by positivity, fun b k₀ u v hu hv huv => (hs b k₀ (hl _ ?_)).1⟩
  rw [Pirls.pllk_eq hg (adm hc _), fin_inj] at hu hv
  show s * Pirls.PR x s e - η < s * Pirls.PR x s ((Pirls.pass x)^[k₀] b)
  rw [hu, hv]
  have := mul_lt_mul_of_pos_left huv hs0
  rw [mul_sub, mul_div_cancel₀ _ hs0.ne'] at this
  exact this

end Verif.Conv
