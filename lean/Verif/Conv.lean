import Verif.Exist
import Mathlib.Topology.Instances.Matrix
import Mathlib.Topology.Sequences

/-!
# C148: what the passes over the coefficients converge to

Model: `PirlsModel` (`pass`, `inner`; gamm_solvers.py 1798-1858, 2210-2292).
-/

namespace Verif.Conv
open Verif Matrix Fl Fam Filter Topology Sep

variable {N p : ℕ} {x : Pirls.In N p} {s : ℝ}

theorem adm (hc : ∀ i, covered (x.fam i) x.lk) (b : Fin p → ℝ) : Pirls.Adm x b := Pirls.adm_total (fun i => cov_total (hc i)) b

theorem gram_cont (hg : Pirls.Good x s) (hc : ∀ i, covered (x.fam i) x.lk) (b : Fin p → ℝ) : ContinuousAt (Pirls.gram x) b := by
  have e : Pirls.gram x = fun b => Matrix.of fun a c => (∑ i, Pirls.wR x b i * x.X i a * x.X i c) + x.S a c := by
    funext b
    ext a c
    exact Pirls.gram_eq hg (adm hc b) a c
  rw [e]
  refine continuousAt_pi.2 fun a => continuousAt_pi.2 fun c => ?_
  refine ContinuousAt.add ?_ continuousAt_const
  exact tendsto_finsetSum _ fun i _ => ((Pirls.wR_cont hg (adm hc b) i).mul continuousAt_const).mul continuousAt_const

/-- Proposals depend continuously on the coefficients. -/
theorem next_cont (hg : Pirls.Good x s) (hi : Pirls.Ident x) (hc : ∀ i, covered (x.fam i) x.lk) (b : Fin p → ℝ) :
    ContinuousAt (Pirls.next x) b := by
  have e : Pirls.next x = fun b => b + ((Pirls.gram x b).det)⁻¹ • ((Pirls.gram x b).adjugate *ᵥ Pirls.G x b) := by
    funext b
    have hM := Pirls.gram_posdef hg hi (adm hc b)
    have hd : (Pirls.gram x b).det ≠ 0 := hM.det_pos.ne'
    rw [← Pirls.gram_step hg (adm hc b) hM, mulVec_mulVec, adjugate_mul, smul_mulVec, one_mulVec, smul_smul, inv_mul_cancel₀ hd, one_smul,
      add_sub_cancel]
  rw [e]
  have hgc := gram_cont hg hc b
  have hd : (Pirls.gram x b).det ≠ 0 := (Pirls.gram_posdef hg hi (adm hc b)).det_pos.ne'
  have hdc : ContinuousAt (fun b => (Pirls.gram x b).det) b := (Continuous.matrix_det continuous_id).continuousAt.comp hgc
  refine continuousAt_id.add (ContinuousAt.smul (f := fun b => ((Pirls.gram x b).det)⁻¹) (hdc.inv₀ hd) ?_)
  · have h1 : ContinuousAt (fun b => (Pirls.gram x b).adjugate) b := (Continuous.matrix_adjugate continuous_id).continuousAt.comp hgc
    refine continuousAt_pi.2 fun a => ?_
    show ContinuousAt (fun b => ∑ c, (Pirls.gram x b).adjugate a c * Pirls.G x b c) b
    refine tendsto_finsetSum _ fun c _ => ?_
    exact ((continuousAt_pi.1 (continuousAt_pi.1 h1 a) c)).mul (Pirls.G_cont hg (adm hc b) c)

/-- Passes whose step control finds a step unless there is nothing left to do. -/
def Goes (x : Pirls.In N p) (b : ℕ → Fin p → ℝ) : Prop :=
  (∀ k, b (k + 1) = Pirls.pass x (b k)) ∧ ∀ k, Pirls.pass x (b k) = b k → Pirls.next x (b k) = b k

variable {b : ℕ → Fin p → ℝ}

theorem Goes.half (h : Goes x b) (k : ℕ) : ∃ j : Fin 32, b (k + 1) = Pirls.half (b k) (Pirls.next x (b k)) j := by
  rcases Pirls.pass_cases x (b k) with ⟨j, h1, h2, -⟩ | ⟨h1, -⟩
  · exact ⟨⟨j, by omega⟩, by rw [h.1, h2]⟩
  · exact ⟨0, by rw [h.1, h1, h.2 k h1, Fin.val_zero, Pirls.half_zero]⟩

theorem mono (hg : Pirls.Good x s) (hc : ∀ i, covered (x.fam i) x.lk) (hr : ∀ k, b (k + 1) = Pirls.pass x (b k)) :
    Monotone fun k => Pirls.PR x s (b k) := by
  refine monotone_nat_of_le_succ fun k => ?_
  rw [hr]
  rcases Pirls.pass_cases x (b k) with ⟨j, -, -, h3, -⟩ | ⟨h1, -⟩
  · exact (Pirls.notWorse_iff hg (adm hc _) (adm hc _)).1 h3
  · rw [h1]

/-- Near a cluster point some step length is used again and again. -/
theorem cluster (hg : Pirls.Good x s) (hi : Pirls.Ident x) (hc : ∀ i, covered (x.fam i) x.lk) (h : Goes x b) {l : Fin p → ℝ} {φ : ℕ → ℕ}
    (hφ : StrictMono φ) (ht : Tendsto (b ∘ φ) atTop (𝓝 l)) :
    ∃ (j : Fin 32) (ψ : ℕ → ℕ), StrictMono ψ ∧ Tendsto (b ∘ ψ) atTop (𝓝 l) ∧
      Tendsto (fun k => b (ψ k + 1)) atTop (𝓝 (Pirls.half l (Pirls.next x l) j)) := by
  choose J hJ using h.half
  have hfr : ∃ j : Fin 32, ∃ᶠ k in atTop, J (φ k) = j := by
    by_contra hcon
    push Not at hcon
    have h1 : ∀ᶠ k in atTop, ∀ j : Fin 32, J (φ k) ≠ j := by
      rw [eventually_all]
      intro j
      exact hcon j
    obtain ⟨k, hk⟩ := h1.exists
    exact hk _ rfl
  obtain ⟨j, hj⟩ := hfr
  obtain ⟨χ, hχ, hχj⟩ := extraction_of_frequently_atTop hj
  have ht' : Tendsto (b ∘ (φ ∘ χ)) atTop (𝓝 l) := ht.comp hχ.tendsto_atTop
  refine ⟨j, φ ∘ χ, hφ.comp hχ, ht', ?_⟩
  have e : (fun k => b ((φ ∘ χ) k + 1)) = fun k => Pirls.half (b ((φ ∘ χ) k)) (Pirls.next x (b ((φ ∘ χ) k))) j := by
    funext k
    rw [hJ, Function.comp_apply, hχj k]
  rw [e]
  have hn : Tendsto (fun k => Pirls.next x (b ((φ ∘ χ) k))) atTop (𝓝 (Pirls.next x l)) := (next_cont hg hi hc l).tendsto.comp ht'
  exact ht'.add ((hn.sub ht').const_smul _)

theorem half_eq {l n : Fin p → ℝ} {j : ℕ} (h : Pirls.half l n j = l) : n = l := by
  unfold Pirls.half at h
  have h1 : (1 / 2 ^ j : ℝ) • (n - l) = 0 := by
    have := congrArg (fun v => v - l) h
    simpa using this
  rcases smul_eq_zero.1 h1 with h2 | h2
  · exact absurd h2 (by positivity)
  · exact sub_eq_zero.1 h2

/-- If the coefficients change less and less, every cluster point is reproduced by the update. -/
theorem cluster_fixed (hg : Pirls.Good x s) (hi : Pirls.Ident x) (hc : ∀ i, covered (x.fam i) x.lk) (h : Goes x b)
    (hd : Tendsto (fun k => b (k + 1) - b k) atTop (𝓝 0)) {l : Fin p → ℝ} {φ : ℕ → ℕ}
    (hφ : StrictMono φ) (ht : Tendsto (b ∘ φ) atTop (𝓝 l)) : Pirls.next x l = l := by
  obtain ⟨j, ψ, hψ, h1, h2⟩ := cluster hg hi hc h hφ ht
  have h3 : Tendsto (fun k => b (ψ k + 1)) atTop (𝓝 (0 + l)) := by
    have := (hd.comp hψ.tendsto_atTop).add h1
    refine this.congr fun k => ?_
    simp
  rw [zero_add] at h3
  exact half_eq (tendsto_nhds_unique h2 h3)

/-- From a cluster point one of the steps leaves the penalised log-likelihood as it is. -/
theorem cluster_tie (hg : Pirls.Good x s) (hi : Pirls.Ident x) (hc : ∀ i, covered (x.fam i) x.lk) (h : Goes x b) {l : Fin p → ℝ} {φ : ℕ → ℕ}
    (hφ : StrictMono φ) (ht : Tendsto (b ∘ φ) atTop (𝓝 l)) :
    ∃ j : ℕ, j ≤ 31 ∧ Pirls.PR x s (Pirls.half l (Pirls.next x l) j) = Pirls.PR x s l := by
  obtain ⟨j, ψ, hψ, h1, h2⟩ := cluster hg hi hc h hφ ht
  refine ⟨j, by omega, ?_⟩
  have hcont := PR_cont hg hc
  have t1 : Tendsto (fun k => Pirls.PR x s (b (ψ k))) atTop (𝓝 (Pirls.PR x s l)) := (hcont.tendsto l).comp h1
  have t2 : Tendsto (fun k => Pirls.PR x s (b (ψ k + 1))) atTop (𝓝 (Pirls.PR x s (Pirls.half l (Pirls.next x l) j))) := (hcont.tendsto _).comp h2
  rcases tendsto_of_monotone (mono hg hc h.1) with hL | ⟨L, hL⟩
  · exact absurd t1 (not_tendsto_nhds_of_tendsto_atTop (hL.comp hψ.tendsto_atTop) _)
  · have t3 := tendsto_nhds_unique t1 (hL.comp hψ.tendsto_atTop)
    have t4 := tendsto_nhds_unique t2 (((tendsto_add_atTop_iff_nat 1).2 hL).comp hψ.tendsto_atTop)
    rw [t3, t4]

/-- The passes approach coefficients, not a fixed point, from which one of the steps tried leaves the penalised log-likelihood exactly as it is. -/
def Ties (x : Pirls.In N p) (s : ℝ) (b : ℕ → Fin p → ℝ) : Prop :=
  ∃ (l : Fin p → ℝ) (φ : ℕ → ℕ) (j : ℕ) (u : ℝ), StrictMono φ ∧ Tendsto (b ∘ φ) atTop (𝓝 l) ∧ j ≤ 31 ∧ Pirls.next x l ≠ l ∧
    Pirls.pllk x s l = fin u ∧ Pirls.pllk x s (l + (1 / 2 ^ j : ℝ) • (Pirls.next x l - l)) = fin u

theorem ties (hg : Pirls.Good x s) (hi : Pirls.Ident x) (hc : ∀ i, covered (x.fam i) x.lk) (h : Goes x b) {l : Fin p → ℝ} {φ : ℕ → ℕ}
    (hφ : StrictMono φ) (ht : Tendsto (b ∘ φ) atTop (𝓝 l)) (hne : Pirls.next x l ≠ l) : Ties x s b := by
  obtain ⟨j, h1, h2⟩ := cluster_tie hg hi hc h hφ ht
  exact ⟨l, φ, j, _, hφ, ht, h1, hne, Pirls.pllk_eq hg (adm hc _), by rw [Pirls.pllk_eq hg (adm hc _), fin_inj]; exact h2⟩

/-- C148.  Data that are not separated: the coefficients stay bounded, whatever they start from. -/
theorem stays_bounded (hg : Pirls.Good x s) (hc : ∀ i, covered (x.fam i) x.lk) (hn : ¬Separated x) (b0 : Fin p → ℝ) :
    ∃ R, ∀ k, ‖(Pirls.pass x)^[k] b0‖ ≤ R := by
  obtain ⟨C, m, hm, h⟩ := coercive hg hc hn
  refine ⟨max 1 ((C - Pirls.PR x s b0) / m), fun k => ?_⟩
  by_contra hcon
  rw [not_le, max_lt_iff, div_lt_iff₀ hm] at hcon
  have h1 := h _ hcon.1.le
  have h2 := mono (b := fun k => (Pirls.pass x)^[k] b0) hg hc (fun k => Function.iterate_succ_apply' _ _ _) (Nat.zero_le k)
  simp only [Function.iterate_zero, id] at h2
  linarith [hcon.2]

theorem Goes.iter (h : Goes x b) : ∀ k, b k = (Pirls.pass x)^[k] (b 0)
  | 0 => rfl
  | k + 1 => by rw [h.1, Goes.iter h k, Function.iterate_succ_apply']

theorem Goes.bounded (h : Goes x b) (hg : Pirls.Good x s) (hc : ∀ i, covered (x.fam i) x.lk) (hn : ¬Separated x) : ∃ R, ∀ k, ‖b k‖ ≤ R := by
  obtain ⟨R, hR⟩ := stays_bounded hg hc hn (b 0)
  exact ⟨R, fun k => by rw [h.iter]; exact hR k⟩

/-- A bounded sequence converges to its only cluster point. -/
theorem tendsto_only {R : ℝ} (hR : ∀ k, ‖b k‖ ≤ R) {e : Fin p → ℝ}
    (h : ∀ l (φ : ℕ → ℕ), StrictMono φ → Tendsto (b ∘ φ) atTop (𝓝 l) → l = e) : Tendsto b atTop (𝓝 e) := by
  refine tendsto_of_subseq_tendsto fun ns hns => ?_
  obtain ⟨l, -, φ, hφ, hl⟩ := (isCompact_closedBall (0 : Fin p → ℝ) R).tendsto_subseq (x := b ∘ ns) fun k => by
    rw [mem_closedBall_zero_iff]
    exact hR _
  obtain ⟨χ, hχ, hχ'⟩ := strictMono_subseq_of_tendsto_atTop (hns.comp hφ.tendsto_atTop)
  have hl' : Tendsto (b ∘ ((ns ∘ φ) ∘ χ)) atTop (𝓝 l) := hl.comp hχ.tendsto_atTop
  rw [h l _ hχ' hl'] at hl
  exact ⟨φ, hl⟩

/-- C148.  Data that are not separated, coefficients that change less and less: the passes converge to the estimate. -/
theorem converges_partial (hg : Pirls.Good x s) (hi : Pirls.Ident x) (hc : ∀ i, covered (x.fam i) x.lk) (hn : ¬Separated x) (h : Goes x b)
    (hd : Tendsto (fun k => b (k + 1) - b k) atTop (𝓝 0)) :
    ∃ e, Pirls.next x e = e ∧ (∀ b', b' ≠ e → ∃ u v, Pirls.pllk x s e = fin u ∧ Pirls.pllk x s b' = fin v ∧ v < u) ∧ Tendsto b atTop (𝓝 e) := by
  obtain ⟨e, he, hu⟩ := estimate_exists hg hi hc hn
  obtain ⟨R, hR⟩ := h.bounded hg hc hn
  exact ⟨e, he, fun b' hb' => Pirls.fixed_is_unique_max hg hi (fun i => cov_strict (hc i)) (adm hc e) he (adm hc b') hb',
    tendsto_only hR fun l φ hφ hl => hu l (cluster_fixed hg hi hc h hd hφ hl)⟩

/-- C148.  Data that are not separated: the passes converge to the estimate unless they approach coefficients from which one of the steps
tried leaves the penalised log-likelihood exactly as it is. -/
theorem converges_or_ties (hg : Pirls.Good x s) (hi : Pirls.Ident x) (hc : ∀ i, covered (x.fam i) x.lk) (hn : ¬Separated x) (h : Goes x b) :
    (∃ e, Pirls.next x e = e ∧ Tendsto b atTop (𝓝 e)) ∨ Ties x s b := by
  obtain ⟨e, he, hu⟩ := estimate_exists hg hi hc hn
  obtain ⟨R, hR⟩ := h.bounded hg hc hn
  by_cases hall : ∀ l (φ : ℕ → ℕ), StrictMono φ → Tendsto (b ∘ φ) atTop (𝓝 l) → Pirls.next x l = l
  · exact Or.inl ⟨e, he, tendsto_only hR fun l φ hφ hl => hu l (hall l φ hφ hl)⟩
  · push Not at hall
    obtain ⟨l, φ, hφ, hl, hne⟩ := hall
    exact Or.inr (ties hg hi hc h hφ hl hne)

/-- C148.  Separated data: the coefficients grow without bound, with the same exception. -/
theorem separated_diverges (hg : Pirls.Good x s) (hi : Pirls.Ident x) (hc : ∀ i, covered (x.fam i) x.lk) (hs : Separated x) (h : Goes x b) :
    Tendsto (fun k => ‖b k‖) atTop atTop ∨ Ties x s b := by
  by_cases hcon : Tendsto (fun k => ‖b k‖) atTop atTop
  · exact Or.inl hcon
  · rw [tendsto_atTop] at hcon
    push Not at hcon
    obtain ⟨R, hR⟩ := hcon
    obtain ⟨χ, hχ, hχR⟩ := extraction_of_frequently_atTop hR
    obtain ⟨l, -, φ, hφ, hl⟩ := (isCompact_closedBall (0 : Fin p → ℝ) R).tendsto_subseq (x := b ∘ χ) fun k => by
      rw [mem_closedBall_zero_iff]
      exact (hχR k).le
    exact Or.inr (ties hg hi hc h (hχ.comp hφ) hl (separated_never hg hi hc hs l))

/-- C148.  Separated data: the coefficients do not converge. -/
theorem separated_no_limit (hg : Pirls.Good x s) (hi : Pirls.Ident x) (hc : ∀ i, covered (x.fam i) x.lk) (hs : Separated x) (h : Goes x b)
    (l : Fin p → ℝ) : ¬Tendsto b atTop (𝓝 l) := by
  intro ht
  have hd : Tendsto (fun k => b (k + 1) - b k) atTop (𝓝 0) := by
    have := ((tendsto_add_atTop_iff_nat 1).2 ht).sub ht
    simpa using this
  exact separated_never hg hi hc hs l (cluster_fixed hg hi hc h hd strictMono_id ht)

end Verif.Conv
