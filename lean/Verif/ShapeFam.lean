import Verif.ShapeLemmas
import Mathlib.Analysis.Calculus.FDeriv.Pi

/-!
# The scaled t family as seen by the estimation of shape parameters (lemmas for property C127)
-/

namespace Verif.Shape
open Verif Matrix Filter Topology

theorem trigamma_cont {x : ℝ} (hx : 0 < x) : ContinuousAt trigamma x := by
  have hopen : IsOpen {s : ℂ | 0 < s.re} := isOpen_lt continuous_const Complex.continuous_re
  have hd : DifferentiableOn ℂ Complex.Gamma {s : ℂ | 0 < s.re} := by
    intro s hs
    refine (Complex.differentiableAt_Gamma s fun m hm => ?_).differentiableWithinAt
    have h : s.re = -(m : ℝ) := by rw [hm]; simp
    have h' : 0 < s.re := hs
    have : (0 : ℝ) ≤ m := Nat.cast_nonneg m
    linarith
  have hmem : ∀ {t : ℝ}, 0 < t → {s : ℂ | 0 < s.re} ∈ 𝓝 (t : ℂ) := fun ht => hopen.mem_nhds (by simpa using ht)
  have h2 : ContinuousAt (fun t : ℝ => (deriv (deriv Complex.Gamma) t).re) x := by
    have h3 : ContinuousAt (deriv (deriv Complex.Gamma)) (x : ℂ) :=
      (((hd.deriv hopen).deriv hopen) (x : ℂ) (by simpa using hx)).differentiableAt (hmem hx) |>.continuousAt
    exact Complex.continuous_re.continuousAt.comp (ContinuousAt.comp (f := fun t : ℝ => (t : ℂ)) h3 Complex.continuous_ofReal.continuousAt)
  have hG := (Gamma_hasDeriv hx).continuousAt
  have hG1 := (dGamma_hasDeriv hx).continuousAt
  have hG0 := (Real.Gamma_pos_of_pos hx).ne'
  have hc : ContinuousAt (fun t : ℝ => ((deriv (deriv Complex.Gamma) t).re * Real.Gamma t -
      (deriv Complex.Gamma t).re * (deriv Complex.Gamma t).re) / Real.Gamma t ^ 2) x :=
    ((h2.mul hG).sub (hG1.mul hG1)).div (hG.pow 2) (pow_ne_zero 2 hG0)
  refine hc.congr ?_
  filter_upwards [isOpen_Ioi.mem_nhds (show x ∈ Set.Ioi (0 : ℝ) from hx)] with t ht
  have ht' : 0 < t := ht
  have h := (dGamma_hasDeriv ht').div (Gamma_hasDeriv ht') (Real.Gamma_pos_of_pos ht').ne'
  have he : digamma =ᶠ[nhds t] ((fun t : ℝ => (deriv Complex.Gamma t).re) / Real.Gamma) := by
    filter_upwards [isOpen_Ioi.mem_nhds (show t ∈ Set.Ioi (0 : ℝ) from ht')] with r hr
    exact digamma_eq hr
  have := (h.congr_of_eventuallyEq he).unique (digamma_hasDeriv ht')
  exact this

variable {n : ℕ} {a : ℝ} {y mu : Fin n → ℝ} {eigh : Matrix (Fin 2) (Fin 2) ℝ → (Fin 2 → ℝ) × Matrix (Fin 2) (Fin 2) ℝ}

theorem lp_diff (ha : 0 ≤ a) (y mu : ℝ) (th : Fin 2 → ℝ) : DifferentiableAt ℝ (fun t : Fin 2 → ℝ => ScT.lp a y mu (t 0) (t 1)) th := by
  have e : (fun t : Fin 2 → ℝ => ScT.lp a y mu (t 0) (t 1)) = fun t => gammaln ((ScT.nu a (t 1) + 1) / 2) -
      gammaln (ScT.nu a (t 1) / 2) - t 0 - Real.log Real.pi / 2 - Real.log (ScT.nu a (t 1)) / 2
      - (ScT.nu a (t 1) + 1) / 2 * Real.log (ScT.a a y mu (t 0) (t 1)) := funext fun t => ScT.lp_eq ha y mu _ _
  rw [e]
  have hv := ScT.nu_pos ha (th 1)
  have h0 : DifferentiableAt ℝ (fun t : Fin 2 → ℝ => t 0) th := differentiableAt_apply 0 th
  have h1 : DifferentiableAt ℝ (fun t : Fin 2 → ℝ => t 1) th := differentiableAt_apply 1 th
  have hn : DifferentiableAt ℝ (fun t : Fin 2 → ℝ => ScT.nu a (t 1)) th := by
    unfold ScT.nu
    exact h1.exp.add_const a
  have hn1 : DifferentiableAt ℝ (fun t : Fin 2 → ℝ => (ScT.nu a (t 1) + 1) / 2) th := by
    simpa only [div_eq_mul_inv] using (hn.add_const 1).mul_const (2⁻¹ : ℝ)
  have hn2 : DifferentiableAt ℝ (fun t : Fin 2 → ℝ => ScT.nu a (t 1) / 2) th := by
    simpa only [div_eq_mul_inv] using hn.mul_const (2⁻¹ : ℝ)
  have hl2 : DifferentiableAt ℝ (fun t : Fin 2 → ℝ => Real.log (ScT.nu a (t 1)) / 2) th := by
    simpa only [div_eq_mul_inv] using (hn.log hv.ne').mul_const (2⁻¹ : ℝ)
  have hg1 : DifferentiableAt ℝ (fun t : Fin 2 → ℝ => gammaln ((ScT.nu a (t 1) + 1) / 2)) th :=
    DifferentiableAt.comp (g := gammaln) th (gammaln_hasDeriv (by positivity)).differentiableAt (hn1)
  have hg2 : DifferentiableAt ℝ (fun t : Fin 2 → ℝ => gammaln (ScT.nu a (t 1) / 2)) th :=
    DifferentiableAt.comp (g := gammaln) th (gammaln_hasDeriv (by positivity)).differentiableAt (hn2)
  have hA : DifferentiableAt ℝ (fun t : Fin 2 → ℝ => ScT.a a y mu (t 0) (t 1)) th := by
    have e2 : (fun t : Fin 2 → ℝ => ScT.a a y mu (t 0) (t 1)) =
        fun t => ((y - mu) * Real.exp (-t 0)) ^ 2 * Real.exp (-Real.log (ScT.nu a (t 1))) + 1 := by
      funext t
      rw [Real.exp_neg, Real.exp_neg, Real.exp_log (ScT.nu_pos ha _)]
      unfold ScT.a ScT.phi
      simp only [div_eq_mul_inv]
      ring
    rw [e2]
    exact (((h0.neg.exp.const_mul (y - mu)).pow 2).mul (hn.log hv.ne').neg.exp).add_const 1
  have hla := hA.log (ScT.a_pos ha y mu (th 0) (th 1)).ne'
  exact ((((hg1.sub hg2).sub h0).sub_const _).sub hl2).sub (hn1.mul hla)

theorem llk_diff (ha : 0 ≤ a) (y mu : Fin n → ℝ) (th : Fin 2 → ℝ) :
    DifferentiableAt ℝ (fun t : Fin 2 → ℝ => ScT.llk a y mu (t 0) (t 1)) th := by
  unfold ScT.llk
  exact DifferentiableAt.fun_sum fun i _ => lp_diff ha (y i) (mu i) th

/-- `gradientLTheta` is the gradient of the log-likelihood in both shape parameters together. -/
theorem scaledT_grad (ha : 0 ≤ a) (th : Fin 2 → ℝ) : HasFlGrad (scaledT a y mu eigh).llk ((scaledT a y mu eigh).grad th) th := by
  refine ⟨fun t => ScT.llk a y mu (t 0) (t 1), Eventually.of_forall fun _ => rfl, ?_⟩
  have hd := (llk_diff ha y mu th).hasFDerivAt
  set L := fderiv ℝ (fun t : Fin 2 → ℝ => ScT.llk a y mu (t 0) (t 1)) th
  have key : ∀ (i : Fin 2) (g : ℝ), HasDerivAt (fun s => ScT.llk a y mu (Function.update th i s 0) (Function.update th i s 1)) g (th i) →
      L (Pi.single i 1) = g := by
    intro i g hg
    have h1 : HasDerivAt (fun s : ℝ => Function.update th i s) (Pi.single i 1) (th i) := by
      refine hasDerivAt_pi.2 fun k => ?_
      by_cases hk : k = i
      · subst hk; simpa using hasDerivAt_id' (th k)
      · simpa [Function.update_of_ne hk, hk] using hasDerivAt_const (th i) (th k)
    have hd' : HasFDerivAt (fun t : Fin 2 → ℝ => ScT.llk a y mu (t 0) (t 1)) L (Function.update th i (th i)) := by
      rw [Function.update_eq_self]; exact hd
    exact (hd'.comp_hasDerivAt (th i) h1).unique hg
  have k0 := key 0 _ (by
    have := ScT.gradTheta0_correct ha y mu (th 0) (th 1)
    simpa [Function.update] using this)
  have k1 := key 1 _ (by
    have := ScT.gradTheta1_correct ha y mu (th 0) (th 1)
    simpa [Function.update] using this)
  have e : L = Lml.lf ((scaledT a y mu eigh).grad th) := by
    ext v
    rw [Lml.lf_apply]
    have hv : v = v 0 • (Pi.single 0 1 : Fin 2 → ℝ) + v 1 • (Pi.single 1 1 : Fin 2 → ℝ) := by
      funext i; fin_cases i <;> simp
    conv_lhs => rw [hv]
    rw [map_add, map_smul, map_smul, k0, k1]
    simp [scaledT, dotProduct, Fin.sum_univ_two, mul_comm]
  rw [e] at hd
  exact hd

theorem f1_cont (ha : 0 ≤ a) (y mu : ℝ) (th : Fin 2 → ℝ) :
    ContinuousAt (fun t : Fin 2 → ℝ => ScT.nu a (t 1)) th ∧ ContinuousAt (fun t : Fin 2 → ℝ => ScT.phi (t 0)) th ∧
    ContinuousAt (fun t : Fin 2 → ℝ => ScT.a a y mu (t 0) (t 1)) th ∧
    ContinuousAt (fun t : Fin 2 → ℝ => ScT.nusig2a a y mu (t 0) (t 1)) th ∧
    ContinuousAt (fun t : Fin 2 → ℝ => ScT.f1ymu a y mu (t 0) (t 1)) th ∧
    ContinuousAt (fun t : Fin 2 → ℝ => ScT.fymu a y mu (t 0) (t 1)) th := by
  have hv := ScT.nu_pos ha (th 1)
  have h0 : ContinuousAt (fun t : Fin 2 → ℝ => t 0) th := continuousAt_apply 0 th
  have h1 : ContinuousAt (fun t : Fin 2 → ℝ => t 1) th := continuousAt_apply 1 th
  have hn : ContinuousAt (fun t : Fin 2 → ℝ => ScT.nu a (t 1)) th := by unfold ScT.nu; exact h1.rexp.add continuousAt_const
  have hp : ContinuousAt (fun t : Fin 2 → ℝ => ScT.phi (t 0)) th := by unfold ScT.phi; exact h0.rexp
  have hA : ContinuousAt (fun t : Fin 2 → ℝ => ScT.a a y mu (t 0) (t 1)) th := by
    unfold ScT.a
    exact continuousAt_const.add ((((continuousAt_const (y := y - mu)).div hp (ScT.phi_pos _).ne').pow 2).div hn hv.ne')
  have hN : ContinuousAt (fun t : Fin 2 → ℝ => ScT.nusig2a a y mu (t 0) (t 1)) th := by
    unfold ScT.nusig2a
    exact (hn.mul (hp.pow 2)).mul hA
  have hN0 := (ScT.nusig2a_pos ha y mu (th 0) (th 1)).ne'
  have hf1 : ContinuousAt (fun t : Fin 2 → ℝ => ScT.f1ymu a y mu (t 0) (t 1)) th := by
    unfold ScT.f1ymu
    exact ((continuousAt_const (y := y - mu)).div hN hN0).mul continuousAt_const
  refine ⟨hn, hp, hA, hN, hf1, ?_⟩
  have : (fun t : Fin 2 → ℝ => ScT.fymu a y mu (t 0) (t 1)) = fun t => (ScT.nu a (t 1) + 1) * ScT.f1ymu a y mu (t 0) (t 1) :=
    funext fun t => ScT.fymu_eq _ _ _ _ _
  rw [this]
  exact (hn.add continuousAt_const).mul hf1

theorem dig_cont (ha : 0 ≤ a) (th : Fin 2 → ℝ) :
    ContinuousAt (fun t : Fin 2 → ℝ => digamma ((ScT.nu a (t 1) + 1) / 2)) th ∧
    ContinuousAt (fun t : Fin 2 → ℝ => digamma (ScT.nu a (t 1) / 2)) th ∧
    ContinuousAt (fun t : Fin 2 → ℝ => trigamma ((ScT.nu a (t 1) + 1) / 2)) th ∧
    ContinuousAt (fun t : Fin 2 → ℝ => trigamma (ScT.nu a (t 1) / 2)) th := by
  have hv := ScT.nu_pos ha (th 1)
  have hn := (f1_cont ha 0 0 th).1
  have e1 := (hn.add (continuousAt_const (y := (1 : ℝ)))).div_const 2
  have e2 := hn.div_const 2
  exact ⟨ContinuousAt.comp (g := digamma) (digamma_hasDeriv (by positivity)).continuousAt e1,
    ContinuousAt.comp (g := digamma) (digamma_hasDeriv (by positivity)).continuousAt e2,
    ContinuousAt.comp (g := trigamma) (trigamma_cont (by positivity)) e1,
    ContinuousAt.comp (g := trigamma) (trigamma_cont (by positivity)) e2⟩

theorem scaledT_grad_cont (ha : 0 ≤ a) (th : Fin 2 → ℝ) : ContinuousAt (scaledT a y mu eigh).grad th := by
  obtain ⟨hn, -, -, -, -, -⟩ := f1_cont ha 0 0 th
  obtain ⟨d1, d2, -, -⟩ := dig_cont ha th
  have hv := (ScT.nu_pos ha (th 1)).ne'
  refine continuousAt_pi.2 fun i => ?_
  fin_cases i
  · show ContinuousAt (fun t : Fin 2 → ℝ => ScT.grad0 a y mu (t 0) (t 1)) th
    unfold ScT.grad0
    refine continuousAt_const.mul ((continuousAt_const.mul ?_).add continuousAt_const)
    exact tendsto_finsetSum _ fun i _ => continuousAt_const.mul (f1_cont ha (y i) (mu i) th).2.2.2.2.2
  · show ContinuousAt (fun t : Fin 2 → ℝ => ScT.grad1 a y mu (t 0) (t 1)) th
    unfold ScT.grad1
    have hna := hn.sub (continuousAt_const (y := a))
    refine continuousAt_const.mul ((continuousAt_const.mul ?_).sub (continuousAt_const.mul ?_))
    · refine tendsto_finsetSum _ fun i _ => ?_
      obtain ⟨-, -, hA, -, -, hf⟩ := f1_cont ha (y i) (mu i) th
      exact hna.mul ((hA.log (ScT.a_pos ha _ _ _ _).ne').sub (hf.div hn hv))
    · exact (((hna.mul d1).div_const 2).sub ((hna.mul d2).div_const 2)).sub (continuousAt_const.mul (hna.div hn hv))

theorem scaledT_hess_cont (ha : 0 ≤ a) (th : Fin 2 → ℝ) (i j : Fin 2) :
    ContinuousAt (fun t => (scaledT a y mu eigh).hess t i j) th := by
  obtain ⟨hn, hp, -, -, -, -⟩ := f1_cont ha 0 0 th
  obtain ⟨d1, d2, t1, t2⟩ := dig_cont ha th
  have hv := (ScT.nu_pos ha (th 1)).ne'
  have hna := hn.sub (continuousAt_const (y := a))
  have hq := hna.div hn hv
  have h00 : ContinuousAt (fun t : Fin 2 → ℝ => ScT.hess00 a y mu (t 0) (t 1)) th := by
    unfold ScT.hess00
    refine continuousAt_const.mul (continuousAt_const.mul (tendsto_finsetSum _ fun i _ => ?_))
    obtain ⟨-, -, -, -, hf1, hf⟩ := f1_cont ha (y i) (mu i) th
    exact (continuousAt_const.mul hf).mul (continuousAt_const.sub hf1)
  have h01 : ContinuousAt (fun t : Fin 2 → ℝ => ScT.hess01 a y mu (t 0) (t 1)) th := by
    unfold ScT.hess01
    refine continuousAt_const.mul (continuousAt_const.mul (tendsto_finsetSum _ fun i _ => ?_))
    obtain ⟨-, -, hA, -, hf1, hf⟩ := f1_cont ha (y i) (mu i) th
    have hd : ScT.phi (th 0) ^ 2 * ScT.a a (y i) (mu i) (th 0) (th 1) ≠ 0 :=
      (mul_pos (pow_pos (ScT.phi_pos _) 2) (ScT.a_pos ha _ _ _ _)).ne'
    have hr : ContinuousAt (fun t : Fin 2 → ℝ => (y i - mu i) * ((y i - mu i) / (ScT.phi (t 0) ^ 2 * ScT.a a (y i) (mu i) (t 0) (t 1)))) th :=
      continuousAt_const.mul (continuousAt_const.div ((hp.pow 2).mul hA) hd)
    exact (continuousAt_const.mul ((hf.sub hr).sub (hf.mul hf1))).mul hq
  have h11 : ContinuousAt (fun t : Fin 2 → ℝ => ScT.hess11 a y mu (t 0) (t 1)) th := by
    unfold ScT.hess11
    dsimp only
    have hv1 := hn.add (continuousAt_const (y := (1 : ℝ)))
    refine continuousAt_const.mul ((continuousAt_const.mul (tendsto_finsetSum _ fun i _ => ?_)).sub (continuousAt_const.mul ?_))
    · obtain ⟨-, -, hA, hN, hf1, hf⟩ := f1_cont ha (y i) (mu i) th
      have hb := (((continuousAt_const (y := (-2 : ℝ))).mul hna).sub hv1).add (((continuousAt_const (y := (2 : ℝ))).mul hv1).mul hq) |>.sub
        ((hv1.mul hq).mul hf1)
      exact (hna.mul (hA.log (ScT.a_pos ha _ _ _ _).ne')).add
        (((hq.mul (continuousAt_const (y := (y i - mu i) ^ 2))).mul hb).div hN (ScT.nusig2a_pos ha _ _ _ _).ne')
    · exact (((((((hna.pow 2).mul t1).div_const 4).add ((hna.mul d1).div_const 2)).sub (((hna.pow 2).mul t2).div_const 4)).sub
        ((hna.mul d2).div_const 2)).add (continuousAt_const.mul (hq.pow 2))).sub (continuousAt_const.mul hq)
  fin_cases i <;> fin_cases j
  · exact h00
  · exact h01
  · exact h01
  · exact h11

theorem scaledT_symm (th : Fin 2 → ℝ) : ((scaledT a y mu eigh).hess th).IsSymm := by
  ext i j
  fin_cases i <;> fin_cases j <;> rfl

/-- A change of units of the response. -/
noncomputable def shift (s : ℝ) (th : Fin 2 → ℝ) : Fin 2 → ℝ := ![th 0 + Real.log s, th 1]

theorem phi_shift {s : ℝ} (hs : 0 < s) (t : ℝ) : ScT.phi (t + Real.log s) = s * ScT.phi t := by
  unfold ScT.phi
  rw [Real.exp_add, Real.exp_log hs, mul_comm]

theorem a_shift {s : ℝ} (hs : 0 < s) (y mu t0 t1 : ℝ) : ScT.a a (s * y) (s * mu) (t0 + Real.log s) t1 = ScT.a a y mu t0 t1 := by
  unfold ScT.a
  rw [phi_shift hs, ← mul_sub, mul_div_mul_left _ _ hs.ne']

theorem lp_shift (ha : 0 ≤ a) {s : ℝ} (hs : 0 < s) (y mu t0 t1 : ℝ) :
    ScT.lp a (s * y) (s * mu) (t0 + Real.log s) t1 = ScT.lp a y mu t0 t1 - Real.log s := by
  rw [ScT.lp_eq ha, ScT.lp_eq ha, a_shift hs]
  ring

theorem nusig_shift {s : ℝ} (hs : 0 < s) (y mu t0 t1 : ℝ) :
    ScT.nusig2a a (s * y) (s * mu) (t0 + Real.log s) t1 = s ^ 2 * ScT.nusig2a a y mu t0 t1 := by
  unfold ScT.nusig2a
  rw [a_shift hs, phi_shift hs]; ring

theorem f1_shift {s : ℝ} (hs : 0 < s) (y mu t0 t1 : ℝ) :
    ScT.f1ymu a (s * y) (s * mu) (t0 + Real.log s) t1 = ScT.f1ymu a y mu t0 t1 := by
  unfold ScT.f1ymu
  rw [nusig_shift hs, ← mul_sub]
  have : s * (y - mu) / (s ^ 2 * ScT.nusig2a a y mu t0 t1) * (s * (y - mu)) =
      (s ^ 2 * ((y - mu) * (y - mu))) / (s ^ 2 * ScT.nusig2a a y mu t0 t1) := by ring
  rw [this, mul_div_mul_left _ _ (pow_ne_zero 2 hs.ne')]
  ring

theorem f_shift {s : ℝ} (hs : 0 < s) (y mu t0 t1 : ℝ) :
    ScT.fymu a (s * y) (s * mu) (t0 + Real.log s) t1 = ScT.fymu a y mu t0 t1 := by
  rw [ScT.fymu_eq, ScT.fymu_eq, f1_shift hs]

theorem llk_shift (ha : 0 ≤ a) {s : ℝ} (hs : 0 < s) (y mu : Fin n → ℝ) (t0 t1 : ℝ) :
    ScT.llk a (fun i => s * y i) (fun i => s * mu i) (t0 + Real.log s) t1 = ScT.llk a y mu t0 t1 - n * Real.log s := by
  unfold ScT.llk
  simp only [lp_shift ha hs, Finset.sum_sub_distrib]
  simp

theorem grad0_shift {s : ℝ} (hs : 0 < s) (y mu : Fin n → ℝ) (t0 t1 : ℝ) :
    ScT.grad0 a (fun i => s * y i) (fun i => s * mu i) (t0 + Real.log s) t1 = ScT.grad0 a y mu t0 t1 := by
  unfold ScT.grad0
  simp only [f_shift hs]

theorem grad1_shift {s : ℝ} (hs : 0 < s) (y mu : Fin n → ℝ) (t0 t1 : ℝ) :
    ScT.grad1 a (fun i => s * y i) (fun i => s * mu i) (t0 + Real.log s) t1 = ScT.grad1 a y mu t0 t1 := by
  unfold ScT.grad1
  simp only [f_shift hs, a_shift hs]

theorem hess00_shift {s : ℝ} (hs : 0 < s) (y mu : Fin n → ℝ) (t0 t1 : ℝ) :
    ScT.hess00 a (fun i => s * y i) (fun i => s * mu i) (t0 + Real.log s) t1 = ScT.hess00 a y mu t0 t1 := by
  unfold ScT.hess00
  simp only [f_shift hs, f1_shift hs]

theorem hess01_shift {s : ℝ} (hs : 0 < s) (y mu : Fin n → ℝ) (t0 t1 : ℝ) :
    ScT.hess01 a (fun i => s * y i) (fun i => s * mu i) (t0 + Real.log s) t1 = ScT.hess01 a y mu t0 t1 := by
  unfold ScT.hess01
  have e : ∀ i, (s * y i - s * mu i) * ((s * y i - s * mu i) / (ScT.phi (t0 + Real.log s) ^ 2 *
      ScT.a a (s * y i) (s * mu i) (t0 + Real.log s) t1)) = (y i - mu i) * ((y i - mu i) / (ScT.phi t0 ^ 2 * ScT.a a (y i) (mu i) t0 t1)) := by
    intro i
    rw [a_shift hs, phi_shift hs, ← mul_sub]
    have : s * (y i - mu i) * (s * (y i - mu i) / ((s * ScT.phi t0) ^ 2 * ScT.a a (y i) (mu i) t0 t1)) =
        (s ^ 2 * ((y i - mu i) * (y i - mu i))) / (s ^ 2 * (ScT.phi t0 ^ 2 * ScT.a a (y i) (mu i) t0 t1)) := by
      rw [mul_pow]; ring
    rw [this, mul_div_mul_left _ _ (pow_ne_zero 2 hs.ne')]
    ring
  simp only [f_shift hs, f1_shift hs, e]

theorem hess11_shift {s : ℝ} (hs : 0 < s) (y mu : Fin n → ℝ) (t0 t1 : ℝ) :
    ScT.hess11 a (fun i => s * y i) (fun i => s * mu i) (t0 + Real.log s) t1 = ScT.hess11 a y mu t0 t1 := by
  unfold ScT.hess11
  have e : ∀ (i : Fin n) (q b : ℝ), q * (s * y i - s * mu i) ^ 2 * b / ScT.nusig2a a (s * y i) (s * mu i) (t0 + Real.log s) t1 =
      q * (y i - mu i) ^ 2 * b / ScT.nusig2a a (y i) (mu i) t0 t1 := by
    intro i q b
    rw [nusig_shift hs, ← mul_sub]
    have : q * (s * (y i - mu i)) ^ 2 * b = s ^ 2 * (q * (y i - mu i) ^ 2 * b) := by ring
    rw [this, mul_div_mul_left _ _ (pow_ne_zero 2 hs.ne')]
  simp only [f1_shift hs, a_shift hs, e]

theorem scaledT_shift (ha : 0 ≤ a) {s : ℝ} (hs : 0 < s) (th : Fin 2 → ℝ) :
    (scaledT a (fun i => s * y i) (fun i => s * mu i) eigh).llk (shift s th) =
      .fin (ScT.llk a y mu (th 0) (th 1) - n * Real.log s) ∧
    (scaledT a (fun i => s * y i) (fun i => s * mu i) eigh).grad (shift s th) = (scaledT a y mu eigh).grad th ∧
    (scaledT a (fun i => s * y i) (fun i => s * mu i) eigh).hess (shift s th) = (scaledT a y mu eigh).hess th := by
  refine ⟨?_, ?_, ?_⟩
  · show Fl.fin (ScT.llk a _ _ (th 0 + Real.log s) (th 1)) = _
    rw [llk_shift ha hs]
  · show ![ScT.grad0 a _ _ (th 0 + Real.log s) (th 1), ScT.grad1 a _ _ (th 0 + Real.log s) (th 1)] = _
    rw [grad0_shift hs, grad1_shift hs]; rfl
  · show !![ScT.hess00 a _ _ (th 0 + Real.log s) (th 1), ScT.hess01 a _ _ (th 0 + Real.log s) (th 1);
      ScT.hess01 a _ _ (th 0 + Real.log s) (th 1), ScT.hess11 a _ _ (th 0 + Real.log s) (th 1)] = _
    rw [hess00_shift hs, hess01_shift hs, hess11_shift hs]; rfl

theorem half_shift (s : ℝ) (c d : Fin 2 → ℝ) (j : ℕ) : Lml.half (shift s c) (shift s d) j = shift s (Lml.half c d j) := by
  funext i
  fin_cases i <;> simp [Lml.half, shift]
  ring

end Verif.Shape
