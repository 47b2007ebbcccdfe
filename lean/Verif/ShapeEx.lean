import Verif.Shape

/-!
# Cases meeting the hypotheses of the theorems on shape parameters (property C127)
-/

namespace Verif.Shape
open Verif Matrix Step Filter Topology

/-- Log-likelihood `10 - (t₀² + t₁²) / 2`. -/
noncomputable def bowl : In 2 where
  llk := fun th => .fin (10 - (th 0 ^ 2 + th 1 ^ 2) / 2)
  grad := fun th => -th
  hess := fun _ => -1
  eigh := eighC

theorem bowl_reg (th) : Reg bowl th := ⟨eighC_spec, neg_symm Matrix.isSymm_one⟩

theorem bowl_ne (th) : bowl.hess th ≠ 0 := by
  intro h
  have := congrFun (congrFun h 0) 0
  simp [bowl] at this

theorem bowl_proposal (th) : proposal bowl th = some 0 := by
  rw [proposal_some (bowl_reg th) (bowl_ne th)]
  have := proposal_newton (bowl_reg th) (proposal_some (bowl_reg th) (bowl_ne th)) (u := 1)
    (fun v => by
      have h0 : 0 ≤ v ⬝ᵥ v := Finset.sum_nonneg fun i _ => mul_self_nonneg _
      simp only [bowl, neg_neg, one_mulVec]; linarith)
    (fun v => by simp [bowl])
  set nt := th + inh (raise (bowl.eigh (-bowl.hess th)).1) (bowl.eigh (-bowl.hess th)).2 *ᵥ bowl.grad th
  simp only [bowl, neg_mulVec, one_mulVec, neg_neg] at this
  have h2 : nt = 0 := by
    have h3 : th - nt = th := by rw [← neg_sub]; exact this
    exact sub_eq_self.1 h3
  rw [h2]

theorem bowl_grad (th) : HasFlGrad bowl.llk (bowl.grad th) th := by
  refine ⟨fun t => 10 - (t 0 ^ 2 + t 1 ^ 2) / 2, Eventually.of_forall fun _ => rfl, ?_⟩
  have h0 : HasFDerivAt (fun t : Fin 2 → ℝ => t 0) (ContinuousLinearMap.proj (R := ℝ) (φ := fun _ : Fin 2 => ℝ) 0) th :=
    (ContinuousLinearMap.proj (R := ℝ) (φ := fun _ : Fin 2 => ℝ) 0).hasFDerivAt
  have h1 : HasFDerivAt (fun t : Fin 2 → ℝ => t 1) (ContinuousLinearMap.proj (R := ℝ) (φ := fun _ : Fin 2 => ℝ) 1) th :=
    (ContinuousLinearMap.proj (R := ℝ) (φ := fun _ : Fin 2 => ℝ) 1).hasFDerivAt
  have h := (((h0.mul h0).add (h1.mul h1)).const_mul (1 / 2 : ℝ)).const_sub 10
  have e : (fun t : Fin 2 → ℝ => 10 - (t 0 ^ 2 + t 1 ^ 2) / 2) =
      fun t => 10 - 1 / 2 * (((fun t : Fin 2 → ℝ => t 0) * fun t : Fin 2 → ℝ => t 0) + (fun t : Fin 2 → ℝ => t 1) * fun t : Fin 2 → ℝ => t 1) t := by
    funext t
    simp only [Pi.add_apply, Pi.mul_apply]
    ring
  rw [e]
  refine h.congr_fderiv ?_
  ext v
  simp [bowl, Fin.sum_univ_two]
  ring

/-- The hypotheses of the theorems on the proposal, away from the maximum. -/
example : Reg bowl ![3, 4] ∧ proposal bowl ![3, 4] = some 0 ∧ HasFlGrad bowl.llk (bowl.grad ![3, 4]) ![3, 4] ∧ bowl.grad ![3, 4] ≠ 0 :=
  ⟨bowl_reg _, bowl_proposal _, bowl_grad _, fun h => by have := congrFun h 0; simp [bowl] at this⟩

theorem bowl_improve {th : Fin 2 → ℝ} (h : th ≠ 0) : improve bowl th (bowl.llk th) = some 0 := by
  unfold improve
  rw [bowl_proposal]
  dsimp only
  rw [thetaInner, if_pos]
  constructor
  · show (10 - ((0 : ℝ) ^ 2 + (0 : ℝ) ^ 2) / 2) > 10 - (th 0 ^ 2 + th 1 ^ 2) / 2
    have : 0 < th 0 ^ 2 + th 1 ^ 2 := by
      obtain ⟨i, hi⟩ := Function.ne_iff.1 h
      have hi' : th i ≠ 0 := hi
      have h1 : 0 < th i ^ 2 := by positivity
      fin_cases i
      · have := sq_nonneg (th 1); simp at h1; nlinarith
      · have := sq_nonneg (th 0); simp at h1; nlinarith
    linarith
  · exact Fl.isFin_iff.2 ⟨_, rfl⟩

/-- One step leads to the maximum, where the test for convergence is met. -/
example : updateTheta bowl ![3, 4] = (0, .converged) := by
  have hne : (![3, 4] : Fin 2 → ℝ) ≠ 0 := fun h => by have := congrFun h 0; simp at this
  have ht : ¬test (bowl.grad ![3, 4]) (bowl.llk ![3, 4]) := by
    show ¬(‖-(![3, 4] : Fin 2 → ℝ)‖ < 1e-7 * |10 - ((3 : ℝ) ^ 2 + 4 ^ 2) / 2|)
    have h2 : (3 : ℝ) ≤ ‖-(![3, 4] : Fin 2 → ℝ)‖ := by
      have := norm_le_pi_norm (-(![3, 4] : Fin 2 → ℝ)) 0
      simpa using this
    have h3 : |(10 : ℝ) - ((3 : ℝ) ^ 2 + 4 ^ 2) / 2| = 5 / 2 := by norm_num
    rw [h3, not_lt]
    linarith
  have ht0 : test (bowl.grad 0) (bowl.llk 0) := by
    show ‖-(0 : Fin 2 → ℝ)‖ < 1e-7 * |10 - ((0 : ℝ) ^ 2 + 0 ^ 2) / 2|
    simp
    norm_num
  unfold updateTheta
  rw [loop, if_neg ht, bowl_improve hne]
  dsimp only
  rw [loop, if_pos ht0]

/-- Parameters that converge as in `limit_is_stationary`. -/
example : Tendsto (path bowl ![3, 4]) atTop (𝓝 0) ∧ ContinuousAt bowl.grad 0 ∧
    ∃ B : ℝ, 0 ≤ B ∧ ∀ᶠ t in 𝓝 0, ∀ i j, |bowl.hess t i j| ≤ B := by
  have hne : (![3, 4] : Fin 2 → ℝ) ≠ 0 := fun h => by have := congrFun h 0; simp at this
  have h1 : ∀ k, path bowl ![3, 4] (k + 1) = 0 := by
    intro k
    induction k with
    | zero => simp [path, bowl_improve hne]
    | succ k ih =>
      rw [path, ih]
      rcases improve_cases bowl 0 (bowl.llk 0) with ⟨nt, j, -, h2, h3, -⟩ | ⟨h2, -⟩
      · rw [bowl_proposal] at h2
        rw [h3, ← Option.some.inj h2]
        simp [Lml.half]
      · rw [h2]; rfl
  refine ⟨(tendsto_add_atTop_iff_nat 1).1 ?_, continuous_neg.continuousAt, 1, zero_le_one, Eventually.of_forall fun t i j => ?_⟩
  · rw [show (fun k => path bowl ![3, 4] (k + 1)) = fun _ => 0 from funext h1]
    exact tendsto_const_nhds
  · show |(-(1 : Matrix (Fin 2) (Fin 2) ℝ)) i j| ≤ 1
    rw [Matrix.neg_apply, abs_neg, Matrix.one_apply]
    split_ifs <;> simp

/-- One observation at a distance of one from its mean, with scale parameter one: the derivative in the logarithm of the scale parameter
vanishes, whatever the degrees of freedom. -/
example (t1 : ℝ) : HasDerivAt (fun t => ScT.llk 3 ![1] ![0] t (![0, t1] 1)) 0 ((![0, t1] : Fin 2 → ℝ) 0) := by
  refine (ScT.gradTheta0_correct (by norm_num) ![1] ![0] _ _).congr_deriv ?_
  have hv := ScT.nu_pos (m := 3) (by norm_num) t1
  unfold ScT.grad0
  rw [Fin.sum_univ_one, ScT.fymu_eq]
  unfold ScT.f1ymu
  rw [ScT.nusig2a_eq (by norm_num)]
  have h2 : ScT.nu 3 t1 * 1 + 1 ≠ 0 := by positivity
  simp [ScT.phi]
  field_simp
  ring

/-- Units for two observations. -/
example : ∃ s : ℝ, 0 < s ∧ updateTheta (scaledT 3 (fun i => s * (![0, 5] : Fin 2 → ℝ) i) (fun i => s * (![1, 1] : Fin 2 → ℝ) i) eighC)
    (shift s initTheta) = (shift s initTheta, .converged) := units_wrong (by norm_num) (by norm_num) _ _ _

/-- Without observations nothing moves, so that the parameters converge. -/
example (th : Fin 2 → ℝ) : Tendsto (path (scaledT 3 (Fin.elim0 : Fin 0 → ℝ) Fin.elim0 eighC) th) atTop (𝓝 th) := by
  have h : ∀ k, path (scaledT 3 (Fin.elim0 : Fin 0 → ℝ) Fin.elim0 eighC) th k = th := by
    intro k
    induction k with
    | zero => rfl
    | succ k ih =>
      rw [path, ih]
      have : (scaledT 3 (Fin.elim0 : Fin 0 → ℝ) Fin.elim0 eighC).hess th = 0 := by
        ext i j
        fin_cases i <;> fin_cases j <;> simp [scaledT, ScT.hess00, ScT.hess01, ScT.hess11]
      unfold improve
      rw [proposal_none ⟨eighC_spec, scaledT_symm th⟩ this]; rfl
  rw [show path (scaledT 3 (Fin.elim0 : Fin 0 → ℝ) Fin.elim0 eighC) th = fun _ => th from funext h]
  exact tendsto_const_nhds

example : |(![0.5, 10] : Fin 2 → ℝ) 0| < 1e7 := by norm_num [abs_of_pos]

end Verif.Shape
