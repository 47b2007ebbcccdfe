import Verif.Invar
import Verif.LmlEx

/-!
# Cases meeting the hypotheses of the theorems on rewritten data (property C126)
-/

namespace Verif.Invar
open Verif Matrix Lml Step

/-- Two observations swapped. -/
example (c) :
    let x' := lssIn (EtaBeta.mnFam 1) wOne (fun _ => (fun (_ : Fin 2) (_ : ℕ) => (1 : ℝ)) ∘ Equiv.swap (0 : Fin 2) 1)
      ((fun o : Fin 2 => (o.val : ℝ)) ∘ Equiv.swap (0 : Fin 2) 1) (fullPat wOne) 0 Ridge.cholC (fun _ _ => 0);
    Coef.phase cfg (Lml.ext x') 50 0 (start x' c) = Coef.phase cfg (Lml.ext mn2) 50 0 (start mn2 c) :=
  rows_lss (Equiv.swap 0 1) (fullPat_holds _ _ _ _) (fullPat_holds _ _ _ _) cfg 50 c

theorem mn2_reg : Reg mn2 0 := ⟨mn2_smooth.chol, mn2_smooth.hsym 0, mn2_smooth.ssym, mn2_diag⟩

theorem mn2_stays : ∀ k, (iter cfg mn2 0 k).coef = 0 :=
  (stationary_stays cfg rfl ⟨by simp [cfg], by simp [cfg]⟩ (by norm_num [cfg]) mn2_reg mn2_smooth.grad mn2_stationary).1

/-- The column of ones replaced by a column of threes. -/
example :
    let A := whole (K := 1) wOne fun _ => diagonal fun _ => (3 : ℝ)
    let x' := lssIn (EtaBeta.mnFam 1) wOne (recombine (K := 1) wOne (fun _ (_ : Fin 2) _ => 1) fun _ => diagonal fun _ => (3 : ℝ))
      (fun o => o.val) (fullPat wOne) (Aᵀ * 0 * A) Ridge.cholC (fun _ _ => 0);
    Agree A 0 (Aᵀ * 0 * A) (Coef.phase cfg (Lml.ext mn2) 50 0 (start mn2 (A *ᵥ 0))) (Coef.phase cfg (Lml.ext x') 50 0 (start x' 0)) :=
  (units_lss (s := fun _ => 3) Ridge.cholC_spec isSymm_zero (fun _ => by norm_num) (fullPat_holds _ _ _ _) (fullPat_holds _ _ _ _) cfg rfl 50 0
    fun k i => by
      have := mn2_stays k
      rw [mulVec_zero]
      show -mn2.hess (iter cfg mn2 0 k).coef i i + _ ≠ 0
      rw [this]
      exact mn2_diag i).1

theorem mn2_pd (v) (hv : v ≠ 0) : 0 < v ⬝ᵥ (-mn2.hess 0 + 0) *ᵥ v := by
  have hs : Subsingleton (Fin (∑ l ∈ Finset.range 1, wOne l)) := by
    rw [show ∑ l ∈ Finset.range 1, wOne l = 1 from rfl]
    infer_instance
  obtain ⟨i, hi⟩ := Function.ne_iff.1 hv
  have e : ∀ f : Fin (∑ l ∈ Finset.range 1, wOne l) → ℝ, ∑ j, f j = f i := fun f =>
    Fintype.sum_eq_single i fun j hj => absurd (hs.elim j i) hj
  unfold dotProduct mulVec dotProduct
  rw [e]
  simp only [e, Matrix.add_apply, Matrix.neg_apply, Matrix.zero_apply, mn2_hess]
  have := mul_self_pos.2 (show v i ≠ 0 from hi)
  linarith

/-- The column of ones replaced by a column of minus twos. -/
example :
    let A := whole (K := 1) wOne fun _ => diagonal fun _ => (-2 : ℝ)
    let x' := lssIn (EtaBeta.mnFam 1) wOne (recombine (K := 1) wOne (fun _ (_ : Fin 2) _ => 1) fun _ => diagonal fun _ => (-2 : ℝ))
      (fun o => o.val) (fullPat wOne) (Aᵀ * 0 * A) Ridge.cholC (fun _ _ => 0);
    Agree A 0 (Aᵀ * 0 * A) (Coef.phase cfg (Lml.ext mn2) 50 0 (start mn2 (A *ᵥ 0))) (Coef.phase cfg (Lml.ext x') 50 0 (start x' 0)) :=
  (recombined_lss (B := fun _ => diagonal fun _ => (-2 : ℝ)) Ridge.cholC_spec isSymm_zero (fun k => by
      rw [Matrix.isUnit_iff_isUnit_det, det_diagonal]
      exact (Finset.prod_ne_zero_iff.2 fun i _ => by norm_num).isUnit) (fullPat_holds _ _ _ _) (fullPat_holds _ _ _ _) cfg rfl 50 0
    fun k v hv => by
      have := mn2_stays k
      rw [mulVec_zero]
      show 0 < v ⬝ᵥ (-mn2.hess (iter cfg mn2 0 k).coef + _) *ᵥ v
      rw [this]
      exact mn2_pd v hv).1

/-! ### Proportional hazards: two deaths at the same time -/

/-- Two covariates. -/
def xTwo (i : Fin 2) (k : Fin 2) : ℝ := i.val + k.val

noncomputable def hzP : In 2 := hazIn 1 (fun _ : Fin 2 => 0) (fun _ => 1) xTwo (diagonal fun _ => 1) Ridge.cholC fun _ _ => 0

/-- The subjects swapped. -/
example (c) :
    let x' := hazIn 1 ((fun _ : Fin 2 => 0) ∘ Equiv.swap 0 1) ((fun _ => 1) ∘ Equiv.swap 0 1) (xTwo ∘ Equiv.swap 0 1) (diagonal fun _ => 1)
      Ridge.cholC (fun _ _ => 0);
    Coef.phase cfg (Lml.ext x') 50 0 (start x' c) = Coef.phase cfg (Lml.ext hzP) 50 0 (start hzP c) :=
  rows_hazard (Equiv.swap 0 1) cfg 50 c

/-- Times 5 replaced by 25. -/
example (c) :
    let x' := hazIn 1 (fun _ : Fin 2 => 0) (fun _ => 1) xTwo (diagonal fun _ => 1) Ridge.cholC (fun _ _ => 0);
    Coef.phase cfg (Lml.ext x') 50 0 (start x' c) = Coef.phase cfg (Lml.ext hzP) 50 0 (start hzP c) :=
  times_hazard data2 (ut' := fun _ => 25) ⟨fun j k h1 h2 => by omega, fun _ => by norm_num, fun j hj => ⟨0, by omega⟩⟩
    (g := fun t => 5 * t) (fun a _ b _ h => by simpa using h) (fun i => by norm_num) cfg 50 c

theorem hzP_pd (c v : Fin 2 → ℝ) (hv : v ≠ 0) : 0 < v ⬝ᵥ (-hzP.hess c + diagonal fun _ => 1) *ᵥ v := by
  have h1 := (Haz.hessian_symm_negSemidef 1 _ _ data2 (fun _ => 1) xTwo c).2 v
  have h2 : v ⬝ᵥ hzP.hess c *ᵥ v = ∑ k, ∑ l, v k * Haz.hessian 1 (fun _ : Fin 2 => 0) (fun _ => 1) xTwo c k l * v l := (quad_eq _ v).symm
  have h3 : v ⬝ᵥ (diagonal fun _ => (1 : ℝ)) *ᵥ v = v ⬝ᵥ v := by rw [diagonal_one, one_mulVec]
  rw [add_mulVec, neg_mulVec, dotProduct_add, dotProduct_neg, h2, h3]
  have : 0 < v ⬝ᵥ v := by
    have := dotProduct_self_star_pos_iff (v := v) |>.2 hv
    simpa using this
  linarith

theorem hzP_diag (c : Fin 2 → ℝ) (i : Fin 2) : -hzP.hess c i i + (diagonal fun _ => 1 : Matrix (Fin 2) (Fin 2) ℝ) i i ≠ 0 := by
  have := hzP_pd c (Pi.single i 1) (by simp)
  rw [mulVec_single_one, single_one_dotProduct] at this
  exact this.ne'

/-- The covariates in other units, any start. -/
example (c : Fin 2 → ℝ) :
    let s : Fin 2 → ℝ := ![10, 1 / 3]
    let x' := hazIn 1 (fun _ : Fin 2 => 0) (fun _ => 1) (fun i k => xTwo i k * s k)
      (fun k l => s k * (diagonal fun _ => 1 : Matrix (Fin 2) (Fin 2) ℝ) k l * s l) Ridge.cholC (fun _ _ => 0);
    ∀ i, (Coef.phase cfg (Lml.ext hzP) 50 0 (start hzP fun k => s k * c k)).1.coef i =
      s i * (Coef.phase cfg (Lml.ext x') 50 0 (start x' c)).1.coef i :=
  (units_hazard data2 Ridge.cholC_spec (isSymm_diagonal _) (fun i => by fin_cases i <;> norm_num) cfg rfl 50 c fun k i => hzP_diag _ i).2

/-- Twice the first covariate added to the second, any start. -/
example (c : Fin 2 → ℝ) :
    let x' := hazIn 1 (fun _ : Fin 2 => 0) (fun _ => 1) (fun i k => ∑ l, xTwo i l * As l k)
      (Asᵀ * (diagonal fun _ => 1) * As) Ridge.cholC (fun _ _ => 0);
    ∀ i, (Coef.phase cfg (Lml.ext hzP) 50 0 (start hzP (As *ᵥ c))).1.coef i =
      ∑ k, As i k * (Coef.phase cfg (Lml.ext x') 50 0 (start x' c)).1.coef k :=
  (recombined_hazard data2 Ridge.cholC_spec (isSymm_diagonal _) As_unit cfg rfl 50 c fun k v hv => hzP_pd _ v hv).2.1

example : ∃ g : Fin 2 → ℝ, As *ᵥ step (quadIn (Asᵀ *ᵥ g) (Asᵀ * Hs * As) Ridge.cholC) 0 ≠ step (quadIn g Hs Ridge.cholC) 0 := by
  obtain ⟨g, -, -, -, h⟩ := ridge_wrong Ridge.cholC_spec
  exact ⟨g, h⟩

end Verif.Invar
