import Verif.WpsLemmas


/-!
# Restricted likelihood with quadratic log-likelihood and its derivatives (specification for C81 and C82)

The criterion is stated without the model. The log-likelihood is taken as quadratic, `l(β) = c + (gᵀβ - ½ βᵀAβ)/φ`, which is
exact for Gaussian additive models and is the assumption named in utils.py 3247-3249. The columns of `E` select the
coefficients kept in the model (`E = 1` when none are dropped).
-/

namespace Verif.Wps

open Matrix Verif.Reml Verif.LogDet

variable {n K m : ℕ}

/-! ## Specification -/

/-- Coefficients that maximise the penalised log-likelihood. -/
noncomputable def fitted (A : Matrix (Fin n) (Fin n) ℝ) (S : Fin K → Matrix (Fin n) (Fin n) ℝ) (E : Matrix (Fin n) (Fin m) ℝ)
    (g : Fin n → ℝ) (ρ : Fin K → ℝ) : Fin n → ℝ :=
  E *ᵥ ((Eᵀ * (A + wsum S ρ) * E)⁻¹ *ᵥ (Eᵀ *ᵥ g))

/-- Quadratic log-likelihood. -/
noncomputable def logLik (φ c : ℝ) (A : Matrix (Fin n) (Fin n) ℝ) (g β : Fin n → ℝ) : ℝ :=
  c + (g ⬝ᵥ β - 1 / 2 * (β ⬝ᵥ (A *ᵥ β))) / φ

/-- Penalised log-likelihood at log smoothing parameters `ρ`. -/
noncomputable def penLik (φ c : ℝ) (A : Matrix (Fin n) (Fin n) ℝ) (g : Fin n → ℝ) (S : Fin K → Matrix (Fin n) (Fin n) ℝ)
    (ρ : Fin K → ℝ) (β : Fin n → ℝ) : ℝ :=
  logLik φ c A g β - 1 / 2 * (β ⬝ᵥ (wsum S ρ *ᵥ β)) / φ

/-- Approximate restricted log-likelihood as a function of the log smoothing parameters. -/
noncomputable def remlFun (φ c : ℝ) (A : Matrix (Fin n) (Fin n) ℝ) (g : Fin n → ℝ) (S : Fin K → Matrix (Fin n) (Fin n) ℝ)
    (E : Matrix (Fin n) (Fin m) ℝ) (ρ : Fin K → ℝ) : ℝ :=
  penLik φ c A g S ρ (fitted A S E g ρ) + 1 / 2 * Real.log (pdet (wsum S ρ))
    - 1 / 2 * Real.log (Eᵀ * (A + wsum S ρ) * E).det

/-- What the function assumes about its inputs, for a model with negative unscaled Hessian `A`, score `g`, kept coefficients `E`,
orthogonal re-parameterisation `Q`. -/
structure Fits (x : In n K) (A : Matrix (Fin n) (Fin n) ℝ) (g : Fin n → ℝ) (E : Matrix (Fin n) (Fin m) ℝ)
    (Q : Matrix (Fin n) (Fin n) ℝ) (ρ : Fin K → ℝ) : Prop where
  scale_pos : 0 < x.scale
  sym : Aᵀ = A
  lam : ∀ k, x.lam k = Real.exp (ρ k)
  semb : x.Semb = wsum x.S ρ
  hess : x.H = -(x.scale⁻¹ • A)
  psd : ∀ k, (x.S k).PosSemidef
  root : ∀ k, x.S k = x.D k * (x.D k)ᵀ
  pd : ∀ ρ' : Fin K → ℝ, (Eᵀ * (A + wsum x.S ρ') * E).PosDef
  cov : x.Vbrᵀ * x.Vbr = E * (Eᵀ * (A + wsum x.S ρ) * E)⁻¹ * Eᵀ
  coef : x.coef = fitted A x.S E g ρ
  orth : Q * Qᵀ = 1
  repar : ∀ k, x.SR k = Qᵀ * x.S k * Q
  ginv : wsum x.SR ρ * x.Sinv * wsum x.SR ρ = wsum x.SR ρ
  separate : ∀ i j, x.start i ≠ x.start j → x.S i * x.S j = 0

/-! ## The criterion -/

section crit
variable {A : Matrix (Fin n) (Fin n) ℝ} {g : Fin n → ℝ} {S : Fin K → Matrix (Fin n) (Fin n) ℝ} {E : Matrix (Fin n) (Fin m) ℝ}

theorem sandwich (A : Matrix (Fin n) (Fin n) ℝ) (S : Fin K → Matrix (Fin n) (Fin n) ℝ) (E : Matrix (Fin n) (Fin m) ℝ) (ρ : Fin K → ℝ) :
    Eᵀ * (A + wsum S ρ) * E = Eᵀ * A * E + wsum (fun k => Eᵀ * S k * E) ρ := by
  rw [Matrix.mul_add, Matrix.add_mul, wsum, wsum, Matrix.mul_sum, Matrix.sum_mul]
  congr 1
  refine Finset.sum_congr rfl fun k _ => ?_
  rw [Matrix.mul_smul, Matrix.smul_mul]

theorem quad_sandwich (M : Matrix (Fin n) (Fin n) ℝ) (E : Matrix (Fin n) (Fin m) ℝ) (y z : Fin m → ℝ) :
    (E *ᵥ y) ⬝ᵥ (M *ᵥ (E *ᵥ z)) = y ⬝ᵥ ((Eᵀ * M * E) *ᵥ z) := by
  rw [← mulVec_mulVec, ← mulVec_mulVec, ← vecMul_transpose, ← dotProduct_mulVec]

/-- The coefficients maximise the penalised log-likelihood over all vectors of kept coefficients. -/
theorem fitted_maximises (φ c : ℝ) (hφ : 0 < φ) (hA : Aᵀ = A) (hS : ∀ k, (S k).PosSemidef) (ρ : Fin K → ℝ)
    (hpd : (Eᵀ * (A + wsum S ρ) * E).PosDef) (y : Fin m → ℝ) :
    penLik φ c A g S ρ (E *ᵥ y) ≤ penLik φ c A g S ρ (fitted A S E g ρ) := by
  set W := Eᵀ * (A + wsum S ρ) * E with hW
  set b := Eᵀ *ᵥ g with hb
  set z := W⁻¹ *ᵥ b with hz
  have hWz : W *ᵥ z = b := by
    rw [hz, mulVec_mulVec, Matrix.mul_nonsing_inv _ (isUnit_iff_ne_zero.2 hpd.det_pos.ne'), one_mulVec]
  have form : ∀ u : Fin m → ℝ, penLik φ c A g S ρ (E *ᵥ u) = c + (b ⬝ᵥ u - 1 / 2 * (u ⬝ᵥ (W *ᵥ u))) / φ := by
    intro u
    have e1 : g ⬝ᵥ (E *ᵥ u) = b ⬝ᵥ u := by rw [hb, dotProduct_mulVec, mulVec_transpose]
    have e2 : (E *ᵥ u) ⬝ᵥ (A *ᵥ (E *ᵥ u)) + (E *ᵥ u) ⬝ᵥ (wsum S ρ *ᵥ (E *ᵥ u)) = u ⬝ᵥ (W *ᵥ u) := by
      rw [← dotProduct_add, ← add_mulVec, quad_sandwich]
    unfold penLik logLik
    rw [e1, ← e2]
    field_simp
    ring
  have hfit : fitted A S E g ρ = E *ᵥ z := rfl
  rw [hfit, form, form]
  have hsym : Wᵀ = W := by
    have := hpd.1.eq
    rwa [conjTranspose_eq_transpose_of_trivial] at this
  have hq : 0 ≤ (y - z) ⬝ᵥ (W *ᵥ (y - z)) := by
    have := hpd.posSemidef.dotProduct_mulVec_nonneg (y - z)
    simpa using this
  have hx : z ⬝ᵥ (W *ᵥ y) = b ⬝ᵥ y := by
    rw [dotProduct_mulVec, ← mulVec_transpose, hsym, hWz]
  rw [mulVec_sub, dotProduct_sub, sub_dotProduct, sub_dotProduct, hWz, hx, dotProduct_comm y b] at hq
  rw [hWz]
  have : b ⬝ᵥ z = z ⬝ᵥ b := dotProduct_comm _ _
  gcongr c + ?_ / φ
  linarith

/-- Criterion in closed form. -/
theorem remlFun_eq (φ c : ℝ) (ρ : Fin K → ℝ) (hpd : (Eᵀ * (A + wsum S ρ) * E).PosDef) :
    remlFun φ c A g S E ρ = c + 1 / (2 * φ) * ((Eᵀ *ᵥ g) ⬝ᵥ ((Eᵀ * A * E + wsum (fun k => Eᵀ * S k * E) ρ)⁻¹ *ᵥ (Eᵀ *ᵥ g)))
      + 1 / 2 * Real.log (pdet (wsum S ρ)) - 1 / 2 * Real.log (Eᵀ * A * E + wsum (fun k => Eᵀ * S k * E) ρ).det := by
  unfold remlFun penLik logLik
  rw [← sandwich]
  set W := Eᵀ * (A + wsum S ρ) * E with hW
  set b := Eᵀ *ᵥ g with hb
  have hfit : fitted A S E g ρ = E *ᵥ (W⁻¹ *ᵥ b) := rfl
  rw [hfit]
  set z := W⁻¹ *ᵥ b with hz
  have hWz : W *ᵥ z = b := by
    rw [hz, mulVec_mulVec, Matrix.mul_nonsing_inv _ (isUnit_iff_ne_zero.2 hpd.det_pos.ne'), one_mulVec]
  have e1 : g ⬝ᵥ (E *ᵥ z) = b ⬝ᵥ z := by rw [hb, dotProduct_mulVec, mulVec_transpose]
  have e2 : (E *ᵥ z) ⬝ᵥ (A *ᵥ (E *ᵥ z)) = b ⬝ᵥ z - (E *ᵥ z) ⬝ᵥ (wsum S ρ *ᵥ (E *ᵥ z)) := by
    rw [eq_sub_iff_add_eq, ← dotProduct_add, ← add_mulVec, quad_sandwich, ← hW, hWz, dotProduct_comm]
  rw [e1, e2]
  field_simp
  ring

/-- Derivative of the coefficients with respect to a log smoothing parameter. -/
theorem fitted_deriv (ρ : Fin K → ℝ) (hpd : (Eᵀ * (A + wsum S ρ) * E).PosDef) (j : Fin K) (a : Fin n) :
    HasDerivAt (fun t => fitted A S E g (Function.update ρ j t) a)
      ((-Real.exp (ρ j) • ((E * (Eᵀ * (A + wsum S ρ) * E)⁻¹ * Eᵀ) *ᵥ (S j *ᵥ fitted A S E g ρ))) a) (ρ j) := by
  have hu : IsUnit (Eᵀ * A * E + wsum (fun k => Eᵀ * S k * E) ρ).det := by
    rw [← sandwich]; exact isUnit_iff_ne_zero.2 hpd.det_pos.ne'
  have h := quad_deriv (Eᵀ * A * E) (fun k => Eᵀ * S k * E) ρ hu j (E a) (Eᵀ *ᵥ g)
  refine HasDerivAt.congr_deriv (h.congr_of_eventuallyEq (Filter.Eventually.of_forall fun t => ?_)) ?_
  · simp only [fitted, sandwich]
    rfl
  · rw [← sandwich]
    set W := Eᵀ * (A + wsum S ρ) * E
    have hfit : fitted A S E g ρ = E *ᵥ (W⁻¹ *ᵥ (Eᵀ *ᵥ g)) := rfl
    rw [hfit, Pi.smul_apply, smul_eq_mul]
    congr 1
    have : (E * W⁻¹ * Eᵀ) *ᵥ (S j *ᵥ (E *ᵥ (W⁻¹ *ᵥ (Eᵀ *ᵥ g)))) = E *ᵥ ((W⁻¹ * (Eᵀ * S j * E) * W⁻¹) *ᵥ (Eᵀ *ᵥ g)) := by
      simp only [mulVec_mulVec, Matrix.mul_assoc]
    rw [this]
    rfl

/-- First and second derivatives of the criterion. -/
theorem reml_second (φ c : ℝ) (hS : ∀ k, (S k).PosSemidef)
    (hpd : ∀ ρ : Fin K → ℝ, (Eᵀ * (A + wsum S ρ) * E).PosDef) :
    ∃ γ : (Fin K → ℝ) → Fin K → ℝ,
      (∀ ρ i, HasDerivAt (fun t => remlFun φ c A g S E (Function.update ρ i t)) (γ ρ i) (ρ i)) ∧
      ∀ ρ i j (G V : Matrix (Fin n) (Fin n) ℝ) (β d : Fin n → ℝ), wsum S ρ * G * wsum S ρ = wsum S ρ →
        V = E * (Eᵀ * (A + wsum S ρ) * E)⁻¹ * Eᵀ → β = fitted A S E g ρ → d = -Real.exp (ρ j) • (V *ᵥ (S j *ᵥ β)) →
        HasDerivAt (fun t => γ (Function.update ρ j t) i)
          (-(1 / (2 * φ)) * ((if i = j then Real.exp (ρ i) * (β ⬝ᵥ (S i *ᵥ β)) else 0)
              + 2 * Real.exp (ρ i) * (β ⬝ᵥ (S i *ᵥ d)))
            + 1 / 2 * ((if i = j then Real.exp (ρ i) * (G * S i).trace else 0)
              - Real.exp (ρ i) * Real.exp (ρ j) * (G * S j * G * S i).trace)
            - 1 / 2 * ((if i = j then Real.exp (ρ i) * (V * S i).trace else 0)
              - Real.exp (ρ i) * Real.exp (ρ j) * (V * S j * V * S i).trace)) (ρ j) := by
  obtain ⟨δ, hδ1, hδ2⟩ := log_pdet_second S hS
  set T : Fin K → Matrix (Fin m) (Fin m) ℝ := fun k => Eᵀ * S k * E with hT
  set W : (Fin K → ℝ) → Matrix (Fin m) (Fin m) ℝ := fun ρ => Eᵀ * A * E + wsum T ρ with hW
  have hWe : ∀ ρ, Eᵀ * (A + wsum S ρ) * E = W ρ := fun ρ => sandwich A S E ρ
  have hpd' : ∀ ρ, (W ρ).PosDef := fun ρ => hWe ρ ▸ hpd ρ
  have hu : ∀ ρ, IsUnit (W ρ).det := fun ρ => isUnit_iff_ne_zero.2 (hpd' ρ).det_pos.ne'
  have hsymW : ∀ ρ, ((W ρ)⁻¹)ᵀ = (W ρ)⁻¹ := fun ρ => by
    have := (hpd' ρ).inv.1.eq
    rwa [conjTranspose_eq_transpose_of_trivial] at this
  have hTs : ∀ k, (T k)ᵀ = T k := fun k => by
    simp only [hT, Matrix.transpose_mul, Matrix.transpose_transpose, psd_symm (hS k), Matrix.mul_assoc]
  set b := Eᵀ *ᵥ g with hb
  set z : (Fin K → ℝ) → Fin m → ℝ := fun ρ => (W ρ)⁻¹ *ᵥ b with hz
  refine ⟨fun ρ i => -(1 / (2 * φ)) * (Real.exp (ρ i) * (z ρ ⬝ᵥ (T i *ᵥ z ρ))) + 1 / 2 * δ ρ i
    - 1 / 2 * (Real.exp (ρ i) * ((W ρ)⁻¹ * T i).trace), ?_, ?_⟩
  · intro ρ i
    have h1 := quad_deriv (Eᵀ * A * E) T ρ (hu ρ) i b b
    have h3 := logdet_deriv (Eᵀ * A * E) T ρ (hpd' ρ).det_pos.ne' i
    have h := (((h1.const_mul (1 / (2 * φ))).const_add c).add ((hδ1 ρ i).const_mul (1 / 2))).sub (h3.const_mul (1 / 2))
    refine HasDerivAt.congr_deriv (h.congr_of_eventuallyEq (Filter.Eventually.of_forall fun t => ?_)) ?_
    · exact remlFun_eq φ c _ (hpd _)
    · have e : b ⬝ᵥ (((W ρ)⁻¹ * T i * (W ρ)⁻¹) *ᵥ b) = z ρ ⬝ᵥ (T i *ᵥ z ρ) := by
        simp only [hz]
        rw [← mulVec_mulVec, ← mulVec_mulVec, dotProduct_mulVec b, ← mulVec_transpose, hsymW]
      have e' : b ⬝ᵥ (((Eᵀ * A * E + wsum T ρ)⁻¹ * T i * (Eᵀ * A * E + wsum T ρ)⁻¹) *ᵥ b) = z ρ ⬝ᵥ (T i *ᵥ z ρ) := e
      have e3 : ((Eᵀ * A * E + wsum T ρ)⁻¹ * T i).trace = ((W ρ)⁻¹ * T i).trace := rfl
      rw [e', e3]
      ring
  · intro ρ i j G V β d hG hV hβ hd
    have hz' : ∀ a, HasDerivAt (fun t => z (Function.update ρ j t) a)
        ((-Real.exp (ρ j) • (((W ρ)⁻¹ * T j) *ᵥ z ρ)) a) (ρ j) := by
      intro a
      have h := quad_deriv (Eᵀ * A * E) T ρ (hu ρ) j (Pi.single a 1) b
      refine HasDerivAt.congr_deriv (h.congr_of_eventuallyEq (Filter.Eventually.of_forall fun t => ?_)) ?_
      · simp only [single_dotProduct, one_mul]; rfl
      · rw [single_dotProduct, one_mul, Pi.smul_apply, smul_eq_mul]
        simp only [hz]
        rw [mulVec_mulVec b ((W ρ)⁻¹ * T j) (W ρ)⁻¹]
    set d' : Fin m → ℝ := -Real.exp (ρ j) • (((W ρ)⁻¹ * T j) *ᵥ z ρ) with hd'
    have hq : HasDerivAt (fun t => z (Function.update ρ j t) ⬝ᵥ (T i *ᵥ z (Function.update ρ j t)))
        (2 * (z ρ ⬝ᵥ (T i *ᵥ d'))) (ρ j) := by
      have h : HasDerivAt (fun t => ∑ a, z (Function.update ρ j t) a * ∑ c, T i a c * z (Function.update ρ j t) c)
          (∑ a, (d' a * (∑ c, T i a c * z (Function.update ρ j (ρ j)) c)
            + z (Function.update ρ j (ρ j)) a * ∑ c, T i a c * d' c)) (ρ j) :=
        HasDerivAt.fun_sum fun a _ => (hz' a).fun_mul (HasDerivAt.fun_sum fun c _ => (hz' c).const_mul _)
      refine HasDerivAt.congr_deriv (h.congr_of_eventuallyEq (Filter.Eventually.of_forall fun t => rfl)) ?_
      rw [Function.update_eq_self, Finset.sum_add_distrib]
      have e1 : ∑ a, d' a * ∑ c, T i a c * z ρ c = d' ⬝ᵥ (T i *ᵥ z ρ) := rfl
      have e2 : ∑ a, z ρ a * ∑ c, T i a c * d' c = z ρ ⬝ᵥ (T i *ᵥ d') := rfl
      have e3 : d' ⬝ᵥ (T i *ᵥ z ρ) = z ρ ⬝ᵥ (T i *ᵥ d') := by
        rw [dotProduct_mulVec, ← mulVec_transpose, hTs, dotProduct_comm]
      rw [e1, e2, e3]; ring
    have h1 := ((exp_update_deriv ρ i j).fun_mul hq).const_mul (-(1 / (2 * φ)))
    have h2 := (hδ2 ρ i j G hG).const_mul (1 / 2)
    have h3 := (logdet_second (Eᵀ * A * E) T ρ (hu ρ) i j).const_mul (1 / 2)
    have h := (h1.add h2).sub h3
    refine h.congr_deriv ?_
    rw [Function.update_eq_self]
    have hβz : β = E *ᵥ z ρ := by rw [hβ]; simp only [fitted, hWe]; rfl
    have hdd : d = E *ᵥ d' := by
      rw [hd, hd', mulVec_smul, hβz, hV, hWe]
      simp only [mulVec_mulVec, Matrix.mul_assoc, hT]
    have q1 : β ⬝ᵥ (S i *ᵥ β) = z ρ ⬝ᵥ (T i *ᵥ z ρ) := by rw [hβz, quad_sandwich]
    have q2 : β ⬝ᵥ (S i *ᵥ d) = z ρ ⬝ᵥ (T i *ᵥ d') := by rw [hβz, hdd, quad_sandwich]
    have q3 : (V * S i).trace = ((W ρ)⁻¹ * T i).trace := by
      rw [hV, hWe]
      have : E * (W ρ)⁻¹ * Eᵀ * S i = E * ((W ρ)⁻¹ * Eᵀ * S i) := by simp only [Matrix.mul_assoc]
      rw [this, Matrix.trace_mul_comm]
      simp only [hT, Matrix.mul_assoc]
    have q4 : (V * S j * V * S i).trace = ((W ρ)⁻¹ * T j * (W ρ)⁻¹ * T i).trace := by
      rw [hV, hWe]
      have : E * (W ρ)⁻¹ * Eᵀ * S j * (E * (W ρ)⁻¹ * Eᵀ) * S i = E * ((W ρ)⁻¹ * Eᵀ * S j * E * (W ρ)⁻¹ * Eᵀ * S i) := by
        simp only [Matrix.mul_assoc]
      rw [this, Matrix.trace_mul_comm]
      simp only [hT, Matrix.mul_assoc]
    rw [q1, q2, q3, q4]
    by_cases hij : i = j
    · simp only [if_pos hij]; ring
    · simp only [if_neg hij]; ring

end crit

end Verif.Wps
