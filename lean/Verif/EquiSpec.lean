import Verif.EquiLemmas
import Verif.RlSpec

/-!
# Traces do not depend on the parameterisation (for C123)
-/

namespace Verif.Equi

open Verif Verif.Gauss Matrix

variable {m p : ℕ}

/-- What other parts of the code provide for positive smoothing parameters: roots of the penalties, the inverse of the Cholesky factor
of the penalised cross product, a generalised inverse of the sum of the overlapping penalties, ranks of the other penalties. -/
structure Good (x : In m p) (XX : Matrix (Fin p) (Fin p) ℝ) : Prop where
  root : ∀ i, x.S i = x.root i * (x.root i)ᵀ
  inv : ∀ lam : Fin m → ℝ, (∀ i, 0 < lam i) → (x.Linv lam)ᵀ * x.Linv lam * (XX + ∑ i, lam i • x.S i) = 1
  ginv : ∀ lam : Fin m → ℝ, (∀ i, 0 < lam i) →
    (∑ i, if x.useRank i then 0 else lam i • x.S i) * x.pinv lam * (∑ i, if x.useRank i then 0 else lam i • x.S i)
      = ∑ i, if x.useRank i then 0 else lam i • x.S i
  rank : ∀ i, x.useRank i = true → x.rank i = (x.S i).rank ∧ ∀ k, k ≠ i → x.S k * x.S i = 0

section
variable {x : In m p} {XX : Matrix (Fin p) (Fin p) ℝ}

theorem Good.psd (h : Good x XX) (i : Fin m) : (x.S i).PosSemidef := by
  rw [h.root i]
  have := posSemidef_self_mul_conjTranspose (x.root i)
  rwa [conjTranspose_eq_transpose_of_trivial] at this

theorem Good.bps_eq (h : Good x XX) {lam : Fin m → ℝ} (hl : ∀ i, 0 < lam i) (i : Fin m) :
    bps x lam i = ((XX + sEmb x.S lam)⁻¹ * x.S i).trace := by
  have hi : (x.Linv lam)ᵀ * x.Linv lam = (XX + sEmb x.S lam)⁻¹ := (inv_eq_left_inv (h.inv lam hl)).symm
  unfold bps
  rw [Edf.sum_sq_eq_trace, transpose_mul, ← hi, h.root i, trace_mul_comm]
  rw [trace_mul_comm ((x.Linv lam)ᵀ * x.Linv lam), Matrix.mul_assoc, Matrix.mul_assoc, trace_mul_comm]
  simp only [Matrix.mul_assoc]

theorem Good.lgdet (h : Good x XX) {lam : Fin m → ℝ} (hl : ∀ i, 0 < lam i) :
    ∃ G : Matrix (Fin p) (Fin p) ℝ, sEmb x.S lam * G * sEmb x.S lam = sEmb x.S lam ∧ ∀ i, lgdetD x lam i = (x.S i * G).trace :=
  Rl.lgdet_core h.psd hl (h.ginv lam hl) h.rank

end

/-- Traces with generalised inverses do not depend on the choice of the inverse. -/
theorem trace_ginv {S : Fin m → Matrix (Fin p) (Fin p) ℝ} (hS : ∀ i, (S i).PosSemidef) {lam : Fin m → ℝ} (hl : ∀ i, 0 < lam i)
    {G G' : Matrix (Fin p) (Fin p) ℝ} (hG : sEmb S lam * G * sEmb S lam = sEmb S lam) (hG' : sEmb S lam * G' * sEmb S lam = sEmb S lam)
    (i : Fin m) : (S i * G).trace = (S i * G').trace := by
  set T := sEmb S lam with hT
  have hk : ∀ v : Fin p → ℝ, T *ᵥ v = 0 → S i *ᵥ v = 0 := fun v hv => (Rl.penal_kernel hS hl v).1 hv i
  have hTs : Tᵀ = T := Wps.psd_symm (Rl.penal_psd hS hl)
  have hSs : (S i)ᵀ = S i := Wps.psd_symm (hS i)
  have h1 : S i = S i * G * T := by
    have hz : S i * (1 - G * T) = 0 := by
      ext a b
      have hc : T *ᵥ ((1 - G * T) *ᵥ Pi.single b 1) = 0 := by
        rw [mulVec_mulVec, Matrix.mul_sub, Matrix.mul_one, ← Matrix.mul_assoc, hG, sub_self, zero_mulVec]
      have := congrFun (hk _ hc) a
      rw [mulVec_mulVec] at this
      simpa using this
    rw [Matrix.mul_sub, Matrix.mul_one, sub_eq_zero, ← Matrix.mul_assoc] at hz
    exact hz
  have h2 : S i = T * Gᵀ * S i := by
    have := congrArg transpose h1
    rw [transpose_mul, transpose_mul, hTs, hSs, ← Matrix.mul_assoc] at this
    exact this
  have h3 : S i = T * (Gᵀ * S i * G) * T := by
    calc S i = S i * G * T := h1
      _ = (T * Gᵀ * S i) * G * T := by rw [← h2]
      _ = T * (Gᵀ * S i * G) * T := by simp only [Matrix.mul_assoc]
  generalize Gᵀ * S i * G = N at h3
  have key : ∀ F, T * F * T = T → (S i * F).trace = (N * T).trace := by
    intro F hF
    rw [h3, show T * N * T * F = T * (N * T * F) by simp only [Matrix.mul_assoc], trace_mul_comm,
      show N * T * F * T = N * (T * F * T) by simp only [Matrix.mul_assoc], hF]
  rw [key G hG, key G' hG']

/-- Data after a change of basis. -/
theorem sEmb_basis (S S' : Fin m → Matrix (Fin p) (Fin p) ℝ) (σ : Equiv.Perm (Fin m)) (Q : Matrix (Fin p) (Fin p) ℝ)
    (hS : ∀ i, S' i = Qᵀ * S (σ i) * Q) (lam : Fin m → ℝ) : sEmb S' (lam ∘ σ) = Qᵀ * sEmb S lam * Q := by
  unfold sEmb
  rw [← Equiv.sum_comp σ fun i => lam i • S i, Finset.mul_sum, Finset.sum_mul]
  refine Finset.sum_congr rfl fun i _ => ?_
  rw [hS, Matrix.mul_smul, Matrix.smul_mul]
  rfl

theorem posDef_basis {M Q Qi : Matrix (Fin p) (Fin p) ℝ} (hQ : Q * Qi = 1) : (Qᵀ * M * Q).PosDef ↔ M.PosDef := by
  have hQ' : Qi * Q = 1 := mul_eq_one_comm.1 hQ
  have gen : ∀ {N P Pi : Matrix (Fin p) (Fin p) ℝ}, Pi * P = 1 → N.PosDef → (Pᵀ * N * P).PosDef := by
    intro N P Pi hP hN
    have := hN.conjTranspose_mul_mul_same (B := P) (fun a b hab => by
      have := congrArg (Pi *ᵥ ·) hab
      simpa [mulVec_mulVec, hP] using this)
    rwa [conjTranspose_eq_transpose_of_trivial] at this
  refine ⟨fun h => ?_, gen hQ'⟩
  have := gen hQ h
  have e : Qiᵀ * (Qᵀ * M * Q) * Qi = M := by
    have : Qiᵀ * Qᵀ = 1 := by rw [← transpose_mul, hQ, transpose_one]
    calc Qiᵀ * (Qᵀ * M * Q) * Qi = (Qiᵀ * Qᵀ) * M * (Q * Qi) := by simp only [Matrix.mul_assoc]
      _ = M := by rw [this, hQ, Matrix.one_mul, Matrix.mul_one]
  rwa [e] at this

theorem inv_basis {M Q Qi : Matrix (Fin p) (Fin p) ℝ} (hQ : Q * Qi = 1) (hM : IsUnit M.det) : (Qᵀ * M * Q)⁻¹ = Qi * M⁻¹ * Qiᵀ := by
  have hQ' : Qi * Q = 1 := mul_eq_one_comm.1 hQ
  have ht : Qiᵀ * Qᵀ = 1 := by rw [← transpose_mul, hQ, transpose_one]
  refine inv_eq_left_inv ?_
  calc Qi * M⁻¹ * Qiᵀ * (Qᵀ * M * Q) = Qi * M⁻¹ * (Qiᵀ * Qᵀ) * M * Q := by simp only [Matrix.mul_assoc]
    _ = Qi * (M⁻¹ * M) * Q := by rw [ht, Matrix.mul_one]; simp only [Matrix.mul_assoc]
    _ = 1 := by rw [nonsing_inv_mul _ hM, Matrix.mul_one, hQ']

end Verif.Equi
