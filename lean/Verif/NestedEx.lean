import Verif.Nested
import Verif.LmlEx

/-!
# Cases for C138
-/

namespace Verif.Nest
open Verif Matrix Fl Fam SmoG

theorem adm_small (b : Fin 1 → ℝ) : Pirls.Adm small b := Pirls.adm_total (x := small) (fun _ => trivial) b

theorem adm_large (b : Fin 2 → ℝ) : Pirls.Adm large b := Pirls.adm_total (x := large) (fun _ => trivial) b

/-- Penalised residual sums of squares 2/3 and 1/2. -/
example : ∃ d d', deviance small ![2 / 3] = fin d ∧ deviance large ![1 / 2, 1 / 2] = fin d' ∧
    d' + quad large.S ![1 / 2, 1 / 2] ≤ d + quad small.S ![2 / 3] :=
  penalised small_large good_large ident_large (fun _ => trivial) (adm_large _) deviance_can_increase.2.1 (adm_small _)

/-- The additional column of `large` alone. -/
noncomputable def other : Pirls.In 2 1 := ⟨fun _ => .gaussian, .identity, fun _ => 1, !![1; 0], 0, 0⟩

theorem other_large : Larger other large fun _ => 1 :=
  ⟨fun a c _ => Subsingleton.elim a c, rfl, rfl, rfl, rfl, fun i a => by rw [Subsingleton.elim a 0]; fin_cases i <;> rfl, fun a c => by
    rw [Subsingleton.elim a 0, Subsingleton.elim c 0]
    rfl⟩

example (b : Fin 1 → ℝ) : ∃ d d', deviance other b = fin d ∧ deviance large ![1 / 2, 1 / 2] = fin d' ∧ d' ≤ d :=
  unpenalised other_large rfl good_large ident_large (fun _ => trivial) (adm_large _) deviance_can_increase.2.1
    (Pirls.adm_total (x := other) (fun _ => trivial) b)

/-- An intercept without penalty and a penalised slope for observations 0 and 2: estimates 2/3 and 2/3. -/
noncomputable def line : Pirls.In 2 2 := ⟨fun _ => .gaussian, .identity, ![0, 2], !![1, 0; 1, 1], 0, !![0, 0; 0, 1]⟩

theorem line_psd : line.S.PosSemidef := by
  have : line.S = (!![0, 0; 0, 1] : Matrix (Fin 2) (Fin 2) ℝ)ᴴ * !![0, 0; 0, 1] := by
    ext i j
    fin_cases i <;> fin_cases j <;> simp [line, Matrix.mul_apply, Fin.sum_univ_two]
  rw [this]
  exact posSemidef_conjTranspose_mul_self _

theorem good_line : Pirls.Good line 1 := ⟨fun _ => trivial, one_pos, fun _ => Or.inr rfl, line_psd⟩

theorem ident_line : Pirls.Ident line := by
  intro v h _
  have h0 := h 0
  have h1 := h 1
  simp [line, Fin.sum_univ_two] at h0 h1
  funext a
  fin_cases a
  · simpa using h0
  · simp [h0] at h1
    simpa using h1

theorem adm_line (b : Fin 2 → ℝ) : Pirls.Adm line b := Pirls.adm_total (x := line) (fun _ => trivial) b

theorem line_next : Pirls.next line ![2 / 3, 2 / 3] = ![2 / 3, 2 / 3] := by
  rw [Ifc.next_iff good_line ident_line (adm_line _)]
  intro a
  fin_cases a <;>
    simp [Fin.sum_univ_two, Pirls.uR, Pirls.uF, line, Pirls.eta, LinkKind.fiR, LinkKind.d1R, FamKind.VR, Matrix.mulVec, dotProduct] <;> norm_num

/-- Deviance around the mean 1. -/
example : ∃ d d', (Fl.sum fun i => (line.fam i).D (fin (line.y i)) (line.lk.fi (fin (1 + line.off i)))) = fin d ∧
    deviance line ![2 / 3, 2 / 3] = fin d' ∧ d' ≤ d :=
  intercept (j := 0) (fun i => by fin_cases i <;> rfl) rfl good_line ident_line (fun _ => trivial) (adm_line _) line_next fun _ => ⟨_, trivial, rfl⟩

/-- A quadratic log-likelihood and the model without coefficients. -/
example : ∃ u u', (⟨fun _ => .fin (-(0 - 1) ^ 2 / 2), fun _ _ => 0, fun _ => 0, 0, fun _ => none, fun _ _ => 0⟩ : Lml.In 0).llk ![] = fin u ∧
    Lml.quad1.llk (fun _ => 1 / 2) = fin u' ∧ u - 1 / 2 * quad 0 ![] ≤ u' - 1 / 2 * quad Lml.quad1.S fun _ => 1 / 2 :=
  newton (x := ⟨fun _ => .fin (-(0 - 1) ^ 2 / 2), fun _ _ => 0, fun _ => 0, 0, fun _ => none, fun _ _ => 0⟩) (x' := Lml.quad1) (J := Fin.elim0)
    (fun a => a.elim0) (fun c => by
      have : pad (Fin.elim0 : Fin 0 → Fin 1) c 0 = 0 := Function.extend_apply' _ _ _ fun ⟨a, _⟩ => a.elim0
      simp [Lml.quad1, this]) (fun a => a.elim0) (by
      show (diagonal fun _ => (1 : ℝ)).PosSemidef
      rw [diagonal_one]
      exact PosSemidef.one) Lml.quad1_concave (Lml.quad1_reg _) (Lml.quad1_grad _) (Lml.quad1_step _) ![]

/-- Hazards without and with the covariate. -/
example : Haz.llk 1 (fun _ : Fin 2 => 0) (fun _ => 1) (fun _ (a : Fin 0) => a.elim0) ![] - 1 / 2 * quad 0 ![] ≤
    Haz.llk 1 (fun _ : Fin 2 => 0) (fun _ => 1) Lml.x01 0 - 1 / 2 * quad (0 : Matrix (Fin 1) (Fin 1) ℝ) 0 :=
  hazard (J := Fin.elim0) (fun a => a.elim0) (fun _ a => a.elim0) (fun a => a.elim0) PosSemidef.zero Lml.data2 Ridge.cholC_spec Lml.hz2_diag
    (noise := fun _ _ => 0) Lml.hz2_fixed ![]

/-- Two classes with and without intercept. -/
example (c : Fin (∑ l ∈ Finset.range 1, (fun _ => 0) l) → ℝ) :
    EtaBeta.llk (EtaBeta.mnFam 1) (fun _ => 0) (fun _ (_ : Fin 2) _ => 1) (fun o => o.val) (Lml.blk (fun _ => 0) c) - 1 / 2 * quad 0 c ≤
      EtaBeta.llk (EtaBeta.mnFam 1) Lml.wOne (fun _ (_ : Fin 2) _ => 1) (fun o => o.val) (Lml.blk Lml.wOne 0) - 1 / 2 * quad (0 : Matrix (Fin (∑ l ∈ Finset.range 1, Lml.wOne l)) (Fin (∑ l ∈ Finset.range 1, Lml.wOne l)) ℝ) 0 :=
  multinomial (fun _ a => a.elim0) (fun _ a => a.elim0) (fun _ _ a => a.elim0) (fun _ _ a => a.elim0) PosSemidef.zero (noise := fun _ _ => 0)
    (Lml.fullPat_holds _ _ _ _) Ridge.cholC_spec Lml.mn2_diag ((Lml.fixed_iff_stationary ⟨Lml.mn2_smooth.chol, Lml.mn2_smooth.hsym 0,
      Lml.mn2_smooth.ssym, Lml.mn2_diag⟩ Lml.mn2_smooth.grad).2 Lml.mn2_stationary) c

end Verif.Nest
