import Verif.Classes
import Verif.LmlEx

/-!
# Cases for C137
-/

namespace Verif.Cls
open Verif Matrix Lml

theorem ok_one {K n m : ℕ} {Z : Fin n → ℕ → ℝ} (y : Fin n → Fin (K + 1))
    {S : Matrix (Fin (∑ l ∈ Finset.range K, (fun _ => m) l)) (Fin (∑ l ∈ Finset.range K, (fun _ => m) l)) ℝ} (hS : S.IsSymm) (hd : ∀ i, 0 ≤ S i i)
    (hZ : ∀ a : Fin m, ∃ o, Z o a ≠ 0) : Ok m Z y (fullPat fun _ => m) S Ridge.cholC :=
  ⟨Ridge.cholC_spec, fullPat_holds _ _ _ _, hS, hd, hZ⟩

/-- Three classes, covariate 0, 1, 2, 3. -/
example (s : Equiv.Perm (Fin 3)) (c : Fin (∑ l ∈ Finset.range 2, (fun _ => 2) l) → ℝ) : ∃ c', Renum 2 s c c' ∧
    (step (lssIn (EtaBeta.mnFam 2) (fun _ => 2) (fun _ (o : Fin 4) a => if a = 0 then 1 else o.val) (num fun o => s (y4 o)) (fullPat fun _ => 2) 0
      Ridge.cholC fun _ _ => 0) c' = c' ↔
    step (lssIn (EtaBeta.mnFam 2) (fun _ => 2) (fun _ (o : Fin 4) a => if a = 0 then 1 else o.val) (num y4) (fullPat fun _ => 2) 0
      Ridge.cholC fun _ _ => 0) c = c) := by
  obtain ⟨c', h⟩ := renum_exists s c
  have hZ : ∀ a : Fin 2, ∃ o : Fin 4, (if (a : ℕ) = 0 then (1 : ℝ) else o.val) ≠ 0 := fun a => ⟨1, by split <;> simp⟩
  exact ⟨c', h, final_partial h (ok_one y4 isSymm_zero (fun _ => le_rfl) hZ) (ok_one _ isSymm_zero (fun _ => le_rfl) hZ)⟩

/-- Two classes, ridge penalty. -/
example {c c' : Fin (∑ l ∈ Finset.range 1, (fun _ => 1) l) → ℝ} (h : Renum 1 (Equiv.swap 0 1) c c') :
    step (lssIn (EtaBeta.mnFam 1) (fun _ => 1) (fun _ (_ : Fin 3) _ => 1) (num (K := 1) fun o => Equiv.swap 0 1 (![0, 0, 1] o)) (fullPat fun _ => 1) 1
      Ridge.cholC fun _ _ => 0) c' = c' ↔
    step (lssIn (EtaBeta.mnFam 1) (fun _ => 1) (fun _ (_ : Fin 3) _ => 1) (num (K := 1) ![0, 0, 1]) (fullPat fun _ => 1) 1 Ridge.cholC fun _ _ => 0) c = c :=
  two_classes h (ok_one _ isSymm_one (fun _ => by simp) fun _ => ⟨0, one_ne_zero⟩) (ok_one _ isSymm_one (fun _ => by simp) fun _ => ⟨0, one_ne_zero⟩)

theorem coef_exists : ∃ c : Fin (∑ l ∈ Finset.range 2, (fun _ => 1) l) → ℝ, cf 1 c = fun _ => ![Real.log 2, 0] := by
  let E := Equiv.ofBijective _ (at_bij (w := fun _ : ℕ => 1) (K := 2))
  refine ⟨fun i => (![Real.log 2, 0] : Fin 2 → ℝ) (E.symm i).1, funext fun a => funext fun k => ?_⟩
  have : E.symm (at' (K := 2) (fun _ => 1) ⟨k, a⟩) = ⟨k, a⟩ := E.symm_apply_apply _
  show (![Real.log 2, 0] : Fin 2 → ℝ) (E.symm (at' (K := 2) (fun _ => 1) ⟨k, a⟩)).1 = _
  rw [this]

/-- With a penalty the numbering matters. -/
example : ∃ c c', Renum 1 (Equiv.swap (0 : Fin 3) 1) c c' ∧
    step (lssIn (EtaBeta.mnFam 2) (fun _ => 1) (fun _ _ _ => 1) (num y4) (fullPat fun _ => 1) ((1 / Real.log 2) • 1) Ridge.cholC fun _ _ => 0) c = c ∧
    step (lssIn (EtaBeta.mnFam 2) (fun _ => 1) (fun _ _ _ => 1) (num fun o => Equiv.swap 0 1 (y4 o)) (fullPat fun _ => 1) ((1 / Real.log 2) • 1)
      Ridge.cholC fun _ _ => 0) c' ≠ c' := by
  obtain ⟨c, hc⟩ := coef_exists
  obtain ⟨c', h⟩ := renum_exists (Equiv.swap 0 1) c
  have hd : ∀ i, 0 ≤ ((1 / Real.log 2) • (1 : Matrix (Fin (∑ l ∈ Finset.range 2, (fun _ => 1) l)) (Fin (∑ l ∈ Finset.range 2, (fun _ => 1) l)) ℝ)) i i :=
    fun i => by
      have := Real.log_pos one_lt_two
      rw [Matrix.smul_apply, Matrix.one_apply_eq]
      positivity
  exact ⟨c, c', h, penalised_wrong hc h (ok_one _ (isSymm_one.smul _) hd fun _ => ⟨0, one_ne_zero⟩)
    (ok_one _ (isSymm_one.smul _) hd fun _ => ⟨0, one_ne_zero⟩)⟩

end Verif.Cls
