import Verif.CandModel
import Verif.Step
import Mathlib.LinearAlgebra.Matrix.PosDef

/-! Lemmas for `Cand.lean`. -/

namespace Verif.Cand

open Matrix

variable {N p m : ℕ}

/-- Penalised residual sum of squares for the response `y - offset`. -/
noncomputable def obj (D : Data N p m) (lam : Fin m → ℝ) (b : Fin p → ℝ) : ℝ :=
  ∑ i, (D.y i - D.offset i - ∑ j, D.X i j * b j) ^ 2 + ∑ k, lam k * ∑ i, ∑ j, b i * D.S k i j * b j

theorem sEmb_quad (S : Fin m → Matrix (Fin p) (Fin p) ℝ) (lam : Fin m → ℝ) (b : Fin p → ℝ) :
    b ⬝ᵥ Gauss.sEmb S lam *ᵥ b = ∑ k, lam k * ∑ i, ∑ j, b i * S k i j * b j := by
  unfold Gauss.sEmb
  rw [sum_mulVec, dotProduct_sum]
  refine Finset.sum_congr rfl fun k _ => ?_
  rw [smul_mulVec, dotProduct_smul, smul_eq_mul]
  congr 1
  simp only [dotProduct, mulVec, Finset.mul_sum, mul_assoc]

theorem obj_eq (D : Data N p m) (lam : Fin m → ℝ) (b : Fin p → ℝ) :
    obj D lam b = (D.y - D.offset - D.X *ᵥ b) ⬝ᵥ (D.y - D.offset - D.X *ᵥ b) + b ⬝ᵥ Gauss.sEmb D.S lam *ᵥ b := by
  rw [sEmb_quad, obj]
  congr 1
  simp only [dotProduct, mulVec, Pi.sub_apply, sq]

theorem sEmb_symm (D : Data N p m) (lam : Fin m → ℝ) (h : (pen D lam).PosDef) : (Gauss.sEmb D.S lam)ᵀ = Gauss.sEmb D.S lam := by
  have h1 := h.1
  rw [IsHermitian, conjTranspose_eq_transpose_of_trivial, pen, transpose_add, transpose_mul, transpose_transpose] at h1
  exact add_left_cancel h1

theorem solve_norm (A : Matrix (Fin p) (Fin p) ℝ) (b : Fin p → ℝ) (h : A.PosDef) : A *ᵥ (Gauss.solveXX A b).1 = b := by
  unfold Gauss.solveXX
  rw [if_pos h]
  show A *ᵥ (A⁻¹ *ᵥ b) = b
  rw [mulVec_mulVec, mul_nonsing_inv _ ((isUnit_iff_isUnit_det _).1 h.isUnit), one_mulVec]

/-- Completing the square around the solution. -/
theorem complete (D : Data N p m) (lam : Fin m → ℝ) (h : (pen D lam).PosDef) (c d : Fin p → ℝ) (hc : pen D lam *ᵥ c = D.Xᵀ *ᵥ (D.y - D.offset)) :
    obj D lam (c + d) = obj D lam c + d ⬝ᵥ pen D lam *ᵥ d := by
  have hS := sEmb_symm D lam h
  rw [obj_eq, obj_eq]
  generalize hr : D.y - D.offset = r at hc ⊢
  generalize hA : Gauss.sEmb D.S lam = S at hS ⊢
  have hsym : c ⬝ᵥ S *ᵥ d = d ⬝ᵥ S *ᵥ c := by
    rw [dotProduct_mulVec, ← mulVec_transpose, hS, dotProduct_comm]
  have hx : ∀ u : Fin N → ℝ, u ⬝ᵥ D.X *ᵥ d = d ⬝ᵥ D.Xᵀ *ᵥ u := by
    intro u
    rw [dotProduct_mulVec, ← mulVec_transpose, dotProduct_comm]
  have hn : d ⬝ᵥ D.Xᵀ *ᵥ (r - D.X *ᵥ c) = d ⬝ᵥ S *ᵥ c := by
    congr 1
    rw [mulVec_sub, ← hc, pen, hA, add_mulVec, mulVec_mulVec]
    abel
  have hq : d ⬝ᵥ pen D lam *ᵥ d = D.X *ᵥ d ⬝ᵥ D.X *ᵥ d + d ⬝ᵥ S *ᵥ d := by
    rw [pen, hA, add_mulVec, dotProduct_add, ← mulVec_mulVec, ← hx]
  have he : r - D.X *ᵥ (c + d) = (r - D.X *ᵥ c) - D.X *ᵥ d := by rw [mulVec_add]; abel
  rw [he, hq]
  generalize hu : r - D.X *ᵥ c = u at hn ⊢
  rw [← hx] at hn
  simp only [sub_dotProduct, dotProduct_sub, mulVec_add, add_dotProduct, dotProduct_add]
  rw [hsym, hn, dotProduct_comm (D.X *ᵥ d) u, hn]
  ring

theorem inv_mul (A : Matrix (Fin p) (Fin p) ℝ) (h : A.PosDef) : inv A * A = 1 := by
  unfold inv
  rw [if_pos h, nonsing_inv_mul _ ((isUnit_iff_isUnit_det _).1 h.isUnit)]

theorem edf_trace (D : Data N p m) (lam : Fin m → ℝ) (h : (pen D lam).PosDef) : edfOf D lam = (inv (pen D lam) * (D.Xᵀ * D.X)).trace := by
  have h1 := inv_mul _ h
  have h2 : inv (pen D lam) * (D.Xᵀ * D.X) = 1 - inv (pen D lam) * Gauss.sEmb D.S lam := by
    rw [← h1]
    nth_rewrite 3 [pen]
    rw [Matrix.mul_add]; abel
  rw [h2, trace_sub, trace_one, Fintype.card_fin, edfOf]

theorem solve_fail (A : Matrix (Fin p) (Fin p) ℝ) (b : Fin p → ℝ) (h : ¬A.PosDef) : Gauss.solveXX A b = (0, 1) := by
  unfold Gauss.solveXX
  rw [if_neg h]

theorem solve_ok (A : Matrix (Fin p) (Fin p) ℝ) (b : Fin p → ℝ) (h : A.PosDef) : (Gauss.solveXX A b).2 = 0 := by
  unfold Gauss.solveXX
  rw [if_pos h]

theorem mapM_none {α β : Type} (f : α → Option β) (l : List α) (a : α) (ha : a ∈ l) (h : f a = none) : l.mapM f = none := by
  induction l with
  | nil => cases ha
  | cons x xs ih =>
    rw [List.mapM_cons]
    rcases List.mem_cons.1 ha with rfl | hx
    · rw [h]; rfl
    · rw [ih hx]
      cases f x <;> rfl

theorem mapM_some {α β : Type} (f : α → Option β) (g : α → β) (l : List α) (h : ∀ a ∈ l, f a = some (g a)) : l.mapM f = some (l.map g) := by
  induction l with
  | nil => rfl
  | cons x xs ih =>
    rw [List.mapM_cons, h x List.mem_cons_self, ih fun a ha => h a (List.mem_cons_of_mem _ ha)]
    rfl

/-- One observation, one coefficient, one penalty, everything one. -/
noncomputable def one1 (y off : ℝ) (known : Option ℝ) : Data 1 1 1 := ⟨1, fun _ => y, fun _ => off, fun _ => 1, known⟩

theorem one1_pen (y off : ℝ) (k : Option ℝ) (l : ℝ) : pen (one1 y off k) (fun _ => l) = (1 + l) • (1 : Matrix (Fin 1) (Fin 1) ℝ) := by
  simp only [pen, one1, Gauss.sEmb, transpose_one, Matrix.mul_one, Finset.univ_unique, Finset.sum_singleton]
  rw [add_smul, one_smul]

theorem one1_pd (y off : ℝ) (k : Option ℝ) (l : ℝ) (hl : 0 ≤ l) : (pen (one1 y off k) fun _ => l).PosDef := by
  rw [one1_pen]
  exact PosDef.one.smul (by linarith)

theorem one1_solve (y off : ℝ) (k : Option ℝ) (l : ℝ) (hl : 0 ≤ l) :
    Gauss.solveXX (pen (one1 y off k) fun _ => l) ((one1 y off k).Xᵀ *ᵥ ((one1 y off k).y - (one1 y off k).offset)) = (fun _ => (y - off) / (1 + l), 0) := by
  have h1 := solve_ok _ ((one1 y off k).Xᵀ *ᵥ ((one1 y off k).y - (one1 y off k).offset)) (one1_pd y off k l hl)
  have h2 := solve_norm _ ((one1 y off k).Xᵀ *ᵥ ((one1 y off k).y - (one1 y off k).offset)) (one1_pd y off k l hl)
  refine Prod.ext ?_ h1
  funext i
  have hi : i = 0 := Subsingleton.elim _ _
  subst hi
  have h3 := congrFun h2 0
  generalize (Gauss.solveXX (pen (one1 y off k) fun _ => l) ((one1 y off k).Xᵀ *ᵥ ((one1 y off k).y - (one1 y off k).offset))).1 = c at h3 ⊢
  rw [one1_pen, smul_mulVec, one_mulVec] at h3
  simp only [one1, transpose_one, one_mulVec, Pi.smul_apply, smul_eq_mul, Pi.sub_apply] at h3
  rw [eq_div_iff (by linarith), mul_comm]
  exact h3

/-- Two observations, one coefficient. -/
noncomputable def two1 : Data 2 1 1 := ⟨Matrix.of fun _ _ => 1, ![1, 3], 0, fun _ => 1, none⟩

section Newton

variable {V E M W F : Type} [AddCommGroup V] [Module ℝ V]

theorem not_conv {a b : ℝ} (h : a ≤ b) (hc : ¬Conv (.fin a) (.fin b)) : a * (1 + 1 / 10 ^ 9) ≤ b := by
  have h1 := not_lt.1 hc
  rw [abs_of_nonpos (by linarith)] at h1
  linarith

theorem newton_inv (P : Step.Prob V E M) (work : E → M → W) (solve : W → V × F) :
    ∀ (left : ℕ) (coef : V) (b : ℝ) (_ : (Step.evalAt P coef).pen = .fin b),
      let w := work (P.etaF coef) (P.muF (P.etaF coef))
      ∃ r a c' d, newton P work solve (left + 1) coef (.fin b) (Step.evalAt P (solve w).1) (solve w).2 = some r ∧ r.st = Step.evalAt P r.st.n ∧
        r.w = work (P.etaF r.st.n) (P.muF (P.etaF r.st.n)) ∧ r.st.pen = .fin a ∧ a ≤ d ∧ d ≤ b ∧ (Step.evalAt P c').pen = .fin d ∧
        r.fac = (solve (work (P.etaF c') (P.muF (P.etaF c')))).2 ∧ (r.conv = true ↔ |a - d| < 1 / 10 ^ 9 * a) ∧
        (r.conv = false → a * (1 + 1 / 10 ^ 9) ^ (left + 1) ≤ b) := by
  intro left
  induction left with
  | zero =>
    intro coef b hb w
    obtain ⟨r, a, h1, h2, h3, h4⟩ := Step.coef_step_descent P coef (solve w).1 b hb
    rw [hb] at h1
    by_cases hc : Conv r.pen (.fin b)
    · refine ⟨⟨r, work r.eta r.mu, (solve w).2, true⟩, a, coef, b, ?_, h2, ?_, h3, h4, le_rfl, hb, rfl, ?_, ?_⟩
      · unfold newton; rw [h1]; dsimp only; rw [if_pos hc]
      · dsimp only; rw [h2]; rfl
      · rw [h3] at hc; exact ⟨fun _ => hc, fun _ => rfl⟩
      · intro h; cases h
    · refine ⟨⟨r, work r.eta r.mu, (solve w).2, false⟩, a, coef, b, ?_, h2, ?_, h3, h4, le_rfl, hb, rfl, ?_, ?_⟩
      · unfold newton; rw [h1]; dsimp only; rw [if_neg hc, if_pos rfl]
      · dsimp only; rw [h2]; rfl
      · rw [h3] at hc; exact ⟨fun h => by simp at h, fun h => absurd h hc⟩
      · intro _
        rw [h3] at hc
        have := not_conv h4 hc
        rw [zero_add, pow_one]; exact this
  | succ k ih =>
    intro coef b hb w
    obtain ⟨r, a, h1, h2, h3, h4⟩ := Step.coef_step_descent P coef (solve w).1 b hb
    rw [hb] at h1
    by_cases hc : Conv r.pen (.fin b)
    · refine ⟨⟨r, work r.eta r.mu, (solve w).2, true⟩, a, coef, b, ?_, h2, ?_, h3, h4, le_rfl, hb, rfl, ?_, ?_⟩
      · unfold newton; rw [h1]; dsimp only; rw [if_pos hc]
      · dsimp only; rw [h2]; rfl
      · rw [h3] at hc; exact ⟨fun _ => hc, fun _ => rfl⟩
      · intro h; cases h
    · have hp : (Step.evalAt P r.n).pen = .fin a := by rw [← h2]; exact h3
      obtain ⟨r', a', c', d, g1, g2, g3, g4, g5, g6, g7, g8, g9, g10⟩ := ih r.n a hp
      refine ⟨r', a', c', d, ?_, g2, g3, g4, g5, g6.trans h4, g7, g8, g9, ?_⟩
      swap
      · intro h
        rw [h3] at hc
        have h5 := not_conv h4 hc
        have h6 := mul_le_mul_of_nonneg_right (g10 h) (show (0 : ℝ) ≤ 1 + 1 / 10 ^ 9 by norm_num)
        rw [pow_succ, ← mul_assoc]
        exact h6.trans h5
      rw [newton, h1]; dsimp only; rw [if_neg hc, if_neg (Nat.succ_ne_zero k), h3]
      have he : r.eta = P.etaF r.n := by rw [h2]; rfl
      have hm : r.mu = P.muF (P.etaF r.n) := by rw [h2]; rfl
      rw [he, hm]
      exact g1

end Newton

end Verif.Cand
