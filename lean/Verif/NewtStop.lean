import Verif.NewtLocal

/-!
# C152: what the coefficient loop returns close to the estimate

Model: `CoefModel` (`phase`; gamm_solvers.py 5352-5478, 8275-8396), `LmlModel`.
-/

namespace Verif.NCv
open Verif Matrix Filter Topology Lml Coef

variable {p : ℕ} {x : In p} {F : (Fin p → ℝ) → ℝ}

/-- The loop ends with the state of one of the iterations. -/
theorem phase_iter (C : Cfg) (x : In p) (c : Fin p → ℝ) : ∀ left k, ∃ j ≤ left, (phase C (ext x) left k (iter C x c k)).1 = iter C x c (k + j) ∧
    ((phase C (ext x) left k (iter C x c k)).2 = .converged → ∃ i, j = i + 1 ∧ Near C.tol (iter C x c (k + j)).pen (iter C x c (k + i)).pen) ∧
    ((phase C (ext x) left k (iter C x c k)).2 = .exhausted → j = left) := by
  intro left
  induction left with
  | zero => exact fun k => ⟨0, le_rfl, rfl, fun h => by simp [phase] at h, fun _ => rfl⟩
  | succ left ih =>
    intro k
    unfold phase
    simp only
    have e1 : Coef.round C (ext x) k (iter C x c k) = iter C x c (k + 1) := rfl
    rw [e1]
    split_ifs with h1 h2
    · refine ⟨1, by omega, rfl, fun _ => ⟨0, rfl, ?_⟩, fun h => by simp at h⟩
      rwa [own_prev (ext x) _ (own_iter C x c k)] at h1
    · exact ⟨1, by omega, rfl, fun h => by simp at h, fun h => by simp at h⟩
    · obtain ⟨j, a1, a2, a3, a4⟩ := ih (k + 1)
      refine ⟨j + 1, by omega, ?_, fun h => ?_, fun h => ?_⟩
      · rw [a2]
        congr 1
        omega
      · obtain ⟨i, b1, b2⟩ := a3 h
        refine ⟨i + 1, by omega, ?_⟩
        rw [show k + (j + 1) = k + 1 + j by omega, show k + (i + 1) = k + 1 + i by omega]
        exact b2
      · rw [a4 h]

/-- Close to the estimate the loop does not leave it; if it reports convergence the squared distance is at most a multiple of its tolerance times the
penalised log-likelihood, and if it uses all iterations each of them has at least halved the distance. -/
theorem phase_close (h : Nice x F) (hE : Exact x) {e : Fin p → ℝ} (hf : step x e = e) : ∃ δ > 0, ∃ m > 0, ∀ (C : Cfg) (c : Fin p → ℝ) (left : ℕ),
    C.grad = false → Calm C (ext x) → ‖c - e‖ < δ →
      ‖(phase C (ext x) left 0 (start x c)).1.coef - e‖ ≤ ‖c - e‖ ∧
      ((phase C (ext x) left 0 (start x c)).2 = .converged →
        ∃ v, (phase C (ext x) left 0 (start x c)).1.pen = .fin v ∧ m * ‖(phase C (ext x) left 0 (start x c)).1.coef - e‖ ^ 2 ≤ C.tol * |v|) ∧
      ((phase C (ext x) left 0 (start x c)).2 = .exhausted → ‖(phase C (ext x) left 0 (start x c)).1.coef - e‖ ≤ (1 / 2) ^ left * ‖c - e‖) := by
  obtain ⟨m, hm, hall⟩ := NQ.step_close (loc h hE) hf
  obtain ⟨δ, hδ, hs⟩ := hall (1 / 2) (by norm_num)
  refine ⟨δ, hδ, 4 * m, by positivity, fun C c left hg hC hcd => ?_⟩
  have one : ∀ k, ‖(iter C x c k).coef - e‖ < δ → ‖(iter C x c (k + 1)).coef - e‖ ≤ 1 / 2 * ‖(iter C x c k).coef - e‖ ∧
      m * ‖(iter C x c k).coef - e‖ ^ 2 ≤ F (iter C x c (k + 1)).coef - F (iter C x c k).coef := fun k hk => by
    obtain ⟨h1, h2⟩ := hs _ hk
    have h3 : 0 ≤ m * ‖(iter C x c k).coef - e‖ ^ 2 := by positivity
    have h4 : F (iter C x c k).coef ≤ F (step x (iter C x c k).coef) := by linarith
    have h5 : (iter C x c (k + 1)).coef = step x (iter C x c k).coef := by
      rcases iteration_longest C hC c k (h.val _) with ⟨j, -, v, b1, -, -, b4⟩ | ⟨-, b2⟩
      · rcases Nat.eq_zero_or_pos j with rfl | hj
        · rw [b1, prop_eq hg, pow_zero, div_one, one_smul, add_sub_cancel]
        · have := b4 0 hj _ (h.val _)
          rw [prop_eq hg, pow_zero, div_one, one_smul, add_sub_cancel] at this
          exact absurd h4 (not_le.2 this)
      · have := b2 0 (by norm_num) _ (h.val _)
        rw [prop_eq hg, pow_zero, div_one, one_smul, add_sub_cancel] at this
        exact absurd h4 (not_le.2 this)
    rw [h5]
    exact ⟨h1, h2⟩
  have hin : ∀ k, ‖(iter C x c k).coef - e‖ ≤ (1 / 2) ^ k * ‖c - e‖ ∧ ‖(iter C x c k).coef - e‖ ≤ ‖c - e‖ := by
    intro k
    induction k with
    | zero =>
      rw [pow_zero, one_mul]
      exact ⟨le_rfl, le_rfl⟩
    | succ k ih =>
      obtain ⟨h1, -⟩ := one k (ih.2.trans_lt hcd)
      refine ⟨?_, ?_⟩
      · rw [pow_succ]
        linarith [ih.1]
      · have := norm_nonneg ((iter C x c k).coef - e)
        linarith [ih.2]
  obtain ⟨j, -, a2, a3, a4⟩ := phase_iter C x c left 0
  rw [show iter C x c 0 = start x c from rfl] at a2 a3 a4
  rw [a2, Nat.zero_add]
  refine ⟨(hin j).2, fun hw => ?_, fun hw => ?_⟩
  · obtain ⟨i, b1, b2⟩ := a3 hw
    rw [Nat.zero_add, Nat.zero_add, pen_iter, pen_iter, h.val, h.val] at b2
    refine ⟨_, (pen_iter C x c j).trans (h.val _), ?_⟩
    have b3 : |F (iter C x c j).coef - F (iter C x c i).coef| < C.tol * |F (iter C x c j).coef| := b2
    obtain ⟨h8, h9⟩ := one i ((hin i).2.trans_lt hcd)
    rw [← b1] at h8 h9
    have h10 := (abs_lt.1 b3).2
    have h11 := norm_nonneg ((iter C x c j).coef - e)
    have h12 : (2 * ‖(iter C x c j).coef - e‖) ^ 2 ≤ ‖(iter C x c i).coef - e‖ ^ 2 := pow_le_pow_left₀ (by positivity) (by linarith) 2
    have h13 := mul_le_mul_of_nonneg_left h12 hm.le
    rw [mul_pow] at h13
    linarith
  · rw [← a4 hw]
    exact (hin j).1

section Haz
variable {n nt : ℕ} {ut : ℕ → ℝ} {r delta : Fin n → ℕ} {X : Fin n → Fin p → ℝ} {S : Matrix (Fin p) (Fin p) ℝ}
  {chol : Matrix (Fin p) (Fin p) ℝ → Option (Matrix (Fin p) (Fin p) ℝ × Equiv.Perm (Fin p))} {noise : ℕ → Fin p → ℝ}

/-- C152.  No monotone direction, start close to the estimate: if the loop reports convergence, the squared distance of its coefficients from the
estimate is at most a multiple of its tolerance times the penalised log-likelihood. -/
theorem hazard_stop (h : Haz.Data nt ut r) (hch : Newton.CholSpec chol) (hS : S.PosSemidef) (hi : HEx.Ident ut r delta X S)
    (hn : ¬∃ v, HEx.Monotone ut r delta X S v) :
    ∃ e, (∀ d, d ≠ e → Haz.llk nt r delta X d - 1 / 2 * ∑ i, ∑ j, d i * S i j * d j < Haz.llk nt r delta X e - 1 / 2 * ∑ i, ∑ j, e i * S i j * e j) ∧
      ∃ δ > 0, ∃ m > 0, ∀ (C : Cfg) (c : Fin p → ℝ) (left : ℕ), C.grad = false → Calm C (ext (hazIn nt r delta X S chol noise)) → ‖c - e‖ < δ →
        ∀ q w, phase C (ext (hazIn nt r delta X S chol noise)) left 0 (start (hazIn nt r delta X S chol noise) c) = (q, w) →
          ‖q.coef - e‖ ≤ ‖c - e‖ ∧ (w = .converged → ∃ v, q.pen = .fin v ∧ m * ‖q.coef - e‖ ^ 2 ≤ C.tol * |v|) ∧
          (w = .exhausted → ‖q.coef - e‖ ≤ (1 / 2) ^ left * ‖c - e‖) := by
  obtain ⟨e, he, -⟩ := HEx.estimate_exists (noise := noise) h hch hS hi hn
  obtain ⟨δ, hδ, m, hm, H⟩ := phase_close (haz_nice h hch hS hi) (haz_exact h) he
  refine ⟨e, fun d hd => HEx.estimate_is_max h hch hS hi he hd, δ, hδ, m, hm, fun C c left hg hC hcd q w hq => ?_⟩
  have := H C c left hg hC hcd
  rw [hq] at this
  exact this

end Haz

section Mul
open Cls
variable {K n : ℕ} {w : ℕ → ℕ} {X : ℕ → Fin n → ℕ → ℝ} {y : Fin n → Fin (K + 1)} {stored : ℕ → ℕ → ℕ → List ℕ}
  {S : Matrix (Fin (∑ l ∈ Finset.range K, w l)) (Fin (∑ l ∈ Finset.range K, w l)) ℝ}
  {chol : Matrix (Fin (∑ l ∈ Finset.range K, w l)) (Fin (∑ l ∈ Finset.range K, w l)) ℝ →
      Option (Matrix (Fin (∑ l ∈ Finset.range K, w l)) (Fin (∑ l ∈ Finset.range K, w l)) ℝ ×
        Equiv.Perm (Fin (∑ l ∈ Finset.range K, w l)))}
  {noise : ℕ → Fin (∑ l ∈ Finset.range K, w l) → ℝ}

/-- C152.  Classes not separated, start close to the estimate: if the loop reports convergence, the squared distance of its coefficients from the
estimate is at most a multiple of its tolerance times the penalised log-likelihood. -/
theorem multinomial_stop (hst : Holds (EtaBeta.mnFam K) w X (num y) stored) (hch : Newton.CholSpec chol) (hS : S.PosSemidef) (hi : MEx.Ident w X S)
    (hn : ¬∃ v, MEx.Separated w X y S v) :
    ∃ e, (∀ d, d ≠ e → EtaBeta.llk (EtaBeta.mnFam K) w X (num y) (blk w d) - 1 / 2 * ∑ i, ∑ j, d i * S i j * d j <
        EtaBeta.llk (EtaBeta.mnFam K) w X (num y) (blk w e) - 1 / 2 * ∑ i, ∑ j, e i * S i j * e j) ∧
      ∃ δ > 0, ∃ m > 0, ∀ (C : Cfg) (c : Fin (∑ l ∈ Finset.range K, w l) → ℝ) (left : ℕ), C.grad = false →
        Calm C (ext (lssIn (EtaBeta.mnFam K) w X (num y) stored S chol noise)) → ‖c - e‖ < δ →
        ∀ q z, phase C (ext (lssIn (EtaBeta.mnFam K) w X (num y) stored S chol noise)) left 0
            (start (lssIn (EtaBeta.mnFam K) w X (num y) stored S chol noise) c) = (q, z) →
          ‖q.coef - e‖ ≤ ‖c - e‖ ∧ (z = .converged → ∃ v, q.pen = .fin v ∧ m * ‖q.coef - e‖ ^ 2 ≤ C.tol * |v|) ∧
          (z = .exhausted → ‖q.coef - e‖ ≤ (1 / 2) ^ left * ‖c - e‖) := by
  obtain ⟨e, he, -⟩ := MEx.estimate_exists (noise := noise) hst hch hS hi hn
  obtain ⟨δ, hδ, m, hm, H⟩ := phase_close (mul_nice hst hch hS hi) (mul_exact hst) he
  refine ⟨e, fun d hd => MEx.estimate_is_max hst hch hS hi he hd, δ, hδ, m, hm, fun C c left hg hC hcd q z hq => ?_⟩
  have := H C c left hg hC hcd
  rw [hq] at this
  exact this

end Mul

end Verif.NCv
