import Verif.LmlLemmas
import Mathlib.LinearAlgebra.Matrix.PosDef

/-!
# Lemmas about fits of the same model in other coordinates (property C126)
-/

namespace Verif.Invar
open Verif Matrix Step Lml

variable {p : ℕ}

/-- `x'` is `x` with coefficients `c'` standing for the coefficients `A c'` of `x`. -/
structure Same (x x' : In p) (A : Matrix (Fin p) (Fin p) ℝ) : Prop where
  llk : ∀ c, x'.llk c = x.llk (A *ᵥ c)
  grad : ∀ c, x'.grad c = Aᵀ *ᵥ x.grad (A *ᵥ c)
  hess : ∀ c, x'.hess c = Aᵀ * x.hess (A *ᵥ c) * A
  pen : x'.S = Aᵀ * x.S * A

theorem quad_same {x x' : In p} {A : Matrix (Fin p) (Fin p) ℝ} (h : Same x x' A) (c : Fin p → ℝ) :
    c ⬝ᵥ x'.S *ᵥ c = (A *ᵥ c) ⬝ᵥ x.S *ᵥ (A *ᵥ c) := by
  rw [h.pen, ← mulVec_mulVec, ← mulVec_mulVec, dotProduct_mulVec c Aᵀ, vecMul_transpose]

/-- The proposals correspond as soon as the matrices of the Newton systems do. -/
theorem step_same {x x' : In p} {A : Matrix (Fin p) (Fin p) ℝ} (h : Same x x' A) (hA : IsUnit A) {c : Fin p → ℝ}
    (h1 : Reg x (A *ᵥ c)) (h2 : Reg x' c) (hs : sysM x' c = Aᵀ * sysM x (A *ᵥ c) * A) :
    A *ᵥ step x' c = step x (A *ᵥ c) := by
  obtain ⟨-, a2, a3⟩ := step_solves h1
  obtain ⟨-, -, b3⟩ := step_solves h2
  rw [hs, h.grad, h.pen, ← mulVec_mulVec, ← mulVec_mulVec, ← mulVec_mulVec, ← mulVec_mulVec, ← mulVec_sub] at b3
  have hAt : IsUnit Aᵀ := by rwa [isUnit_transpose]
  have b4 := mulVec_injective_of_isUnit hAt b3
  rw [← a3, mulVec_sub] at b4
  have b5 := mulVec_injective_of_isUnit a2 b4
  exact sub_left_injective b5

/-! ### The ridge -/

theorem ridge_det (chol) (M : Matrix (Fin p) (Fin p) ℝ) : ∀ (f f' : ℕ) (e : ℝ) (r r'), Newton.ridge chol M f e = some r →
    Newton.ridge chol M f' e = some r' → r = r' := by
  intro f
  induction f with
  | zero => intro f' e r r' h; simp [Newton.ridge] at h
  | succ f ih =>
    intro f' e r r' h h'
    cases f' with
    | zero => simp [Newton.ridge] at h'
    | succ f' =>
      rw [Newton.ridge] at h h'
      cases hc : chol (M + e • 1) with
      | none =>
        rw [hc] at h h'
        exact ih f' _ r r' h h'
      | some q =>
        rw [hc] at h h'
        exact Option.some.inj (h.symm.trans h')

theorem newton_eps {chol} {f : ℕ} {c g : Fin p → ℝ} {H S : Matrix (Fin p) (Fin p) ℝ} {o : Newton.Out p}
    (h : Newton.newton chol f c g H S = some o) :
    ∃ r, Newton.ridge chol (Newton.scaled (Newton.negH H S)) f 0 = some r ∧ o.eps = r.2.2 := by
  unfold Newton.newton at h
  dsimp only at h
  cases hr : Newton.ridge chol (Newton.scaled (Newton.negH H S)) f 0 with
  | none => rw [hr] at h; exact absurd h (by simp)
  | some r =>
    obtain ⟨Lp, Pr, e⟩ := r
    rw [hr] at h
    refine ⟨_, rfl, ?_⟩
    rw [← Option.some.inj h]

/-- Equal preconditioned matrices need equal ridges. -/
theorem eps_congr {x x' : In p} (hc : x'.chol = x.chol) {c c' : Fin p → ℝ} (h1 : Reg x c) (h2 : Reg x' c')
    (hs : Newton.scaled (Newton.negH (x'.hess c') x'.S) = Newton.scaled (Newton.negH (x.hess c) x.S)) : eps x' c' = eps x c := by
  obtain ⟨o, ⟨f, ho⟩, -, e1⟩ := step_newtons h1
  obtain ⟨o', ⟨f', ho'⟩, -, e2⟩ := step_newtons h2
  obtain ⟨r, r1, r2⟩ := newton_eps ho
  obtain ⟨r', r1', r2'⟩ := newton_eps ho'
  rw [hs, hc] at r1'
  rw [e1, e2, r2, r2', ridge_det _ _ _ _ _ _ _ r1 r1']

theorem eps_zero {x : In p} {c : Fin p → ℝ} (h : Reg x c)
    (hpd : ∀ v, v ≠ 0 → 0 < v ⬝ᵥ (-x.hess c + x.S) *ᵥ v) : eps x c = 0 := by
  obtain ⟨o, ⟨f, ho⟩, -, e1⟩ := step_newtons h
  obtain ⟨-, -, -, h4, -⟩ := Newton.newton_correct x.chol h.chol f c _ _ _ h.diag o ho
  rw [e1]
  refine h4 ?_ hpd
  unfold IsSymm
  rw [transpose_add, transpose_neg, h.hsym.eq, h.ssym.eq]

theorem neg_same {x x' : In p} {A : Matrix (Fin p) (Fin p) ℝ} (h : Same x x' A) (c : Fin p → ℝ) :
    -x'.hess c + x'.S = Aᵀ * (-x.hess (A *ᵥ c) + x.S) * A := by
  rw [h.hess, h.pen, Matrix.mul_add, Matrix.add_mul, Matrix.mul_neg, Matrix.neg_mul]

/-! ### Other units -/

section units
variable {x x' : In p} {s : Fin p → ℝ} (h : Same x x' (diagonal s)) (hs : ∀ i, 0 < s i) (c : Fin p → ℝ)
include h

theorem neg_units (i j : Fin p) : -x'.hess c i j + x'.S i j = s i * (-x.hess (diagonal s *ᵥ c) i j + x.S i j) * s j := by
  have := congrFun (congrFun (neg_same h c) i) j
  rw [diagonal_transpose, Matrix.mul_diagonal, Matrix.diagonal_mul] at this
  exact this

include hs

theorem scaled_units :
    Newton.scaled (Newton.negH (x'.hess c) x'.S) =
      Newton.scaled (Newton.negH (x.hess (diagonal s *ᵥ c)) x.S) := by
  have hn : ∀ i j, Newton.negH (x'.hess c) x'.S i j = s i * Newton.negH (x.hess (diagonal s *ᵥ c)) x.S i j * s j := by
    intro i j
    have := neg_units h c i j
    simp only [Newton.negH, Matrix.add_apply, Matrix.smul_apply, smul_eq_mul, neg_one_mul]
    exact this
  have hd : ∀ i, Newton.dgr (Newton.negH (x'.hess c) x'.S) i * s i =
      Newton.dgr (Newton.negH (x.hess (diagonal s *ᵥ c)) x.S) i := by
    intro i
    unfold Newton.dgr
    rw [hn i i, show s i * Newton.negH (x.hess (diagonal s *ᵥ c)) x.S i i * s i =
      (s i) ^ 2 * Newton.negH (x.hess (diagonal s *ᵥ c)) x.S i i by ring, abs_mul, abs_of_pos (pow_pos (hs i) 2),
      Real.mul_rpow (pow_pos (hs i) 2).le (abs_nonneg _), ← Real.rpow_natCast, ← Real.rpow_mul (hs i).le]
    norm_num
    rw [Real.rpow_neg (hs i).le, Real.rpow_one, mul_right_comm, inv_mul_cancel₀ (hs i).ne', one_mul]
  ext i j
  unfold Newton.scaled
  rw [Matrix.mul_diagonal, Matrix.diagonal_mul, Matrix.mul_diagonal, Matrix.diagonal_mul, hn, ← hd i, ← hd j]
  ring

theorem reg_units (hc : x'.chol = x.chol) (h1 : Reg x (diagonal s *ᵥ c)) : Reg x' c where
  chol := hc ▸ h1.chol
  hsym := by
    unfold IsSymm
    rw [h.hess, transpose_mul, transpose_mul, transpose_transpose, h1.hsym.eq, Matrix.mul_assoc]
  ssym := by
    unfold IsSymm
    rw [h.pen, transpose_mul, transpose_mul, transpose_transpose, h1.ssym.eq, Matrix.mul_assoc]
  diag := fun i => by
    rw [neg_units h c i i]
    exact mul_ne_zero (mul_ne_zero (hs i).ne' (h1.diag i)) (hs i).ne'

theorem units_isUnit : IsUnit (diagonal s) := by
  rw [Matrix.isUnit_iff_isUnit_det, det_diagonal]
  exact (Finset.prod_ne_zero_iff.2 fun i _ => (hs i).ne').isUnit

theorem step_units (hc : x'.chol = x.chol) (h1 : Reg x (diagonal s *ᵥ c)) :
    eps x' c = eps x (diagonal s *ᵥ c) ∧ diagonal s *ᵥ step x' c = step x (diagonal s *ᵥ c) := by
  have h2 := reg_units h hs c hc h1
  have he := eps_congr hc h1 h2 (scaled_units h hs c)
  refine ⟨he, step_same h (units_isUnit h hs) h1 h2 ?_⟩
  have hd : ∀ M N : Matrix (Fin p) (Fin p) ℝ, (diagonal s)ᵀ * (M + N) * diagonal s =
      (diagonal s)ᵀ * M * diagonal s + (diagonal s)ᵀ * N * diagonal s := fun M N => by rw [Matrix.mul_add, Matrix.add_mul]
  unfold sysM
  rw [he, neg_same h, hd (_ + _) (_ • _)]
  congr 1
  rw [Matrix.mul_smul, Matrix.smul_mul]
  congr 1
  rw [diagonal_transpose, diagonal_mul_diagonal, diagonal_mul_diagonal]
  congr 1
  funext i
  rw [neg_units h c i i, abs_mul, abs_mul, abs_of_pos (hs i)]

end units

/-! ### Other parameterisations -/

theorem reg_recomb {x x' : In p} {A : Matrix (Fin p) (Fin p) ℝ} (h : Same x x' A) (hA : IsUnit A) (hc : Newton.CholSpec x'.chol)
    {c : Fin p → ℝ} (h1 : Reg x (A *ᵥ c)) (hpd : ∀ v, v ≠ 0 → 0 < v ⬝ᵥ (-x.hess (A *ᵥ c) + x.S) *ᵥ v) :
    Reg x' c ∧ ∀ v, v ≠ 0 → 0 < v ⬝ᵥ (-x'.hess c + x'.S) *ᵥ v := by
  have hp : ∀ v, v ≠ 0 → 0 < v ⬝ᵥ (-x'.hess c + x'.S) *ᵥ v := by
    intro v hv
    rw [neg_same h, ← mulVec_mulVec, ← mulVec_mulVec, dotProduct_mulVec v Aᵀ, vecMul_transpose]
    refine hpd _ fun h0 => hv ?_
    rw [← mulVec_zero A] at h0
    exact mulVec_injective_of_isUnit hA h0
  refine ⟨⟨hc, ?_, ?_, fun i => ?_⟩, hp⟩
  · unfold IsSymm
    rw [h.hess, transpose_mul, transpose_mul, transpose_transpose, h1.hsym.eq, Matrix.mul_assoc]
  · unfold IsSymm
    rw [h.pen, transpose_mul, transpose_mul, transpose_transpose, h1.ssym.eq, Matrix.mul_assoc]
  · have := hp (Pi.single i 1) (by simp)
    rw [mulVec_single_one, single_one_dotProduct] at this
    exact this.ne'

theorem step_recomb {x x' : In p} {A : Matrix (Fin p) (Fin p) ℝ} (h : Same x x' A) (hA : IsUnit A) (hc : Newton.CholSpec x'.chol)
    {c : Fin p → ℝ} (h1 : Reg x (A *ᵥ c)) (hpd : ∀ v, v ≠ 0 → 0 < v ⬝ᵥ (-x.hess (A *ᵥ c) + x.S) *ᵥ v) :
    eps x' c = eps x (A *ᵥ c) ∧ A *ᵥ step x' c = step x (A *ᵥ c) := by
  obtain ⟨h2, hp⟩ := reg_recomb h hA hc h1 hpd
  have e1 := eps_zero h1 hpd
  have e2 := eps_zero h2 hp
  refine ⟨by rw [e1, e2], step_same h hA h1 h2 ?_⟩
  unfold sysM
  rw [e1, e2, zero_smul, zero_smul, add_zero, add_zero, neg_same h]

/-! ### Iterations -/

/-- Corresponding states. -/
structure Rel (A : Matrix (Fin p) (Fin p) ℝ) (s s' : Coef.S (Fin p → ℝ) (Matrix (Fin p) (Fin p) ℝ)) : Prop where
  coef : s.coef = A *ᵥ s'.coef
  llk : s.llk = s'.llk
  pen : s.pen = s'.pen
  a : s.a = s'.a
  eps : s.eps = s'.eps
  hess : s'.hess = s.hess.map fun H => Aᵀ * H * A

theorem mid_same (A : Matrix (Fin p) (Fin p) ℝ) (c d : Fin p → ℝ) : A *ᵥ mid c d = mid (A *ᵥ c) (A *ᵥ d) := by
  unfold mid
  rw [mulVec_smul, mulVec_add]

theorem leval_same {x x' : In p} {A : Matrix (Fin p) (Fin p) ℝ} (h : Same x x' A) (n : Fin p → ℝ) :
    (levalAt (Coef.prob (ext x)) (A *ᵥ n)).llk = (levalAt (Coef.prob (ext x')) n).llk ∧
      (levalAt (Coef.prob (ext x)) (A *ᵥ n)).pen = (levalAt (Coef.prob (ext x')) n).pen := by
  have h1 : x.llk (A *ᵥ n) = x'.llk n := (h.llk n).symm
  have h2 : (A *ᵥ n) ⬝ᵥ x.S *ᵥ (A *ᵥ n) = n ⬝ᵥ x'.S *ᵥ n := (quad_same h n).symm
  refine ⟨h1, ?_⟩
  show x.llk (A *ᵥ n) - Fl.fin (1 / 2 * ((A *ᵥ n) ⬝ᵥ x.S *ᵥ (A *ᵥ n))) = x'.llk n - Fl.fin (1 / 2 * (n ⬝ᵥ x'.S *ᵥ n))
  rw [h1, h2]

theorem loop_same {x x' : In p} {A : Matrix (Fin p) (Fin p) ℝ} (h : Same x x' A) (c : Fin p → ℝ) (prev : Fl) :
    ∀ (left k : ℕ) (n : Fin p → ℝ), ∃ n' k', lssLoop (Coef.prob (ext x')) c prev left k (levalAt (Coef.prob (ext x')) n) =
        (levalAt (Coef.prob (ext x')) n', k') ∧
      lssLoop (Coef.prob (ext x)) (A *ᵥ c) prev left k (levalAt (Coef.prob (ext x)) (A *ᵥ n)) =
        (levalAt (Coef.prob (ext x)) (A *ᵥ n'), k') := by
  intro left
  induction left with
  | zero => intro k n; exact ⟨n, k - 1, rfl, rfl⟩
  | succ left ih =>
    intro k n
    rw [lssLoop, lssLoop]
    rw [(leval_same h n).2]
    by_cases hg : Ge (levalAt (Coef.prob (ext x')) n).pen prev ∧ (levalAt (Coef.prob (ext x')) n).pen.IsFin
    · rw [if_pos hg, if_pos hg]
      exact ⟨n, k, rfl, rfl⟩
    · rw [if_neg hg, if_neg hg]
      dsimp only
      obtain ⟨n', k', e1, e2⟩ := ih (k + 1) (mid c (if k > 30 then c else n))
      refine ⟨n', k', e1, ?_⟩
      rw [mid_same] at e2
      rw [← e2]
      congr 3
      show (if k > 30 then A *ᵥ c else A *ᵥ n) = _
      split <;> rfl

theorem no_restart {C : Coef.Cfg} (hC : C.grad = false) {x : In p} (hf : ∀ c, (x.llk c).IsFin) (inner : ℕ) (s) (a b : Fl) :
    ¬Coef.Restarts C (ext x) inner s a b := by
  rintro ⟨-, -, h | h⟩
  · rw [hC] at h; exact absurd h.1 (by simp)
  · exact h.2 (hf _)

theorem round_same {C : Coef.Cfg} (hC : C.grad = false) {x x' : In p} {A : Matrix (Fin p) (Fin p) ℝ} (h : Same x x' A)
    (hf : ∀ c, (x.llk c).IsFin) {s s'} (hr : Rel A s s')
    (hst : eps x' s'.coef = eps x (A *ᵥ s'.coef) ∧ A *ᵥ step x' s'.coef = step x (A *ᵥ s'.coef)) (inner : ℕ) :
    Rel A (Coef.round C (ext x) inner s) (Coef.round C (ext x') inner s') ∧
      Coef.prevPen (ext x) s = Coef.prevPen (ext x') s' := by
  classical
  have hf' : ∀ c, (x'.llk c).IsFin := fun c => by rw [h.llk]; exact hf _
  have hp : Coef.prevPen (ext x) s = Coef.prevPen (ext x') s' := by
    show s.llk - Fl.fin (1 / 2 * (s.coef ⬝ᵥ x.S *ᵥ s.coef)) = s'.llk - Fl.fin (1 / 2 * (s'.coef ⬝ᵥ x'.S *ᵥ s'.coef))
    rw [hr.llk, hr.coef, quad_same h]
  refine ⟨?_, hp⟩
  obtain ⟨n', k', e1, e2⟩ := loop_same h s'.coef (Coef.prevPen (ext x') s') 32 0 (step x' s'.coef)
  have l' : lssStep (Coef.prob (ext x')) s'.coef (Coef.proposal C (ext x') s') s'.llk s'.a =
      (levalAt (Coef.prob (ext x')) n', if k' > 0 ∧ s'.a > 1 / 10 ^ 9 then s'.a / 2 else if k' = 0 ∧ s'.a < 1 then s'.a * 2 else s'.a) := by
    have : Coef.proposal C (ext x') s' = step x' s'.coef := by unfold Coef.proposal; rw [hC]; rfl
    unfold lssStep
    rw [this]
    dsimp only
    rw [show lssLoop (Coef.prob (ext x')) s'.coef (s'.llk - Fl.fin (1 / 2 * (Coef.prob (ext x')).quad s'.coef)) 32 0 _ = _ from e1]
  have l : lssStep (Coef.prob (ext x)) s.coef (Coef.proposal C (ext x) s) s.llk s.a =
      (levalAt (Coef.prob (ext x)) (A *ᵥ n'), if k' > 0 ∧ s.a > 1 / 10 ^ 9 then s.a / 2 else if k' = 0 ∧ s.a < 1 then s.a * 2 else s.a) := by
    have : Coef.proposal C (ext x) s = step x s.coef := by unfold Coef.proposal; rw [hC]; rfl
    unfold lssStep
    rw [this]
    dsimp only
    rw [← hp, hst.2, ← hr.coef] at e2
    rw [show lssLoop (Coef.prob (ext x)) s.coef (s.llk - Fl.fin (1 / 2 * (Coef.prob (ext x)).quad s.coef)) 32 0 _ = _ from e2]
  unfold Coef.round
  dsimp only
  rw [if_neg (no_restart hC hf _ _ _ _), if_neg (no_restart hC hf' _ _ _ _), l, l', hC]
  dsimp only
  refine ⟨rfl, (leval_same h n').1, (leval_same h n').2, by rw [hr.a], ?_, ?_⟩
  · show eps x s.coef = eps x' s'.coef
    rw [hst.1, hr.coef]
  · show some (x'.hess s'.coef) = some (Aᵀ * x.hess s.coef * A)
    rw [h.hess, hr.coef]

theorem start_same {x x' : In p} {A : Matrix (Fin p) (Fin p) ℝ} (h : Same x x' A) (c : Fin p → ℝ) :
    Rel A (start x (A *ᵥ c)) (start x' c) := by
  refine ⟨rfl, (h.llk c).symm, ?_, rfl, rfl, rfl⟩
  show x.llk (A *ᵥ c) - Fl.fin (1 / 2 * ((A *ᵥ c) ⬝ᵥ x.S *ᵥ (A *ᵥ c))) = x'.llk c - Fl.fin (1 / 2 * (c ⬝ᵥ x'.S *ᵥ c))
  rw [h.llk, quad_same h]

/-- Proposals correspond at the coefficients visited. -/
def Steps (C : Coef.Cfg) (x x' : In p) (A : Matrix (Fin p) (Fin p) ℝ) (c : Fin p → ℝ) : Prop :=
  ∀ k c', (iter C x (A *ᵥ c) k).coef = A *ᵥ c' → eps x' c' = eps x (A *ᵥ c') ∧ A *ᵥ step x' c' = step x (A *ᵥ c')

theorem iter_same {C : Coef.Cfg} (hC : C.grad = false) {x x' : In p} {A : Matrix (Fin p) (Fin p) ℝ} (h : Same x x' A)
    (hf : ∀ c, (x.llk c).IsFin) {c : Fin p → ℝ} (hst : Steps C x x' A c) (k : ℕ) :
    Rel A (iter C x (A *ᵥ c) k) (iter C x' c k) := by
  induction k with
  | zero => exact start_same h c
  | succ k ih => exact (round_same hC h hf ih (hst k _ ih.coef) k).1

theorem phase_same {C : Coef.Cfg} (hC : C.grad = false) {x x' : In p} {A : Matrix (Fin p) (Fin p) ℝ} (h : Same x x' A)
    (hf : ∀ c, (x.llk c).IsFin) {c : Fin p → ℝ} (hst : Steps C x x' A c) : ∀ left k : ℕ,
    Rel A (Coef.phase C (ext x) left k (iter C x (A *ᵥ c) k)).1 (Coef.phase C (ext x') left k (iter C x' c k)).1 ∧
      (Coef.phase C (ext x) left k (iter C x (A *ᵥ c) k)).2 = (Coef.phase C (ext x') left k (iter C x' c k)).2 := by
  classical
  intro left
  induction left with
  | zero => intro k; exact ⟨iter_same hC h hf hst k, rfl⟩
  | succ left ih =>
    intro k
    have r := iter_same hC h hf hst k
    have r1 := iter_same hC h hf hst (k + 1)
    have hp := (round_same hC h hf r (hst k _ r.coef) k).2
    have hi := ih (k + 1)
    rw [Coef.phase, Coef.phase]
    rw [show Coef.round C (ext x) k (iter C x (A *ᵥ c) k) = iter C x (A *ᵥ c) (k + 1) from rfl,
      show Coef.round C (ext x') k (iter C x' c k) = iter C x' c (k + 1) from rfl, hp, r1.pen, r1.eps]
    split
    · exact ⟨r1, rfl⟩
    · split
      · exact ⟨r1, rfl⟩
      · exact hi

end Verif.Invar
