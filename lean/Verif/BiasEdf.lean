import Verif.BiasEdfModel
import Verif.RhoLemmas
import Mathlib.LinearAlgebra.Matrix.Notation
import Mathlib.Data.Int.Cast.Basic

/-!
# Bias corrected effective degrees of freedom (C80)
-/

namespace Verif.BiasEdf

open Matrix Verif.Rho

variable {n m : ℕ}

/-- Layout of the penalties: sorted by start, penalties with equal start cover the same positions, other penalties do not
overlap. -/
structure Laid (pens : List Pen) : Prop where
  sorted : pens.Pairwise fun p q => p.start ≤ q.start
  same : ∀ p ∈ pens, ∀ q ∈ pens, p.start = q.start → p.start + p.rep * p.dim = q.start + q.rep * q.dim
  apart : ∀ p ∈ pens, ∀ q ∈ pens, p.start < q.start → p.start + p.rep * p.dim ≤ q.start

theorem Laid.tail {p : Pen} {l : List Pen} (h : Laid (p :: l)) : Laid l where
  sorted := (List.pairwise_cons.1 h.sorted).2
  same := fun a ha b hb => h.same a (List.mem_cons_of_mem _ ha) b (List.mem_cons_of_mem _ hb)
  apart := fun a ha b hb => h.apart a (List.mem_cons_of_mem _ ha) b (List.mem_cons_of_mem _ hb)

/-- Contribution of a coefficient. -/
noncomputable def contrib (F : Matrix (Fin n) (Fin n) ℝ) (i : Fin n) : ℝ := 2 * F i i - ∑ k, F i k * F k i

theorem termEdf1_eq (F : Matrix (Fin n) (Fin n) ℝ) (p : Pen) : termEdf1 F p = ∑ i ∈ block p, contrib F i := by
  unfold termEdf1 contrib
  rw [Finset.sum_sub_distrib, Finset.mul_sum]

theorem mem_block {p : Pen} {i : Fin n} : i ∈ block p ↔ p.start ≤ i ∧ (i : ℕ) < p.start + p.rep * p.dim := by
  unfold block Pen.stop
  rw [Finset.mem_filter]
  exact ⟨fun h => h.2, fun h => ⟨Finset.mem_univ _, h⟩⟩

theorem fold_total (F : Matrix (Fin n) (Fin n) ℝ) (l : List Pen) (h : Laid l) (st : St) (hst : ∀ p ∈ l, st.prev ≤ p.start) :
    (l.foldl (step F) st).total
      = st.total + ∑ i ∈ Finset.univ.filter (fun i : Fin n => ∃ p ∈ l, st.prev < p.start ∧ p.start ≤ i ∧ (i : ℕ) < p.start + p.rep * p.dim), contrib F i
    ∧ (l.foldl (step F) st).total - (l.foldl (step F) st).terms.sum = st.total - st.terms.sum := by
  induction l generalizing st with
  | nil => simp
  | cons p l ih =>
    rw [List.foldl_cons]
    have hs := (List.pairwise_cons.1 h.sorted).1
    by_cases hp : (p.start : ℤ) > st.prev
    · have e : step F st p = ⟨p.start, st.terms ++ [termEdf1 F p], st.total + termEdf1 F p⟩ := by
        unfold step; rw [if_pos hp]
      obtain ⟨h1, h2⟩ := ih h.tail (step F st p) (fun q hq => by rw [e]; show (p.start : ℤ) ≤ q.start; exact_mod_cast hs q hq)
      refine ⟨?_, ?_⟩
      · rw [h1, e]
        show st.total + termEdf1 F p + _ = _
        rw [termEdf1_eq, add_assoc]
        congr 1
        rw [← Finset.sum_union]
        · refine Finset.sum_congr ?_ fun _ _ => rfl
          ext i
          simp only [mem_block, Finset.mem_union, Finset.mem_filter, Finset.mem_univ, true_and, List.mem_cons, exists_eq_or_imp]
          constructor
          · rintro (hb | ⟨q, hq, h3, h4, h5⟩)
            · exact Or.inl ⟨hp, hb⟩
            · exact Or.inr ⟨q, hq, lt_trans hp h3, h4, h5⟩
          · rintro (⟨_, hb⟩ | ⟨q, hq, h3, h4, h5⟩)
            · exact Or.inl hb
            · rcases (hs q hq).lt_or_eq with hlt | heq
              · exact Or.inr ⟨q, hq, by exact_mod_cast hlt, h4, h5⟩
              · left
                have := h.same p (List.mem_cons_self) q (List.mem_cons_of_mem _ hq) heq
                omega
        · rw [Finset.disjoint_left]
          intro i hi hi'
          simp only [mem_block, Finset.mem_filter, Finset.mem_univ, true_and] at hi hi'
          obtain ⟨q, hq, h3, h4, h5⟩ := hi'
          have h3' : p.start < q.start := by exact_mod_cast h3
          have := h.apart p (List.mem_cons_self) q (List.mem_cons_of_mem _ hq) h3'
          omega
      · rw [h2, e]
        simp only [List.sum_append, List.sum_cons, List.sum_nil]
        ring
    · have e : step F st p = st := by unfold step; rw [if_neg hp]
      rw [e]
      obtain ⟨h1, h2⟩ := ih h.tail st (fun q hq => hst q (List.mem_cons_of_mem _ hq))
      refine ⟨?_, h2⟩
      rw [h1]
      congr 1
      refine Finset.sum_congr ?_ fun _ _ => rfl
      ext i
      simp only [Finset.mem_filter, Finset.mem_univ, true_and, List.mem_cons, exists_eq_or_imp]
      constructor
      · exact fun hx => Or.inr hx
      · rintro (⟨h3, _⟩ | hx)
        · exact absurd h3 hp
        · exact hx

/-- Penalised coefficients. -/
def covered (pens : List Pen) : Finset (Fin n) := Finset.univ.filter fun i => ∃ p ∈ pens, p.start ≤ i ∧ (i : ℕ) < p.start + p.rep * p.dim

theorem run_total (F : Matrix (Fin n) (Fin n) ℝ) (unpen : ℕ) (pens : List Pen) (h : Laid pens) :
    (run F unpen pens).total = unpen + ∑ i ∈ covered pens, contrib F i := by
  have := (fold_total F pens h ⟨-1, [], unpen⟩ (fun p _ => by show (-1 : ℤ) ≤ p.start; omega)).1
  unfold run
  rw [this]
  congr 1
  refine Finset.sum_congr ?_ fun _ _ => rfl
  ext i
  simp only [covered, Finset.mem_filter, Finset.mem_univ, true_and]
  constructor
  · rintro ⟨p, hp, _, h1⟩; exact ⟨p, hp, h1⟩
  · rintro ⟨p, hp, h1⟩; exact ⟨p, hp, by omega, h1⟩

/-- C80. The total is the number of unpenalised coefficients plus the values of the terms. -/
theorem total_eq_terms (F : Matrix (Fin n) (Fin n) ℝ) (unpen : ℕ) (pens : List Pen) (h : Laid pens) :
    (run F unpen pens).total = unpen + (run F unpen pens).terms.sum := by
  have := (fold_total F pens h ⟨-1, [], unpen⟩ (fun p _ => by show (-1 : ℤ) ≤ p.start; omega)).2
  unfold run
  simp only [List.sum_nil, sub_zero] at this
  linarith

theorem trace_contrib (F : Matrix (Fin n) (Fin n) ℝ) : ((2 : ℝ) • F - F * F).trace = ∑ i, contrib F i := by
  simp only [Matrix.trace, Matrix.diag, Matrix.sub_apply, Matrix.smul_apply, smul_eq_mul, Matrix.mul_apply, contrib]

/-- A fitted model: negative Hessian `A` (times the scale), total penalty `S`, coefficients `e 0, e 1, …` kept, the others
dropped; `lvi` is a root of the inverse padded with zeros. -/
structure Model (A S : Matrix (Fin n) (Fin n) ℝ) (e : Fin m → Fin n) (lvi hessian : Matrix (Fin n) (Fin n) ℝ) (scale : ℝ)
    (pens : List Pen) : Prop where
  hess : scale • ((-1 : ℝ) • hessian) = A
  apsd : A.PosSemidef
  spsd : S.PosSemidef
  inj : Function.Injective e
  pd : ((A + S).submatrix e e).PosDef
  cov : ∀ i j, (lviᵀ * lvi) i j = ∑ a, ∑ b, if e a = i ∧ e b = j then ((A + S).submatrix e e)⁻¹ a b else 0
  penalised : ∀ i, i ∉ (covered pens : Finset (Fin n)) → ∀ k, S k i = 0

section
variable {A S : Matrix (Fin n) (Fin n) ℝ} {e : Fin m → Fin n} {lvi hessian : Matrix (Fin n) (Fin n) ℝ} {scale : ℝ} {pens : List Pen}

/-- Selection matrix. -/
def sel (e : Fin m → Fin n) : Matrix (Fin n) (Fin m) ℝ := Matrix.of fun i a => if e a = i then 1 else 0

theorem sel_sandwich (e : Fin m → Fin n) (M : Matrix (Fin n) (Fin n) ℝ) : (sel e)ᵀ * M * sel e = M.submatrix e e := by
  ext a b
  simp [Matrix.mul_apply, sel]

theorem cov_sel (h : Model A S e lvi hessian scale pens) :
    lviᵀ * lvi = sel e * ((sel e)ᵀ * (A + S) * sel e)⁻¹ * (sel e)ᵀ := by
  ext i j
  rw [h.cov, sel_sandwich, Matrix.mul_apply, Finset.sum_comm]
  refine Finset.sum_congr rfl fun b _ => ?_
  rw [Matrix.mul_apply, Finset.sum_mul]
  refine Finset.sum_congr rfl fun a _ => ?_
  simp only [sel, Matrix.of_apply, Matrix.transpose_apply]
  by_cases h1 : e a = i <;> by_cases h2 : e b = j <;> simp [h1, h2]

theorem vmv (h : Model A S e lvi hessian scale pens) : (lviᵀ * lvi) * (A + S) * (lviᵀ * lvi) = lviᵀ * lvi := by
  rw [cov_sel h]
  have hpd := h.pd
  rw [← sel_sandwich] at hpd
  set E := sel e
  set W := Eᵀ * (A + S) * E
  have : E * W⁻¹ * Eᵀ * (A + S) * (E * W⁻¹ * Eᵀ) = E * (W⁻¹ * W) * W⁻¹ * Eᵀ := by simp only [W, Matrix.mul_assoc]
  rw [this, Matrix.nonsing_inv_mul _ (isUnit_iff_ne_zero.2 hpd.det_pos.ne'), Matrix.mul_one]

theorem fmat_eq (h : Model A S e lvi hessian scale pens) : fmat lvi hessian scale = lviᵀ * lvi * A := by
  unfold fmat; rw [h.hess]

/-- A kept unpenalised coefficient: its column of `F` is a unit vector. -/
theorem col_unpen (h : Model A S e lvi hessian scale pens) (a : Fin m) (ha : e a ∉ (covered pens : Finset (Fin n))) (k : Fin n) :
    fmat lvi hessian scale k (e a) = if k = e a then 1 else 0 := by
  have hpd := h.pd
  rw [← sel_sandwich] at hpd
  have h1 : (lviᵀ * lvi * (A + S) * sel e) = sel e := by
    rw [cov_sel h]
    set E := sel e
    set W := Eᵀ * (A + S) * E
    have : E * W⁻¹ * Eᵀ * (A + S) * E = E * (W⁻¹ * W) := by simp only [W, Matrix.mul_assoc]
    rw [this, Matrix.nonsing_inv_mul _ (isUnit_iff_ne_zero.2 hpd.det_pos.ne'), Matrix.mul_one]
  have h2 : (lviᵀ * lvi * (A + S)) k (e a) = if k = e a then 1 else 0 := by
    have := congrFun (congrFun h1 k) a
    rw [Matrix.mul_apply] at this
    simp only [sel, Matrix.of_apply, mul_ite, mul_one, mul_zero, Finset.sum_ite_eq, Finset.mem_univ, if_true] at this
    rw [this]
    simp only [eq_comm]
  rw [fmat_eq h, ← h2, Matrix.mul_add, Matrix.add_apply]
  have h3 : (lviᵀ * lvi * S) k (e a) = 0 := by
    rw [Matrix.mul_apply]
    exact Finset.sum_eq_zero fun l _ => by rw [h.penalised (e a) ha, mul_zero]
  rw [h3, add_zero]

/-- A dropped coefficient: its row of `F` is zero. -/
theorem row_dropped (h : Model A S e lvi hessian scale pens) (i : Fin n) (hi : ∀ a, e a ≠ i) (k : Fin n) :
    fmat lvi hessian scale i k = 0 := by
  rw [fmat_eq h, Matrix.mul_apply]
  refine Finset.sum_eq_zero fun l _ => ?_
  have : (lviᵀ * lvi) i l = 0 := by
    rw [h.cov]
    exact Finset.sum_eq_zero fun a _ => Finset.sum_eq_zero fun b _ => if_neg fun hc => hi a hc.1
  rw [this, zero_mul]

/-- The total exceeds the trace of `2F - FF` by the number of dropped unpenalised coefficients. -/
theorem total_trace_dropped (h : Model A S e lvi hessian scale pens) (hl : Laid pens) (unpen : ℕ)
    (hu : unpen = ((covered pens : Finset (Fin n))ᶜ).card) :
    (run (fmat lvi hessian scale) unpen pens).total
      = ((2 : ℝ) • fmat lvi hessian scale - fmat lvi hessian scale * fmat lvi hessian scale).trace
        + (((covered pens : Finset (Fin n))ᶜ).filter fun i => ∀ a, e a ≠ i).card := by
  set F := fmat lvi hessian scale with hF
  rw [run_total F unpen pens hl, trace_contrib, ← Finset.sum_add_sum_compl (covered pens), hu]
  have h1 : ∑ i ∈ (covered pens : Finset (Fin n))ᶜ, contrib F i
      = ∑ i ∈ (covered pens : Finset (Fin n))ᶜ, if ∀ a, e a ≠ i then (0 : ℝ) else 1 := by
    refine Finset.sum_congr rfl fun i hi => ?_
    rw [Finset.mem_compl] at hi
    by_cases hd : ∀ a, e a ≠ i
    · rw [if_pos hd]
      unfold contrib
      simp only [row_dropped h i hd, hF, zero_mul, mul_zero, Finset.sum_const_zero, sub_zero]
    · rw [if_neg hd]
      push Not at hd
      obtain ⟨a, rfl⟩ := hd
      unfold contrib
      simp only [hF, col_unpen h a hi]
      simp only [mul_ite, mul_one, mul_zero, Finset.sum_ite_eq', Finset.mem_univ, if_true, col_unpen h a hi]
      norm_num
  have h2 : (((covered pens : Finset (Fin n))ᶜ).card : ℝ)
      = ∑ i ∈ (covered pens : Finset (Fin n))ᶜ, (if ∀ a, e a ≠ i then (0 : ℝ) else 1)
        + (((covered pens : Finset (Fin n))ᶜ).filter fun i => ∀ a, e a ≠ i).card := by
    rw [Finset.card_filter, Nat.cast_sum, ← Finset.sum_add_distrib, Finset.card_eq_sum_ones, Nat.cast_sum]
    refine Finset.sum_congr rfl fun i _ => ?_
    by_cases hd : ∀ a, e a ≠ i
    · simp [hd]
    · simp [hd]
  rw [h1, h2]
  ring

/-- C80. When no unpenalised coefficient is dropped, the total is the trace of `2F - FF`. Missing: models in which one is dropped,
see `dropped_counted`. -/
theorem total_eq_trace_partial (h : Model A S e lvi hessian scale pens) (hl : Laid pens) (unpen : ℕ)
    (hu : unpen = ((covered pens : Finset (Fin n))ᶜ).card) (hkeep : ∀ i, i ∉ (covered pens : Finset (Fin n)) → ∃ a, e a = i) :
    (run (fmat lvi hessian scale) unpen pens).total
      = ((2 : ℝ) • fmat lvi hessian scale - fmat lvi hessian scale * fmat lvi hessian scale).trace := by
  rw [total_trace_dropped h hl unpen hu]
  have : (((covered pens : Finset (Fin n))ᶜ).filter fun i => ∀ a, e a ≠ i) = ∅ := by
    rw [Finset.filter_eq_empty_iff]
    intro i hi hd
    obtain ⟨a, ha⟩ := hkeep i (Finset.mem_compl.1 hi)
    exact hd a ha
  rw [this, Finset.card_empty, Nat.cast_zero, add_zero]

/-- C80, negation. Every dropped unpenalised coefficient is still counted. -/
theorem dropped_counted (h : Model A S e lvi hessian scale pens) (hl : Laid pens) (unpen : ℕ)
    (hu : unpen = ((covered pens : Finset (Fin n))ᶜ).card) (i : Fin n) (hi : i ∉ (covered pens : Finset (Fin n))) (hd : ∀ a, e a ≠ i) :
    ((2 : ℝ) • fmat lvi hessian scale - fmat lvi hessian scale * fmat lvi hessian scale).trace + 1
      ≤ (run (fmat lvi hessian scale) unpen pens).total := by
  rw [total_trace_dropped h hl unpen hu]
  have : 1 ≤ (((covered pens : Finset (Fin n))ᶜ).filter fun i => ∀ a, e a ≠ i).card :=
    Finset.card_pos.2 ⟨i, Finset.mem_filter.2 ⟨Finset.mem_compl.2 hi, hd⟩⟩
  have : (1 : ℝ) ≤ (((covered pens : Finset (Fin n))ᶜ).filter fun i => ∀ a, e a ≠ i).card := by exact_mod_cast this
  linarith

/-- The covariance is symmetric positive semi-definite. -/
theorem vpsd (lvi : Matrix (Fin n) (Fin n) ℝ) (M : Matrix (Fin n) (Fin n) ℝ) (hM : M.PosSemidef) :
    (lviᵀ * lvi * M * (lviᵀ * lvi)).PosSemidef := by
  have := hM.mul_mul_conjTranspose_same (lviᵀ * lvi)
  rwa [conjTranspose_eq_transpose_of_trivial, Matrix.transpose_mul, Matrix.transpose_transpose] at this

/-- C80. Bias corrected degrees of freedom are at least the effective degrees of freedom. -/
theorem trace_ge_edf (h : Model A S e lvi hessian scale pens) :
    (fmat lvi hessian scale).trace
      ≤ ((2 : ℝ) • fmat lvi hessian scale - fmat lvi hessian scale * fmat lvi hessian scale).trace := by
  rw [fmat_eq h]
  set V := lviᵀ * lvi with hV
  have e1 : (2 : ℝ) • (V * A) - V * A * (V * A) = V * A + (V * A * V) * S + (V * A - V * (A + S) * V * A - (V * A * V) * S + V * S * V * A) := by
    simp only [Matrix.mul_add, Matrix.add_mul, two_smul, Matrix.mul_assoc]
    abel
  have e2 : (V * A * V * S).trace = (V * S * V * A).trace := by
    rw [Matrix.mul_assoc, Matrix.trace_mul_comm, ← Matrix.mul_assoc]
  rw [e1, vmv h, sub_self, zero_sub, Matrix.trace_add, Matrix.trace_add, Matrix.trace_add, Matrix.trace_neg, ← e2]
  have := trace_mul_nonneg _ S (vpsd lvi A h.apsd) h.spsd
  linarith

/-- C80. They are at most the number of kept coefficients. -/
theorem trace_le_card (h : Model A S e lvi hessian scale pens) :
    ((2 : ℝ) • fmat lvi hessian scale - fmat lvi hessian scale * fmat lvi hessian scale).trace ≤ m := by
  have hm : (lviᵀ * lvi * (A + S)).trace = m := by
    have hpd := h.pd
    rw [← sel_sandwich] at hpd
    rw [cov_sel h]
    set E := sel e
    set W := Eᵀ * (A + S) * E with hW
    have : E * W⁻¹ * Eᵀ * (A + S) = E * (W⁻¹ * Eᵀ * (A + S)) := by simp only [Matrix.mul_assoc]
    rw [this, Matrix.trace_mul_comm]
    have : W⁻¹ * Eᵀ * (A + S) * E = W⁻¹ * W := by simp only [hW, Matrix.mul_assoc]
    rw [this, Matrix.nonsing_inv_mul _ (isUnit_iff_ne_zero.2 hpd.det_pos.ne'), Matrix.trace_one, Fintype.card_fin]
  rw [← hm, fmat_eq h]
  have hvm := vmv h
  set V := lviᵀ * lvi with hV
  have e1 : V * (A + S) - ((2 : ℝ) • (V * A) - V * A * (V * A))
      = (V * S * V) * S + (V * (A + S) - V * (A + S) * V * (A + S)) + (V * (A + S) * V * A - V * A) + ((V * A * V) * S - V * S * V * A) + (V * (A + S) * V * A - V * A) := by
    simp only [Matrix.mul_add, Matrix.add_mul, two_smul, Matrix.mul_assoc]
    abel
  have e2 : (V * A * V * S).trace = (V * S * V * A).trace := by
    rw [Matrix.mul_assoc, Matrix.trace_mul_comm, ← Matrix.mul_assoc]
  have h1 := congrArg Matrix.trace e1
  rw [hvm, sub_self, sub_self, add_zero, add_zero, add_zero, Matrix.trace_add, Matrix.trace_sub, Matrix.trace_sub (V * A * V * S), e2,
    sub_self, add_zero] at h1
  have h2 := trace_mul_nonneg _ S (vpsd lvi S h.spsd) h.spsd
  linarith

end

/-! ### Concrete models: an intercept and a penalised coefficient -/

/-- Penalty on the second coefficient. -/
def demoPens : List Pen := [⟨1, 1, 1⟩]

theorem demo_laid : Laid demoPens where
  sorted := List.pairwise_singleton _ _
  same := by
    intro p hp q hq _
    rw [demoPens, List.mem_singleton] at hp hq
    rw [hp, hq]
  apart := by
    intro p hp q hq h
    rw [demoPens, List.mem_singleton] at hp hq
    rw [hp, hq] at h
    exact absurd h (lt_irrefl _)

theorem demo_covered : (covered demoPens : Finset (Fin 2)) = {1} := by decide

theorem demo_model : Model (Matrix.diagonal ![1, 1]) (Matrix.diagonal ![0, 3]) (id : Fin 2 → Fin 2) (Matrix.diagonal ![1, 1 / 2])
    ((-1 / 2 : ℝ) • Matrix.diagonal ![1, 1]) 2 demoPens where
  hess := by rw [smul_smul, smul_smul]; norm_num
  apsd := PosSemidef.diagonal fun a => by fin_cases a <;> simp
  spsd := PosSemidef.diagonal fun a => by fin_cases a <;> simp
  inj := Function.injective_id
  pd := by
    rw [Matrix.submatrix_id_id, Matrix.diagonal_add]
    refine PosDef.diagonal fun a => ?_
    fin_cases a <;> simp <;> norm_num
  cov := by
    have hinv : ((Matrix.diagonal ![1, 1] + Matrix.diagonal ![0, 3] : Matrix (Fin 2) (Fin 2) ℝ).submatrix id id)⁻¹
        = Matrix.diagonal ![1, 1 / 4] := by
      rw [Matrix.submatrix_id_id, Matrix.diagonal_add]
      refine Matrix.inv_eq_left_inv ?_
      rw [Matrix.diagonal_mul_diagonal, ← Matrix.diagonal_one]
      congr 1
      funext a
      fin_cases a <;> simp <;> norm_num
    rw [hinv]
    intro i j
    rw [Matrix.diagonal_transpose, Matrix.diagonal_mul_diagonal]
    fin_cases i <;> fin_cases j <;> simp [Fin.sum_univ_two, Matrix.diagonal] <;> norm_num
  penalised := by
    rw [demo_covered]
    intro i hi k
    fin_cases i
    · fin_cases k <;> simp [Matrix.diagonal]
    · simp at hi

example :=
  total_eq_trace_partial demo_model demo_laid 1 (by rw [demo_covered]; rfl) (fun i _ => ⟨i, rfl⟩)

/-- The intercept is dropped. -/
theorem demo_dropped : Model (Matrix.diagonal ![1, 1]) (Matrix.diagonal ![0, 3]) (fun _ : Fin 1 => (1 : Fin 2)) (Matrix.diagonal ![0, 1 / 2])
    ((-1 / 2 : ℝ) • Matrix.diagonal ![1, 1]) 2 demoPens where
  hess := by rw [smul_smul, smul_smul]; norm_num
  apsd := PosSemidef.diagonal fun a => by fin_cases a <;> simp
  spsd := PosSemidef.diagonal fun a => by fin_cases a <;> simp
  inj := fun a b _ => Subsingleton.elim a b
  pd := by
    have : (Matrix.diagonal ![1, 1] + Matrix.diagonal ![0, 3] : Matrix (Fin 2) (Fin 2) ℝ).submatrix (fun _ : Fin 1 => 1) (fun _ : Fin 1 => 1)
        = (4 : ℝ) • 1 := by
      ext a b
      fin_cases a; fin_cases b
      simp [Matrix.diagonal]; norm_num
    rw [this]
    exact PosDef.one.smul (by norm_num)
  cov := by
    have hinv : ((Matrix.diagonal ![1, 1] + Matrix.diagonal ![0, 3] : Matrix (Fin 2) (Fin 2) ℝ).submatrix (fun _ : Fin 1 => 1)
        (fun _ : Fin 1 => 1))⁻¹ = (1 / 4 : ℝ) • 1 := by
      refine Matrix.inv_eq_left_inv ?_
      ext a b
      fin_cases a; fin_cases b
      simp [Matrix.mul_apply, Matrix.diagonal]; norm_num
    rw [hinv]
    intro i j
    rw [Matrix.diagonal_transpose, Matrix.diagonal_mul_diagonal]
    fin_cases i <;> fin_cases j <;> simp [Matrix.diagonal] <;> norm_num
  penalised := demo_model.penalised

/-- C80, the negation on a concrete model. -/
theorem dropped_counted_demo :
    (run (fmat (Matrix.diagonal ![0, 1 / 2]) ((-1 / 2 : ℝ) • Matrix.diagonal ![1, 1]) 2) 1 demoPens).total
      ≠ ((2 : ℝ) • fmat (Matrix.diagonal ![0, 1 / 2]) ((-1 / 2 : ℝ) • Matrix.diagonal ![1, 1]) 2
        - fmat (Matrix.diagonal ![0, 1 / 2]) ((-1 / 2 : ℝ) • Matrix.diagonal ![1, 1]) 2
          * fmat (Matrix.diagonal ![0, 1 / 2]) ((-1 / 2 : ℝ) • Matrix.diagonal ![1, 1]) 2).trace := by
  have := dropped_counted demo_dropped demo_laid 1 (by rw [demo_covered]; rfl) 0 (by rw [demo_covered]; simp) (fun a => by simp)
  intro h
  rw [h] at this
  linarith

end Verif.BiasEdf
