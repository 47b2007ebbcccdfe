import Verif.Ar1Model
import Mathlib.LinearAlgebra.Matrix.Block
import Mathlib.LinearAlgebra.Matrix.NonsingularInverse
import Mathlib.Analysis.SpecialFunctions.Pow.Real
import Mathlib.Tactic.Ring
import Mathlib.Algebra.BigOperators.Field
import Mathlib.Data.List.GetD
import Mathlib.Tactic.Linarith
import Mathlib.Tactic.FieldSimp
import Mathlib.Tactic.NormNum

/-!
# AR(1) residual model (property C36)
-/

namespace Verif.Ar1

open Finset

/-- Series number of observation `i`: series begun up to `i`. -/
def ser (start : List Bool) (i : ℕ) : ℕ := ∑ k ∈ range (i + 1), if start.getD k false then 1 else 0

/-- Covariance of an AR(1) process per series. -/
noncomputable def V (ρ : ℝ) (start : List Bool) : Matrix (Fin start.length) (Fin start.length) ℝ :=
  Matrix.of fun i j => if ser start i = ser start j then ρ ^ (max i.1 j.1 - min i.1 j.1) else 0

theorem ser_succ (start : List Bool) (i : ℕ) :
    ser start (i + 1) = ser start i + if start.getD (i + 1) false then 1 else 0 := by
  unfold ser
  rw [Finset.sum_range_succ]

theorem ser_mono (start : List Bool) {i j : ℕ} (h : i ≤ j) : ser start i ≤ ser start j := by
  unfold ser
  exact Finset.sum_le_sum_of_subset (Finset.range_mono (by omega))

theorem mem_sid0 (start : List Bool) (i : ℕ) : i ∈ sid0 start ↔ start.getD i false = true := by
  unfold sid0
  rw [List.mem_filter, List.mem_range]
  constructor
  · exact fun h => h.2
  · intro h
    refine ⟨?_, h⟩
    by_contra hn
    rw [List.getD_eq_default _ _ (by omega)] at h
    cases h

theorem sid0_sorted (start : List Bool) : (sid0 start).Pairwise (· < ·) :=
  List.Pairwise.filter _ List.pairwise_lt_range

theorem mem_sid1 (start : List Bool) (h0 : start.getD 0 false = true) (i : ℕ) :
    i ∈ sid1 start ↔ start.getD (i + 1) false = true := by
  have hm : 0 ∈ sid0 start := (mem_sid0 start 0).2 h0
  have hs := sid0_sorted start
  unfold sid1
  cases hl : sid0 start with
  | nil => rw [hl] at hm; simp at hm
  | cons a t =>
    have ha : a = 0 := by
      rw [hl] at hm hs
      rcases List.mem_cons.1 hm with h | h
      · exact h.symm
      · have := (List.pairwise_cons.1 hs).1 0 h
        omega
    subst ha
    rw [hl] at hs
    have hpos := (List.pairwise_cons.1 hs).1
    rw [List.tail_cons, List.mem_map, ← mem_sid0, hl]
    constructor
    · rintro ⟨b, hb, rfl⟩
      have := hpos b hb
      rw [show b - 1 + 1 = b by omega]
      exact List.mem_cons_of_mem _ hb
    · intro h
      rcases List.mem_cons.1 h with h | h
      · omega
      · exact ⟨i + 1, h, rfl⟩

theorem W_sum (ρ : ℝ) (start : List Bool) (i : Fin start.length) (f : ℕ → ℝ) :
    ∑ k : Fin start.length, W ρ start i k * f k
      = d0 ρ start i * f i + if i.1 = 0 then 0 else d1 ρ start (i.1 - 1) * f (i.1 - 1) := by
  have h1 : ∀ k : Fin start.length, W ρ start i k * f k = (if k = i then d0 ρ start i * f i else 0)
      + (if i.1 = k.1 + 1 then d1 ρ start (i.1 - 1) * f (i.1 - 1) else 0) := by
    intro k
    unfold W Lrhoi
    rw [Matrix.of_apply]
    by_cases hk : k = i
    · subst hk
      rw [if_pos rfl, if_pos rfl, if_neg (by omega), add_zero]
    · have hk' : ¬ i.1 = k.1 := fun h => hk (Fin.ext h.symm)
      rw [if_neg hk', if_neg hk, zero_add]
      by_cases h2 : i.1 = k.1 + 1
      · rw [if_pos h2, if_pos h2, h2, Nat.add_sub_cancel]
      · rw [if_neg h2, if_neg h2, zero_mul]
  rw [Finset.sum_congr rfl fun k _ => h1 k, Finset.sum_add_distrib, Finset.sum_ite_eq' Finset.univ i]
  rw [if_pos (Finset.mem_univ _)]
  congr 1
  by_cases hi : i.1 = 0
  · rw [if_pos hi]
    refine Finset.sum_eq_zero fun k _ => ?_
    rw [if_neg (by omega)]
  · rw [if_neg hi]
    rw [Finset.sum_eq_single (⟨i.1 - 1, by omega⟩ : Fin start.length)]
    · rw [if_pos (by show i.1 = i.1 - 1 + 1; omega)]
    · intro b _ hb
      rw [if_neg]
      intro h
      exact hb (Fin.ext (by show b.1 = i.1 - 1; omega))
    · intro h; exact absurd (Finset.mem_univ _) h

/-- Scale of the innovation. -/
noncomputable def e (ρ : ℝ) (start : List Bool) (i : ℕ) : ℝ :=
  if start.getD i false then 1 else √(1 - ρ ^ 2)

theorem WV (ρ : ℝ) (hρ : ρ ^ 2 < 1) (start : List Bool) (h0 : start.getD 0 false = true)
    (i j : Fin start.length) :
    (W ρ start * V ρ start) i j =
      if i.1 ≤ j.1 ∧ ser start i = ser start j then e ρ start i * ρ ^ (j.1 - i.1) else 0 := by
  have hpos : 0 < 1 - ρ ^ 2 := by linarith
  have hs : √(1 - ρ ^ 2) ≠ 0 := (Real.sqrt_pos.2 hpos).ne'
  have hsq : √(1 - ρ ^ 2) ^ 2 = 1 - ρ ^ 2 := Real.sq_sqrt hpos.le
  rw [Matrix.mul_apply]
  have := W_sum ρ start i (fun k => if ser start k = ser start j then ρ ^ (max k j.1 - min k j.1) else 0)
  unfold V
  simp only [Matrix.of_apply]
  rw [this]
  unfold d0 d1 e
  by_cases hst : start.getD i.1 false = true
  · -- first of a series
    rw [if_pos ((mem_sid0 _ _).2 hst), if_pos hst, one_mul, one_mul]
    have hz : (if i.1 = 0 then (0 : ℝ) else (if i.1 - 1 ∈ sid1 start then 0 else -ρ / √(1 - ρ ^ 2)) *
        if ser start (i.1 - 1) = ser start j then ρ ^ (max (i.1 - 1) j.1 - min (i.1 - 1) j.1) else 0) = 0 := by
      by_cases hi : i.1 = 0
      · rw [if_pos hi]
      · rw [if_neg hi, if_pos, zero_mul]
        rw [mem_sid1 start h0, show i.1 - 1 + 1 = i.1 by omega]
        exact hst
    rw [hz, add_zero]
    by_cases hser : ser start i = ser start j
    · have hij : i.1 ≤ j.1 := by
        by_contra hn
        obtain ⟨m, hm⟩ : ∃ m, i.1 = m + 1 := ⟨i.1 - 1, by omega⟩
        rw [hm, ser_succ, ← hm, if_pos hst] at hser
        have := ser_mono start (show j.1 ≤ m by omega)
        omega
      rw [if_pos hser, if_pos ⟨hij, hser⟩, max_eq_right hij, min_eq_left hij]
    · rw [if_neg hser, if_neg (fun h => hser h.2)]
  · have hi : i.1 ≠ 0 := fun h => hst (h ▸ h0)
    obtain ⟨m, hm⟩ : ∃ m, i.1 = m + 1 := ⟨i.1 - 1, by omega⟩
    have hsm : ser start i = ser start m := by
      rw [hm, ser_succ, ← hm, if_neg hst, add_zero]
    have hns : ¬ m ∈ sid1 start := fun h => by
      rw [mem_sid1 start h0, ← hm] at h
      exact hst h
    rw [if_neg (fun h => hst ((mem_sid0 _ _).1 h)), if_neg hst, if_neg hi, show i.1 - 1 = m by omega,
      if_neg hns, hsm]
    by_cases hser : ser start m = ser start j
    · rw [if_pos hser, if_pos hser]
      by_cases hij : i.1 ≤ j.1
      · rw [if_pos ⟨hij, hser⟩, max_eq_right hij, min_eq_left hij, max_eq_right (by omega),
          min_eq_left (by omega), show j.1 - m = (j.1 - i.1) + 1 by omega, pow_succ]
        field_simp
        rw [hsq]
        ring
      · rw [if_neg (fun h => hij h.1), max_eq_left (by omega), min_eq_right (by omega),
          max_eq_left (by omega), min_eq_right (by omega), show i.1 - j.1 = (m - j.1) + 1 by omega, pow_succ]
        ring
    · rw [if_neg hser, if_neg hser, if_neg (fun h => hser h.2)]
      ring

/-- **C36.** The transform whitens exactly the AR(1) covariance: `ρ^|i-j|` within a series, zero between
series. -/
theorem ar1_whitens (ρ : ℝ) (hρ : ρ ^ 2 < 1) (start : List Bool) (h0 : start.getD 0 false = true) :
    W ρ start * V ρ start * (W ρ start).transpose = 1 := by
  have hpos : 0 < 1 - ρ ^ 2 := by linarith
  have hs : √(1 - ρ ^ 2) ≠ 0 := (Real.sqrt_pos.2 hpos).ne'
  ext i j
  rw [Matrix.mul_apply]
  simp only [Matrix.transpose_apply]
  have h1 := W_sum ρ start j (fun k => if i.1 ≤ k ∧ ser start i = ser start k
    then e ρ start i * ρ ^ (k - i.1) else 0)
  have h2 : ∀ k : Fin start.length, (W ρ start * V ρ start) i k * W ρ start j k
      = W ρ start j k * (if i.1 ≤ k.1 ∧ ser start i = ser start k
        then e ρ start i * ρ ^ (k.1 - i.1) else 0) := fun k => by
    rw [WV ρ hρ start h0, mul_comm]
  rw [Finset.sum_congr rfl fun k _ => h2 k, h1, Matrix.one_apply]
  by_cases hij : i = j
  · subst hij
    rw [if_pos rfl, if_pos ⟨le_refl _, rfl⟩, Nat.sub_self, pow_zero, mul_one]
    have hz : (if i.1 = 0 then (0 : ℝ) else d1 ρ start (i.1 - 1) * if i.1 ≤ i.1 - 1 ∧
        ser start i = ser start (i.1 - 1) then e ρ start i * ρ ^ (i.1 - 1 - i.1) else 0) = 0 := by
      by_cases hi : i.1 = 0
      · rw [if_pos hi]
      · rw [if_neg hi, if_neg (fun h => by omega), mul_zero]
    rw [hz, add_zero]
    unfold d0 e
    by_cases hst : start.getD i.1 false = true
    · rw [if_pos ((mem_sid0 _ _).2 hst), if_pos hst, one_mul]
    · rw [if_neg (fun h => hst ((mem_sid0 _ _).1 h)), if_neg hst]
      field_simp
  · rw [if_neg hij]
    have hne : i.1 ≠ j.1 := fun h => hij (Fin.ext h)
    by_cases hlt : i.1 < j.1
    · obtain ⟨m, hm⟩ : ∃ m, j.1 = m + 1 := ⟨j.1 - 1, by omega⟩
      rw [if_neg (by omega : ¬ j.1 = 0), show j.1 - 1 = m by omega]
      by_cases hst : start.getD j.1 false = true
      · have hser : ¬ ser start i = ser start j := by
          rw [hm, ser_succ, ← hm, if_pos hst]
          have := ser_mono start (show i.1 ≤ m by omega)
          omega
        rw [if_neg (fun h => hser h.2)]
        unfold d1
        rw [if_pos (by rw [mem_sid1 start h0, ← hm]; exact hst)]
        ring
      · have hsm : ser start j = ser start m := by
          rw [hm, ser_succ, ← hm, if_neg hst, add_zero]
        have hns : ¬ m ∈ sid1 start := fun h => by
          rw [mem_sid1 start h0, ← hm] at h
          exact hst h
        unfold d0 d1
        rw [if_neg (fun h => hst ((mem_sid0 _ _).1 h)), if_neg hns, hsm]
        by_cases hser : ser start i = ser start m
        · rw [if_pos ⟨by omega, hser⟩, if_pos ⟨by omega, hser⟩, show j.1 - i.1 = (m - i.1) + 1 by omega,
            pow_succ]
          ring
        · rw [if_neg (fun h => hser h.2), if_neg (fun h => hser h.2)]
          ring
    · rw [if_neg (fun h => by omega)]
      by_cases hj : j.1 = 0
      · rw [if_pos hj]; ring
      · rw [if_neg hj, if_neg (fun h => by omega)]; ring

/-- **C36.** The error covariance implied by the transform is the AR(1) covariance, and no other. -/
theorem ar1_covariance (ρ : ℝ) (hρ : ρ ^ 2 < 1) (start : List Bool) (h0 : start.getD 0 false = true) :
    ((W ρ start).transpose * W ρ start)⁻¹ = V ρ start ∧
    (∀ C, W ρ start * C * (W ρ start).transpose = 1 → C = V ρ start) := by
  have h := ar1_whitens ρ hρ start h0
  have h1 : W ρ start * (V ρ start * (W ρ start).transpose) = 1 := by rw [← Matrix.mul_assoc]; exact h
  have h2 : (W ρ start).transpose * (W ρ start * V ρ start) = 1 := mul_eq_one_comm.1 h
  have h3 : V ρ start * (W ρ start).transpose * W ρ start = 1 := mul_eq_one_comm.1 h1
  constructor
  · refine Matrix.inv_eq_right_inv ?_
    rw [Matrix.mul_assoc]
    exact h2
  · intro C hC
    have h4 : C * (W ρ start).transpose * W ρ start = 1 :=
      mul_eq_one_comm.1 (by rw [← Matrix.mul_assoc]; exact hC)
    calc C = C * ((W ρ start).transpose * (W ρ start * V ρ start)) := by rw [h2, Matrix.mul_one]
      _ = (C * (W ρ start).transpose * W ρ start) * V ρ start := by simp only [Matrix.mul_assoc]
      _ = V ρ start := by rw [h4, Matrix.one_mul]

theorem W_det (ρ : ℝ) (start : List Bool) : (W ρ start).det = ∏ i : Fin start.length, d0 ρ start i := by
  have ht : (W ρ start).BlockTriangular OrderDual.toDual := by
    intro i j hij
    have hlt : i.1 < j.1 := hij
    unfold W Lrhoi
    rw [Matrix.of_apply, if_neg (by omega), if_neg (by omega)]
  rw [Matrix.det_of_lowerTriangular _ ht]
  refine Finset.prod_congr rfl fun i _ => ?_
  unfold W Lrhoi
  rw [Matrix.of_apply, if_pos rfl]

theorem sum_flags (start : List Bool) (c : ℝ) :
    ∑ i : Fin start.length, (if start.getD i.1 false = true then 0 else c)
      = ((start.length : ℝ) - (start.countP (· = true) : ℝ)) * c := by
  rw [Fin.sum_univ_eq_sum_range (fun i => if start.getD i false = true then (0 : ℝ) else c) start.length]
  induction start with
  | nil => simp
  | cons b t ih =>
    rw [List.length_cons, Finset.sum_range_succ']
    simp only [List.getD_cons_succ, List.getD_cons_zero]
    rw [ih]
    cases b
    · simp; ring
    · simp

/-- **C36.** The correction is the log-determinant of the transform: minus half that of the AR(1)
covariance. -/
theorem ar1_logdet (ρ : ℝ) (hρ : ρ ^ 2 < 1) (start : List Bool) (h0 : start.getD 0 false = true) :
    llc ρ start = Real.log (W ρ start).det ∧ 0 < (W ρ start).det ∧
    llc ρ start = -(1 / 2) * Real.log (V ρ start).det := by
  have hpos : 0 < 1 - ρ ^ 2 := by linarith
  have hs : 0 < √(1 - ρ ^ 2) := Real.sqrt_pos.2 hpos
  have hd0 : ∀ i, 0 < d0 ρ start i := by
    intro i
    unfold d0
    split_ifs
    · exact one_pos
    · exact div_pos one_pos hs
  have hdet : 0 < (W ρ start).det := by
    rw [W_det]
    exact Finset.prod_pos fun i _ => hd0 i
  have h1 : llc ρ start = Real.log (W ρ start).det := by
    rw [W_det, Real.log_prod (f := fun i : Fin start.length => d0 ρ start i.1) (fun i _ => (hd0 i.1).ne')]
    unfold llc
    rw [← sum_flags]
    refine Finset.sum_congr rfl fun i _ => ?_
    unfold d0
    by_cases hst : start.getD i.1 false = true
    · rw [if_pos hst, if_pos ((mem_sid0 _ _).2 hst), Real.log_one]
    · rw [if_neg hst, if_neg (fun h => hst ((mem_sid0 _ _).1 h))]
  refine ⟨h1, hdet, ?_⟩
  have h2 := congrArg Matrix.det (ar1_whitens ρ hρ start h0)
  rw [Matrix.det_mul, Matrix.det_mul, Matrix.det_transpose, Matrix.det_one] at h2
  have hv : (V ρ start).det = ((W ρ start).det ^ 2)⁻¹ := by
    refine eq_inv_of_mul_eq_one_left ?_
    linarith [h2]
  rw [h1, hv, Real.log_inv, Real.log_pow]
  push_cast
  ring

/-- **C36.** The log-likelihood reported with `rho` is the joint Gaussian log-density of the residuals
under the AR(1) covariance scaled by `φ`. -/
theorem ar1_llk (ρ : ℝ) (hρ : ρ ^ 2 < 1) (start : List Bool) (h0 : start.getD 0 false = true)
    (r : Fin start.length → ℝ) (φ : ℝ) :
    arLlk ρ start r φ = -(start.length : ℝ) / 2 * Real.log (2 * Real.pi * φ)
      - 1 / 2 * Real.log (V ρ start).det - dotProduct r ((V ρ start)⁻¹.mulVec r) / (2 * φ) := by
  obtain ⟨h1, -, h3⟩ := ar1_logdet ρ hρ start h0
  have hW := ar1_whitens ρ hρ start h0
  have h2 : (W ρ start).transpose * (W ρ start * V ρ start) = 1 := mul_eq_one_comm.1 hW
  have hVinv : (V ρ start)⁻¹ = (W ρ start).transpose * W ρ start := by
    refine Matrix.inv_eq_left_inv ?_
    rw [Matrix.mul_assoc]
    exact h2
  unfold arLlk gaussLlk
  rw [h3, hVinv, ← Matrix.mulVec_mulVec, Matrix.dotProduct_mulVec, Matrix.vecMul_transpose]
  rw [Finset.sum_sub_distrib, Finset.sum_const, Finset.card_univ, Fintype.card_fin, nsmul_eq_mul]
  rw [← Finset.sum_div]
  have : ∑ i, (W ρ start).mulVec r i ^ 2 = dotProduct ((W ρ start).mulVec r) ((W ρ start).mulVec r) := by
    unfold dotProduct
    exact Finset.sum_congr rfl fun i _ => sq _
  rw [this]
  ring

/-! ### Missing observations -/

/-- Positions of the valid observations. -/
def pos (notNA : List Bool) : List ℕ := (List.range notNA.length).filter fun i => notNA.getD i false

theorem keepValid_eq {α : Type} (d : α) (notNA : List Bool) (l : List α) (h : l.length = notNA.length) :
    keepValid notNA l = (pos notNA).map fun i => l.getD i d := by
  induction notNA generalizing l with
  | nil =>
    rw [List.length_nil, List.length_eq_zero_iff] at h
    subst h
    rfl
  | cons b t ih =>
    obtain ⟨a, l, rfl⟩ := List.exists_cons_of_length_pos (by rw [h]; simp : 0 < l.length)
    have ih' := ih l (by simpa using h)
    unfold keepValid at ih' ⊢
    have hp : pos (b :: t) = (if b then [0] else []) ++ (pos t).map (· + 1) := by
      unfold pos
      rw [List.length_cons, List.range_succ_eq_map, List.filter_cons, List.filter_map]
      have : ((fun i => (b :: t).getD i false) ∘ Nat.succ) = fun i => t.getD i false := by
        funext i; rfl
      rw [this]
      cases b <;> rfl
    rw [hp, List.zip_cons_cons, List.filter_cons]
    cases b
    · rw [if_neg (by simp), ih']
      simp
    · rw [if_pos rfl, List.map_cons, ih']
      simp

theorem flags_eq (sid : List ℕ) (notNA : List Bool) :
    flags (some sid) notNA = (pos notNA).map fun x => sid.contains x := by
  have h : (startAll notNA.length sid).length = notNA.length := by
    unfold startAll; rw [List.length_map, List.length_range]
  show keepValid notNA (startAll notNA.length sid) = _
  rw [keepValid_eq false notNA _ h]
  refine List.map_congr_left fun x hx => ?_
  have hx' : x < notNA.length := List.mem_range.1 (List.mem_of_mem_filter hx)
  unfold startAll
  rw [List.getD_eq_getElem _ _ (by simpa using hx'), List.getElem_map, List.getElem_range]

theorem pos_sorted (notNA : List Bool) : (pos notNA).Pairwise (· < ·) :=
  List.Pairwise.filter _ List.pairwise_lt_range

/-- Series of observation `x` in the data: number of series begun up to `x`. -/
def serO (sid : List ℕ) (x : ℕ) : ℕ := ((range (x + 1)).filter fun y => y ∈ sid).card

/-- If the first observation of every series is valid, series of the valid observations are those in the
data. -/
theorem ser_flags (sid : List ℕ) (notNA : List Bool)
    (hv : ∀ s ∈ sid, s < notNA.length → notNA.getD s false = true) (k : ℕ) (hk : k < (pos notNA).length) :
    ser (flags (some sid) notNA) k = serO sid (pos notNA)[k] := by
  have hsort := pos_sorted notNA
  have hnd : (pos notNA).Nodup := hsort.imp (fun h => Nat.ne_of_lt h)
  have h1 : ser (flags (some sid) notNA) k
      = ((range (k + 1)).filter fun j => (pos notNA).getD j 0 ∈ sid).card := by
    unfold ser
    rw [Finset.card_filter]
    refine Finset.sum_congr rfl fun j hj => ?_
    rw [mem_range] at hj
    rw [flags_eq, List.getD_eq_getElem _ _ (by rw [List.length_map]; omega), List.getElem_map,
      List.getD_eq_getElem _ _ (by omega)]
    simp only [List.contains_iff_mem]
  rw [h1]
  unfold serO
  refine Finset.card_bij (fun j _ => (pos notNA).getD j 0) ?_ ?_ ?_
  · intro j hj
    rw [Finset.mem_filter, mem_range] at hj ⊢
    refine ⟨?_, hj.2⟩
    rw [List.getD_eq_getElem _ _ (by omega)]
    by_cases h : j = k
    · subst h; omega
    · have := List.pairwise_iff_getElem.1 hsort j k (by omega) hk (by omega)
      omega
  · intro a ha b hb hab
    rw [Finset.mem_filter, mem_range] at ha hb
    rw [List.getD_eq_getElem _ _ (by omega), List.getD_eq_getElem _ _ (by omega)] at hab
    exact (List.Nodup.getElem_inj_iff hnd).1 hab
  · intro y hy
    rw [Finset.mem_filter, mem_range] at hy
    have hkl : (pos notNA)[k] < notNA.length :=
      List.mem_range.1 (List.mem_of_mem_filter (List.getElem_mem hk))
    have hmem : y ∈ pos notNA := by
      unfold pos
      rw [List.mem_filter, List.mem_range]
      exact ⟨by omega, hv y hy.2 (by omega)⟩
    obtain ⟨j, hj, hjy⟩ := List.getElem_of_mem hmem
    refine ⟨j, ?_, ?_⟩
    · rw [Finset.mem_filter, mem_range, List.getD_eq_getElem _ _ hj, hjy]
      refine ⟨?_, hy.2⟩
      by_contra hn
      have := List.pairwise_iff_getElem.1 hsort k j hk hj (by omega)
      omega
    · rw [List.getD_eq_getElem _ _ hj, hjy]

/-- **C36 (part).** With missing values: if the first observation of every series is valid, the implied
covariance of the `k`-th and `l`-th valid observation is `ρ^|k-l|` when they belong to the same series
of the data and zero otherwise.  Missing for the full claim: positions are counted among the valid
observations, and a missing first observation joins series (`ar1_missing_start`, `ar1_gap`). -/
theorem ar1_missing_partial (ρ : ℝ) (hρ : ρ ^ 2 < 1) (sid : List ℕ) (notNA : List Bool)
    (hv : ∀ s ∈ sid, s < notNA.length → notNA.getD s false = true) (h0 : 0 ∈ sid)
    (hne : 0 < notNA.length)
    (C : Matrix (Fin (flags (some sid) notNA).length) (Fin (flags (some sid) notNA).length) ℝ)
    (hC : W ρ (flags (some sid) notNA) * C * (W ρ (flags (some sid) notNA)).transpose = 1)
    (k l : Fin (flags (some sid) notNA).length) :
    C k l = if serO sid ((pos notNA).getD k 0) = serO sid ((pos notNA).getD l 0)
      then ρ ^ (max k.1 l.1 - min k.1 l.1) else 0 := by
  have hlen : (flags (some sid) notNA).length = (pos notNA).length := by
    rw [flags_eq, List.length_map]
  have hmem : 0 ∈ pos notNA := by
    unfold pos
    rw [List.mem_filter, List.mem_range]
    exact ⟨hne, hv 0 h0 hne⟩
  have hfirst : (flags (some sid) notNA).getD 0 false = true := by
    obtain ⟨j, hj, hj0⟩ := List.getElem_of_mem hmem
    have hj' : j = 0 := by
      by_contra hn
      have := List.pairwise_iff_getElem.1 (pos_sorted notNA) 0 j (by omega) hj (by omega)
      omega
    subst hj'
    rw [flags_eq, List.getD_eq_getElem _ _ (by rw [List.length_map]; exact hj), List.getElem_map, hj0]
    simpa using h0
  rw [(ar1_covariance ρ hρ _ hfirst).2 C hC]
  unfold V
  rw [Matrix.of_apply, ser_flags sid notNA hv k.1 (by rw [← hlen]; exact k.2),
    ser_flags sid notNA hv l.1 (by rw [← hlen]; exact l.2),
    List.getD_eq_getElem _ _ (by rw [← hlen]; exact k.2), List.getD_eq_getElem _ _ (by rw [← hlen]; exact l.2)]

theorem pos_all (notNA : List Bool) (hall : ∀ b ∈ notNA, b = true) : pos notNA = List.range notNA.length := by
  unfold pos
  rw [List.filter_eq_self]
  intro i hi
  rw [List.getD_eq_getElem _ _ (List.mem_range.1 hi)]
  exact hall _ (List.getElem_mem _)

/-- **C36.** Without missing values the implied covariance is `ρ^|i-j|` within each series of the data
and zero between series. -/
theorem ar1_complete (ρ : ℝ) (hρ : ρ ^ 2 < 1) (sid : List ℕ) (notNA : List Bool)
    (hall : ∀ b ∈ notNA, b = true) (h0 : 0 ∈ sid) (hne : 0 < notNA.length)
    (C : Matrix (Fin (flags (some sid) notNA).length) (Fin (flags (some sid) notNA).length) ℝ)
    (hC : W ρ (flags (some sid) notNA) * C * (W ρ (flags (some sid) notNA)).transpose = 1)
    (k l : Fin (flags (some sid) notNA).length) :
    (flags (some sid) notNA).length = notNA.length ∧
    C k l = if serO sid k = serO sid l then ρ ^ (max k.1 l.1 - min k.1 l.1) else 0 := by
  have hlen : (flags (some sid) notNA).length = notNA.length := by
    rw [flags_eq, List.length_map, pos_all notNA hall, List.length_range]
  refine ⟨hlen, ?_⟩
  rw [ar1_missing_partial ρ hρ sid notNA (fun s _ hs => by
    rw [List.getD_eq_getElem _ _ hs]; exact hall _ (List.getElem_mem _)) h0 hne C hC k l]
  have hg : ∀ x, x < notNA.length → (pos notNA).getD x 0 = x := by
    intro x hx
    rw [pos_all notNA hall, List.getD_eq_getElem _ _ (by simpa using hx), List.getElem_range]
  rw [hg k.1 (by rw [← hlen]; exact k.2), hg l.1 (by rw [← hlen]; exact l.2)]

theorem half_lt : ((1 / 2 : ℝ)) ^ 2 < 1 := by norm_num

/-- **C36 (violated).** Two series of two observations, the first observation of the second missing: the
remaining observation of the second series is modelled as correlated with the first series. -/
theorem ar1_missing_start :
    flags (some [0, 2]) [true, true, false, true] = [true, false, false] ∧
    serO [0, 2] 1 ≠ serO [0, 2] 3 ∧
    ∀ C, W (1 / 2) [true, false, false] * C * (W (1 / 2) [true, false, false]).transpose = 1 →
      C ⟨1, by decide⟩ ⟨2, by decide⟩ = 1 / 2 := by
  refine ⟨by decide, by decide, fun C hC => ?_⟩
  rw [(ar1_covariance _ half_lt [true, false, false] rfl).2 C hC]
  unfold V
  rw [Matrix.of_apply, if_pos (by decide)]
  norm_num

/-- **C36 (violated).** A series with its middle observation missing: first and last observation, two
steps apart, get the correlation of neighbours. -/
theorem ar1_gap :
    flags (some [0]) [true, false, true] = [true, false] ∧ (pos [true, false, true]) = [0, 2] ∧
    ∀ C, W (1 / 2) [true, false] * C * (W (1 / 2) [true, false]).transpose = 1 →
      C ⟨0, by decide⟩ ⟨1, by decide⟩ = 1 / 2 ∧ (1 / 2 : ℝ) ≠ (1 / 2) ^ (2 - 0) := by
  refine ⟨by decide, by decide, fun C hC => ⟨?_, by norm_num⟩⟩
  rw [(ar1_covariance _ half_lt [true, false] rfl).2 C hC]
  unfold V
  rw [Matrix.of_apply, if_pos (by decide)]
  norm_num

/-- **C36 (violated).** First observation of the first series missing: the variance of the next one is
`1 - ρ²` instead of one. -/
theorem ar1_first_missing :
    flags (some [0]) [false, true] = [false] ∧
    ∀ C, W (1 / 2) [false] * C * (W (1 / 2) [false]).transpose = 1 →
      C ⟨0, by decide⟩ ⟨0, by decide⟩ = 3 / 4 := by
  refine ⟨by decide, fun C hC => ?_⟩
  have h1 := congrFun (congrFun hC ⟨0, by decide⟩) ⟨0, by decide⟩
  have hs : √(1 - (1 / 2 : ℝ) ^ 2) ^ 2 = 3 / 4 := by
    rw [Real.sq_sqrt (by norm_num)]; norm_num
  have hpos : (0 : ℝ) < √(1 - (1 / 2 : ℝ) ^ 2) := Real.sqrt_pos.2 (by norm_num)
  have hfin : ∀ t c : ℝ, 0 < t → t ^ 2 = 3 / 4 → 1 / t * c * (1 / t) = 1 → c = 3 / 4 := by
    intro t c ht ht2 h
    field_simp at h
    rw [h, ht2]
  have hW : W (1 / 2) [false] ⟨0, by decide⟩ ⟨0, by decide⟩ = 1 / √(1 - (1 / 2 : ℝ) ^ 2) := by
    unfold W Lrhoi d0
    rw [Matrix.of_apply, if_pos rfl, if_neg (by decide)]
  have h2 : (W (1 / 2) [false] * C * (W (1 / 2) [false]).transpose) ⟨0, by decide⟩ ⟨0, by decide⟩
      = W (1 / 2) [false] ⟨0, by decide⟩ ⟨0, by decide⟩ * C ⟨0, by decide⟩ ⟨0, by decide⟩
        * W (1 / 2) [false] ⟨0, by decide⟩ ⟨0, by decide⟩ := by
    rw [Matrix.mul_apply, Fintype.sum_eq_single (⟨0, by decide⟩ : Fin [false].length), Matrix.mul_apply,
      Fintype.sum_eq_single (⟨0, by decide⟩ : Fin [false].length), Matrix.transpose_apply]
    · rintro ⟨x, hx⟩ h; exact absurd (Fin.ext (by simpa using hx)) h
    · rintro ⟨x, hx⟩ h; exact absurd (Fin.ext (by simpa using hx)) h
  rw [h2, hW, Matrix.one_apply, if_pos rfl] at h1
  exact hfin _ _ hpos hs h1

/-! ### Cases -/

/-- Two series of two and three observations. -/
example := ar1_whitens (1 / 2) half_lt [true, false, true, false, false] rfl

example := ar1_logdet (1 / 2) half_lt [true, false, true, false, false] rfl

example := ar1_llk (1 / 2) half_lt [true, false, true] rfl (fun _ => 1) 2

example : flags (some [0, 2]) [true, true, true, false, true] = [true, false, true, false] := by decide

example := ar1_missing_partial (1 / 2) half_lt [0, 2] [true, true, true, false, true] (by decide) (by decide)
  (by decide)

example := ar1_complete (1 / 2) half_lt [0, 2] [true, true, true, true, true] (by decide) (by decide)
  (by decide)

end Verif.Ar1
