import Verif.BcolModel
import Verif.EmbedLemmas
import Verif.Par
import Mathlib.Algebra.BigOperators.Fin
import Mathlib.Tactic.Linarith
import Mathlib.Tactic.Ring

/-!
# Lemmas for property C114
-/

namespace Verif.Bcol

open Verif.Pen

variable {p : ℕ}

/-- Squared norm of the solution for a column of the embedded root. -/
noncomputable def colQ (W : Matrix (Fin p) (Fin p) ℝ) (q : LTerm) (c : ℕ) : ℝ :=
  ∑ i ∈ Finset.range p, solve W (fun r => q.Demb r c) i ^ 2

theorem colQ_eq (W : Matrix (Fin p) (Fin p) ℝ) (q : LTerm) (c : ℕ) :
    colQ W q c = ∑ i : Fin p, (∑ j : Fin p, W i j * q.Demb j c) ^ 2 := by
  unfold colQ
  rw [Finset.sum_range]
  refine Finset.sum_congr rfl fun i _ => ?_
  unfold solve
  rw [dif_pos i.2]

theorem bps_eq (W : Matrix (Fin p) (Fin p) ℝ) (q : LTerm) :
    Edf.bps W q = ∑ c ∈ Finset.range p, colQ W q c := by
  unfold Edf.bps
  rw [Finset.sum_comm, Finset.sum_range]
  refine Finset.sum_congr rfl fun c _ => ?_
  rw [colQ_eq]
  rfl

theorem colQ_zero (W : Matrix (Fin p) (Fin p) ℝ) (q : LTerm) (c : ℕ) (h : ∀ r < p, q.Demb r c = 0) :
    colQ W q c = 0 := by
  rw [colQ_eq]
  refine Finset.sum_eq_zero fun i _ => ?_
  rw [Finset.sum_eq_zero fun j _ => by rw [h j j.2, mul_zero]]
  norm_num

theorem computeB_some (W : Matrix (Fin p) (Fin p) ℝ) (nc : ℕ) (null : Bool) (q : LTerm)
    (h : ∀ c ∈ dIdx p null q, c < p) : computeB W nc null q = some ((dIdx p null q).map (colQ W q)).sum := by
  unfold computeB
  dsimp only
  rw [if_neg (by push Not; exact h), Par.computeB_eq, List.map_map]
  rfl

theorem computeB_none (W : Matrix (Fin p) (Fin p) ℝ) (nc : ℕ) (null : Bool) (q : LTerm)
    (h : ∃ c ∈ dIdx p null q, p ≤ c) : computeB W nc null q = none := by
  unfold computeB
  dsimp only
  rw [if_pos h]

theorem sum_filter_range (P : ℕ → Prop) [DecidablePred P] (f : ℕ → ℝ) (n : ℕ) :
    (((List.range n).filter fun c => P c).map f).sum = ∑ c ∈ Finset.range n, if P c then f c else 0 := by
  induction n with
  | zero => simp
  | succ n ih =>
    rw [List.range_succ, List.filter_append, List.map_append, List.sum_append, ih, Finset.sum_range_succ]
    congr 1
    by_cases h : P n
    · simp [h]
    · simp [h]

theorem computeB_block (W : Matrix (Fin p) (Fin p) ℝ) (nc : ℕ) (null : Bool) (q : LTerm)
    (hn : ¬ (null = true ∧ single q))
    (h : ∀ r < p, ∀ c < p, ¬ (q.start ≤ c ∧ c < q.start + q.rep * q.k) → q.Demb r c = 0) :
    computeB W nc null q = some (Edf.bps W q) := by
  have hI : dIdx p null q = (List.range p).filter fun c => q.start ≤ c ∧ c < q.start + q.rep * q.k := by
    unfold dIdx
    rw [if_neg hn]
  rw [computeB_some W nc null q (by
    intro c hc
    rw [hI] at hc
    exact List.mem_range.1 (List.mem_filter.1 hc).1), hI, sum_filter_range, bps_eq]
  congr 1
  refine Finset.sum_congr rfl fun c hc => ?_
  split_ifs with h1
  · rfl
  · exact (colQ_zero W q c fun r hr => h r hr c (Finset.mem_range.1 hc) h1).symm

theorem arange_eq (a b k : ℕ) (hk : 0 < k) :
    arange a (k * (b + 1)) k = (List.range (b + 1 - a / k)).map fun t => a + k * t := by
  unfold arange
  congr 2
  set x := a / k with hx
  have h1 : a = k * x + a % k := (Nat.div_add_mod a k).symm
  have h2 := Nat.mod_lt a hk
  rcases Nat.lt_or_ge b x with h | h
  · have h3 : k * (b + 1) ≤ k * x := Nat.mul_le_mul_left k h
    rw [show k * (b + 1) - a = 0 by omega, show b + 1 - x = 0 by omega]
    exact Nat.div_eq_of_lt (by omega)
  · obtain ⟨e, rfl⟩ := Nat.exists_eq_add_of_le h
    have h3 : k * (x + e + 1) = k * x + k * (e + 1) := by ring
    have h4 : k * (e + 1) = k * e + k := by ring
    rw [show x + e + 1 - x = e + 1 by omega]
    apply Nat.div_eq_of_lt_le
    · rw [mul_comm]; omega
    · have h5 : (e + 1 + 1) * k = k * (e + 1) + k := by ring
      rw [h5]; omega

/-! ### Penalties on a function of the null space -/

/-- Penalty on coefficient `j` of each of `rep` functions with `k` coefficients. -/
def nullPen (j k rep cur : ℕ) (lam : ℝ) : LTerm := (buildShared [(j, j, 1)] [(j, j, 1)] k 1 rep cur none lam).1

theorem null_demb (j k rep cur : ℕ) (lam : ℝ) (hr : 0 < rep) (r c : ℕ) :
    (nullPen j k rep cur lam).Demb r c = ∑ t ∈ Finset.range rep, if cur + t * k + j = r ∧ cur + t * k + j = c then 1 else 0 := by
  unfold nullPen
  rw [(buildShared_emb _ _ k 1 rep cur none lam hr r c).2]
  refine Finset.sum_congr rfl fun t _ => ?_
  simp [coo, shiftT, add_comm, add_left_comm]

theorem null_colSum (j k rep cur : ℕ) (lam : ℝ) (hj : j < k) (c : ℕ) :
    colSum (nullPen j k rep cur lam) c = if c = j then 1 else 0 := by
  unfold colSum
  change (∑ r ∈ Finset.range k, coo [(j, j, 1)] r c) = _
  rw [Finset.sum_eq_single j]
  · simp [coo, eq_comm]
  · intro b _ hb
    simp [coo, hb.symm]
  · intro h
    exact absurd (Finset.mem_range.2 hj) h

theorem null_single (j k rep cur : ℕ) (lam : ℝ) (hj : j < k) : single (nullPen j k rep cur lam) := by
  unfold single
  simp only [null_colSum j k rep cur lam hj]
  change (∑ c ∈ Finset.range k, _) = 1
  rw [Finset.sum_eq_single j]
  · simp
  · intro b _ hb
    simp [hb]
  · intro h
    exact absurd (Finset.mem_range.2 hj) h

theorem null_argmax (j k rep cur : ℕ) (lam : ℝ) (hj : j < k) : argmax (nullPen j k rep cur lam) = j := by
  unfold argmax
  simp only [null_colSum j k rep cur lam hj]
  change (List.range k).foldl _ 0 = j
  have key : ∀ m, (List.range m).foldl
      (fun b c => if (if b = j then (1 : ℝ) else 0) < (if c = j then (1 : ℝ) else 0) then c else b) 0
      = if j < m then j else 0 := by
    intro m
    induction m with
    | zero => simp
    | succ m ih =>
      rw [List.range_succ, List.foldl_append, ih]
      simp only [List.foldl_cons, List.foldl_nil]
      rcases lt_trichotomy j m with h | h | h
      · rw [if_pos h, if_pos (show j < m + 1 by omega), if_pos rfl, if_neg (show ¬ m = j by omega),
          if_neg (by norm_num)]
      · subst h
        rw [if_neg (lt_irrefl _), if_pos (Nat.lt_succ_self _), if_pos rfl]
        by_cases h0 : j = 0
        · subst h0; simp
        · rw [if_neg (show ¬ 0 = j by omega), if_pos (by norm_num)]
      · rw [if_neg (show ¬ j < m by omega), if_neg (show ¬ j < m + 1 by omega), if_neg (show ¬ m = j by omega)]
        by_cases h0 : 0 = j
        · omega
        · rw [if_neg h0, if_neg (lt_irrefl _)]
  have := key k
  rw [if_pos hj] at this
  convert this using 2

theorem null_dIdx (j k rep cur : ℕ) (lam : ℝ) (hj : j < k) :
    dIdx p true (nullPen j k rep cur lam) = (List.range (rep + 1 - (cur + j) / k)).map fun t => cur + j + k * t := by
  unfold dIdx
  rw [if_pos ⟨rfl, null_single j k rep cur lam hj⟩, null_argmax j k rep cur lam hj]
  exact arange_eq (cur + j) rep k (by omega)

/-- Squared norm of a column of `W`. -/
noncomputable def colSq (W : Matrix (Fin p) (Fin p) ℝ) (c : ℕ) : ℝ :=
  ∑ i, if h : c < p then W i ⟨c, h⟩ ^ 2 else 0

theorem null_colQ_in (W : Matrix (Fin p) (Fin p) ℝ) (j k rep cur : ℕ) (lam : ℝ) (hj : j < k) (t : ℕ) (ht : t < rep)
    (hp : cur + k * rep ≤ p) : colQ W (nullPen j k rep cur lam) (cur + j + k * t) = colSq W (cur + j + k * t) := by
  have hc : cur + j + k * t < p := by
    have : k * t + k ≤ k * rep := by rw [← Nat.mul_succ]; exact Nat.mul_le_mul_left k ht
    omega
  rw [colQ_eq]
  unfold colSq
  refine Finset.sum_congr rfl fun i _ => ?_
  rw [dif_pos hc]
  congr 1
  rw [Finset.sum_eq_single ⟨cur + j + k * t, hc⟩]
  · rw [null_demb j k rep cur lam (by omega), Finset.sum_eq_single t]
    · rw [if_pos ⟨by ring, by ring⟩, mul_one]
    · intro b _ hb
      rw [if_neg]
      rintro ⟨-, h⟩
      have : k * b = k * t := by rw [mul_comm k b]; omega
      exact hb (Nat.eq_of_mul_eq_mul_left (by omega) this)
    · intro h; exact absurd (Finset.mem_range.2 ht) h
  · intro b _ hb
    rw [null_demb j k rep cur lam (by omega), Finset.sum_eq_zero, mul_zero]
    intro x _
    rw [if_neg]
    rintro ⟨h1, h2⟩
    exact hb (Fin.ext (h1.symm.trans h2))
  · intro h; exact absurd (Finset.mem_univ _) h

theorem null_colQ_out (W : Matrix (Fin p) (Fin p) ℝ) (j k rep cur : ℕ) (lam : ℝ) (hr : 0 < rep) (c : ℕ)
    (h : ∀ t < rep, c ≠ cur + j + k * t) : colQ W (nullPen j k rep cur lam) c = 0 := by
  refine colQ_zero W _ c fun r _ => ?_
  rw [null_demb j k rep cur lam hr]
  refine Finset.sum_eq_zero fun t ht => ?_
  rw [if_neg]
  rintro ⟨-, h2⟩
  refine h t (Finset.mem_range.1 ht) ?_
  rw [← h2]
  ring

theorem null_bps (W : Matrix (Fin p) (Fin p) ℝ) (j k rep cur : ℕ) (lam : ℝ) (hj : j < k) (hr : 0 < rep)
    (hp : cur + k * rep ≤ p) :
    Edf.bps W (nullPen j k rep cur lam) = ∑ t ∈ Finset.range rep, colSq W (cur + j + k * t) := by
  rw [bps_eq]
  have hinj : Set.InjOn (fun t => cur + j + k * t) (Finset.range rep : Set ℕ) := by
    intro a _ b _ h
    have : k * a = k * b := by
      have h' : cur + j + k * a = cur + j + k * b := h
      omega
    exact Nat.eq_of_mul_eq_mul_left (by omega) this
  have hsub : (Finset.range rep).image (fun t => cur + j + k * t) ⊆ Finset.range p := by
    intro c hc
    obtain ⟨t, ht, rfl⟩ := Finset.mem_image.1 hc
    have ht' := Finset.mem_range.1 ht
    have : k * t + k ≤ k * rep := by rw [← Nat.mul_succ]; exact Nat.mul_le_mul_left k ht'
    exact Finset.mem_range.2 (by omega)
  rw [← Finset.sum_subset hsub, Finset.sum_image hinj]
  · exact Finset.sum_congr rfl fun t ht => null_colQ_in W j k rep cur lam hj t (Finset.mem_range.1 ht) hp
  · intro c _ hc
    refine null_colQ_out W j k rep cur lam hr c fun t ht h => hc ?_
    exact Finset.mem_image.2 ⟨t, Finset.mem_range.2 ht, h.symm⟩

theorem list_sum_range (f : ℕ → ℝ) (n : ℕ) : ((List.range n).map f).sum = ∑ t ∈ Finset.range n, f t := by
  induction n with
  | zero => simp
  | succ n ih => rw [List.range_succ, List.map_append, List.sum_append, ih, Finset.sum_range_succ]; simp

end Verif.Bcol
