import Verif.LayoutModel
import Verif.EmbedLemmas
import Verif.Sparse

/-! # Lemmas on the placement of penalties -/

namespace Verif.Layout

open Verif.Pen Verif.Sp Finset

/-- Quadratic form of a coordinate list. -/
def qT (L : Trip) (β : ℕ → ℝ) : ℝ := (L.map fun t => β t.1 * t.2.2 * β t.2.1).sum

theorem quad_add (n : ℕ) (A B : Arr) (β : ℕ → ℝ) :
    quad n (fun i j => A i j + B i j) β = quad n A β + quad n B β := by
  unfold quad
  rw [← Finset.sum_add_distrib]
  refine Finset.sum_congr rfl fun i _ => ?_
  rw [← Finset.sum_add_distrib]
  exact Finset.sum_congr rfl fun j _ => by ring

theorem coo_cons (t : ℕ × ℕ × ℝ) (T : Trip) (i j : ℕ) :
    coo (t :: T) i j = (if t.1 = i ∧ t.2.1 = j then t.2.2 else 0) + coo T i j := by simp [coo]

theorem quad_coo (n : ℕ) (L : Trip) (h : InRange n L) (β : ℕ → ℝ) : quad n (coo L) β = qT L β := by
  induction L with
  | nil => simp [quad, qT, coo]
  | cons t L ih =>
    have ht := h t (by simp)
    rw [show coo (t :: L) = fun i j => (if t.1 = i ∧ t.2.1 = j then t.2.2 else 0) + coo L i j from
      funext fun i => funext fun j => coo_cons t L i j, quad_add, ih fun x hx => h x (by simp [hx])]
    have h1 : quad n (fun i j => if t.1 = i ∧ t.2.1 = j then t.2.2 else 0) β = β t.1 * t.2.2 * β t.2.1 := by
      unfold quad
      rw [Finset.sum_eq_single_of_mem t.1 (mem_range.2 ht.1)]
      · rw [Finset.sum_eq_single_of_mem t.2.1 (mem_range.2 ht.2)]
        · simp
        · intro j _ hj
          dsimp only
          rw [if_neg (fun hh => hj hh.2.symm)]
          ring
      · intro i _ hi
        refine Finset.sum_eq_zero fun j _ => ?_
        dsimp only
        rw [if_neg (fun hh => hi hh.1.symm)]
        ring
    rw [h1]
    simp [qT]

theorem qT_append (A B : Trip) (β : ℕ → ℝ) : qT (A ++ B) β = qT A β + qT B β := by simp [qT]

theorem qT_shift (o : ℕ) (T : Trip) (β : ℕ → ℝ) : qT (shiftT o T) β = qT T fun i => β (o + i) := by
  unfold qT shiftT
  rw [List.map_map]
  congr 1
  refine List.map_congr_left fun t _ => ?_
  simp [add_comm]

theorem qT_flatMap (N : ℕ) (f : ℕ → Trip) (β : ℕ → ℝ) :
    qT ((List.range N).flatMap f) β = ∑ i ∈ range N, qT (f i) β := by
  induction N with
  | zero => simp [qT]
  | succ N ih => rw [List.range_succ, List.flatMap_append, qT_append, ih, Finset.sum_range_succ]; simp

theorem qT_tile (n k : ℕ) (T : Trip) (β : ℕ → ℝ) :
    qT (tile n k T) β = ∑ t ∈ range n, qT T fun i => β (t * k + i) := by
  unfold tile
  rw [qT_flatMap]
  exact Finset.sum_congr rfl fun t _ => qT_shift _ _ _

theorem inRange_shift {k : ℕ} {T : Trip} (h : InRange k T) (o : ℕ) : InRange (o + k) (shiftT o T) := by
  intro t ht
  obtain ⟨u, hu, rfl⟩ := List.mem_map.1 ht
  have := h u hu
  simp only
  omega

theorem inRange_tile {k : ℕ} {T : Trip} (h : InRange k T) (n : ℕ) : InRange (k * n) (tile n k T) := by
  intro t ht
  obtain ⟨r, hr, hm⟩ := List.mem_flatMap.1 ht
  obtain ⟨u, hu, rfl⟩ := List.mem_map.1 hm
  have hr := List.mem_range.1 hr
  have hb := h u hu
  have h1 : (r + 1) * k ≤ k * n := by rw [mul_comm]; exact Nat.mul_le_mul_left k hr
  have h2 : (r + 1) * k = r * k + k := by ring
  simp only
  omega

theorem inRange_mono {a b : ℕ} (hab : a ≤ b) {T : Trip} (h : InRange a T) : InRange b T :=
  fun t ht => ⟨lt_of_lt_of_le (h t ht).1 hab, lt_of_lt_of_le (h t ht).2 hab⟩

/-! ### Dropped coefficients -/

theorem newPos_add (drop : List ℕ) (a x : ℕ) : newPos drop 0 (a + x) = newPos drop 0 a + newPos drop a x := by
  induction x with
  | zero => simp [newPos]
  | succ x ih =>
    rw [← Nat.add_assoc, newPos_succ, ih, newPos_succ, Nat.add_zero, Nat.add_comm x a, Nat.add_assoc]

theorem newPos_nil (o x : ℕ) : newPos [] o x = x := by simp [newPos]

/-- The adjusted coordinate list, in terms of the new positions. -/
theorem adjust_list (T : Trip) (k : ℕ) (hT : InRange k T) (drop : List ℕ) (hn : drop.Nodup) (offset : ℕ)
    (hst : ∀ d ∈ drop, offset ≤ d → d < offset + k → ∃ t ∈ T, t.2.1 + offset = d) :
    (adjustDrop T drop offset).1 = (T.filter fun t => decide (t.2.1 + offset ∉ drop ∧ t.1 + offset ∉ drop)).map
      fun t => (newPos drop offset t.1, newPos drop offset t.2.1, t.2.2) := by
  set drop' := drop.filter fun d => (T.map fun t => t.2.1 + offset).contains d with hd'
  have hmem : ∀ d, d ∈ drop' ↔ d ∈ drop ∧ offset ≤ d ∧ d < offset + k := by
    intro d
    simp only [hd', List.mem_filter, List.contains_iff_mem, List.mem_map]
    constructor
    · rintro ⟨h1, t, ht, rfl⟩
      have := (hT t ht).2
      exact ⟨h1, by omega, by omega⟩
    · rintro ⟨h1, h2, h3⟩
      obtain ⟨t, ht, he⟩ := hst d h1 h2 h3
      exact ⟨h1, t, ht, he⟩
  have hn' : drop'.Nodup := hn.filter _
  have hpos : ∀ x ≤ k, newPos drop' offset x = newPos drop offset x := by
    intro x hx
    unfold newPos
    congr 1
    refine Finset.filter_congr fun y hy => ?_
    have hy := mem_range.1 hy
    rw [hmem]
    constructor
    · intro h1 h2; exact h1 ⟨h2, by omega, by omega⟩
    · intro h1 h2; exact h1 h2.1
  have hre : ∀ x, drop'.foldl (fun acc d => if d < x + offset then acc - 1 else acc) x
      = newPos drop' offset x := fun x => realign_eq drop' hn' offset x (fun d hd => ((hmem d).1 hd).2.1)
  have h1 : (adjustDrop T drop offset).1
      = ((T.filter fun t => !drop'.contains (t.2.1 + offset) && !drop'.contains (t.1 + offset)).map
        fun t => (newPos drop' offset t.1, newPos drop' offset t.2.1, t.2.2)) := by
    simp only [← hre]
    rfl
  rw [h1]
  have hf : (T.filter fun t => !drop'.contains (t.2.1 + offset) && !drop'.contains (t.1 + offset))
      = T.filter fun t => decide (t.2.1 + offset ∉ drop ∧ t.1 + offset ∉ drop) := by
    refine List.filter_congr fun t ht => ?_
    have hb := hT t ht
    have e1 : t.2.1 + offset ∈ drop' ↔ t.2.1 + offset ∈ drop := by
      rw [hmem]; exact ⟨fun h => h.1, fun h => ⟨h, by omega, by omega⟩⟩
    have e2 : t.1 + offset ∈ drop' ↔ t.1 + offset ∈ drop := by
      rw [hmem]; exact ⟨fun h => h.1, fun h => ⟨h, by omega, by omega⟩⟩
    simp [e1, e2]
  rw [hf]
  refine List.map_congr_left fun t ht => ?_
  have hb := hT t (List.mem_of_mem_filter ht)
  rw [hpos _ hb.1.le, hpos _ hb.2.le]

theorem qT_adjust (T : Trip) (k : ℕ) (hT : InRange k T) (drop : List ℕ) (hn : drop.Nodup) (offset : ℕ)
    (hst : ∀ d ∈ drop, offset ≤ d → d < offset + k → ∃ t ∈ T, t.2.1 + offset = d) (β : ℕ → ℝ) :
    qT (adjustDrop T drop offset).1 β
      = qT T fun i => if i + offset ∈ drop then 0 else β (newPos drop offset i) := by
  rw [adjust_list T k hT drop hn offset hst]
  clear hst hT
  induction T with
  | nil => rfl
  | cons t T ih =>
    by_cases h : t.2.1 + offset ∉ drop ∧ t.1 + offset ∉ drop
    · rw [List.filter_cons_of_pos (by simpa using h), List.map_cons]
      simp only [qT, List.map_cons, List.sum_cons] at ih ⊢
      rw [ih, if_neg h.1, if_neg h.2]
    · rw [List.filter_cons_of_neg (by simpa using h)]
      simp only [qT, List.map_cons, List.sum_cons] at ih ⊢
      rw [ih]
      have : (if t.1 + offset ∈ drop then 0 else β (newPos drop offset t.1)) * t.2.2 *
          (if t.2.1 + offset ∈ drop then 0 else β (newPos drop offset t.2.1)) = 0 := by
        by_cases h1 : t.2.1 + offset ∈ drop
        · rw [if_pos h1, mul_zero]
        · have h2 : t.1 + offset ∈ drop := by
            by_contra h2
            exact h ⟨h1, h2⟩
          rw [if_pos h2, zero_mul, zero_mul]
      rw [this, zero_add]

theorem inRange_adjust (T : Trip) (k : ℕ) (hT : InRange k T) (drop : List ℕ) (hn : drop.Nodup) (offset : ℕ)
    (hst : ∀ d ∈ drop, offset ≤ d → d < offset + k → ∃ t ∈ T, t.2.1 + offset = d) :
    InRange (newPos drop offset k) (adjustDrop T drop offset).1 := by
  rw [adjust_list T k hT drop hn offset hst]
  intro t ht
  obtain ⟨u, hu, rfl⟩ := List.mem_map.1 ht
  have hb := hT u (List.mem_of_mem_filter hu)
  have hd : u.2.1 + offset ∉ drop ∧ u.1 + offset ∉ drop := by simpa using (List.mem_filter.1 hu).2
  exact ⟨newPos_lt _ _ hb.1 hd.2, newPos_lt _ _ hb.2 hd.1⟩

theorem adjust_nil (T : Trip) (offset : ℕ) : adjustDrop T [] offset = (T, 0) := by
  unfold adjustDrop
  simp

/-- Both cases of `levelPen` at once. -/
theorem levelPen_eq (T : Trip) (k : ℕ) (drop : Option (List ℕ)) (offset : ℕ) :
    levelPen T k drop offset
      = ((adjustDrop T (drop.getD []) offset).1, k - (adjustDrop T (drop.getD []) offset).2) := by
  cases drop with
  | none => simp [levelPen, adjust_nil]
  | some d => rfl

/-! ### Matrices that sit in a range of columns -/

/-- `S` has its entries in columns and rows `c` to `c + w - 1`, and quadratic form `v`. -/
def Reads (c w : ℕ) (S : Arr) (v : (ℕ → ℝ) → ℝ) : Prop :=
  ∃ L : Trip, S = coo L ∧ (∀ t ∈ L, (c ≤ t.1 ∧ t.1 < c + w) ∧ c ≤ t.2.1 ∧ t.2.1 < c + w) ∧ ∀ β, qT L β = v β

theorem Reads.quad {c w : ℕ} {S : Arr} {v : (ℕ → ℝ) → ℝ} (h : Reads c w S v) (N : ℕ) (hN : c + w ≤ N) (β : ℕ → ℝ) :
    quad N S β = v β := by
  obtain ⟨L, rfl, hL, hq⟩ := h
  rw [quad_coo N L (fun t ht => by have := hL t ht; omega), hq]

theorem Reads.outside {c w : ℕ} {S : Arr} {v : (ℕ → ℝ) → ℝ} (h : Reads c w S v) (i j : ℕ)
    (ho : (i < c ∨ c + w ≤ i) ∨ (j < c ∨ c + w ≤ j)) : S i j = 0 := by
  obtain ⟨L, rfl, hL, _⟩ := h
  unfold coo
  refine List.sum_eq_zero fun x hx => ?_
  obtain ⟨t, ht, rfl⟩ := List.mem_map.1 hx
  have := hL t ht
  rw [if_neg (by omega)]

theorem Reads.mono {c w c' w' : ℕ} {S : Arr} {v : (ℕ → ℝ) → ℝ} (h : Reads c w S v) (h1 : c' ≤ c) (h2 : c + w ≤ c' + w') :
    Reads c' w' S v := by
  obtain ⟨L, hS, hL, hq⟩ := h
  exact ⟨L, hS, fun t ht => by have := hL t ht; omega, hq⟩

theorem Reads.congr {c w : ℕ} {S : Arr} {v v' : (ℕ → ℝ) → ℝ} (h : Reads c w S v) (hv : ∀ β, v β = v' β) :
    Reads c w S v' := by
  obtain ⟨L, hS, hL, hq⟩ := h
  exact ⟨L, hS, hL, fun β => (hq β).trans (hv β)⟩

theorem reads_embed {w : ℕ} {T : Trip} (hT : InRange w T) (c m : ℕ) :
    Reads c w (embedS T none m c).1 fun β => qT T fun i => β (c + i) := by
  refine ⟨shiftT c T, rfl, ?_, fun β => qT_shift c T β⟩
  intro t ht
  obtain ⟨u, hu, rfl⟩ := List.mem_map.1 ht
  have := hT u hu
  simp only
  omega

theorem reads_embed_some {w : ℕ} {T : Trip} (hT : InRange w T) (c m c0 w0 : ℕ) (S : Arr) (v : (ℕ → ℝ) → ℝ)
    (hS : Reads c0 w0 S v) (h1 : c0 ≤ c) :
    Reads c0 (max w0 (c + w - c0)) (embedS T (some S) m c).1 fun β => v β + qT T fun i => β (c + i) := by
  obtain ⟨L, rfl, hL, hq⟩ := hS
  refine ⟨L ++ shiftT c T, ?_, ?_, ?_⟩
  · funext i j
    rw [coo_append]
    rfl
  · intro t ht
    rcases List.mem_append.1 ht with ht | ht
    · have := hL t ht
      omega
    · obtain ⟨u, hu, rfl⟩ := List.mem_map.1 ht
      have := hT u hu
      simp only
      omega
  · intro β
    rw [qT_append, hq, qT_shift]

end Verif.Layout
