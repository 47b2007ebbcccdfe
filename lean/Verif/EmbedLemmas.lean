import Verif.EmbedModel
import Verif.Tensor

/-! # Lemmas on coordinate lists and embedded blocks -/

namespace Verif.Pen

open Finset

/-- All indices of the coordinate list are below `k`. -/
def InRange (k : ℕ) (T : Trip) : Prop := ∀ t ∈ T, t.1 < k ∧ t.2.1 < k

theorem coo_nil (r c : ℕ) : coo [] r c = 0 := rfl

theorem coo_append (L M : Trip) (r c : ℕ) : coo (L ++ M) r c = coo L r c + coo M r c := by
  simp [coo]

theorem coo_flatMap_range (N : ℕ) (f : ℕ → Trip) (r c : ℕ) :
    coo ((List.range N).flatMap f) r c = ∑ i ∈ range N, coo (f i) r c := by
  induction N with
  | zero => simp [coo]
  | succ N ih =>
    rw [List.range_succ, List.flatMap_append, coo_append, ih, Finset.sum_range_succ]; simp

theorem coo_out {k : ℕ} {T : Trip} (hT : InRange k T) (r c : ℕ) (h : k ≤ r ∨ k ≤ c) :
    coo T r c = 0 := by
  unfold coo
  refine List.sum_eq_zero fun x hx => ?_
  obtain ⟨t, ht, rfl⟩ := List.mem_map.1 hx
  have := hT t ht
  rw [if_neg (by omega)]

theorem coo_shift (o : ℕ) (T : Trip) (r c : ℕ) :
    coo (shiftT o T) r c = if o ≤ r ∧ o ≤ c then coo T (r - o) (c - o) else 0 := by
  unfold coo shiftT
  rw [List.map_map]
  by_cases h : o ≤ r ∧ o ≤ c
  · rw [if_pos h]
    congr 1
    refine List.map_congr_left fun t _ => ?_
    simp only [Function.comp_apply]
    by_cases h1 : t.1 + o = r ∧ t.2.1 + o = c
    · rw [if_pos h1, if_pos (by omega)]
    · rw [if_neg h1, if_neg (by omega)]
  · rw [if_neg h]
    refine List.sum_eq_zero fun x hx => ?_
    obtain ⟨t, _, rfl⟩ := List.mem_map.1 hx
    simp only [Function.comp_apply]
    rw [if_neg (by omega)]

theorem shift_shift (a b : ℕ) (T : Trip) : shiftT a (shiftT b T) = shiftT (a + b) T := by
  unfold shiftT
  rw [List.map_map]
  refine List.map_congr_left fun t _ => ?_
  simp only [Function.comp_apply, Prod.mk.injEq]
  refine ⟨by omega, by omega, trivial⟩

theorem shift_tile (o n k : ℕ) (T : Trip) :
    shiftT o (tile n k T) = (List.range n).flatMap fun t => shiftT (o + t * k) T := by
  unfold tile
  rw [show shiftT o ((List.range n).flatMap fun t => shiftT (t * k) T)
    = (List.range n).flatMap fun t => shiftT o (shiftT (t * k) T) by
      unfold shiftT; rw [List.map_flatMap]]
  simp only [shift_shift]

theorem sum_block (n o k : ℕ) (h : o + k ≤ n) (f : ℕ → ℝ)
    (hf : ∀ i < n, i < o ∨ o + k ≤ i → f i = 0) :
    ∑ i ∈ range n, f i = ∑ i ∈ range k, f (o + i) := by
  obtain ⟨e, rfl⟩ := Nat.exists_eq_add_of_le h
  rw [Finset.sum_range_add, Finset.sum_range_add]
  rw [Finset.sum_eq_zero (s := range o) fun i hi => hf i (by have := mem_range.1 hi; omega)
      (Or.inl (mem_range.1 hi)),
    Finset.sum_eq_zero (s := range e) fun i hi => hf _ (by have := mem_range.1 hi; omega)
      (Or.inr (by omega)), zero_add, add_zero]

theorem coo_shift_in (o : ℕ) (T : Trip) (a b : ℕ) :
    coo (shiftT o T) (o + a) (o + b) = coo T a b := by
  rw [coo_shift, if_pos (by omega)]
  congr 1 <;> omega

theorem coo_shift_out {k : ℕ} {T : Trip} (hT : InRange k T) (o r c : ℕ)
    (h : (r < o ∨ o + k ≤ r) ∨ (c < o ∨ o + k ≤ c)) : coo (shiftT o T) r c = 0 := by
  rw [coo_shift]
  split_ifs with h1
  · exact coo_out hT _ _ (by omega)
  · rfl

theorem quad_shift {n k o : ℕ} (T : Trip) (hT : InRange k T) (h : o + k ≤ n) (β : ℕ → ℝ) :
    quad n (coo (shiftT o T)) β = quad k (coo T) (fun i => β (o + i)) := by
  unfold quad
  rw [sum_block n o k h]
  · refine Finset.sum_congr rfl fun i _ => ?_
    rw [sum_block n o k h]
    · exact Finset.sum_congr rfl fun j _ => by rw [coo_shift_in]
    · intro j _ hj
      rw [coo_shift_out hT _ _ _ (Or.inr hj)]; ring
  · intro i _ hi
    refine Finset.sum_eq_zero fun j _ => ?_
    rw [coo_shift_out hT _ _ _ (Or.inl hi)]; ring

theorem quad_sum (n N : ℕ) (F : ℕ → Arr) (β : ℕ → ℝ) :
    quad n (fun i j => ∑ t ∈ range N, F t i j) β = ∑ t ∈ range N, quad n (F t) β := by
  unfold quad
  symm
  rw [Finset.sum_comm]
  refine Finset.sum_congr rfl fun i _ => ?_
  rw [Finset.sum_comm]
  refine Finset.sum_congr rfl fun j _ => ?_
  rw [Finset.mul_sum, Finset.sum_mul]

/-- The embedded matrices of a term whose penalty is repeated. -/
theorem buildShared_emb (T Dl : Trip) (k rank levels cur : ℕ) (id : Option ℕ) (lam : ℝ)
    (hl : 0 < levels) (i j : ℕ) :
    (buildShared T Dl k rank levels cur id lam).1.Semb i j
        = ∑ t ∈ range levels, coo (shiftT (cur + t * k) T) i j ∧
    (buildShared T Dl k rank levels cur id lam).1.Demb i j
        = ∑ t ∈ range levels, coo (shiftT (cur + t * k) Dl) i j := by
  obtain ⟨L, rfl⟩ : ∃ L, levels = L + 1 := ⟨levels - 1, by omega⟩
  have key : ∀ T : Trip, coo (shiftT cur T) i j + coo (shiftT (cur + k) (tile L k T)) i j
      = ∑ t ∈ range (L + 1), coo (shiftT (cur + t * k) T) i j := by
    intro T
    rw [Finset.sum_range_succ', shift_tile, coo_flatMap_range, add_comm, zero_mul, add_zero]
    congr 1
    refine Finset.sum_congr rfl fun t _ => ?_
    rw [show cur + k + t * k = cur + (t + 1) * k by ring]
  simp only [buildShared, embedS, Nat.add_sub_cancel]
  exact ⟨key T, key Dl⟩

theorem gram_blocks {n k N cur : ℕ} (T Dl : Trip) (hD : InRange k Dl) (hT : InRange k T)
    (hn : cur + N * k ≤ n) (hroot : ∀ a < k, ∀ b < k, gram k (coo Dl) a b = coo T a b) (i j : ℕ) :
    gram n (fun i j => ∑ t ∈ range N, coo (shiftT (cur + t * k) Dl) i j) i j
      = ∑ t ∈ range N, coo (shiftT (cur + t * k) T) i j := by
  simp only [gram, Finset.sum_mul_sum]
  rw [Finset.sum_comm]
  refine Finset.sum_congr rfl fun t ht => ?_
  have htN : t + 1 ≤ N := mem_range.1 ht
  have hle : cur + t * k + k ≤ n := by
    have : (t + 1) * k ≤ N * k := Nat.mul_le_mul_right k htN
    have h2 : (t + 1) * k = t * k + k := by ring
    omega
  have e : ∀ l ∈ range n, ∑ s ∈ range N, coo (shiftT (cur + t * k) Dl) i l
      * coo (shiftT (cur + s * k) Dl) j l
      = coo (shiftT (cur + t * k) Dl) i l * coo (shiftT (cur + t * k) Dl) j l := by
    intro l _
    rw [Finset.sum_eq_single t]
    · intro s _ hs
      by_cases hl : cur + t * k ≤ l ∧ l < cur + t * k + k
      · rw [coo_shift_out hD (cur + s * k) j l (Or.inr ?_), mul_zero]
        rcases Nat.lt_or_gt_of_ne hs with h | h
        · right
          have : (s + 1) * k ≤ t * k := Nat.mul_le_mul_right k h
          have h2 : (s + 1) * k = s * k + k := by ring
          omega
        · left
          have : (t + 1) * k ≤ s * k := Nat.mul_le_mul_right k h
          have h2 : (t + 1) * k = t * k + k := by ring
          omega
      · rw [coo_shift_out hD (cur + t * k) i l (Or.inr (by omega)), zero_mul]
    · intro h; exact absurd ht h
  rw [Finset.sum_congr rfl e, sum_block n (cur + t * k) k hle]
  · by_cases hi : cur + t * k ≤ i ∧ i < cur + t * k + k
    · by_cases hj : cur + t * k ≤ j ∧ j < cur + t * k + k
      · obtain ⟨a, rfl⟩ := Nat.exists_eq_add_of_le hi.1
        obtain ⟨b, rfl⟩ := Nat.exists_eq_add_of_le hj.1
        rw [coo_shift_in, ← hroot a (by omega) b (by omega)]
        exact Finset.sum_congr rfl fun l _ => by rw [coo_shift_in, coo_shift_in]
      · rw [coo_shift_out hT _ _ _ (Or.inr (by omega))]
        refine Finset.sum_eq_zero fun l _ => ?_
        rw [coo_shift_out hD _ j _ (Or.inl (by omega)), mul_zero]
    · rw [coo_shift_out hT _ _ _ (Or.inl (by omega))]
      refine Finset.sum_eq_zero fun l _ => ?_
      rw [coo_shift_out hD _ i _ (Or.inl (by omega)), zero_mul]
  · intro l _ hl
    rw [coo_shift_out hD _ i l (Or.inr hl), zero_mul]

/-! ### Several formulas -/

/-- State of the padding loop after the formulas before `t`. -/
theorem pad_inv (ns : List ℕ) (fi : ℕ) (p : LTerm) (t : ℕ) (ht : t ≤ ns.length) :
    let st := (List.range t).foldl (fun st o => padStep fi st (o, ns.getD o 0)) (p, ns.getD fi 0)
    let off := ∑ o ∈ range (min t fi), ns.getD o 0
    st.2 = off + ns.getD fi 0 + ∑ o ∈ Ico (fi + 1) (max t (fi + 1)), ns.getD o 0 ∧
    st.1.start = p.start + off ∧
    (∀ i < st.2, ∀ j < st.2, st.1.Semb i j
      = if (off ≤ i ∧ i < off + ns.getD fi 0) ∧ (off ≤ j ∧ j < off + ns.getD fi 0)
        then p.Semb (i - off) (j - off) else 0) ∧
    (∀ i < st.2, ∀ j < st.2, st.1.Demb i j
      = if (off ≤ i ∧ i < off + ns.getD fi 0) ∧ (off ≤ j ∧ j < off + ns.getD fi 0)
        then p.Demb (i - off) (j - off) else 0) ∧
    st.1.toMats.SJ = p.SJ ∧ st.1.k = p.k ∧ st.1.rep = p.rep ∧ st.1.lam = p.lam := by
  induction t with
  | zero =>
    simp only [List.range_zero, List.foldl_nil, Nat.zero_min, Finset.range_zero, Finset.sum_empty]
    refine ⟨by simp, by simp, ?_, ?_, trivial, trivial, trivial, trivial⟩ <;>
    · intro i hi j hj
      rw [if_pos (by omega)]
      rfl
  | succ t ih =>
    have ih := ih (by omega)
    simp only [List.range_succ, List.foldl_append, List.foldl_cons, List.foldl_nil]
    generalize hst : (List.range t).foldl (fun st o => padStep fi st (o, ns.getD o 0))
      (p, ns.getD fi 0) = st at ih ⊢
    obtain ⟨h2, hs, hS, hD, hSJ, hk, hr, hl⟩ := ih
    unfold padStep
    simp only
    rcases lt_trichotomy t fi with h | h | h
    · rw [if_neg (by omega), if_pos h]
      have m1 : min t fi = t := by omega
      have m2 : min (t + 1) fi = t + 1 := by omega
      have m3 : max t (fi + 1) = fi + 1 := by omega
      have m4 : max (t + 1) (fi + 1) = fi + 1 := by omega
      rw [m1] at h2 hs hS hD
      rw [m3] at h2
      rw [m2, m4, Finset.sum_range_succ]
      simp only [Finset.Ico_self, Finset.sum_empty, add_zero] at h2 ⊢
      refine ⟨by omega, by omega, ?_, ?_, hSJ, hk, hr, hl⟩
      · intro i hi j hj
        simp only [padFront]
        by_cases hij : i < ns.getD t 0 ∨ j < ns.getD t 0
        · rw [if_pos hij, if_neg (by omega)]
        · rw [if_neg hij, hS _ (by omega) _ (by omega)]
          generalize ∑ o ∈ range t, ns.getD o 0 = off at *
          generalize ns.getD t 0 = nt at *
          by_cases hin : (off + nt ≤ i ∧ i < off + nt + ns.getD fi 0)
              ∧ (off + nt ≤ j ∧ j < off + nt + ns.getD fi 0)
          · rw [if_pos hin, if_pos (by omega)]
            congr 1 <;> omega
          · rw [if_neg hin, if_neg (by omega)]
      · intro i hi j hj
        simp only [padFront]
        by_cases hij : i < ns.getD t 0 ∨ j < ns.getD t 0
        · rw [if_pos hij, if_neg (by omega)]
        · rw [if_neg hij, hD _ (by omega) _ (by omega)]
          generalize ∑ o ∈ range t, ns.getD o 0 = off at *
          generalize ns.getD t 0 = nt at *
          by_cases hin : (off + nt ≤ i ∧ i < off + nt + ns.getD fi 0)
              ∧ (off + nt ≤ j ∧ j < off + nt + ns.getD fi 0)
          · rw [if_pos hin, if_pos (by omega)]
            congr 1 <;> omega
          · rw [if_neg hin, if_neg (by omega)]
    · subst h
      rw [if_pos rfl]
      have m1 : min t t = t := by omega
      have m2 : min (t + 1) t = t := by omega
      have m3 : max t (t + 1) = t + 1 := by omega
      have m4 : max (t + 1) (t + 1) = t + 1 := by omega
      rw [m1] at h2 hs hS hD
      rw [m3] at h2
      rw [m2, m4]
      exact ⟨h2, hs, hS, hD, hSJ, hk, hr, hl⟩
    · rw [if_neg (by omega), if_neg (by omega)]
      have m1 : min t fi = fi := by omega
      have m2 : min (t + 1) fi = fi := by omega
      have m3 : max t (fi + 1) = t := by omega
      have m4 : max (t + 1) (fi + 1) = t + 1 := by omega
      rw [m1] at h2 hs hS hD
      rw [m3] at h2
      rw [m2, m4, Finset.sum_Ico_succ_top (by omega)]
      refine ⟨by omega, hs, ?_, ?_, hSJ, hk, hr, hl⟩
      · intro i hi j hj
        simp only [padBack]
        by_cases hij : st.2 ≤ i ∨ st.2 ≤ j
        · rw [if_pos hij, if_neg (by omega)]
        · rw [if_neg hij, hS _ (by omega) _ (by omega)]
      · intro i hi j hj
        simp only [padBack]
        by_cases hij : st.2 ≤ i ∨ st.2 ≤ j
        · rw [if_pos hij, if_neg (by omega)]
        · rw [if_neg hij, hD _ (by omega) _ (by omega)]

end Verif.Pen
