import Verif.EmbedLemmas

/-!
# Embedding penalties, shared smoothing parameters and the pseudo-inverse (properties C25, C26, C27)
-/

namespace Verif.Pen

open Finset

/-! ### C25: embedding -/

/-- The embedded penalty of a term is, for every coefficient vector of the model, the sum over its
repeats of the term's penalty of the coefficients of that repeat.  The next term starts behind the
last repeat. -/
theorem embed_quad (T Dl : Trip) (k rank levels cur n : ℕ) (id : Option ℕ) (lam : ℝ)
    (hT : InRange k T) (hl : 0 < levels) (hn : cur + levels * k ≤ n) (β : ℕ → ℝ) :
    quad n (buildShared T Dl k rank levels cur id lam).1.Semb β
        = ∑ t ∈ range levels, quad k (buildShared T Dl k rank levels cur id lam).1.SJ
            (fun i => β (cur + t * k + i)) ∧
    (buildShared T Dl k rank levels cur id lam).2 = cur + levels * k := by
  constructor
  · rw [show (buildShared T Dl k rank levels cur id lam).1.Semb
      = fun i j => ∑ t ∈ range levels, coo (shiftT (cur + t * k) T) i j by
        funext i j; exact (buildShared_emb T Dl k rank levels cur id lam hl i j).1, quad_sum]
    refine Finset.sum_congr rfl fun t ht => ?_
    have h1 : (t + 1) * k ≤ levels * k := Nat.mul_le_mul_right k (mem_range.1 ht)
    have h2 : (t + 1) * k = t * k + k := by ring
    rw [quad_shift T hT (by omega)]
    rfl
  · simp only [buildShared, embedS]
    obtain ⟨L, rfl⟩ : ∃ L, levels = L + 1 := ⟨levels - 1, by omega⟩
    rw [Nat.add_sub_cancel]
    ring

/-- Coefficients outside the repeats are not touched. -/
theorem embed_outside (T Dl : Trip) (k rank levels cur : ℕ) (id : Option ℕ) (lam : ℝ)
    (hT : InRange k T) (hl : 0 < levels) (i j : ℕ)
    (h : (i < cur ∨ cur + levels * k ≤ i) ∨ (j < cur ∨ cur + levels * k ≤ j)) :
    (buildShared T Dl k rank levels cur id lam).1.Semb i j = 0 := by
  rw [(buildShared_emb T Dl k rank levels cur id lam hl i j).1]
  refine Finset.sum_eq_zero fun t ht => ?_
  have h1 : (t + 1) * k ≤ levels * k := Nat.mul_le_mul_right k (mem_range.1 ht)
  have h2 : (t + 1) * k = t * k + k := by ring
  exact coo_shift_out hT _ _ _ (by omega)

/-- The embedded root squares to the embedded penalty. -/
theorem embed_root (T Dl : Trip) (k rank levels cur n : ℕ) (id : Option ℕ) (lam : ℝ)
    (hT : InRange k T) (hD : InRange k Dl) (hl : 0 < levels) (hn : cur + levels * k ≤ n)
    (hroot : ∀ a < k, ∀ b < k, ∑ l ∈ range k, coo Dl a l * coo Dl b l = coo T a b) (i j : ℕ) :
    ∑ l ∈ range n, (buildShared T Dl k rank levels cur id lam).1.Demb i l
        * (buildShared T Dl k rank levels cur id lam).1.Demb j l
      = (buildShared T Dl k rank levels cur id lam).1.Semb i j := by
  rw [(buildShared_emb T Dl k rank levels cur id lam hl i j).1]
  rw [← gram_blocks T Dl hD hT hn hroot i j]
  refine Finset.sum_congr rfl fun l _ => ?_
  rw [(buildShared_emb T Dl k rank levels cur id lam hl i l).2,
    (buildShared_emb T Dl k rank levels cur id lam hl j l).2]

theorem buildLevels_snoc (T Dl : Trip) (k rank : ℕ) (lams : List ℝ) (lam : ℝ) (cur : ℕ) :
    buildLevels T Dl k rank (lams ++ [lam]) cur
      = ((buildLevels T Dl k rank lams cur).1
          ++ [(buildShared T Dl k rank 1 (buildLevels T Dl k rank lams cur).2 none lam).1],
        (buildLevels T Dl k rank lams cur).2 + k) := by
  simp only [buildLevels, List.foldl_append, List.foldl_cons, List.foldl_nil, buildShared, embedS,
    tile, Nat.sub_self, List.range_zero, List.flatMap_nil, mul_one]
  have : shiftT ((buildLevels T Dl k rank lams cur).2 + k) [] = [] := rfl
  simp only [buildLevels, embedS] at this
  rw [this]
  simp only [coo_nil, add_zero]

/-- With one smoothing parameter per level there is one term per level, and the penalty of the term
of level `t` is the term's penalty of the coefficients of that level. -/
theorem levels_quad (T Dl : Trip) (k rank : ℕ) (lams : List ℝ) (cur n : ℕ) (hT : InRange k T)
    (hn : cur + lams.length * k ≤ n) :
    (buildLevels T Dl k rank lams cur).1.length = lams.length ∧
    (buildLevels T Dl k rank lams cur).2 = cur + lams.length * k ∧
    ∀ t (ht : t < lams.length), ∃ p, (buildLevels T Dl k rank lams cur).1[t]? = some p ∧
      p.lam = lams[t] ∧ p.start = cur + t * k ∧
      ∀ β, quad n p.Semb β = quad k p.SJ (fun i => β (cur + t * k + i)) := by
  induction lams using List.reverseRecOn with
  | nil => simp [buildLevels]
  | append_singleton lams lam ih =>
    have hlen : (lams ++ [lam]).length = lams.length + 1 := by simp
    rw [hlen] at hn
    have h2 : (lams.length + 1) * k = lams.length * k + k := by ring
    obtain ⟨i1, i2, i3⟩ := ih (by omega)
    rw [buildLevels_snoc]
    refine ⟨by simp [i1], by rw [i2, hlen]; omega, fun t ht => ?_⟩
    rw [hlen] at ht
    rcases Nat.lt_or_ge t lams.length with h | h
    · obtain ⟨p, e1, e2, e3⟩ := i3 t h
      refine ⟨p, ?_, ?_, e3⟩
      · simp only
        rw [List.getElem?_append_left (by omega)]
        exact e1
      · rw [List.getElem_append_left h]; exact e2
    · obtain rfl : t = lams.length := by omega
      refine ⟨(buildShared T Dl k rank 1 (buildLevels T Dl k rank lams cur).2 none lam).1,
        ?_, ?_, ?_, ?_⟩
      · simp only
        rw [List.getElem?_append_right (by omega), i1, Nat.sub_self]
        rfl
      · rw [List.getElem_append_right (by omega)]
        simp [buildShared]
      · rw [← i2]; rfl
      · intro β
        have := (embed_quad T Dl k rank 1 (cur + lams.length * k) n none lam hT (by norm_num)
          (by omega) β).1
        rw [i2, this]
        simp

/-- A penalty of formula `fi` penalises, after embedding into the coefficients of all formulas and
extra parameters, the coefficients of that formula exactly as before, and its start index moves
along. -/
theorem formula_quad (ns : List ℕ) (fi : ℕ) (hfi : fi < ns.length) (extra : Option ℕ) (p : LTerm)
    (β : ℕ → ℝ) :
    (embedFormula ns fi extra p).2 = ns.sum + extra.getD 0 ∧
    (embedFormula ns fi extra p).1.start = p.start + (ns.take fi).sum ∧
    quad (embedFormula ns fi extra p).2 (embedFormula ns fi extra p).1.Semb β
      = quad (ns.getD fi 0) p.Semb (fun i => β ((ns.take fi).sum + i)) := by
  have hsum : ∀ (l : List ℕ) t, t ≤ l.length → ∑ o ∈ range t, l.getD o 0 = (l.take t).sum := by
    intro l t
    induction t with
    | zero => simp
    | succ t ih =>
      intro ht
      rw [Finset.sum_range_succ, ih (by omega), List.take_add_one, List.sum_append,
        List.getD_eq_getElem?_getD]
      rw [List.getElem?_eq_getElem (by omega)]
      simp
  obtain ⟨h2, hs, hS, -, -⟩ := pad_inv ns fi p ns.length le_rfl
  generalize hst : (List.range ns.length).foldl (fun st o => padStep fi st (o, ns.getD o 0))
    (p, ns.getD fi 0) = st at *
  rw [show min ns.length fi = fi by omega, hsum ns fi (by omega)] at h2 hs hS
  rw [show max ns.length (fi + 1) = ns.length by omega] at h2
  have htot : st.2 = ns.sum := by
    rw [h2, ← hsum ns fi (by omega)]
    rw [← Finset.sum_range_succ, Finset.sum_range_add_sum_Ico _ (by omega),
      hsum ns ns.length le_rfl, List.take_length]
  have hle : (ns.take fi).sum + ns.getD fi 0 ≤ st.2 := by omega
  -- quadratic form of a block in any larger dimension
  have key : ∀ (N : ℕ) (A : Arr), st.2 ≤ N → (∀ i < st.2, ∀ j < st.2, A i j = st.1.Semb i j) →
      (∀ i < N, ∀ j < N, st.2 ≤ i ∨ st.2 ≤ j → A i j = 0) →
      quad N A β = quad (ns.getD fi 0) p.Semb (fun i => β ((ns.take fi).sum + i)) := by
    intro N A hN hin hout
    have hA : ∀ i < N, ∀ j < N, A i j
        = if ((ns.take fi).sum ≤ i ∧ i < (ns.take fi).sum + ns.getD fi 0)
            ∧ ((ns.take fi).sum ≤ j ∧ j < (ns.take fi).sum + ns.getD fi 0)
          then p.Semb (i - (ns.take fi).sum) (j - (ns.take fi).sum) else 0 := by
      intro i hi j hj
      by_cases h : st.2 ≤ i ∨ st.2 ≤ j
      · rw [hout i hi j hj h, if_neg (by omega)]
      · rw [hin i (by omega) j (by omega), hS i (by omega) j (by omega)]
    unfold quad
    rw [sum_block N (ns.take fi).sum (ns.getD fi 0) (by omega)]
    · refine Finset.sum_congr rfl fun i hi => ?_
      have hi := mem_range.1 hi
      rw [sum_block N (ns.take fi).sum (ns.getD fi 0) (by omega)]
      · refine Finset.sum_congr rfl fun j hj => ?_
        have hj := mem_range.1 hj
        rw [hA _ (by omega) _ (by omega), if_pos (by omega), Nat.add_sub_cancel_left,
          Nat.add_sub_cancel_left]
      · intro j hjN hj
        rw [hA _ (by omega) _ (by omega), if_neg (by omega)]; ring
    · intro i hiN hi
      refine Finset.sum_eq_zero fun j hj => ?_
      rw [hA _ hiN _ (mem_range.1 hj), if_neg (by omega)]; ring
  unfold embedFormula
  simp only [hst]
  cases extra with
  | none =>
    refine ⟨by simp [htot], hs, ?_⟩
    exact key st.2 st.1.Semb le_rfl (fun _ _ _ _ => rfl) (fun i hi j hj h => by omega)
  | some e =>
    refine ⟨by simp [htot], hs, ?_⟩
    refine key (st.2 + e) (padBack st.2 st.1.Semb) (by omega) (fun i hi j hj => ?_)
      (fun i _ j _ h => ?_)
    · simp only [padBack]; rw [if_neg (by omega)]
    · simp only [padBack]; rw [if_pos h]

theorem totalS_eq (ps : List LTerm) (i j : ℕ) :
    totalS ps i j = (ps.map fun p => p.lam * p.Semb i j).sum := by
  cases ps with
  | nil => rfl
  | cons p rest =>
    have : ∀ (l : List LTerm) (S : Arr), (l.foldl (fun S q => fun i j => S i j + q.Semb i j * q.lam) S)
        i j = S i j + (l.map fun p => p.lam * p.Semb i j).sum := by
      intro l
      induction l with
      | nil => intro S; simp
      | cons q l ih =>
        intro S
        rw [List.foldl_cons, ih, List.map_cons, List.sum_cons]
        ring
    simp only [totalS]
    rw [this, List.map_cons, List.sum_cons]
    ring

/-- The total penalty is the sum of the penalties weighted by their smoothing parameters. -/
theorem total_quad (ps : List LTerm) (n : ℕ) (β : ℕ → ℝ) :
    quad n (totalS ps) β = (ps.map fun p => p.lam * quad n p.Semb β).sum := by
  have e : quad n (totalS ps) β
      = quad n (fun i j => (ps.map fun p => p.lam * p.Semb i j).sum) β :=
    quad_congr n _ _ (fun i _ j _ => totalS_eq ps i j) β
  rw [e]
  induction ps with
  | nil => simp [quad]
  | cons p ps ih =>
    rw [List.map_cons, List.sum_cons, ← ih (quad_congr n _ _ (fun i _ j _ => totalS_eq ps i j) β)]
    unfold quad
    rw [Finset.mul_sum, ← Finset.sum_add_distrib]
    refine Finset.sum_congr rfl fun i _ => ?_
    rw [Finset.mul_sum, ← Finset.sum_add_distrib]
    refine Finset.sum_congr rfl fun j _ => ?_
    simp only [List.map_cons, List.sum_cons]
    ring

/-! ### Concrete case -/

/-- Two levels of a term with two coefficients behind an intercept, first differences. -/
example (β : ℕ → ℝ) (D : Trip) :
    quad 5 (buildShared [(0, 0, 1), (0, 1, -1), (1, 0, -1), (1, 1, 1)] D 2 1 2 1 (some 0) 1).1.Semb β
      = (β 2 - β 1) ^ 2 + (β 4 - β 3) ^ 2 := by
  rw [(embed_quad _ D 2 1 2 1 5 (some 0) 1 (by
    intro t ht; simp at ht; rcases ht with rfl | rfl | rfl | rfl <;> norm_num) (by norm_num)
    (by norm_num) β).1]
  simp only [Finset.sum_range_succ, Finset.sum_range_zero, quad, buildShared, embedSj, coo]
  norm_num
  ring

end Verif.Pen
