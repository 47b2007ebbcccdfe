import Verif.LayoutLemmas

/-!
# Penalties of single terms: what is expected of them, and that they are built so (property C74)
-/

namespace Verif.Layout

open Verif.Pen Verif.Sp Finset

/-! ## Specification -/

/-- Dropped coefficients of a smooth, numbered over all levels. -/
abbrev dropped (s : Sm) : List ℕ := s.drop.getD []

/-- Number of levels. -/
abbrev nLev (s : Sm) : ℕ := s.levels.getD 1

/-- Coefficient `x` (numbered over all levels, before dropping) of a smooth whose first column is `c`: zero if it was
dropped, otherwise the model's coefficient in the column of the kept ones. -/
noncomputable def full (s : Sm) (c : ℕ) (β : ℕ → ℝ) (x : ℕ) : ℝ :=
  if x ∈ dropped s then 0 else β (c + newPos (dropped s) 0 x)

/-- The penalty `T` of the function for level `l`. -/
noncomputable def penVal (s : Sm) (c : ℕ) (T : Trip) (l : ℕ) (β : ℕ → ℝ) : ℝ :=
  quad s.k (coo T) fun i => full s c β (l * s.k + i)

/-- The quadratic forms of one penalty `T`: a single one, summed over levels, without `by` or with id; else one for each
level. -/
noncomputable def penVals (s : Sm) (c : ℕ) (T : Trip) : List ((ℕ → ℝ) → ℝ) :=
  if s.levels = none ∨ s.hasId = true then [fun β => ∑ l ∈ range (nLev s), penVal s c T l β]
  else (List.range (nLev s)).map fun l => penVal s c T l

/-- A penalised smooth: entries in range, dropped coefficients distinct and existing, at least one level, and every
dropped coefficient has a stored entry in each penalty (C62). -/
structure SmOK (s : Sm) : Prop where
  pen : s.penalized = true
  ne : s.T ≠ []
  rng : ∀ T ∈ s.T, InRange s.k T
  lev : ∀ n, s.levels = some n → 0 < n
  nodup : (dropped s).Nodup
  lt : ∀ d ∈ dropped s, d < s.k * nLev s
  stored : ∀ T ∈ s.T, ∀ d ∈ dropped s, ∃ t ∈ T, t.2.1 = d % s.k

/-! ## Helper lemmas -/

theorem SmOK.lev_pos {s : Sm} (h : SmOK s) : 0 < nLev s := by
  cases hl : s.levels with
  | none => simp [nLev, hl]
  | some n => simpa [nLev, hl] using h.lev n hl

theorem nCoef_eq {s : Sm} (h : SmOK s) : nCoef s = newPos (dropped s) 0 (s.k * nLev s) := by
  have h1 : ((range (s.k * nLev s)).filter fun y => y ∈ dropped s).card = (dropped s).length := by
    rw [← List.toFinset_card_of_nodup h.nodup]
    congr 1
    ext d
    simp only [mem_filter, mem_range, List.mem_toFinset]
    exact ⟨fun hh => hh.2, fun hd => ⟨h.lt d hd, hd⟩⟩
  have h2 := Finset.card_filter_add_card_filter_not (s := range (s.k * nLev s)) (fun y => y ∈ dropped s)
  rw [Finset.card_range] at h2
  show s.k * nLev s - (dropped s).length = _
  unfold newPos
  simp only [Nat.add_zero]
  omega

theorem stored_level {s : Sm} (h : SmOK s) {T : Trip} (hT : T ∈ s.T) (l : ℕ) (d : ℕ) (hd : d ∈ dropped s)
    (h1 : l * s.k ≤ d) (h2 : d < l * s.k + s.k) : ∃ t ∈ T, t.2.1 + l * s.k = d := by
  obtain ⟨t, ht, he⟩ := h.stored T hT d hd
  refine ⟨t, ht, ?_⟩
  have hk : d % s.k = d - l * s.k := by
    have : d = (d - l * s.k) + l * s.k := by omega
    conv_lhs => rw [this]
    rw [Nat.add_mul_mod_self_right, Nat.mod_eq_of_lt (by omega)]
  omega

/-- One level. -/
theorem level_spec {s : Sm} (h : SmOK s) {T : Trip} (hT : T ∈ s.T) (c l : ℕ) :
    (levelPen T s.k s.drop (l * s.k)).2 = newPos (dropped s) (l * s.k) s.k ∧
    InRange (newPos (dropped s) (l * s.k) s.k) (levelPen T s.k s.drop (l * s.k)).1 ∧
    (∀ β, qT (levelPen T s.k s.drop (l * s.k)).1 β
      = qT T fun i => if i + l * s.k ∈ dropped s then 0 else β (newPos (dropped s) (l * s.k) i)) ∧
    ∀ β, (qT (levelPen T s.k s.drop (l * s.k)).1 fun i => β (c + newPos (dropped s) 0 (l * s.k) + i))
      = penVal s c T l β := by
  have hst := fun d hd => stored_level h hT l d hd
  have hr := h.rng T hT
  rw [levelPen_eq]
  have had := adjust_drop_partial T s.k hr (dropped s) h.nodup (l * s.k) hst
  have hq := fun β => qT_adjust T s.k hr (dropped s) h.nodup (l * s.k) hst β
  refine ⟨by have := had.2.1; show s.k - (adjustDrop T (dropped s) (l * s.k)).2 = _; omega, inRange_adjust T s.k hr _ h.nodup _ hst, hq, fun β => ?_⟩
  unfold penVal
  rw [hq, quad_coo s.k T hr]
  unfold full
  congr 1
  funext i
  rw [Nat.add_comm i, newPos_add, Nat.add_assoc]

theorem level_end (s : Sm) (l : ℕ) :
    newPos (dropped s) 0 (l * s.k) + newPos (dropped s) (l * s.k) s.k = newPos (dropped s) 0 ((l + 1) * s.k) := by
  rw [← newPos_add, Nat.succ_mul]

theorem level_le {s : Sm} (h : SmOK s) (l : ℕ) (hl : l < nLev s) :
    newPos (dropped s) 0 ((l + 1) * s.k) ≤ nCoef s := by
  rw [nCoef_eq h]
  refine newPos_mono _ _ ?_
  rw [mul_comm]
  exact Nat.mul_le_mul_left _ hl

/-- A penalty of the list: which term, not a null-space penalty, where, quadratic form. -/
def IsPen (ti : ℕ) (null : Bool) (c w : ℕ) (p : Pn) (v : (ℕ → ℝ) → ℝ) : Prop :=
  p.term = ti ∧ p.null = null ∧ Reads c w p.S v

/-- Penalty of level `l`. -/
theorem level_pen {s : Sm} (h : SmOK s) {T : Trip} (hT : T ∈ s.T) (ti c l : ℕ) (hl : l < nLev s) :
    let a := levelPen T s.k s.drop (l * s.k)
    let cl := c + newPos (dropped s) 0 (l * s.k)
    IsPen ti false c (nCoef s) ⟨ti, false, cl, (embedS a.1 none a.2 cl).1, embedSj a.1 none, a.2, 1⟩ (penVal s c T l) ∧
    (embedS a.1 none a.2 cl).2 = c + newPos (dropped s) 0 ((l + 1) * s.k) := by
  intro a cl
  obtain ⟨h1, h2, _, h4⟩ := level_spec h hT c l
  have he := level_end s l
  have hle := level_le h l hl
  refine ⟨⟨rfl, rfl, ?_⟩, ?_⟩
  · refine (((reads_embed h2 cl a.2).congr (h4)).mono (by omega) ?_)
    omega
  · show cl + a.2 = _
    have : a.2 = newPos (dropped s) (l * s.k) s.k := h1
    omega

theorem levelStep_eq (ti : ℕ) (s : Sm) (T : Trip) (st : List Pn × ℕ) (lvl : ℕ) :
    levelStep ti s T st lvl = (st.1 ++ [⟨ti, false, st.2, (embedS (levelPen T s.k s.drop ((lvl + 1) * s.k)).1 none
      (levelPen T s.k s.drop ((lvl + 1) * s.k)).2 st.2).1, embedSj (levelPen T s.k s.drop ((lvl + 1) * s.k)).1 none,
      (levelPen T s.k s.drop ((lvl + 1) * s.k)).2, 1⟩], (embedS (levelPen T s.k s.drop ((lvl + 1) * s.k)).1 none
      (levelPen T s.k s.drop ((lvl + 1) * s.k)).2 st.2).2) := rfl

theorem levels_loop {s : Sm} (h : SmOK s) {T : Trip} (hT : T ∈ s.T) (ti c : ℕ) (m : ℕ) (hm : m < nLev s) :
    let a := levelPen T s.k s.drop 0
    let E := embedS a.1 none a.2 c
    let r := (List.range m).foldl (levelStep ti s T) ([⟨ti, false, c, E.1, embedSj a.1 none, a.2, 1⟩], E.2)
    List.Forall₂ (IsPen ti false c (nCoef s)) r.1 ((List.range (m + 1)).map fun l => penVal s c T l) ∧
    r.2 = c + newPos (dropped s) 0 ((m + 1) * s.k) ∧
    r.1.map (fun p => (p.start, p.k, p.rep)) = (List.range (m + 1)).map fun l =>
      (c + newPos (dropped s) 0 (l * s.k), newPos (dropped s) (l * s.k) s.k, 1) := by
  intro a E r
  have h0 : newPos (dropped s) 0 (0 * s.k) = 0 := by simp [newPos]
  induction m with
  | zero =>
    have hp := level_pen h hT ti c 0 hm
    have hs := (level_spec h hT c 0).1
    simp only [h0, Nat.add_zero] at hp
    simp only [Nat.zero_mul] at hp hs
    refine ⟨List.Forall₂.cons hp.1 List.Forall₂.nil, hp.2, ?_⟩
    simp only [r, List.range_zero, List.foldl_nil, List.map_cons, List.map_nil, List.range_succ, List.nil_append,
      h0, Nat.add_zero, List.cons.injEq, Prod.mk.injEq, and_true, true_and]
    simp only [Nat.zero_mul]
    exact hs
  | succ m ih =>
    obtain ⟨i1, i2, i3⟩ := ih (by omega)
    have hr : r = levelStep ti s T ((List.range m).foldl (levelStep ti s T)
        ([⟨ti, false, c, E.1, embedSj a.1 none, a.2, 1⟩], E.2)) m := by
      simp only [r, List.range_succ, List.foldl_append, List.foldl_cons, List.foldl_nil]
    have hp := level_pen h hT ti c (m + 1) hm
    have hs := (level_spec h hT c (m + 1)).1
    rw [hr, levelStep_eq, i2]
    refine ⟨?_, hp.2, ?_⟩
    · rw [List.range_succ (n := m + 1), List.map_append]
      exact List.rel_append i1 (List.Forall₂.cons hp.1 List.Forall₂.nil)
    · rw [List.map_append, i3, List.range_succ (n := m + 1), List.map_append]
      simp only [List.map_cons, List.map_nil]
      rw [hs]

theorem tile_stored {s : Sm} (h : SmOK s) {T : Trip} (hT : T ∈ s.T) (d : ℕ) (hd : d ∈ dropped s) (h1 : s.k ≤ d)
    (h2 : d < s.k + s.k * (nLev s - 1)) : ∃ t ∈ tile (nLev s - 1) s.k T, t.2.1 + s.k = d := by
  have hk : 0 < s.k := by
    rcases Nat.eq_zero_or_pos s.k with h0 | h0
    · rw [h0] at h2; omega
    · exact h0
  obtain ⟨t, ht, he⟩ := stored_level h hT (d / s.k) d hd (Nat.div_mul_le_self d s.k)
    (by have := Nat.lt_div_mul_add hk (a := d); omega)
  have hl1 : 1 ≤ d / s.k := (Nat.one_le_div_iff hk).2 h1
  have hl2 : d / s.k < nLev s := by
    rw [Nat.div_lt_iff_lt_mul hk, mul_comm]
    exact h.lt d hd
  refine ⟨(t.1 + (d / s.k - 1) * s.k, t.2.1 + (d / s.k - 1) * s.k, t.2.2), ?_, ?_⟩
  · unfold tile
    refine List.mem_flatMap.2 ⟨d / s.k - 1, List.mem_range.2 (by omega), ?_⟩
    exact List.mem_map.2 ⟨t, ht, rfl⟩
  · obtain ⟨q, hq⟩ : ∃ q, d / s.k = q + 1 := ⟨d / s.k - 1, by omega⟩
    rw [hq] at he ⊢
    simp only [Nat.add_sub_cancel]
    rw [Nat.succ_mul] at he
    omega

/-- With id: first level and the others together. -/
theorem id_spec {s : Sm} (h : SmOK s) {T : Trip} (hT : T ∈ s.T) (c : ℕ) :
    let a := levelPen T s.k s.drop 0
    let E := embedS a.1 none a.2 c
    let b := adjustDrop (tile (nLev s - 1) s.k T) (dropped s) s.k
    let F := embedS b.1 (some E.1) (s.k * (nLev s - 1) - b.2) E.2
    Reads c (nCoef s) F.1 (fun β => ∑ l ∈ range (nLev s), penVal s c T l β) ∧ F.2 = c + nCoef s := by
  intro a E b F
  have hlp := h.lev_pos
  obtain ⟨hp, hE⟩ := level_pen h hT 0 c 0 hlp
  have h0 : newPos (dropped s) 0 (0 * s.k) = 0 := by simp [newPos]
  simp only [h0, Nat.add_zero] at hp hE
  simp only [Nat.zero_mul, Nat.zero_add, Nat.one_mul] at hp hE
  have hEr : Reads c (nCoef s) E.1 (penVal s c T 0) := hp.2.2
  have hE2 : E.2 = c + newPos (dropped s) 0 s.k := hE
  have hst := fun d hd h1 h2 => tile_stored h hT d hd h1 h2
  have hr := inRange_tile (h.rng T hT) (nLev s - 1)
  have had := adjust_drop_partial _ _ hr (dropped s) h.nodup s.k hst
  have hb := inRange_adjust _ _ hr (dropped s) h.nodup s.k hst
  have hsum : s.k + s.k * (nLev s - 1) = s.k * nLev s := by
    obtain ⟨q, hq⟩ : ∃ q, nLev s = q + 1 := ⟨nLev s - 1, by omega⟩
    rw [hq, Nat.add_sub_cancel, Nat.mul_succ, Nat.add_comm]
  have hw : newPos (dropped s) 0 s.k + newPos (dropped s) s.k (s.k * (nLev s - 1)) = nCoef s := by
    rw [nCoef_eq h, ← newPos_add, hsum]
  constructor
  · have hF := reads_embed_some hb E.2 (s.k * (nLev s - 1) - b.2) c (nCoef s) E.1 _ hEr (by omega)
    have hm : max (nCoef s) (E.2 + newPos (dropped s) s.k (s.k * (nLev s - 1)) - c) = nCoef s := by omega
    rw [hm] at hF
    refine hF.congr fun β => ?_
    rw [qT_adjust _ _ hr (dropped s) h.nodup s.k hst, qT_tile]
    have hsr : ∑ l ∈ range (nLev s), penVal s c T l β
        = ∑ l ∈ range (nLev s - 1), penVal s c T (l + 1) β + penVal s c T 0 β := by
      obtain ⟨q, hq⟩ : ∃ q, nLev s = q + 1 := ⟨nLev s - 1, by omega⟩
      rw [hq, Finset.sum_range_succ', Nat.add_sub_cancel]
    rw [hsr, add_comm]
    congr 1
    refine Finset.sum_congr rfl fun l _ => ?_
    unfold penVal
    rw [quad_coo s.k T (h.rng T hT)]
    congr 1
    funext i
    unfold full
    rw [hE2]
    have e1 : l * s.k + i + s.k = (l + 1) * s.k + i := by ring
    have e2 : newPos (dropped s) 0 ((l + 1) * s.k + i)
        = newPos (dropped s) 0 s.k + newPos (dropped s) s.k (l * s.k + i) := by
      rw [← newPos_add]
      congr 1
      ring
    rw [e1, e2, Nat.add_assoc]
  · show E.2 + (s.k * (nLev s - 1) - b.2) = _
    have := had.2.1
    have hb2 : b.2 = (adjustDrop (tile (nLev s - 1) s.k T) (dropped s) s.k).2 := rfl
    omega

/-- One penalty of a smooth. -/
theorem buildPen_spec {s : Sm} (h : SmOK s) {T : Trip} (hT : T ∈ s.T) (ti c : ℕ) :
    List.Forall₂ (IsPen ti false c (nCoef s)) (buildPen ti s T c).1 (penVals s c T) ∧
    (buildPen ti s T c).2 = c + nCoef s ∧
    (s.levels = none ∨ s.hasId = true → ∃ p, (buildPen ti s T c).1 = [p] ∧ p.k * p.rep = nCoef s ∧ 0 < p.rep) ∧
    (s.levels ≠ none → s.hasId = false → (buildPen ti s T c).1.map (fun p => (p.start, p.k, p.rep))
      = (List.range (nLev s)).map fun l =>
        (c + newPos (dropped s) 0 (l * s.k), newPos (dropped s) (l * s.k) s.k, 1)) := by
  have h0 : newPos (dropped s) 0 (0 * s.k) = 0 := by simp [newPos]
  have hlp := h.lev_pos
  cases hl : s.levels with
  | none =>
    have hn : nLev s = 1 := by simp [nLev, hl]
    have hp := level_pen h hT ti c 0 hlp
    have hs := (level_spec h hT c 0).1
    simp only [h0, Nat.add_zero] at hp
    simp only [Nat.zero_mul, Nat.zero_add, Nat.one_mul] at hp hs
    have hnc : nCoef s = newPos (dropped s) 0 s.k := by rw [nCoef_eq h, hn, Nat.mul_one]
    have hb : buildPen ti s T c = ([⟨ti, false, c, (embedS (levelPen T s.k s.drop 0).1 none (levelPen T s.k s.drop 0).2 c).1,
        embedSj (levelPen T s.k s.drop 0).1 none, (levelPen T s.k s.drop 0).2, 1⟩],
        (embedS (levelPen T s.k s.drop 0).1 none (levelPen T s.k s.drop 0).2 c).2) := by
      unfold buildPen
      rw [hl]
    rw [hb]
    refine ⟨?_, by rw [hnc]; exact hp.2, fun _ => ⟨_, rfl, ?_, Nat.one_pos⟩, by simp⟩
    · unfold penVals
      rw [if_pos (Or.inl hl), hn]
      simp only [Finset.sum_range_one]
      exact List.Forall₂.cons hp.1 List.Forall₂.nil
    · rw [hnc, ← hs, Nat.mul_one]
  | some n =>
    have hn : nLev s = n := by simp [nLev, hl]
    cases hid : s.hasId with
    | true =>
      have hi := id_spec h hT c
      have hv : penVals s c T = [fun β => ∑ l ∈ range (nLev s), penVal s c T l β] := by
        unfold penVals
        rw [if_pos (Or.inr hid)]
      rw [hv]
      cases hd : s.drop with
      | none =>
        have hdr : dropped s = [] := by simp [dropped, hd]
        simp only [hdr, adjust_nil, Nat.sub_zero, hn] at hi
        have hb : buildPen ti s T c = ([⟨ti, false, c,
            (embedS (tile (n - 1) s.k T) (some (embedS (levelPen T s.k s.drop 0).1 none (levelPen T s.k s.drop 0).2 c).1)
              (s.k * (n - 1)) (embedS (levelPen T s.k s.drop 0).1 none (levelPen T s.k s.drop 0).2 c).2).1,
            embedSj T none, s.k, n⟩],
            (embedS (tile (n - 1) s.k T) (some (embedS (levelPen T s.k s.drop 0).1 none (levelPen T s.k s.drop 0).2 c).1)
              (s.k * (n - 1)) (embedS (levelPen T s.k s.drop 0).1 none (levelPen T s.k s.drop 0).2 c).2).2) := by
          unfold buildPen
          rw [hl]
          simp only [hid, if_true, hd]
        rw [hb]
        refine ⟨List.Forall₂.cons ⟨rfl, rfl, by rw [hn]; exact hi.1⟩ List.Forall₂.nil, hi.2, fun _ => ⟨_, rfl, ?_, ?_⟩, ?_⟩
        · unfold nCoef
          simp [hd, hl]
        · exact h.lev n hl
        · simp
      | some d =>
        have hdr : dropped s = d := by simp [dropped, hd]
        rw [hdr] at hi
        simp only [hn] at hi
        have hb : buildPen ti s T c = ([⟨ti, false, c,
            (embedS (adjustDrop (tile (n - 1) s.k T) d s.k).1
              (some (embedS (levelPen T s.k s.drop 0).1 none (levelPen T s.k s.drop 0).2 c).1)
              (s.k * (n - 1) - (adjustDrop (tile (n - 1) s.k T) d s.k).2)
              (embedS (levelPen T s.k s.drop 0).1 none (levelPen T s.k s.drop 0).2 c).2).1,
            fun i j => (embedS (adjustDrop (tile (n - 1) s.k T) d s.k).1
              (some (embedS (levelPen T s.k s.drop 0).1 none (levelPen T s.k s.drop 0).2 c).1)
              (s.k * (n - 1) - (adjustDrop (tile (n - 1) s.k T) d s.k).2)
              (embedS (levelPen T s.k s.drop 0).1 none (levelPen T s.k s.drop 0).2 c).2).1 (c + i) (c + j),
            (embedS (adjustDrop (tile (n - 1) s.k T) d s.k).1
              (some (embedS (levelPen T s.k s.drop 0).1 none (levelPen T s.k s.drop 0).2 c).1)
              (s.k * (n - 1) - (adjustDrop (tile (n - 1) s.k T) d s.k).2)
              (embedS (levelPen T s.k s.drop 0).1 none (levelPen T s.k s.drop 0).2 c).2).2 - c, 1⟩],
            (embedS (adjustDrop (tile (n - 1) s.k T) d s.k).1
              (some (embedS (levelPen T s.k s.drop 0).1 none (levelPen T s.k s.drop 0).2 c).1)
              (s.k * (n - 1) - (adjustDrop (tile (n - 1) s.k T) d s.k).2)
              (embedS (levelPen T s.k s.drop 0).1 none (levelPen T s.k s.drop 0).2 c).2).2) := by
          unfold buildPen
          rw [hl]
          simp only [hid, if_true, hd]
        rw [hb]
        refine ⟨List.Forall₂.cons ⟨rfl, rfl, by rw [hn]; exact hi.1⟩ List.Forall₂.nil, hi.2, fun _ => ⟨_, rfl, ?_, ?_⟩, ?_⟩
        · have := hi.2
          simp only
          omega
        · exact Nat.one_pos
        · simp
    | false =>
      have hnp : 0 < n := h.lev n hl
      have hL := levels_loop h hT ti c (n - 1) (by omega)
      have hn1 : n - 1 + 1 = n := by omega
      rw [hn1] at hL
      have hb : buildPen ti s T c = (List.range (n - 1)).foldl (levelStep ti s T)
          ([⟨ti, false, c, (embedS (levelPen T s.k s.drop 0).1 none (levelPen T s.k s.drop 0).2 c).1,
            embedSj (levelPen T s.k s.drop 0).1 none, (levelPen T s.k s.drop 0).2, 1⟩],
            (embedS (levelPen T s.k s.drop 0).1 none (levelPen T s.k s.drop 0).2 c).2) := by
        unfold buildPen
        rw [hl]
        simp only [hid, Bool.false_eq_true, if_false]
      rw [hb]
      refine ⟨?_, ?_, by simp, fun _ _ => by rw [hn]; exact hL.2.2⟩
      · unfold penVals
        rw [if_neg (by simp [hl, hid]), hn]
        exact hL.1
      · rw [hL.2.1, nCoef_eq h, hn, mul_comm]

/-! ### `S_J` of the penalties -/

/-- Whether the by-levels are handled with one matrix for all of them. -/
def kindK (s : Sm) : Bool := s.drop.isNone && s.levels.isSome

/-- The matrices `S_j_last` is made of: number of columns and quadratic form for penalty `T`, in the coordinates of the
matrix. -/
noncomputable def srcSpec (s : Sm) : List (ℕ × (Trip → (ℕ → ℝ) → ℝ)) :=
  if kindK s then [(s.k, fun T δ => quad s.k (coo T) δ)]
  else if perLevel s then (List.range (nLev s)).map fun l =>
    (newPos (dropped s) (l * s.k) s.k, fun T δ => quad s.k (coo T) fun i =>
      if i + l * s.k ∈ dropped s then 0 else δ (newPos (dropped s) (l * s.k) i))
  else [(nCoef s, fun T δ => ∑ l ∈ range (nLev s), penVal s 0 T l δ)]

/-- Number of penalties whose `S_J` is used. -/
def nSrc (s : Sm) : ℕ := if perLevel s then nLev s else 1

theorem lastPens_append (ps b : List Pn) (m : ℕ) (h : m ≤ b.length) : lastPens m (ps ++ b) = lastPens m b := by
  unfold lastPens
  rw [List.length_append, show ps.length + b.length - m = ps.length + (b.length - m) by omega, List.drop_append]
  simp

theorem lastPens_all (b : List Pn) : lastPens b.length b = b.map fun p => (p.SJ, p.k) := by
  simp [lastPens]

theorem lastPens_one (b : List Pn) (p : Pn) : lastPens 1 (b ++ [p]) = [(p.SJ, p.k)] := by
  simp [lastPens]

theorem level_sj {s : Sm} (h : SmOK s) {T : Trip} (hT : T ∈ s.T) (l : ℕ) (δ : ℕ → ℝ) :
    quad (levelPen T s.k s.drop (l * s.k)).2 (embedSj (levelPen T s.k s.drop (l * s.k)).1 none) δ
      = quad s.k (coo T) fun i => if i + l * s.k ∈ dropped s then 0 else δ (newPos (dropped s) (l * s.k) i) := by
  obtain ⟨h1, h2, h3, _⟩ := level_spec h hT 0 l
  unfold embedSj
  rw [h1, quad_coo _ _ h2, h3, quad_coo _ _ (h.rng T hT)]

theorem levels_sj {s : Sm} (h : SmOK s) {T : Trip} (hT : T ∈ s.T) (ti c : ℕ) (m : ℕ) :
    let a := levelPen T s.k s.drop 0
    let E := embedS a.1 none a.2 c
    let r := (List.range m).foldl (levelStep ti s T) ([⟨ti, false, c, E.1, embedSj a.1 none, a.2, 1⟩], E.2)
    List.Forall₂ (fun (a : Arr × ℕ) (q : ℕ × (Trip → (ℕ → ℝ) → ℝ)) => a.2 = q.1 ∧ ∀ δ, quad a.2 a.1 δ = q.2 T δ)
      (r.1.map fun p => (p.SJ, p.k)) ((List.range (m + 1)).map fun l =>
        (newPos (dropped s) (l * s.k) s.k, fun T δ => quad s.k (coo T) fun i =>
          if i + l * s.k ∈ dropped s then 0 else δ (newPos (dropped s) (l * s.k) i))) := by
  intro a E r
  induction m with
  | zero =>
    have hs := (level_spec h hT c 0).1
    have hj := fun δ => level_sj h hT 0 δ
    simp only [Nat.zero_mul, Nat.add_zero] at hs hj
    simp only [r, List.range_zero, List.foldl_nil, List.map_cons, List.map_nil, List.range_succ, List.nil_append,
      Nat.zero_mul, Nat.add_zero]
    exact List.Forall₂.cons ⟨hs, hj⟩ List.Forall₂.nil
  | succ m ih =>
    have hr : r = levelStep ti s T ((List.range m).foldl (levelStep ti s T)
        ([⟨ti, false, c, E.1, embedSj a.1 none, a.2, 1⟩], E.2)) m := by
      simp only [r, List.range_succ, List.foldl_append, List.foldl_cons, List.foldl_nil]
    have hs := (level_spec h hT c (m + 1)).1
    have hj := fun δ => level_sj h hT (m + 1) δ
    rw [hr, levelStep_eq, List.map_append, List.range_succ (n := m + 1), List.map_append]
    exact List.rel_append ih (List.Forall₂.cons ⟨hs, hj⟩ List.Forall₂.nil)

theorem buildPen_length {s : Sm} (h : SmOK s) {T : Trip} (hT : T ∈ s.T) (ti c : ℕ) :
    (buildPen ti s T c).1.length = if s.levels = none ∨ s.hasId = true then 1 else nLev s := by
  rw [(buildPen_spec h hT ti c).1.length_eq]
  unfold penVals
  by_cases hc : s.levels = none ∨ s.hasId = true
  · rw [if_pos hc, if_pos hc]; rfl
  · rw [if_neg hc, if_neg hc]; simp

theorem nSrc_le {s : Sm} (h : SmOK s) {T : Trip} (hT : T ∈ s.T) (ti c : ℕ) : nSrc s ≤ (buildPen ti s T c).1.length := by
  rw [buildPen_length h hT]
  have := h.lev_pos
  unfold nSrc perLevel
  cases hl : s.levels <;> cases hi : s.hasId <;> cases hd : s.drop <;> simp <;> omega

/-- `S_j_last` for one penalty. -/
theorem buildPen_sj {s : Sm} (h : SmOK s) {T : Trip} (hT : T ∈ s.T) (ti c : ℕ) :
    List.Forall₂ (fun (a : Arr × ℕ) (q : ℕ × (Trip → (ℕ → ℝ) → ℝ)) => a.2 = q.1 ∧ ∀ δ, quad a.2 a.1 δ = q.2 T δ)
      (lastPens (nSrc s) (buildPen ti s T c).1) (srcSpec s) := by
  have h00 : newPos (dropped s) 0 0 = 0 := by simp [newPos]
  cases hl : s.levels with
  | none =>
    have hn : nLev s = 1 := by simp [nLev, hl]
    have hs := (level_spec h hT c 0).1
    have hj := fun δ => level_sj h hT 0 δ
    simp only [Nat.zero_mul, Nat.add_zero] at hs hj
    have hnc : nCoef s = newPos (dropped s) 0 s.k := by rw [nCoef_eq h, hn, Nat.mul_one]
    have hb : (buildPen ti s T c).1 = [] ++ [⟨ti, false, c, (embedS (levelPen T s.k s.drop 0).1 none (levelPen T s.k s.drop 0).2 c).1,
        embedSj (levelPen T s.k s.drop 0).1 none, (levelPen T s.k s.drop 0).2, 1⟩] := by
      unfold buildPen
      rw [hl]
      rfl
    have hp : perLevel s = false := by simp [perLevel, hl]
    have hk : kindK s = false := by simp [kindK, hl]
    rw [hb, show nSrc s = 1 by simp [nSrc, hp], lastPens_one]
    unfold srcSpec
    rw [if_neg (by simp [hk]), if_neg (by simp [hp])]
    refine List.Forall₂.cons ⟨by rw [hnc]; exact hs, fun δ => ?_⟩ List.Forall₂.nil
    rw [hj δ]
    show _ = ∑ l ∈ range (nLev s), penVal s 0 T l δ
    rw [hn, Finset.sum_range_one]
    unfold penVal full
    simp
  | some n =>
    have hn : nLev s = n := by simp [nLev, hl]
    have hnp := h.lev n hl
    cases hd : s.drop with
    | none =>
      have hdr : dropped s = [] := by simp [dropped, hd]
      have hp : perLevel s = false := by simp [perLevel, hd]
      have hk : kindK s = true := by simp [kindK, hl, hd]
      rw [show nSrc s = 1 by simp [nSrc, hp]]
      unfold srcSpec
      rw [if_pos hk]
      cases hid : s.hasId with
      | true =>
        have hb : ∃ S : Arr, (buildPen ti s T c).1 = [] ++ [⟨ti, false, c, S, embedSj T none, s.k, n⟩] := by
          unfold buildPen
          rw [hl]
          simp only [hid, if_true, hd]
          exact ⟨_, rfl⟩
        obtain ⟨S, hb⟩ := hb
        rw [hb, lastPens_one]
        exact List.Forall₂.cons ⟨rfl, fun δ => rfl⟩ List.Forall₂.nil
      | false =>
        have hL := levels_sj h hT ti c (n - 1)
        have hn1 : n - 1 + 1 = n := by omega
        have hb : (buildPen ti s T c).1 = ((List.range (n - 1)).foldl (levelStep ti s T)
            ([⟨ti, false, c, (embedS (levelPen T s.k s.drop 0).1 none (levelPen T s.k s.drop 0).2 c).1,
              embedSj (levelPen T s.k s.drop 0).1 none, (levelPen T s.k s.drop 0).2, 1⟩],
              (embedS (levelPen T s.k s.drop 0).1 none (levelPen T s.k s.drop 0).2 c).2)).1 := by
          unfold buildPen
          rw [hl]
          simp only [hid, Bool.false_eq_true, if_false]
        simp only at hL
        rw [← hb, List.range_succ, List.map_append, hdr] at hL
        simp only [newPos_nil, List.not_mem_nil, if_false, List.map_cons, List.map_nil] at hL
        -- last element
        have hlen : (buildPen ti s T c).1.length = n := by
          rw [buildPen_length h hT, if_neg (by simp [hl, hid]), hn]
        obtain ⟨b0, p, hbp⟩ : ∃ b0 p, (buildPen ti s T c).1 = b0 ++ [p] := by
          refine ⟨_, _, (List.dropLast_append_getLast (l := (buildPen ti s T c).1) ?_).symm⟩
          intro he
          rw [he] at hlen
          simp at hlen
          omega
        rw [hbp, lastPens_one]
        rw [hbp, List.map_append, List.map_cons, List.map_nil] at hL
        have hlen2 : (b0.map fun p : Pn => (p.SJ, p.k)).length
            = ((List.range (n - 1)).map fun _ => ((s.k, fun (T : Trip) (δ : ℕ → ℝ) => quad s.k (coo T) fun i => δ i)
              : ℕ × (Trip → (ℕ → ℝ) → ℝ))).length := by
          rw [hbp] at hlen
          simp at hlen ⊢
          omega
        have := List.forall₂_drop (b0.map fun p : Pn => (p.SJ, p.k)).length hL
        rw [List.drop_left, hlen2, List.drop_left] at this
        exact this
    | some d =>
      have hk : kindK s = false := by simp [kindK, hd]
      cases hid : s.hasId with
      | true =>
        have hp : perLevel s = false := by simp [perLevel, hid]
        have hdr : dropped s = d := by simp [dropped, hd]
        rw [show nSrc s = 1 by simp [nSrc, hp]]
        unfold srcSpec
        rw [if_neg (by simp [hk]), if_neg (by simp [hp])]
        have hi := id_spec h hT c
        rw [hdr] at hi
        simp only [hn] at hi
        set F := embedS (adjustDrop (tile (n - 1) s.k T) d s.k).1
              (some (embedS (levelPen T s.k s.drop 0).1 none (levelPen T s.k s.drop 0).2 c).1)
              (s.k * (n - 1) - (adjustDrop (tile (n - 1) s.k T) d s.k).2)
              (embedS (levelPen T s.k s.drop 0).1 none (levelPen T s.k s.drop 0).2 c).2
        have hb : (buildPen ti s T c).1 = [] ++ [⟨ti, false, c, F.1, fun i j => F.1 (c + i) (c + j), F.2 - c, 1⟩] := by
          unfold buildPen
          rw [hl]
          simp only [hid, if_true, hd]
          rw [List.nil_append]
          simp only [F, hd]
        rw [hb, lastPens_one]
        refine List.Forall₂.cons ⟨by have := hi.2; simp only; omega, fun δ => ?_⟩ List.Forall₂.nil
        have hw : F.2 - c = nCoef s := by have := hi.2; omega
        simp only
        rw [hw, hn]
        -- quadratic form of the slice
        have hq := hi.1.quad (c + nCoef s) le_rfl (fun x => if x < c then 0 else δ (x - c))
        have hs : quad (c + nCoef s) F.1 (fun x => if x < c then 0 else δ (x - c))
            = quad (nCoef s) (fun i j => F.1 (c + i) (c + j)) δ := by
          unfold quad
          rw [sum_block (c + nCoef s) c (nCoef s) le_rfl]
          · refine Finset.sum_congr rfl fun i _ => ?_
            rw [sum_block (c + nCoef s) c (nCoef s) le_rfl]
            · refine Finset.sum_congr rfl fun j _ => ?_
              simp
            · intro j _ hj
              dsimp only
              rw [if_pos (c := j < c) (by omega)]
              ring
          · intro i _ hi'
            refine Finset.sum_eq_zero fun j _ => ?_
            dsimp only
            rw [if_pos (c := i < c) (by omega)]
            ring
        rw [← hs, hq]
        refine Finset.sum_congr rfl fun l _ => ?_
        unfold penVal full
        congr 1
        funext i
        by_cases hm : l * s.k + i ∈ dropped s
        · rw [if_pos hm, if_pos hm]
        · rw [if_neg hm, if_neg hm]
          dsimp only
          rw [if_neg (by omega)]
          congr 1
          omega
      | false =>
        have hp : perLevel s = true := by simp [perLevel, hid, hd, hl]
        rw [show nSrc s = n by simp [nSrc, hp, hn]]
        unfold srcSpec
        rw [if_neg (by simp [hk]), if_pos hp, hn]
        have hL := levels_sj h hT ti c (n - 1)
        have hn1 : n - 1 + 1 = n := by omega
        rw [hn1] at hL
        have hb : (buildPen ti s T c).1 = ((List.range (n - 1)).foldl (levelStep ti s T)
            ([⟨ti, false, c, (embedS (levelPen T s.k s.drop 0).1 none (levelPen T s.k s.drop 0).2 c).1,
              embedSj (levelPen T s.k s.drop 0).1 none, (levelPen T s.k s.drop 0).2, 1⟩],
              (embedS (levelPen T s.k s.drop 0).1 none (levelPen T s.k s.drop 0).2 c).2)).1 := by
          unfold buildPen
          rw [hl]
          simp only [hid, Bool.false_eq_true, if_false]
        simp only at hL
        rw [← hb] at hL
        have hlen : (buildPen ti s T c).1.length = n := by
          rw [buildPen_length h hT, if_neg (by simp [hl, hid]), hn]
        have hall := lastPens_all (buildPen ti s T c).1
        rw [hlen] at hall
        rw [hall]
        exact hL

/-! ### Null-space penalties -/

/-- State after penalties `new` were added; the first column of the term is still `c`, the next free one `c + W`. -/
def After (ti : ℕ) (null : Bool) (c W : ℕ) (st r : St) (vs : List ((ℕ → ℝ) → ℝ)) : Prop :=
  ∃ new, r.ps = st.ps ++ new ∧ r.cur = c + W ∧ r.prev = c ∧ List.Forall₂ (IsPen ti null c W) new vs

theorem nullStep_one (ti c src m : ℕ) (hs : src ≤ 1) (hm : 0 < m) (st : St) (hp : st.prev = c) (N : Trip × ℕ)
    (hN : InRange N.2 N.1) :
    After ti true c (N.2 * m) st (nullStep ti src 1 m st N) [fun β => ∑ r ∈ range m, qT N.1 fun i => β (c + r * N.2 + i)] := by
  unfold nullStep
  simp only [hp]
  rw [if_neg (by omega), if_pos trivial]
  by_cases h1 : m > 1
  · rw [if_pos h1]
    refine ⟨_, rfl, ?_, rfl, List.Forall₂.cons ⟨rfl, rfl, ?_⟩ List.Forall₂.nil⟩
    · show c + N.2 + N.2 * (m - 1) = _
      obtain ⟨q, rfl⟩ : ∃ q, m = q + 1 := ⟨m - 1, by omega⟩
      rw [Nat.add_sub_cancel]
      ring
    · have hE := reads_embed hN c N.2
      have hF := reads_embed_some (inRange_tile hN (m - 1)) (c + N.2) (N.2 * (m - 1)) c N.2 _ _ hE (by omega)
      obtain ⟨q, rfl⟩ : ∃ q, m = q + 1 := ⟨m - 1, by omega⟩
      rw [Nat.add_sub_cancel] at hF ⊢
      have hw : max N.2 (c + N.2 + N.2 * q - c) = N.2 * (q + 1) := by rw [Nat.mul_succ]; omega
      rw [hw] at hF
      refine hF.congr fun β => ?_
      rw [qT_tile, Finset.sum_range_succ', add_comm]
      congr 1
      · refine Finset.sum_congr rfl fun r _ => ?_
        congr 1
        funext i
        congr 1
        ring
      · simp
  · have : m = 1 := by omega
    subst this
    rw [if_neg (by omega)]
    refine ⟨_, rfl, ?_, rfl, List.Forall₂.cons ⟨rfl, rfl, ?_⟩ List.Forall₂.nil⟩
    · show c + N.2 = _
      rw [Nat.mul_one]
    · rw [Nat.mul_one]
      refine (reads_embed hN c N.2).congr fun β => ?_
      rw [Finset.sum_range_one]
      simp

theorem nullMany_loop (ti c W : ℕ) (N : Trip × ℕ) (hN : InRange N.2 N.1) (ps : List Pn) (m : ℕ) (hW : N.2 * (m + 1) ≤ W) :
    ∃ new, (List.range m).foldl (fun (q : List Pn × ℕ) _ =>
        (q.1 ++ [(⟨ti, true, q.2, (embedS N.1 none N.2 q.2).1, embedSj N.1 none, N.2, 1⟩ : Pn)], (embedS N.1 none N.2 q.2).2))
      (ps ++ [⟨ti, true, c, (embedS N.1 none N.2 c).1, embedSj N.1 none, N.2, 1⟩], (embedS N.1 none N.2 c).2)
        = (ps ++ new, c + N.2 * (m + 1)) ∧
      List.Forall₂ (IsPen ti true c W) new ((List.range (m + 1)).map fun l β => qT N.1 fun i => β (c + l * N.2 + i)) := by
  induction m with
  | zero =>
    refine ⟨[⟨ti, true, c, (embedS N.1 none N.2 c).1, embedSj N.1 none, N.2, 1⟩], ?_, List.Forall₂.cons ⟨rfl, rfl, ?_⟩ List.Forall₂.nil⟩
    · rw [List.range_zero, List.foldl_nil, Nat.zero_add, Nat.mul_one]
      rfl
    refine ((reads_embed hN c N.2).congr fun β => ?_).mono le_rfl (by omega)
    simp
  | succ m ih =>
    have hm2 : N.2 * (m + 1 + 1) = N.2 * (m + 1) + N.2 := by ring
    obtain ⟨new, he, hf⟩ := ih (by omega)
    rw [List.range_succ, List.foldl_append, he]
    refine ⟨new ++ [⟨ti, true, c + N.2 * (m + 1), (embedS N.1 none N.2 (c + N.2 * (m + 1))).1, embedSj N.1 none, N.2, 1⟩],
      ?_, ?_⟩
    · simp only [List.foldl_cons, List.foldl_nil, List.append_assoc, Prod.mk.injEq, true_and]
      show c + N.2 * (m + 1) + N.2 = _
      omega
    · rw [List.range_succ (n := m + 1), List.map_append]
      refine List.rel_append hf (List.Forall₂.cons ⟨rfl, rfl, ?_⟩ List.Forall₂.nil)
      refine ((reads_embed hN (c + N.2 * (m + 1)) N.2).congr fun β => ?_).mono (by omega) (by omega)
      rw [Nat.mul_comm N.2]

theorem nullStep_many (ti c src m : ℕ) (hs : src ≤ 1) (hm : 0 < m) (st : St) (hp : st.prev = c) (N : Trip × ℕ)
    (hN : InRange N.2 N.1) :
    After ti true c (N.2 * m) st (nullStep ti src m 1 st N) ((List.range m).map fun l β => qT N.1 fun i => β (c + l * N.2 + i)) := by
  by_cases h1 : m = 1
  · subst h1
    obtain ⟨new, h1, h2, h3, h4⟩ := nullStep_one ti c src 1 hs Nat.one_pos st hp N hN
    refine ⟨new, h1, h2, h3, ?_⟩
    rw [show (List.range 1).map (fun l (β : ℕ → ℝ) => qT N.1 fun i => β (c + l * N.2 + i))
      = [fun β => ∑ r ∈ range 1, qT N.1 fun i => β (c + r * N.2 + i)] by simp]
    exact h4
  · obtain ⟨q, rfl⟩ : ∃ q, m = q + 1 := ⟨m - 1, by omega⟩
    obtain ⟨new, he, hf⟩ := nullMany_loop ti c (N.2 * (q + 1)) N hN st.ps q le_rfl
    have hst : nullStep ti src (q + 1) 1 st N = { st with ps := st.ps ++ new, cur := c + N.2 * (q + 1) } := by
      unfold nullStep
      simp only [hp]
      rw [if_neg (by omega), if_neg h1, Nat.add_sub_cancel, he]
    rw [hst]
    exact ⟨new, rfl, rfl, hp, hf⟩

/-- Several null-space penalties, all starting in the first column. -/
theorem nullFold (ti c W : ℕ) (f : St → Trip × ℕ → St) (vs : Trip × ℕ → List ((ℕ → ℝ) → ℝ)) (Ns : List (Trip × ℕ))
    (hf : ∀ st N, st.prev = c → N ∈ Ns → After ti true c W st (f st N) (vs N)) (st : St) (hp : st.prev = c)
    (hc : st.cur = c + W) : After ti true c W st (Ns.foldl f st) (Ns.flatMap vs) := by
  induction Ns generalizing st with
  | nil => exact ⟨[], by simp, hc, hp, List.Forall₂.nil⟩
  | cons N Ns ih =>
    obtain ⟨n1, a1, a2, a3, a4⟩ := hf st N hp (by simp)
    obtain ⟨n2, b1, b2, b3, b4⟩ := ih (fun st M h1 h2 => hf st M h1 (by simp [h2])) (f st N) a3 a2
    refine ⟨n1 ++ n2, ?_, b2, b3, ?_⟩
    · rw [List.foldl_cons, b1, a1, List.append_assoc]
    · rw [List.flatMap_cons]
      exact List.rel_append a4 b4

/-- One null-space penalty for each of several matrices: the ranges follow each other. -/
theorem nullSplit (ti c W src added lastRep : ℕ) (hs : 1 < src) (pos : ℕ → ℕ) (Ns : List (Trip × ℕ)) (o : ℕ)
    (hsz : ∀ j, (hj : j < Ns.length) → InRange (Ns[j]).2 (Ns[j]).1 ∧ pos (o + j) + (Ns[j]).2 = pos (o + j + 1))
    (hend : pos (o + Ns.length) ≤ W) (hmono : Monotone pos) (st : St) (hp : st.prev = c + pos o)
    (hcur : Ns = [] → st.cur = c + pos o) :
    ∃ new, (Ns.foldl (nullStep ti src added lastRep) st).ps = st.ps ++ new ∧
      (Ns.foldl (nullStep ti src added lastRep) st).cur = c + pos (o + Ns.length) ∧
      List.Forall₂ (IsPen ti true c W) new
        (Ns.mapIdx fun j N β => qT N.1 fun i => β (c + pos (o + j) + i)) := by
  induction Ns generalizing st o with
  | nil => exact ⟨[], by simp, hcur rfl, by simp⟩
  | cons N Ns ih =>
    obtain ⟨hN, hpo⟩ := hsz 0 (by simp)
    simp only [List.getElem_cons_zero, Nat.add_zero] at hN hpo
    set st1 : St := ⟨st.ps ++ [⟨ti, true, c + pos o, (embedS N.1 none N.2 (c + pos o)).1, embedSj N.1 none, N.2, 1⟩],
      c + pos (o + 1), c + pos (o + 1), st.acc, st.n⟩ with hst1
    have hst : nullStep ti src added lastRep st N = st1 := by
      unfold nullStep
      simp only [hp]
      rw [if_pos hs]
      have : (embedS N.1 none N.2 (c + pos o)).2 = c + pos (o + 1) := by
        show c + pos o + N.2 = _
        omega
      rw [this]
    have hlen : o + (N :: Ns).length = o + 1 + Ns.length := by simp; omega
    obtain ⟨new, b1, b2, b3⟩ := ih (o + 1) (fun j hj => by
        have := hsz (j + 1) (by simpa using hj)
        simp only [List.getElem_cons_succ] at this
        rw [show o + 1 + j = o + (j + 1) by omega]
        exact this) (by rw [← hlen]; exact hend) st1 rfl (fun _ => rfl)
    rw [List.foldl_cons, hst, hlen]
    refine ⟨⟨ti, true, c + pos o, (embedS N.1 none N.2 (c + pos o)).1, embedSj N.1 none, N.2, 1⟩ :: new, ?_, b2, ?_⟩
    · rw [b1, hst1]
      simp
    · rw [List.mapIdx_cons]
      refine List.Forall₂.cons ⟨rfl, rfl, ?_⟩ ?_
      · have h1 : pos (o + 1) ≤ W := le_trans (hmono (by simp)) hend
        exact (reads_embed hN (c + pos o) N.2).mono (by omega) (by omega)
      · convert b3 using 4 with j N'
        rw [show o + (j + 1) = o + 1 + j by omega]

theorem getLastD_append_of_ne {α : Type} (a b : List α) (d : α) (h : b ≠ []) : (a ++ b).getLastD d = b.getLastD d := by
  induction b using List.reverseRecOn with
  | nil => exact absurd rfl h
  | append_singleton b x _ => rw [← List.append_assoc]; simp [List.getLastD_concat]

/-- `rep_sj` of the last penalty. -/
theorem buildPen_rep {s : Sm} (h : SmOK s) {T : Trip} (hT : T ∈ s.T) (ti c : ℕ) (ps : List Pn) :
    ((ps ++ (buildPen ti s T c).1).map (·.rep)).getLastD 1 = if kindK s && s.hasId then nLev s else 1 := by
  have hne : ((buildPen ti s T c).1.map (·.rep)) ≠ [] := by
    intro he
    have hl := buildPen_length h hT ti c
    rw [List.map_eq_nil_iff.1 he] at hl
    have := h.lev_pos
    split_ifs at hl <;> simp at hl
    omega
  rw [List.map_append, getLastD_append_of_ne _ _ _ hne]
  cases hl : s.levels with
  | none =>
    rw [if_neg (by simp [kindK, hl])]
    unfold buildPen
    rw [hl]
    rfl
  | some n =>
    have hn : nLev s = n := by simp [nLev, hl]
    cases hid : s.hasId with
    | true =>
      cases hd : s.drop with
      | none =>
        rw [if_pos (by simp [kindK, hl, hd]), hn]
        unfold buildPen
        rw [hl]
        simp [hid, hd]
      | some d =>
        rw [if_neg (by simp [kindK, hd])]
        unfold buildPen
        rw [hl]
        simp [hid, hd]
    | false =>
      rw [if_neg (by simp)]
      have h4 := (buildPen_spec h hT ti c).2.2.2 (by simp [hl]) hid
      have h5 : (buildPen ti s T c).1.map (·.rep) = (List.range (nLev s)).map fun _ => 1 := by
        have := congrArg (List.map fun x : ℕ × ℕ × ℕ => x.2.2) h4
        rw [List.map_map, List.map_map] at this
        exact this
      rw [h5]
      obtain ⟨q, hq⟩ : ∃ q, nLev s = q + 1 := ⟨nLev s - 1, by have := h.lev_pos; omega⟩
      rw [hq, List.range_succ, List.map_append]
      simp [List.getLastD_concat]

/-- The quadratic forms of null-space penalties `Ns` of a smooth: of the coefficients of each level in turn if there is
one matrix per level, else of all coefficients; with one matrix for all levels, summed over levels if there is an id. -/
noncomputable def nullVals (s : Sm) (c : ℕ) (Ns : List (Trip × ℕ)) : List ((ℕ → ℝ) → ℝ) :=
  if perLevel s then Ns.mapIdx fun l N β => qT N.1 fun i => β (c + newPos (dropped s) 0 (l * s.k) + i)
  else if kindK s then
    if s.hasId then Ns.flatMap fun N => [fun β => ∑ l ∈ range (nLev s), qT N.1 fun i => β (c + l * s.k + i)]
    else Ns.flatMap fun N => (List.range (nLev s)).map fun l β => qT N.1 fun i => β (c + l * s.k + i)
  else Ns.flatMap fun N => [fun β => qT N.1 fun i => β (c + i)]

theorem nCoef_kind {s : Sm} (hk : kindK s = true) : nCoef s = s.k * nLev s := by
  have : s.drop = none := by
    unfold kindK at hk
    cases hd : s.drop with
    | none => rfl
    | some d => simp [hd] at hk
  simp [nCoef, this]

theorem srcSpec_length {s : Sm} (h : SmOK s) : (srcSpec s).length = nSrc s := by
  unfold srcSpec nSrc
  by_cases hk : kindK s = true
  · have hp : perLevel s = false := by
      unfold kindK at hk
      unfold perLevel
      cases hd : s.drop <;> simp_all
    rw [if_pos hk, hp]
    rfl
  · rw [if_neg hk]
    by_cases hp : perLevel s = true
    · rw [if_pos hp, if_pos hp]
      simp
    · rw [if_neg hp, if_neg hp]
      rfl

/-- What the null-space penalties of a smooth with penalties made of `src` are. -/
theorem addNull_spec {s : Sm} (h : SmOK s) (nul : Arr → ℕ → Trip) (hnul : ∀ A w, InRange w (nul A w))
    (hrp : s.rp1 = none ∨ perLevel s = false) (ti c : ℕ) (src : List (Arr × ℕ))
    (hsrc : src.map (·.2) = (srcSpec s).map (·.1)) (st : St) (hp : st.prev = c) (hc : st.cur = c + nCoef s)
    (hrep : (st.ps.map (·.rep)).getLastD 1 = if kindK s && s.hasId then nLev s else 1) :
    let r := addNull nul ti s src (if s.levels = none ∨ s.hasId = true then 1 else nLev s) st
    ∃ new, r.ps = st.ps ++ new ∧ r.cur = c + nCoef s ∧ (perLevel s = false → r.prev = c) ∧
      List.Forall₂ (IsPen ti true c (nCoef s)) new (nullVals s c (nullPens nul s src)) := by
  intro r
  have hlen : src.length = nSrc s := by
    have := congrArg List.length hsrc
    simp only [List.length_map] at this
    rw [this, srcSpec_length h]
  have hlp := h.lev_pos
  by_cases hpl : perLevel s = true
  · -- one matrix for each level
    have hk : kindK s = false := by
      unfold perLevel at hpl
      unfold kindK
      cases hd : s.drop <;> simp_all
    have hid : s.hasId = false := by
      unfold perLevel at hpl
      cases hd : s.hasId <;> simp_all
    have hrp1 : s.rp1 = none := by
      rcases hrp with h1 | h1
      · exact h1
      · rw [hpl] at h1; cases h1
    have hss : (srcSpec s).map (·.1) = (List.range (nLev s)).map fun l => newPos (dropped s) (l * s.k) s.k := by
      unfold srcSpec
      rw [if_neg (by simp [hk]), if_pos hpl, List.map_map]
      rfl
    have hns : nSrc s = nLev s := by simp [nSrc, hpl]
    have hNs : nullPens nul s src = src.map fun a => (nul a.1 a.2, a.2) := by
      unfold nullPens
      rw [hrp1]
    have hsize : ∀ j, (hj : j < src.length) → (src[j]).2 = newPos (dropped s) (j * s.k) s.k := by
      intro j hj
      have h1 : (src.map (·.2))[j]? = ((srcSpec s).map (·.1))[j]? := by rw [hsrc]
      rw [hss, List.getElem?_map, List.getElem?_map, List.getElem?_eq_getElem hj,
        List.getElem?_eq_getElem (by rw [List.length_range]; omega)] at h1
      simpa using h1
    have hmn : Monotone fun l => newPos (dropped s) 0 (l * s.k) := fun a b hab =>
      newPos_mono _ _ (Nat.mul_le_mul_right _ hab)
    by_cases h1 : 1 < nLev s
    · have := nullSplit ti c (nCoef s) src.length (if s.levels = none ∨ s.hasId = true then 1 else nLev s)
        (if src.length = 1 then (st.ps.map (·.rep)).getLastD 1 else 1) (by omega)
        (fun l => newPos (dropped s) 0 (l * s.k)) (nullPens nul s src) 0 ?_ ?_ hmn st ?_ ?_
      · obtain ⟨new, a1, a2, a3⟩ := this
        refine ⟨new, a1, ?_, fun hh => (by rw [hpl] at hh; cases hh), ?_⟩
        · show (List.foldl _ st (nullPens nul s src)).cur = _
          rw [a2, hNs, List.length_map, Nat.zero_add, hlen, hns, nCoef_eq h, Nat.mul_comm]
        · unfold nullVals
          rw [if_pos hpl]
          simpa using a3
      · intro j hj
        rw [hNs, List.length_map] at hj
        simp only [hNs, List.getElem_map, Nat.zero_add]
        refine ⟨hnul _ _, ?_⟩
        rw [hsize j hj, level_end]
      · rw [hNs, List.length_map, Nat.zero_add, hlen, hns, nCoef_eq h, Nat.mul_comm]
      · rw [hp]; simp [newPos]
      · intro he
        rw [hNs, List.map_eq_nil_iff] at he
        rw [he] at hlen
        simp at hlen
        omega
    · have h1 : nLev s = 1 := by omega
      have hl1 : src.length = 1 := by omega
      obtain ⟨a, ha⟩ := List.length_eq_one_iff.1 hl1
      have hlv : s.levels ≠ none := by
        unfold perLevel at hpl
        cases hd : s.levels <;> simp_all
      have hsz := hsize 0 (by omega)
      simp only [ha, List.getElem_cons_zero, Nat.zero_mul] at hsz
      have hw : a.2 = nCoef s := by rw [nCoef_eq h, h1, Nat.mul_one]; exact hsz
      have hr : r = nullStep ti 1 1 1 st (nul a.1 a.2, a.2) := by
        show addNull nul ti s src (if s.levels = none ∨ s.hasId = true then 1 else nLev s) st = _
        unfold addNull
        rw [hNs, ha, hrep]
        simp [hlv, hid, h1]
      obtain ⟨new, a1, a2, a3, a4⟩ := nullStep_one ti c 1 1 le_rfl Nat.one_pos st hp (nul a.1 a.2, a.2) (hnul _ _)
      rw [hr]
      refine ⟨new, a1, ?_, fun _ => a3, ?_⟩
      · rw [a2]
        show c + a.2 * 1 = _
        rw [hw, Nat.mul_one]
      · unfold nullVals
        rw [if_pos hpl, hNs, ha]
        simp only [Nat.mul_one] at a4
        rw [← hw]
        convert a4 using 2
        simp [newPos]
  · -- a single matrix
    have hpl : perLevel s = false := by simpa using hpl
    have hl1 : src.length = 1 := by rw [hlen]; simp [nSrc, hpl]
    obtain ⟨a, ha⟩ := List.length_eq_one_iff.1 hl1
    have hsz : ∀ N ∈ nullPens nul s src, N.2 = a.2 ∧ InRange N.2 N.1 := by
      intro N hN
      unfold nullPens at hN
      cases hr : s.rp1 with
      | none =>
        rw [hr, ha] at hN
        simp only [List.map_cons, List.map_nil, List.mem_singleton] at hN
        subst hN
        exact ⟨rfl, hnul _ _⟩
      | some q =>
        rw [hr, ha] at hN
        simp only [List.map_cons, List.map_nil, List.headD_cons, List.mem_map, List.mem_range] at hN
        obtain ⟨x, hx, rfl⟩ := hN
        refine ⟨rfl, ?_⟩
        intro t ht
        simp only [List.mem_singleton] at ht
        subst ht
        simp only
        omega
    by_cases hk : kindK s = true
    · have hs1 : a.2 = s.k := by
        rw [ha] at hsrc
        unfold srcSpec at hsrc
        rw [if_pos hk] at hsrc
        simpa using hsrc
      have hW := nCoef_kind hk
      have hlv : s.levels ≠ none := by
        unfold kindK at hk
        cases hd : s.levels <;> simp_all
      cases hid : s.hasId with
      | true =>
        have hr : r = (nullPens nul s src).foldl (nullStep ti 1 1 (nLev s)) st := by
          show addNull nul ti s src (if s.levels = none ∨ s.hasId = true then 1 else nLev s) st = _
          unfold addNull
          rw [hl1, hrep, hk, hid]
          simp
        have hF := nullFold ti c (nCoef s) (nullStep ti 1 1 (nLev s))
          (fun N => [fun β => ∑ l ∈ range (nLev s), qT N.1 fun i => β (c + l * s.k + i)]) (nullPens nul s src) ?_ st hp hc
        · obtain ⟨new, a1, a2, a3, a4⟩ := hF
          rw [hr]
          refine ⟨new, a1, a2, fun _ => a3, ?_⟩
          unfold nullVals
          rw [if_neg (by simp [hpl]), if_pos hk, if_pos hid]
          exact a4
        · intro st' N hp' hN
          obtain ⟨b1, b2⟩ := hsz N hN
          have := nullStep_one ti c 1 (nLev s) le_rfl hlp st' hp' N b2
          rw [b1, hs1, ← hW] at this
          exact this
      | false =>
        have hr : r = (nullPens nul s src).foldl (nullStep ti 1 (nLev s) 1) st := by
          show addNull nul ti s src (if s.levels = none ∨ s.hasId = true then 1 else nLev s) st = _
          unfold addNull
          rw [hl1, hrep, hk, hid]
          simp [hlv]
        have hF := nullFold ti c (nCoef s) (nullStep ti 1 (nLev s) 1)
          (fun N => (List.range (nLev s)).map fun l β => qT N.1 fun i => β (c + l * s.k + i)) (nullPens nul s src) ?_ st hp hc
        · obtain ⟨new, a1, a2, a3, a4⟩ := hF
          rw [hr]
          refine ⟨new, a1, a2, fun _ => a3, ?_⟩
          unfold nullVals
          rw [if_neg (by simp [hpl]), if_pos hk, if_neg (by simp [hid])]
          exact a4
        · intro st' N hp' hN
          obtain ⟨b1, b2⟩ := hsz N hN
          have := nullStep_many ti c 1 (nLev s) le_rfl hlp st' hp' N b2
          rw [b1, hs1, ← hW] at this
          exact this
    · have hk : kindK s = false := by simpa using hk
      have hs1 : a.2 = nCoef s := by
        rw [ha] at hsrc
        unfold srcSpec at hsrc
        rw [if_neg (by simp [hk]), if_neg (by simp [hpl])] at hsrc
        simpa using hsrc
      have hadd : (if s.levels = none ∨ s.hasId = true then 1 else nLev s) = 1 := by
        have : s.levels = none ∨ s.hasId = true := by
          unfold perLevel at hpl
          unfold kindK at hk
          cases hd : s.levels <;> cases he : s.hasId <;> cases hf : s.drop <;> simp_all
        rw [if_pos this]
      have hr : r = (nullPens nul s src).foldl (nullStep ti 1 1 1) st := by
        show addNull nul ti s src (if s.levels = none ∨ s.hasId = true then 1 else nLev s) st = _
        unfold addNull
        rw [hl1, hrep, hk, hadd]
        simp
      have hF := nullFold ti c (nCoef s) (nullStep ti 1 1 1) (fun N => [fun β => qT N.1 fun i => β (c + i)])
        (nullPens nul s src) ?_ st hp hc
      · obtain ⟨new, a1, a2, a3, a4⟩ := hF
        rw [hr]
        refine ⟨new, a1, a2, fun _ => a3, ?_⟩
        unfold nullVals
        rw [if_neg (by simp [hpl]), if_neg (by simp [hk])]
        exact a4
      · intro st' N hp' hN
        obtain ⟨b1, b2⟩ := hsz N hN
        have := nullStep_one ti c 1 1 le_rfl Nat.one_pos st' hp' N b2
        rw [b1, hs1, Nat.mul_one] at this
        convert this using 4
        simp

/-! ### A smooth term -/

/-- A penalty with its kind. -/
def IsKind (ti c w : ℕ) (p : Pn) (v : Bool × ((ℕ → ℝ) → ℝ)) : Prop := IsPen ti v.1 c w p v.2

theorem isKind_map {ti c w : ℕ} {b : Bool} {new : List Pn} {vs : List ((ℕ → ℝ) → ℝ)}
    (h : List.Forall₂ (IsPen ti b c w) new vs) : List.Forall₂ (IsKind ti c w) new (vs.map fun v => (b, v)) := by
  induction h with
  | nil => exact List.Forall₂.nil
  | cons h1 _ ih => exact List.Forall₂.cons h1 ih

/-- Matrices `src L` made of the penalties in `L`: their quadratic forms are sums of those of the penalties. -/
def SrcOK (s : Sm) (src : List Trip → List (Arr × ℕ)) : Prop :=
  ∀ L : List Trip, L ≠ [] → (∀ T ∈ L, T ∈ s.T) →
    List.Forall₂ (fun (a : Arr × ℕ) (q : ℕ × (Trip → (ℕ → ℝ) → ℝ)) =>
      a.2 = q.1 ∧ ∀ δ, quad a.2 a.1 δ = (L.map fun T => q.2 T δ).sum) (src L) (srcSpec s)

/-- All penalties of a smooth starting in column `c`, in order: the smoothing penalties, and if asked for the null-space
penalties, of a smooth of several variables for the sum of its penalties, else for each penalty. -/
noncomputable def smVals (nul : Arr → ℕ → Trip) (s : Sm) (c : ℕ) (src : List Trip → List (Arr × ℕ)) :
    List (Bool × ((ℕ → ℝ) → ℝ)) :=
  if s.null = false then s.T.flatMap fun T => (penVals s c T).map fun v => (false, v)
  else if s.nVars > 1 then (s.T.flatMap fun T => (penVals s c T).map fun v => (false, v))
    ++ (nullVals s c (nullPens nul s (src s.T))).map fun v => (true, v)
  else s.T.flatMap fun T => ((penVals s c T).map fun v => (false, v))
    ++ (nullVals s c (nullPens nul s (src [T]))).map fun v => (true, v)

/-- Null-space penalties are for one matrix: not for a univariate smooth with dropped coefficients and one penalty per
level; smooths of several variables have one penalty per variable and none of type `REPARAM1`. -/
structure NullOK (s : Sm) : Prop where
  uni : s.null = true → s.nVars ≤ 1 → perLevel s = false
  multi : s.null = true → 1 < s.nVars → s.T.length = s.nVars ∧ s.rp1 = none

def srcOf (ti : ℕ) (s : Sm) (c : ℕ) : List Trip → List (Arr × ℕ)
  | [] => []
  | T :: L => L.foldl (fun acc T => addAcc acc (lastPens (nSrc s) (buildPen ti s T c).1)) (lastPens (nSrc s) (buildPen ti s T c).1)

theorem addAcc_spec (q : List (ℕ × (Trip → (ℕ → ℝ) → ℝ))) (a b : List (Arr × ℕ)) (f g : (ℕ × (Trip → (ℕ → ℝ) → ℝ)) → (ℕ → ℝ) → ℝ)
    (ha : List.Forall₂ (fun (a : Arr × ℕ) q => a.2 = q.1 ∧ ∀ δ, quad a.2 a.1 δ = f q δ) a q)
    (hb : List.Forall₂ (fun (a : Arr × ℕ) q => a.2 = q.1 ∧ ∀ δ, quad a.2 a.1 δ = g q δ) b q) :
    List.Forall₂ (fun (a : Arr × ℕ) q => a.2 = q.1 ∧ ∀ δ, quad a.2 a.1 δ = f q δ + g q δ) (addAcc a b) q := by
  induction ha generalizing b with
  | nil =>
    cases hb
    exact List.Forall₂.nil
  | cons h1 _ ih =>
    cases hb with
    | cons h2 h3 =>
      refine List.Forall₂.cons ⟨h2.1, fun δ => ?_⟩ (ih _ h3)
      rw [← h1.2 δ, ← h2.2 δ]
      dsimp only
      rw [quad_add, h1.1, h2.1]

theorem srcOf_ok {s : Sm} (h : SmOK s) (ti c : ℕ) : SrcOK s (srcOf ti s c) := by
  intro L hL hT
  induction L using List.reverseRecOn with
  | nil => exact absurd rfl hL
  | append_singleton L T ih =>
    have hj := buildPen_sj h (hT T (by simp)) ti c
    cases L with
    | nil =>
      refine hj.imp fun a q hh => ⟨hh.1, fun δ => ?_⟩
      rw [hh.2 δ]
      simp
    | cons T0 L =>
      have i := ih (by simp) (fun T' hT' => hT T' (List.mem_append.2 (Or.inl hT')))
      have hs : srcOf ti s c ((T0 :: L) ++ [T])
          = addAcc (srcOf ti s c (T0 :: L)) (lastPens (nSrc s) (buildPen ti s T c).1) := by
        simp [srcOf, List.foldl_append]
      rw [hs]
      refine (addAcc_spec _ _ _ (fun q δ => ((T0 :: L).map fun T => q.2 T δ).sum) (fun q δ => q.2 T δ) i hj).imp
        fun a q hh => ⟨hh.1, fun δ => ?_⟩
      rw [hh.2 δ]
      simp [add_assoc]

theorem take_succ_getD (L : List Trip) (m : ℕ) (hm : m < L.length) : L.take (m + 1) = L.take m ++ [L.getD m []] := by
  rw [List.take_add_one, List.getElem?_eq_getElem hm]
  simp [List.getD, List.getElem?_eq_getElem hm]

theorem getD_mem' (L : List Trip) (m : ℕ) (hm : m < L.length) : L.getD m [] ∈ L := by
  simp [List.getD, List.getElem?_eq_getElem hm]

theorem pen_cur (m : ℕ) (c c' : ℕ) (st : St) (hp : st.prev = c) (hc : st.cur = if m = 0 then c else c') :
    (if m > 0 then st.prev else st.cur) = c := by
  by_cases hm : m > 0
  · rw [if_pos hm, hp]
  · rw [if_neg hm, hc, if_pos (by omega)]

/-- Without null-space penalties. -/
theorem pens_plain {s : Sm} (h : SmOK s) (nul : Arr → ℕ → Trip) (ti c : ℕ) (ps : List Pn) (hnull : s.null = false)
    (m : ℕ) (hm : m ≤ s.T.length) :
    let r := (List.range m).foldl (penStep nul ti s) ⟨ps, c, c, [], 0⟩
    r.prev = c ∧ (r.cur = if m = 0 then c else c + nCoef s) ∧ ∃ new, r.ps = ps ++ new ∧
      List.Forall₂ (IsKind ti c (nCoef s)) new ((s.T.take m).flatMap fun T => (penVals s c T).map fun v => (false, v)) := by
  induction m with
  | zero => exact ⟨rfl, rfl, [], by simp, by simp⟩
  | succ m ih =>
    obtain ⟨i1, i2, new, i3, i4⟩ := ih (by omega)
    set r0 := (List.range m).foldl (penStep nul ti s) ⟨ps, c, c, [], 0⟩ with hr0
    have hb := buildPen_spec h (getD_mem' s.T m (by omega)) ti c
    have hst : (List.range (m + 1)).foldl (penStep nul ti s) ⟨ps, c, c, [], 0⟩
        = { r0 with ps := r0.ps ++ (buildPen ti s (s.T.getD m []) c).1, cur := (buildPen ti s (s.T.getD m []) c).2 } := by
      rw [List.range_succ, List.foldl_append, ← hr0]
      show penStep nul ti s r0 m = _
      unfold penStep
      rw [pen_cur m c _ r0 i1 i2]
      simp only [hnull, if_true]
    rw [hst]
    refine ⟨i1, by rw [if_neg (by omega)]; exact hb.2.1, new ++ (buildPen ti s (s.T.getD m []) c).1, ?_, ?_⟩
    · dsimp only
      rw [i3, List.append_assoc]
    · rw [take_succ_getD _ _ (by omega), List.flatMap_append]
      refine List.rel_append i4 ?_
      simp only [List.flatMap_cons, List.flatMap_nil, List.append_nil]
      exact isKind_map hb.1

theorem src_sizes {s : Sm} {src : List Trip → List (Arr × ℕ)} (hs : SrcOK s src) (L : List Trip) (hL : L ≠ [])
    (hT : ∀ T ∈ L, T ∈ s.T) : (src L).map (·.2) = (srcSpec s).map (·.1) := by
  have := hs L hL hT
  clear hs
  generalize src L = a at this ⊢
  generalize srcSpec s = b at this ⊢
  induction this with
  | nil => rfl
  | cons h1 _ ih => simp [h1.1, ih]

/-- With null-space penalties, one variable. -/
theorem pens_uni {s : Sm} (h : SmOK s) (nul : Arr → ℕ → Trip) (hnul : ∀ A w, InRange w (nul A w)) (ti c : ℕ)
    (ps : List Pn) (hnull : s.null = true) (hv : s.nVars ≤ 1) (hpl : perLevel s = false) (m : ℕ) (hm : m ≤ s.T.length) :
    let r := (List.range m).foldl (penStep nul ti s) ⟨ps, c, c, [], 0⟩
    r.prev = c ∧ (r.cur = if m = 0 then c else c + nCoef s) ∧ ∃ new, r.ps = ps ++ new ∧
      List.Forall₂ (IsKind ti c (nCoef s)) new ((s.T.take m).flatMap fun T => ((penVals s c T).map fun v => (false, v))
        ++ (nullVals s c (nullPens nul s (srcOf ti s c [T]))).map fun v => (true, v)) := by
  induction m with
  | zero => exact ⟨rfl, rfl, [], by simp, by simp⟩
  | succ m ih =>
    obtain ⟨i1, i2, new, i3, i4⟩ := ih (by omega)
    set r0 := (List.range m).foldl (penStep nul ti s) ⟨ps, c, c, [], 0⟩ with hr0
    have hTm := getD_mem' s.T m (by omega)
    set T := s.T.getD m [] with hTd
    have hb := buildPen_spec h hTm ti c
    have hns : nSrc s = 1 := by simp [nSrc, hpl]
    have hle := nSrc_le h hTm ti c
    set st1 : St := ⟨r0.ps ++ (buildPen ti s T c).1, (buildPen ti s T c).2, r0.prev, r0.acc, r0.n⟩ with hst1
    have hst : (List.range (m + 1)).foldl (penStep nul ti s) ⟨ps, c, c, [], 0⟩
        = addNull nul ti s (srcOf ti s c [T]) (if s.levels = none ∨ s.hasId = true then 1 else nLev s) st1 := by
      rw [List.range_succ, List.foldl_append, ← hr0]
      show penStep nul ti s r0 m = _
      unfold penStep
      rw [pen_cur m c _ r0 i1 i2]
      simp only [hnull, Bool.true_eq_false, if_false]
      rw [if_neg (by omega), ← buildPen_length h hTm ti c]
      rw [show srcOf ti s c [T] = lastPens 1 (buildPen ti s T c).1 by simp [srcOf, hns],
        lastPens_append _ _ _ (by rw [← hns]; exact hle)]
    obtain ⟨new2, a1, a2, a3, a4⟩ := addNull_spec h nul hnul (Or.inr hpl) ti c (srcOf ti s c [T])
      (src_sizes (srcOf_ok h ti c) [T] (by simp) (by simpa using hTm)) st1 i1 hb.2.1 (buildPen_rep h hTm ti c _)
    rw [hst]
    refine ⟨a3 hpl, by rw [if_neg (Nat.succ_ne_zero m)]; exact a2, new ++ ((buildPen ti s T c).1 ++ new2), ?_, ?_⟩
    · rw [a1, hst1]
      dsimp only
      rw [i3]
      simp
    · rw [take_succ_getD _ _ (by omega), List.flatMap_append]
      refine List.rel_append i4 ?_
      simp only [List.flatMap_cons, List.flatMap_nil, List.append_nil]
      exact List.rel_append (isKind_map hb.1) (isKind_map a4)

/-- Several variables: the loop before the last penalty. -/
theorem pens_multi_loop {s : Sm} (h : SmOK s) (nul : Arr → ℕ → Trip) (ti c : ℕ)
    (ps : List Pn) (hnull : s.null = true) (hv : 1 < s.nVars) (m : ℕ) (hm : m < s.T.length) :
    let r := (List.range m).foldl (penStep nul ti s) ⟨ps, c, c, [], 0⟩
    r.prev = c ∧ (r.cur = if m = 0 then c else c + nCoef s) ∧ r.acc = srcOf ti s c (s.T.take m) ∧
      r.n = m * (if s.levels = none ∨ s.hasId = true then 1 else nLev s) ∧ ∃ new, r.ps = ps ++ new ∧
      List.Forall₂ (IsKind ti c (nCoef s)) new ((s.T.take m).flatMap fun T => (penVals s c T).map fun v => (false, v)) := by
  induction m with
  | zero => exact ⟨rfl, rfl, rfl, by simp, [], by simp, by simp⟩
  | succ m ih =>
    obtain ⟨i1, i2, i5, i6, new, i3, i4⟩ := ih (by omega)
    set r0 := (List.range m).foldl (penStep nul ti s) ⟨ps, c, c, [], 0⟩ with hr0
    have hTm := getD_mem' s.T m (by omega)
    set T := s.T.getD m [] with hTd
    have hb := buildPen_spec h hTm ti c
    have hle := nSrc_le h hTm ti c
    have hnew : (if perLevel s then lastPens (s.levels.getD 1) (r0.ps ++ (buildPen ti s T c).1)
        else lastPens 1 (r0.ps ++ (buildPen ti s T c).1)) = lastPens (nSrc s) (buildPen ti s T c).1 := by
      rw [← lastPens_append r0.ps _ _ hle]
      unfold nSrc
      by_cases hpl : perLevel s = true
      · rw [if_pos hpl, if_pos hpl]
      · rw [if_neg hpl, if_neg hpl]
    have hacc : (if m = 0 then lastPens (nSrc s) (buildPen ti s T c).1
        else addAcc r0.acc (lastPens (nSrc s) (buildPen ti s T c).1)) = srcOf ti s c (s.T.take (m + 1)) := by
      rw [take_succ_getD _ _ (by omega), ← hTd]
      by_cases h0 : m = 0
      · rw [if_pos h0, h0]
        simp [srcOf]
      · rw [if_neg h0, i5]
        obtain ⟨T0, L, hTL⟩ : ∃ T0 L, s.T.take m = T0 :: L := by
          cases hh : s.T.take m with
          | nil =>
            have := congrArg List.length hh
            rw [List.length_take, List.length_nil] at this
            omega
          | cons T0 L => exact ⟨T0, L, rfl⟩
        rw [hTL]
        simp [srcOf, List.foldl_append]
    have hst : (List.range (m + 1)).foldl (penStep nul ti s) ⟨ps, c, c, [], 0⟩
        = ⟨r0.ps ++ (buildPen ti s T c).1, (buildPen ti s T c).2, r0.prev, srcOf ti s c (s.T.take (m + 1)),
          r0.n + (buildPen ti s T c).1.length⟩ := by
      rw [List.range_succ, List.foldl_append, ← hr0]
      show penStep nul ti s r0 m = _
      unfold penStep
      rw [pen_cur m c _ r0 i1 i2]
      simp only [hnull, Bool.true_eq_false, if_false]
      rw [if_pos hv, ← hTd, hnew, hacc, if_pos (by omega)]
    rw [hst]
    refine ⟨i1, by rw [if_neg (by omega)]; exact hb.2.1, rfl, ?_, new ++ (buildPen ti s T c).1, ?_, ?_⟩
    · dsimp only
      rw [i6, buildPen_length h hTm, Nat.succ_mul]
    · dsimp only
      rw [i3, List.append_assoc]
    · rw [take_succ_getD _ _ (by omega), List.flatMap_append]
      refine List.rel_append i4 ?_
      simp only [List.flatMap_cons, List.flatMap_nil, List.append_nil]
      exact isKind_map hb.1

/-- Several variables, with null-space penalties. -/
theorem pens_multi {s : Sm} (h : SmOK s) (nul : Arr → ℕ → Trip) (hnul : ∀ A w, InRange w (nul A w)) (ti c : ℕ)
    (ps : List Pn) (hnull : s.null = true) (hv : 1 < s.nVars) (hlen : s.T.length = s.nVars) (hrp : s.rp1 = none) :
    let r := (List.range s.T.length).foldl (penStep nul ti s) ⟨ps, c, c, [], 0⟩
    r.cur = c + nCoef s ∧ ∃ new, r.ps = ps ++ new ∧
      List.Forall₂ (IsKind ti c (nCoef s)) new ((s.T.flatMap fun T => (penVals s c T).map fun v => (false, v))
        ++ (nullVals s c (nullPens nul s (srcOf ti s c s.T))).map fun v => (true, v)) := by
  intro r
  obtain ⟨m, hm⟩ : ∃ m, s.T.length = m + 1 := ⟨s.T.length - 1, by omega⟩
  obtain ⟨i1, i2, i5, i6, new, i3, i4⟩ := pens_multi_loop h nul ti c ps hnull hv m (by omega)
  set r0 := (List.range m).foldl (penStep nul ti s) ⟨ps, c, c, [], 0⟩ with hr0
  have hTm := getD_mem' s.T m (by omega)
  set T := s.T.getD m [] with hTd
  have hb := buildPen_spec h hTm ti c
  have hle := nSrc_le h hTm ti c
  have htk : s.T.take (m + 1) = s.T := by rw [← hm, List.take_length]
  have hnew : (if perLevel s then lastPens (s.levels.getD 1) (r0.ps ++ (buildPen ti s T c).1)
      else lastPens 1 (r0.ps ++ (buildPen ti s T c).1)) = lastPens (nSrc s) (buildPen ti s T c).1 := by
    rw [← lastPens_append r0.ps _ _ hle]
    unfold nSrc
    by_cases hpl : perLevel s = true
    · rw [if_pos hpl, if_pos hpl]
    · rw [if_neg hpl, if_neg hpl]
  have h0 : m ≠ 0 := by omega
  have hacc : addAcc r0.acc (lastPens (nSrc s) (buildPen ti s T c).1) = srcOf ti s c s.T := by
    rw [← htk, take_succ_getD _ _ (by omega), ← hTd, i5]
    obtain ⟨T0, L, hTL⟩ : ∃ T0 L, s.T.take m = T0 :: L := by
      cases hh : s.T.take m with
      | nil =>
        have := congrArg List.length hh
        rw [List.length_take, List.length_nil] at this
        omega
      | cons T0 L => exact ⟨T0, L, rfl⟩
    rw [hTL]
    simp [srcOf, List.foldl_append]
  have hn : (r0.n + (buildPen ti s T c).1.length) / s.nVars = if s.levels = none ∨ s.hasId = true then 1 else nLev s := by
    rw [i6, buildPen_length h hTm, ← Nat.succ_mul, Nat.succ_eq_add_one, ← hm, hlen]
    exact Nat.mul_div_cancel_left _ (by omega)
  set st1 : St := ⟨r0.ps ++ (buildPen ti s T c).1, (buildPen ti s T c).2, r0.prev, srcOf ti s c s.T,
    r0.n + (buildPen ti s T c).1.length⟩ with hst1
  have hst : r = addNull nul ti s (srcOf ti s c s.T) (if s.levels = none ∨ s.hasId = true then 1 else nLev s) st1 := by
    show (List.range s.T.length).foldl (penStep nul ti s) ⟨ps, c, c, [], 0⟩ = _
    rw [hm, List.range_succ, List.foldl_append, ← hr0]
    show penStep nul ti s r0 m = _
    unfold penStep
    rw [pen_cur m c _ r0 i1 i2]
    simp only [hnull, Bool.true_eq_false, if_false]
    rw [if_pos hv, ← hTd, hnew, if_neg h0, hacc, if_neg (by omega), hn]
  obtain ⟨new2, a1, a2, _, a4⟩ := addNull_spec h nul hnul (Or.inl hrp) ti c (srcOf ti s c s.T)
    (src_sizes (srcOf_ok h ti c) s.T h.ne fun _ hh => hh) st1 i1 hb.2.1 (buildPen_rep h hTm ti c _)
  rw [hst]
  refine ⟨a2, new ++ ((buildPen ti s T c).1 ++ new2), ?_, ?_⟩
  · rw [a1, hst1]
    dsimp only
    rw [i3]
    simp
  · have : (s.T.flatMap fun T => (penVals s c T).map fun v => (false, v))
        = ((s.T.take m).flatMap fun T => (penVals s c T).map fun v => (false, v)) ++ (penVals s c T).map fun v => (false, v) := by
      conv_lhs => rw [← htk, take_succ_getD _ _ (show m < s.T.length by omega), List.flatMap_append]
      simp [hTd]
    rw [this, List.append_assoc]
    exact List.rel_append i4 (List.rel_append (isKind_map hb.1) (isKind_map a4))

/-- All penalties of a smooth term. -/
theorem smooth_spec' {s : Sm} (h : SmOK s) (hN : NullOK s) (nul : Arr → ℕ → Trip) (hnul : ∀ A w, InRange w (nul A w))
    (ti c : ℕ) (ps : List Pn) : ∃ new,
      smoothStep nul (some (ps, c, c)) (ti, s) = some (ps ++ new, c + nCoef s, c + nCoef s) ∧
      List.Forall₂ (IsKind ti c (nCoef s)) new (smVals nul s c (srcOf ti s c)) := by
  have hl : 0 < s.T.length := List.length_pos_iff.2 h.ne
  have key : ∃ new, ((List.range s.T.length).foldl (penStep nul ti s) ⟨ps, c, c, [], 0⟩).ps = ps ++ new ∧
      ((List.range s.T.length).foldl (penStep nul ti s) ⟨ps, c, c, [], 0⟩).cur = c + nCoef s ∧
      List.Forall₂ (IsKind ti c (nCoef s)) new (smVals nul s c (srcOf ti s c)) := by
    unfold smVals
    by_cases hnull : s.null = false
    · rw [if_pos hnull]
      obtain ⟨_, h2, new, h3, h4⟩ := pens_plain h nul ti c ps hnull s.T.length le_rfl
      rw [if_neg (by omega)] at h2
      rw [List.take_length] at h4
      exact ⟨new, h3, h2, h4⟩
    · rw [if_neg hnull]
      have hnull : s.null = true := by simpa using hnull
      by_cases hv : s.nVars > 1
      · rw [if_pos hv]
        obtain ⟨h2, new, h3, h4⟩ := pens_multi h nul hnul ti c ps hnull hv (hN.multi hnull hv).1 (hN.multi hnull hv).2
        exact ⟨new, h3, h2, h4⟩
      · rw [if_neg hv]
        obtain ⟨_, h2, new, h3, h4⟩ := pens_uni h nul hnul ti c ps hnull (by omega) (hN.uni hnull (by omega)) s.T.length le_rfl
        rw [if_neg (by omega)] at h2
        rw [List.take_length] at h4
        exact ⟨new, h3, h2, h4⟩
  obtain ⟨new, h1, h2, h3⟩ := key
  refine ⟨new, ?_, h3⟩
  unfold smoothStep
  simp only [Option.bind_some, h.pen, if_true]
  rw [h1, h2]

/-! ### Impulse response terms -/

/-- A penalised impulse response term. -/
structure IrOK (s : Ir) : Prop where
  pen : s.penalized = true
  ne : s.T ≠ []
  rng : ∀ T ∈ s.T, InRange s.k T
  lev : ∀ n, s.levels = some n → 0 < n

/-- Penalties of an impulse response term: for each coordinate list one, summed over levels, or one for each level. -/
noncomputable def irVals (s : Ir) (c : ℕ) : List (Bool × ((ℕ → ℝ) → ℝ)) :=
  s.T.flatMap fun T => if s.levels = none ∨ s.hasId = true
    then [(false, fun β => ∑ l ∈ range (s.levels.getD 1), quad s.k (coo T) fun i => β (c + l * s.k + i))]
    else (List.range (s.levels.getD 1)).map fun l => (false, fun β => quad s.k (coo T) fun i => β (c + l * s.k + i))

theorem block_loop (ti k : ℕ) (T : Trip) (hT : InRange k T) (c W m : ℕ) (hm : k * (m + 1) ≤ W) :
    ∃ new, (List.range m).foldl (fun (q : List Pn × ℕ) _ =>
        (q.1 ++ [(⟨ti, false, q.2, (embedS T none k q.2).1, embedSj T none, k, 1⟩ : Pn)], (embedS T none k q.2).2))
      ([⟨ti, false, c, (embedS T none k c).1, embedSj T none, k, 1⟩], (embedS T none k c).2) = (new, c + k * (m + 1)) ∧
      List.Forall₂ (IsKind ti c W) new ((List.range (m + 1)).map fun l => (false, fun β => quad k (coo T) fun i => β (c + l * k + i))) := by
  induction m with
  | zero =>
    refine ⟨[⟨ti, false, c, (embedS T none k c).1, embedSj T none, k, 1⟩], ?_, List.Forall₂.cons ⟨rfl, rfl, ?_⟩ List.Forall₂.nil⟩
    · rw [List.range_zero, List.foldl_nil, Nat.zero_add, Nat.mul_one]
      rfl
    · refine ((reads_embed hT c k).congr fun β => ?_).mono le_rfl (by omega)
      dsimp only
      rw [quad_coo k T hT]
      simp
  | succ m ih =>
    have hm2 : k * (m + 1 + 1) = k * (m + 1) + k := by ring
    obtain ⟨new, he, hf⟩ := ih (by omega)
    rw [List.range_succ, List.foldl_append, he]
    refine ⟨new ++ [⟨ti, false, c + k * (m + 1), (embedS T none k (c + k * (m + 1))).1, embedSj T none, k, 1⟩], ?_, ?_⟩
    · simp only [List.foldl_cons, List.foldl_nil, Prod.mk.injEq, true_and]
      show c + k * (m + 1) + k = _
      omega
    · rw [List.range_succ (n := m + 1), List.map_append]
      refine List.rel_append hf (List.Forall₂.cons ⟨rfl, rfl, ?_⟩ List.Forall₂.nil)
      refine ((reads_embed hT (c + k * (m + 1)) k).congr fun β => ?_).mono (by omega) (by omega)
      dsimp only
      rw [quad_coo k T hT, Nat.mul_comm k]

theorem shared_loop (k : ℕ) (T : Trip) (hT : InRange k T) (c m : ℕ) :
    let r := (List.range m).foldl (fun (q : Arr × ℕ) _ => embedS T (some q.1) k q.2) (embedS T none k c)
    r.2 = c + k * (m + 1) ∧ Reads c (k * (m + 1)) r.1 fun β => ∑ l ∈ range (m + 1), quad k (coo T) fun i => β (c + l * k + i) := by
  induction m with
  | zero =>
    refine ⟨by rw [List.range_zero, List.foldl_nil, Nat.zero_add, Nat.mul_one]; rfl, ?_⟩
    rw [Nat.zero_add, Nat.mul_one]
    refine (reads_embed hT c k).congr fun β => ?_
    rw [Finset.sum_range_one, quad_coo k T hT]
    simp
  | succ m ih =>
    have hm2 : k * (m + 1 + 1) = k * (m + 1) + k := by ring
    obtain ⟨h1, h2⟩ := ih
    simp only [List.range_succ, List.foldl_append, List.foldl_cons, List.foldl_nil] at h1 h2 ⊢
    refine ⟨?_, ?_⟩
    · show _ + k = _
      rw [h1]
      omega
    · have := reads_embed_some hT (c + k * (m + 1)) k c _ _ _ h2 (by omega)
      rw [show max (k * (m + 1)) (c + k * (m + 1) + k - c) = k * (m + 1 + 1) by omega] at this
      rw [h1]
      refine this.congr fun β => ?_
      rw [Finset.sum_range_succ _ (m + 1), quad_coo k T hT, Nat.mul_comm k]

theorem buildIr_spec {s : Ir} (h : IrOK s) {T : Trip} (hT : T ∈ s.T) (ti c : ℕ) :
    (buildIr ti s T c).2 = c + irCoef s ∧ List.Forall₂ (IsKind ti c (irCoef s)) (buildIr ti s T c).1
      (if s.levels = none ∨ s.hasId = true
        then [(false, fun β => ∑ l ∈ range (s.levels.getD 1), quad s.k (coo T) fun i => β (c + l * s.k + i))]
        else (List.range (s.levels.getD 1)).map fun l => (false, fun β => quad s.k (coo T) fun i => β (c + l * s.k + i))) := by
  have hr := h.rng T hT
  unfold irCoef
  cases hl : s.levels with
  | none =>
    have hb : buildIr ti s T c = ([⟨ti, false, c, (embedS T none s.k c).1, embedSj T none, s.k, 1⟩], (embedS T none s.k c).2) := by
      unfold buildIr
      rw [hl]
    rw [hb]
    simp only [Option.getD_none, Nat.mul_one, true_or, if_true, Finset.sum_range_one]
    refine ⟨rfl, List.Forall₂.cons ⟨rfl, rfl, ?_⟩ List.Forall₂.nil⟩
    refine (reads_embed hr c s.k).congr fun β => ?_
    dsimp only
    rw [quad_coo s.k T hr]
    simp
  | some n =>
    have hn := h.lev n hl
    obtain ⟨q, rfl⟩ : ∃ q, n = q + 1 := ⟨n - 1, by omega⟩
    simp only [Option.getD_some, reduceCtorEq, false_or]
    cases hid : s.hasId with
    | true =>
      obtain ⟨h1, h2⟩ := shared_loop s.k T hr c q
      have hb : buildIr ti s T c = ([⟨ti, false, c, ((List.range q).foldl (fun (q : Arr × ℕ) _ => embedS T (some q.1) s.k q.2)
          (embedS T none s.k c)).1, embedSj T none, s.k, q + 1⟩], ((List.range q).foldl (fun (q : Arr × ℕ) _ => embedS T (some q.1) s.k q.2)
          (embedS T none s.k c)).2) := by
        unfold buildIr
        rw [hl]
        simp only [hid, if_true, Nat.add_sub_cancel]
      rw [hb, if_pos rfl]
      exact ⟨h1, List.Forall₂.cons ⟨rfl, rfl, h2⟩ List.Forall₂.nil⟩
    | false =>
      obtain ⟨new, h1, h2⟩ := block_loop ti s.k T hr c (s.k * (q + 1)) q le_rfl
      have hb : buildIr ti s T c = (new, c + s.k * (q + 1)) := by
        unfold buildIr
        rw [hl]
        simp only [hid, Bool.false_eq_true, if_false, Nat.add_sub_cancel]
        exact h1
      rw [hb, if_neg (by simp)]
      exact ⟨rfl, h2⟩

theorem ir_loop {s : Ir} (h : IrOK s) (ti c : ℕ) (ps : List Pn) (m : ℕ) (hm : m ≤ s.T.length) :
    ∃ new, (List.range m).foldl (irPenStep ti s) (ps, c, c) = (ps ++ new, if m = 0 then c else c + irCoef s, c) ∧
      List.Forall₂ (IsKind ti c (irCoef s)) new ((s.T.take m).flatMap fun T => if s.levels = none ∨ s.hasId = true
        then [(false, fun β => ∑ l ∈ range (s.levels.getD 1), quad s.k (coo T) fun i => β (c + l * s.k + i))]
        else (List.range (s.levels.getD 1)).map fun l => (false, fun β => quad s.k (coo T) fun i => β (c + l * s.k + i))) := by
  induction m with
  | zero => exact ⟨[], by simp, by simp⟩
  | succ m ih =>
    obtain ⟨new, h1, h2⟩ := ih (by omega)
    have hb := buildIr_spec h (getD_mem' s.T m (by omega)) ti c
    have hc : (if m > 0 then c else if m = 0 then c else c + irCoef s) = c := by
      by_cases h0 : m > 0
      · rw [if_pos h0]
      · rw [if_neg h0, if_pos (by omega)]
    refine ⟨new ++ (buildIr ti s (s.T.getD m []) c).1, ?_, ?_⟩
    · rw [List.range_succ, List.foldl_append, h1]
      show irPenStep ti s _ m = _
      unfold irPenStep
      dsimp only
      rw [hc, hb.1, List.append_assoc, if_neg (Nat.succ_ne_zero m)]
    · rw [take_succ_getD _ _ (by omega), List.flatMap_append]
      refine List.rel_append h2 ?_
      simp only [List.flatMap_cons, List.flatMap_nil, List.append_nil]
      exact hb.2

/-- All penalties of an impulse response term. -/
theorem ir_spec {s : Ir} (h : IrOK s) (ti c st : ℕ) (ps : List Pn) :
    ∃ new, irStep (some (ps, c, c, st)) (ti, s) = some (ps ++ new, c + irCoef s, c + irCoef s, st) ∧
      List.Forall₂ (IsKind ti c (irCoef s)) new (irVals s c) := by
  obtain ⟨new, h1, h2⟩ := ir_loop h ti c ps s.T.length le_rfl
  have hl : 0 < s.T.length := List.length_pos_iff.2 h.ne
  rw [if_neg (by omega)] at h1
  rw [List.take_length] at h2
  refine ⟨new, ?_, h2⟩
  unfold irStep
  simp only [Option.bind_some, h.pen, if_true, h1]

/-! ### Random terms -/

/-- Penalties of a random term: sum of squares of the coefficients of each block. -/
noncomputable def rdVals (s : Rd) (c : ℕ) : List (Bool × ((ℕ → ℝ) → ℝ)) :=
  (List.range s.n).map fun l => (false, fun β => ∑ i ∈ range s.k, β (c + l * s.k + i) ^ 2)

theorem eyeT_range (k : ℕ) : InRange k (eyeT k) := by
  intro t ht
  obtain ⟨i, hi, rfl⟩ := List.mem_map.1 ht
  have := List.mem_range.1 hi
  exact ⟨this, this⟩

theorem qT_eye (k : ℕ) (β : ℕ → ℝ) : qT (eyeT k) β = ∑ i ∈ range k, β i ^ 2 := by
  unfold qT eyeT
  induction k with
  | zero => simp
  | succ k ih =>
    rw [List.range_succ, List.map_append, List.map_append, List.sum_append, ih, Finset.sum_range_succ]
    simp [sq]

theorem rd_loop (ti k c m : ℕ) (W : ℕ) (ps : List Pn) (hW : m * k ≤ W) :
    ∃ new, (List.range m).foldl (fun (q : List Pn × ℕ) _ =>
        (q.1 ++ [(⟨ti, false, q.2, (embedS (eyeT k) none k q.2).1, embedSj (eyeT k) none, k, 1⟩ : Pn)],
          (embedS (eyeT k) none k q.2).2)) (ps, c) = (ps ++ new, c + m * k) ∧
      List.Forall₂ (IsKind ti c W) new ((List.range m).map fun l => (false, fun β => ∑ i ∈ range k, β (c + l * k + i) ^ 2)) := by
  induction m with
  | zero => exact ⟨[], by simp, by simp⟩
  | succ m ih =>
    have hm : (m + 1) * k = m * k + k := by ring
    obtain ⟨new, h1, h2⟩ := ih (by omega)
    refine ⟨new ++ [⟨ti, false, c + m * k, (embedS (eyeT k) none k (c + m * k)).1, embedSj (eyeT k) none, k, 1⟩], ?_, ?_⟩
    · rw [List.range_succ, List.foldl_append, h1]
      simp only [List.foldl_cons, List.foldl_nil, List.append_assoc, Prod.mk.injEq, true_and]
      show c + m * k + k = _
      omega
    · rw [List.range_succ (n := m), List.map_append]
      refine List.rel_append h2 (List.Forall₂.cons ⟨rfl, rfl, ?_⟩ List.Forall₂.nil)
      refine ((reads_embed (eyeT_range k) (c + m * k) k).congr fun β => ?_).mono (by omega) (by omega)
      exact qT_eye k _

theorem rd_spec (s : Rd) (ti c : ℕ) (ps : List Pn) :
    ∃ new, randStep (ps, c) (ti, s) = (ps ++ new, c + s.k * s.n) ∧
      List.Forall₂ (IsKind ti c (s.k * s.n)) new (rdVals s c) := by
  obtain ⟨new, h1, h2⟩ := rd_loop ti s.k c s.n (s.k * s.n) ps (by rw [Nat.mul_comm])
  rw [Nat.mul_comm s.n] at h1
  exact ⟨new, h1, h2⟩

end Verif.Layout
