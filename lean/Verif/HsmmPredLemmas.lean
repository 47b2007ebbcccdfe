import Verif.HsmmPredModel
import Verif.Sample
import Mathlib.Probability.ProductMeasure
import Mathlib.MeasureTheory.Measure.Lebesgue.Basic

/-! Lemmas for `Verif.HsmmPred`. -/

namespace Verif.HPred

open Verif.Hsmm Finset MeasureTheory

/-! ## Drawing a position -/

theorem pick_le (n : ℕ) (w : ℕ → ℝ) (x : ℝ) : pick n w x ≤ n := by
  unfold pick
  exact (card_filter_le _ _).trans (by simp)

theorem pick_eq (n : ℕ) (w : ℕ → ℝ) (h0 : ∀ k, 0 ≤ w k) (h1 : ∑ i ∈ range n, w i = 1) (x : ℝ) (hx : x ∈ Set.Ico (0 : ℝ) 1)
    (i : ℕ) (hi : i < n) : pick n w x = i ↔ x ∈ Set.Ico (∑ k ∈ range i, w k) (∑ k ∈ range (i + 1), w k) := by
  have mono : Monotone fun i => ∑ k ∈ range i, w k := by
    apply monotone_nat_of_le_succ
    intro k
    rw [sum_range_succ]
    linarith [h0 k]
  have key : ∀ j, j < n → (∑ k ∈ range j, w k ≤ x) → (x < ∑ k ∈ range (j + 1), w k) → pick n w x = j := by
    intro j hj ha hb
    have : ((range n).filter fun k => (∑ i ∈ range (k + 1), w i) / (∑ i ∈ range n, w i) ≤ x) = range j := by
      ext k
      rw [mem_filter, mem_range, mem_range, h1, div_one]
      constructor
      · rintro ⟨_, hk⟩
        by_contra hc
        have := mono (show j + 1 ≤ k + 1 by omega)
        simp only at this
        linarith
      · intro hk
        have := mono (show k + 1 ≤ j by omega)
        simp only at this
        exact ⟨by omega, by linarith⟩
    unfold pick
    rw [this, card_range]
  constructor
  · intro h
    -- the interval that contains x
    have hex : ∃ j, x < ∑ k ∈ range (j + 1), w k := ⟨n - 1, by
      rw [show n - 1 + 1 = n by omega, h1]; exact hx.2⟩
    classical
    have hj := Nat.find_spec hex
    have hmin := fun k (hk : k < Nat.find hex) => Nat.find_min hex hk
    have hjn : Nat.find hex < n := lt_of_le_of_lt (Nat.find_min' hex (m := n - 1) (by
      rw [show n - 1 + 1 = n by omega, h1]; exact hx.2)) (by omega)
    have hlow : ∑ k ∈ range (Nat.find hex), w k ≤ x := by
      rcases Nat.eq_zero_or_pos (Nat.find hex) with h00 | hp
      · rw [h00]; simpa using hx.1
      · have := hmin (Nat.find hex - 1) (by omega)
        rw [show Nat.find hex - 1 + 1 = Nat.find hex by omega] at this
        exact not_lt.1 this
    have := key _ hjn hlow hj
    rw [h] at this
    rw [this]
    exact ⟨hlow, hj⟩
  · intro h
    exact key i hi h.1 h.2

theorem pick_lt (n : ℕ) (w : ℕ → ℝ) (h0 : ∀ k, 0 ≤ w k) (h1 : ∑ i ∈ range n, w i = 1) (x : ℝ) (hx : x ∈ Set.Ico (0 : ℝ) 1) :
    pick n w x < n := by
  have hn : 0 < n := by
    rcases Nat.eq_zero_or_pos n with rfl | h
    · simp at h1
    · exact h
  unfold pick
  have : ((range n).filter fun k => (∑ i ∈ range (k + 1), w i) / (∑ i ∈ range n, w i) ≤ x) ⊆ range (n - 1) := by
    intro k hk
    rw [mem_filter, mem_range, h1, div_one] at hk
    rw [mem_range]
    by_contra hc
    rw [show k + 1 = n by omega, h1] at hk
    linarith [hx.2]
  have := card_le_card this
  rw [card_range] at this
  omega

theorem pick_pos (n : ℕ) (w : ℕ → ℝ) (h0 : ∀ k, 0 ≤ w k) (h1 : ∑ i ∈ range n, w i = 1) (x : ℝ) (hx : x ∈ Set.Ico (0 : ℝ) 1) :
    0 < w (pick n w x) := by
  have h := (pick_eq n w h0 h1 x hx _ (pick_lt n w h0 h1 x hx)).1 rfl
  rw [Set.mem_Ico, sum_range_succ] at h
  linarith [h.1, h.2]

theorem pick_shift (n : ℕ) (w v : ℕ → ℝ) (hv0 : v 0 = 0) (hv : ∀ k, v (k + 1) = w k) (x : ℝ) (hx : 0 ≤ x) :
    pick (n + 1) v x = pick n w x + 1 := by
  have hs : ∀ k, ∑ i ∈ range (k + 1), v i = ∑ i ∈ range k, w i := by
    intro k
    rw [sum_range_succ' v, hv0, add_zero]
    exact sum_congr rfl fun i _ => hv i
  have : ((range (n + 1)).filter fun k => (∑ i ∈ range (k + 1), v i) / (∑ i ∈ range (n + 1), v i) ≤ x) =
      insert 0 (((range n).filter fun k => (∑ i ∈ range (k + 1), w i) / (∑ i ∈ range n, w i) ≤ x).map ⟨Nat.succ, Nat.succ_injective⟩) := by
    ext k
    simp only [mem_filter, mem_range, mem_insert, mem_map, Function.Embedding.coeFn_mk, hs]
    cases k with
    | zero => simpa using hx
    | succ k => simp
  unfold pick
  rw [this, card_insert_of_notMem (by simp), card_map]

/-! ## The loop draws the segments of the later model -/

theorem later_ds (m : Tables ℝ) (d c t : ℕ) : (later m).ds (d + 1) c t = m.ds d c t := by
  simp [later, Tables.ds]

theorem later_ds_zero (m : Tables ℝ) (c t : ℕ) : (later m).ds 0 c t = 0 := by
  simp [later, Tables.ds]

theorem later_dcol (m : Tables ℝ) (j : ℕ) : (later m).dcol j = m.dcol j := rfl

theorem later_T (m : Tables ℝ) (i j t : ℕ) : (later m).T i j t = m.T i j (t + 1) := by
  rfl

theorem later_pick (m : Tables ℝ) (hD : 0 < m.D) (c t : ℕ) (x : ℝ) (hx : 0 ≤ x) :
    pick ((later m).D - 1) (fun d => (later m).ds d c t) x = pick (m.D - 1) (fun d => m.ds d c t) x + 1 := by
  have : (later m).D - 1 = (m.D - 1) + 1 := by simp only [later]; omega
  rw [this]
  exact pick_shift _ _ _ (later_ds_zero m c t) (fun k => later_ds m k c t) x hx

theorem extend_head (m : Tables ℝ) (u : ℕ → ℝ) (pos : ℕ) (n : ℕ) (s : Seg) (r : List Seg) (t : ℕ) (h1 : s.start ≤ t)
    (h2 : t ≤ s.start + s.dur) : now (extend m u pos n (s :: r)) t = (s.state, max 0 ((s.start + s.dur : ℤ) - t)) := by
  suffices ∀ n (q : List Seg) (a : Seg), t < a.start → now (a :: q) t = (s.state, max 0 ((s.start + s.dur : ℤ) - t)) →
      now (extend m u pos n (a :: q)) t = (s.state, max 0 ((s.start + s.dur : ℤ) - t)) by
    cases n with
    | zero => exact if_pos h1
    | succ n =>
      rw [extend]
      by_cases hd : Done m s
      · rw [if_pos hd]; exact if_pos h1
      · rw [if_neg hd]
        apply this
        · simp only [nextSeg]; omega
        · rw [now, if_neg (by simp only [nextSeg]; omega), now, if_pos h1]
  intro n
  induction n with
  | zero => intro q a _ h; exact h
  | succ n ih =>
    intro q a ha h
    rw [extend]
    by_cases hd : Done m a
    · rw [if_pos hd]; exact h
    · rw [if_neg hd]
      apply ih
      · simp only [nextSeg]; omega
      · rw [now, if_neg (by simp only [nextSeg]; omega)]; exact h

/-- Loop invariant: how the variables at time `t` relate to the current segment. -/
def Inv (m : Tables ℝ) (pos0 : ℕ) (t : ℕ) (x : St) (s : Seg) (r : List Seg) : Prop :=
  x.state = s.state ∧ s.start ≤ t ∧ x.pos = pos0 + 2 * (r.length + 1) ∧
    ((x.dur = (s.start + s.dur : ℤ) - t ∧ t ≤ s.start + s.dur + 1) ∨
      ((m.hmp = true ∧ s.state = m.n_S - 1) ∧ x.dur = -1 ∧ s.start + s.dur < t))

theorem range_map_succ {α : Type} (n : ℕ) (f : ℕ → α) :
    (List.range (n + 1)).map f = f 0 :: (List.range n).map fun i => f (i + 1) := by
  rw [List.range_succ_eq_map, List.map_cons, List.map_map]
  rfl

theorem walk_states (m : Tables ℝ) (u : ℕ → ℝ) (hu : ∀ k, 0 ≤ u k) (hD : 0 < m.D) (pos : ℕ) (n : ℕ) :
    ∀ (t : ℕ) (x : St) (s : Seg) (r : List Seg) (fuel : ℕ), t + n = m.n_T → n ≤ fuel → Inv m pos t x s r →
      (walk m u n t x).1 = (List.range n).map fun i => now (extend (later m) u pos fuel (s :: r)) (t + i) := by
  induction n with
  | zero => intro t x s r fuel _ _ _; rfl
  | succ n ih =>
    intro t x s r fuel ht hf hI
    obtain ⟨hst, hle, hpos, hdur⟩ := hI
    rw [walk, range_map_succ]
    simp only
    rw [show (fun i => now (extend (later m) u pos fuel (s :: r)) (t + (i + 1))) =
      fun i => now (extend (later m) u pos fuel (s :: r)) (t + 1 + i) from by
        funext i; rw [show t + (i + 1) = t + 1 + i by omega]]
    by_cases hneg : x.dur < 0
    · by_cases hl : m.hmp = true ∧ x.state = m.n_S - 1
      · -- the last state of an event model goes on
        have htop : top m u t x = { x with dur := x.dur + 1 } := by rw [top, if_pos hneg, if_pos hl]
        have hlast : m.hmp = true ∧ s.state = m.n_S - 1 := ⟨hl.1, hst ▸ hl.2⟩
        have hd : x.dur = -1 ∧ s.start + s.dur < t := by
          rcases hdur with ⟨h1, h2⟩ | ⟨_, h1, h2⟩
          · constructor <;> omega
          · exact ⟨h1, h2⟩
        have hext : extend (later m) u pos fuel (s :: r) = s :: r := by
          cases fuel with
          | zero => rfl
          | succ k => rw [extend, if_pos (show Done (later m) s from Or.inr hlast)]
        rw [htop]
        congr 1
        · rw [hext, add_zero, now, if_pos hle, ← hst]
          simp only [Prod.mk.injEq, true_and]
          omega
        · exact ih (t + 1) _ s r fuel (by omega) (by omega)
            ⟨hst, by omega, hpos, Or.inr ⟨hlast, by simp only; omega, by omega⟩⟩
      · -- a new segment is drawn
        have hnl : ¬ (m.hmp = true ∧ s.state = m.n_S - 1) := by rw [← hst]; exact hl
        obtain ⟨h1, h2⟩ : x.dur = (s.start + s.dur : ℤ) - t ∧ t ≤ s.start + s.dur + 1 := by
          rcases hdur with h | ⟨h, _⟩
          · exact h
          · exact absurd h hnl
        have hte : t = s.start + s.dur + 1 := by omega
        obtain ⟨fuel', rfl⟩ : ∃ k, fuel = k + 1 := ⟨fuel - 1, by omega⟩
        have hnd : ¬ Done (later m) s := by
          rintro (h | h)
          · have : (later m).n_T = m.n_T := rfl
            omega
          · exact hnl h
        have hext : extend (later m) u pos (fuel' + 1) (s :: r) =
            extend (later m) u pos fuel' (nextSeg (later m) u (pos + 2 * (r.length + 1)) s :: s :: r) := by
          rw [extend, if_neg hnd]
        obtain ⟨q, hq⟩ : ∃ q, q = nextSeg (later m) u (pos + 2 * (r.length + 1)) s := ⟨_, rfl⟩
        have hqstart : q.start = t := by rw [hq, nextSeg]; simp only; omega
        have hqstate : q.state = pick m.n_S (fun j => m.T x.state j t) (u x.pos) := by
          rw [hq, nextSeg]
          simp only [later_T]
          rw [show s.start + s.dur + 1 - 1 + 1 = t by omega, hst, hpos]
          rfl
        have hqdur : q.dur = pick (m.D - 1) (fun d => m.ds d (m.dcol q.state) t) (u (x.pos + 1)) + 1 := by
          have e1 : q.dur = pick ((later m).D - 1) (fun d => (later m).ds d ((later m).dcol q.state) (s.start + s.dur + 1))
              (u (pos + 2 * (r.length + 1) + 1)) := by rw [hq]; rfl
          rw [e1, later_pick m hD _ _ _ (hu _), later_dcol, ← hte, hpos]
        have htop : top m u t x = ⟨x.pos + 2, q.state, (q.dur : ℤ)⟩ := by
          rw [top, if_pos hneg, if_neg hl]
          simp only
          rw [← hqstate, hqdur]
          push_cast
          rfl
        rw [htop, hext, ← hq]
        congr 1
        · rw [add_zero, extend_head (later m) u pos fuel' q (s :: r) t (by omega) (by omega)]
          simp only [Prod.mk.injEq, true_and]
          omega
        · exact ih (t + 1) _ q (s :: r) fuel' (by omega) (by omega)
            ⟨rfl, by omega, by simp only [List.length_cons]; omega, Or.inl ⟨by simp only; push_cast; omega, by omega⟩⟩
    · -- the state goes on
      have htop : top m u t x = x := by rw [top, if_neg hneg]
      obtain ⟨h1, h2⟩ : x.dur = (s.start + s.dur : ℤ) - t ∧ t ≤ s.start + s.dur + 1 := by
        rcases hdur with h | ⟨_, h, _⟩
        · exact h
        · omega
      rw [htop]
      congr 1
      · rw [add_zero, extend_head (later m) u pos fuel s r t hle (by omega), ← hst]
        simp only [Prod.mk.injEq, true_and]
        omega
      · exact ih (t + 1) _ s r fuel (by omega) (by omega)
          ⟨hst, by omega, hpos, Or.inl ⟨by simp only; push_cast; omega, by omega⟩⟩

theorem inv_initial (m : Tables ℝ) (u : ℕ → ℝ) (hu : ∀ k, 0 ≤ u k) (hD : 0 < m.D) (pos : ℕ) :
    Inv m pos 0 (initial m u pos) (initSeg (later m) u pos) [] := by
  refine ⟨rfl, le_refl _, rfl, Or.inl ⟨?_, by omega⟩⟩
  have : (initSeg (later m) u pos).dur =
      pick (m.D - 1) (fun d => m.ds d (pick m.n_S m.pi (u pos)) 0) (u (pos + 1)) + 1 :=
    later_pick m hD _ _ _ (hu _)
  rw [this]
  simp only [initial, initSeg]
  push_cast
  ring

theorem sample_eq (m : Tables ℝ) (u : ℕ → ℝ) (hu : ∀ k, 0 ≤ u k) (hD : 0 < m.D) (pos : ℕ) :
    (sample m u pos).1 = (List.range m.n_T).map (now (segs (later m) u pos)) := by
  unfold sample
  rw [walk_states m u hu hD pos m.n_T 0 _ _ [] m.n_T (by omega) (le_refl _) (inv_initial m u hu hD pos)]
  simp only [zero_add]
  rfl

theorem now_fst (l : List Seg) (t : ℕ) : (now l t).1 = stateAt l t := by
  induction l with
  | nil => rfl
  | cons s r ih =>
    rw [now, stateAt]
    by_cases h : s.start ≤ t
    · rw [if_pos h, if_pos h]
    · rw [if_neg h, if_neg h, ih]

theorem states_eq (m : Tables ℝ) (u : ℕ → ℝ) (hu : ∀ k, 0 ≤ u k) (hD : 0 < m.D) (pos : ℕ) :
    states m u pos = (List.range m.n_T).map (stateAt (segs (later m) u pos)) := by
  unfold states
  rw [sample_eq m u hu hD, List.map_map]
  exact List.map_congr_left fun t _ => now_fst _ t

theorem pick_only (n : ℕ) (w : ℕ → ℝ) (i : ℕ) (hi : i < n) (h1 : w i = 1) (h0 : ∀ k, k ≠ i → w k = 0) (x : ℝ)
    (hx : x ∈ Set.Ico (0 : ℝ) 1) : pick n w x = i := by
  have hs : ∑ k ∈ range n, w k = 1 := by
    rw [sum_eq_single i (fun k _ hk => h0 k hk) (fun h => absurd (mem_range.2 hi) h), h1]
  have hp := pick_pos n w (fun k => by by_cases h : k = i; · rw [h, h1]; norm_num
                                       · rw [h0 k h]) hs x hx
  by_contra hne
  rw [h0 _ hne] at hp
  exact lt_irrefl _ hp

end Verif.HPred
